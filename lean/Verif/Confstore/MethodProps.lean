import Verif.Confstore.Methods

/-
The store at the level of instructions does what the steps of Conc.lean do: every result of a critical section is the one in a
state that the steps reach.
-/

namespace Gears.Confstore

open Atomic (Event Action Linear Orderly effects refAll)

variable {V : Type}

/-! ### From histories to sequences of sections -/

/-- In a sequence of sections writes follow their lookups; `S` are the lookups so far. -/
def Dis (S : String → String → Proc V → Prop) (s : State V) : List (Nat × Sec V × List Int) → Prop
  | [] => True
  | (_, c, rs) :: L => (∀ k v p, c = .write k v p → k ≠ "" ∧ p.validate v = none ∧ S k v p) ∧
    ∀ s1 r, ref c rs s = some (s1, r) → Dis (fun k v p => S k v p ∨ (c = .lookup k v ∧ r = .proc (some p))) s1 L

theorem Dis.mono : ∀ (L : List (Nat × Sec V × List Int)) {S T : String → String → Proc V → Prop} {s : State V},
    (∀ k v p, S k v p → T k v p) → Dis S s L → Dis T s L
  | [], _, _, _, _, _ => trivial
  | (_, _, _) :: L, _, _, _, h, ⟨h1, h2⟩ =>
    ⟨fun k v p e => ⟨(h1 k v p e).1, (h1 k v p e).2.1, h _ _ _ (h1 k v p e).2.2⟩,
      fun s1 r hr => (h2 s1 r hr).mono L (fun k v p hk => hk.imp (h k v p) id)⟩

theorem refAll_append : ∀ (A B : List (Nat × Sec V × List Int)) {s s2 : State V} {R : List (Nat × SRet V)},
    refAll ref s (A ++ B) = some (s2, R) → ∃ s1 R1 R2, refAll ref s A = some (s1, R1) ∧ refAll ref s1 B = some (s2, R2) ∧ R = R1 ++ R2
  | [], B, s, s2, R, h => ⟨s, [], R, rfl, h, rfl⟩
  | (n, c, rs) :: A, B, s, s2, R, h => by
    simp only [List.cons_append, refAll] at h
    cases h1 : ref c rs s with
    | none => simp [h1] at h
    | some x =>
      obtain ⟨s1, r⟩ := x
      simp only [h1] at h
      cases h2 : refAll ref s1 (A ++ B) with
      | none => simp [h2] at h
      | some y =>
        obtain ⟨s3, R3⟩ := y
        simp only [h2, Option.some.injEq, Prod.mk.injEq] at h
        obtain ⟨rfl, rfl⟩ := h
        obtain ⟨sa, Ra, Rb, ha, hb, rfl⟩ := refAll_append A B h2
        exact ⟨sa, (n, r) :: Ra, Rb, by simp [refAll, h1, ha], hb, rfl⟩

theorem refAll_snoc {A : List (Nat × Sec V × List Int)} {n : Nat} {c : Sec V} {rs : List Int} :
    ∀ {s sA s1 : State V} {RA : List (Nat × SRet V)} {r : SRet V}, refAll ref s A = some (sA, RA) → ref c rs sA = some (s1, r) →
    refAll ref s (A ++ [(n, c, rs)]) = some (s1, RA ++ [(n, r)]) := by
  induction A with
  | nil =>
    intro s sA s1 RA r h h1
    simp only [refAll, Option.some.injEq, Prod.mk.injEq] at h
    obtain ⟨rfl, rfl⟩ := h
    simp [refAll, h1]
  | cons x A ih =>
    obtain ⟨n', c', rs'⟩ := x
    intro s sA s1 RA r h h1
    simp only [refAll, List.cons_append] at h ⊢
    cases h2 : ref c' rs' s with
    | none => simp [h2] at h
    | some y =>
      simp only [h2] at h ⊢
      cases h3 : refAll ref y.1 A with
      | none => simp [h3] at h
      | some z =>
        obtain ⟨sz, Rz⟩ := z
        simp only [h3, Option.some.injEq, Prod.mk.injEq] at h
        obtain ⟨rfl, rfl⟩ := h
        rw [ih h3 h1]
        rfl

theorem nodup_fst {α : Type} : ∀ {R : List (Nat × α)} {n : Nat} {x y : α}, (R.map (·.1)).Nodup → (n, x) ∈ R → (n, y) ∈ R → x = y
  | [], _, _, _, _, h, _ => by simp at h
  | (m, z) :: R, n, x, y, hnd, hx, hy => by
    simp only [List.map_cons, List.nodup_cons, List.mem_map, not_exists, not_and] at hnd
    simp only [List.mem_cons, Prod.mk.injEq] at hx hy
    rcases hx with ⟨rfl, rfl⟩ | hx
    · rcases hy with ⟨-, rfl⟩ | hy
      · rfl
      · exact absurd rfl (hnd.1 _ hy)
    · rcases hy with ⟨rfl, rfl⟩ | hy
      · exact absurd rfl (hnd.1 _ hx)
      · exact nodup_fst hnd.2 hx hy

/-- A list of effects comes from a prefix of the history. -/
theorem effects_split : ∀ {h : List (Event (SRet V) (Sec V))} {A B : List (Nat × Sec V × List Int)} {n : Nat} {c : Sec V} {rs : List Int},
    effects h = A ++ (n, c, rs) :: B → ∃ pre t post, h = pre ++ .eff n c rs t :: post ∧ effects pre = A
  | [], A, B, n, c, rs, h => by simp [effects] at h
  | .inv _ _ _ :: h, A, B, n, c, rs, he => by
    obtain ⟨pre, t, post, rfl, h2⟩ := effects_split (h := h) (by simpa [effects] using he)
    exact ⟨_ :: pre, t, post, rfl, by simpa [effects] using h2⟩
  | .res _ _ _ :: h, A, B, n, c, rs, he => by
    obtain ⟨pre, t, post, rfl, h2⟩ := effects_split (h := h) (by simpa [effects] using he)
    exact ⟨_ :: pre, t, post, rfl, by simpa [effects] using h2⟩
  | .eff n' c' rs' t' :: h, A, B, n, c, rs, he => by
    simp only [effects] at he
    cases A with
    | nil =>
      simp only [List.nil_append, List.cons.injEq, Prod.mk.injEq] at he
      obtain ⟨⟨rfl, rfl, rfl⟩, -⟩ := he
      exact ⟨[], t', h, rfl, rfl⟩
    | cons x A =>
      simp only [List.cons_append, List.cons.injEq] at he
      obtain ⟨pre, t, post, rfl, h2⟩ := effects_split he.2
      exact ⟨_ :: pre, t, post, rfl, by simp [effects, h2, he.1]⟩

theorem inv_unique {h : List (Event (SRet V) (Sec V))} (ho : Orderly h) {n : Nat} {c c' : Sec V} {t t' : Int}
    (h1 : Event.inv n c t ∈ h) (h2 : Event.inv n c' t' ∈ h) : c = c' := by
  obtain ⟨pre, post, rfl⟩ := List.append_of_mem h1
  have ha := (ho pre _ post rfl).1
  simp only [List.mem_append, List.mem_cons, Event.inv.injEq] at h2
  rcases h2 with h2 | ⟨-, rfl, -⟩ | h2
  · exact absurd rfl (ha _ h2)
  · rfl
  · obtain ⟨p2, q2, rfl⟩ := List.append_of_mem h2
    have hb := (ho (pre ++ .inv n c t :: p2) (.inv n c' t') q2 (by simp)).1
    exact absurd rfl (hb (.inv n c t) (by simp))

/-- Writes in the order of effects. -/
theorem disc_effects {h : List (Event (SRet V) (Sec V))} (ho : Orderly h) (hd : Disc h) {A B : List (Nat × Sec V × List Int)} {n : Nat}
    {k v : String} {p : Proc V} {rs : List Int} (he : effects h = A ++ (n, .write k v p, rs) :: B) :
    k ≠ "" ∧ p.validate v = none ∧ ∃ m rs' t, (m, .lookup k v, rs') ∈ A ∧ Event.res m (.proc (some p)) t ∈ h := by
  obtain ⟨pre, t, post, rfl, rfl⟩ := effects_split he
  obtain ⟨⟨t0, h1, -⟩, -⟩ := (ho pre _ post rfl).1
  obtain ⟨a, b, rfl⟩ := List.append_of_mem h1
  obtain ⟨hk, hv, m, ⟨t1, h2⟩, t2, h3⟩ := hd a n k v p t0 (b ++ .eff n (.write k v p) rs t :: post) (by simp)
  refine ⟨hk, hv, m, ?_⟩
  obtain ⟨a1, a2, rfl⟩ := List.append_of_mem h3
  obtain ⟨⟨c', rs', t3, h4⟩, -⟩ := (ho a1 (.res m (.proc (some p)) t2) (a2 ++ .inv n (.write k v p) t0 :: b ++ .eff n (.write k v p) rs t :: post) (by simp)).1
  obtain ⟨b1, b2, rfl⟩ := List.append_of_mem h4
  obtain ⟨⟨t4, h5, -⟩, -⟩ := (ho b1 (.eff m c' rs' t3) (b2 ++ .res m (.proc (some p)) t2 :: a2 ++ .inv n (.write k v p) t0 :: b ++ .eff n (.write k v p) rs t :: post)
    (by simp)).1
  have hc : c' = .lookup k v := inv_unique ho (n := m) (t := t4) (t' := t1)
    (by simp [h5]) (List.mem_append_left _ (List.mem_append_left _ h2))
  subst hc
  exact ⟨rs', t2, Atomic.mem_effects (t := t3) (by simp), by simp⟩

theorem dis_of_disc {h : List (Event (SRet V) (Sec V))} (ho : Orderly h) (hd : Disc h) {s0 st : State V} {R : List (Nat × SRet V)}
    (hr : refAll ref s0 (effects h) = some (st, R)) (hR : ∀ n r t, Event.res n r t ∈ h → (n, r) ∈ R) :
    ∀ (B A : List (Nat × Sec V × List Int)) (sA : State V) (RA : List (Nat × SRet V)), effects h = A ++ B → refAll ref s0 A = some (sA, RA) →
    Dis (fun k v p => ∃ m rs, (m, .lookup k v, rs) ∈ A ∧ (m, .proc (some p)) ∈ RA) sA B := by
  have hnd : (R.map (·.1)).Nodup := by rw [Atomic.refAll_ids _ hr]; exact ho.nodup
  intro B
  induction B with
  | nil => intros; trivial
  | cons x B ih =>
    obtain ⟨n, c, rs⟩ := x
    intro A sA RA hAB hA
    have hr' := hr
    rw [hAB] at hr'
    obtain ⟨s1', R1, R2, h1, h2, hR12⟩ := refAll_append A _ hr'
    rw [hA] at h1
    simp only [Option.some.injEq, Prod.mk.injEq] at h1
    obtain ⟨rfl, rfl⟩ := h1
    refine ⟨?_, ?_⟩
    · rintro k v p rfl
      obtain ⟨hk, hv, m, rs', t, hm, hres⟩ := disc_effects ho hd hAB
      refine ⟨hk, hv, m, rs', hm, ?_⟩
      have hm' : m ∈ RA.map (·.1) := by
        rw [Atomic.refAll_ids _ hA]; exact List.mem_map.2 ⟨_, hm, rfl⟩
      obtain ⟨⟨m', r⟩, hmr, rfl⟩ := List.mem_map.1 hm'
      have := nodup_fst hnd (hR _ _ _ hres) (by rw [hR12]; exact List.mem_append_left _ hmr)
      rw [this]; exact hmr
    · intro s1 r hcr
      have hA' : refAll ref s0 (A ++ [(n, c, rs)]) = some (s1, RA ++ [(n, r)]) := refAll_snoc hA hcr
      refine Dis.mono B ?_ (ih (A ++ [(n, c, rs)]) s1 _ (by simp [hAB]) hA')
      have hids : (((A ++ [(n, c, rs)]).map (·.1))).Nodup := by
        have := ho.nodup
        rw [hAB, show A ++ (n, c, rs) :: B = (A ++ [(n, c, rs)]) ++ B by simp, List.map_append, List.nodup_append] at this
        exact this.1
      rintro k v p ⟨m, rs', hm, hmr⟩
      simp only [List.mem_append, List.mem_singleton, Prod.mk.injEq] at hm hmr
      rw [List.map_append, List.nodup_append] at hids
      have hn : ∀ x ∈ A, x.1 ≠ n := fun x hx e => hids.2.2 _ (List.mem_map.2 ⟨x, hx, rfl⟩) n (by simp) e
      rcases hm with hm | ⟨rfl, rfl, rfl⟩
      · rcases hmr with hmr | ⟨rfl, -⟩
        · exact .inl ⟨m, rs', hm, hmr⟩
        · exact absurd rfl (hn _ hm)
      · rcases hmr with hmr | ⟨-, rfl⟩
        · have : m ∈ RA.map (·.1) := List.mem_map.2 ⟨_, hmr, rfl⟩
          rw [Atomic.refAll_ids _ hA] at this
          obtain ⟨x, hx, rfl⟩ := List.mem_map.1 this
          exact absurd rfl (hn _ hx)
        · exact .inr ⟨rfl, rfl⟩

/-! ### From sequences of sections to the steps of Conc.lean -/

open Classical in
theorem count_eraseIdx {α : Type} : ∀ (l : List α) (i : Nat) (y : α), l.count y ≤ (l.eraseIdx i).count y + 1
  | [], _, _ => by simp
  | x :: l, 0, y => by simp only [List.eraseIdx_zero, List.tail_cons, List.count_cons]; split <;> omega
  | x :: l, i + 1, y => by
    simp only [List.eraseIdx_cons_succ, List.count_cons]
    have := count_eraseIdx l i y
    omega

theorem lookups (cs : CState V) (k v : String) (p : Proc V) (hk : k ≠ "") (hp : cs.st.proc k = some p) (hv : p.validate v = none) :
    ∀ N, Reachable cStep cs { cs with pend := cs.pend ++ List.replicate N ⟨k, v, p⟩ }
  | 0 => by simpa using Reachable.refl cs
  | N + 1 => by
    refine Reachable.trans (lookups cs k v p hk hp hv N) (Reachable.step (.lookup k v) ?_)
    simp only [cStep, hk, if_false, hp, hv, List.replicate_succ', List.append_assoc]

open Classical in
theorem sim (hash : String → Option String) : ∀ (L : List (Nat × Sec V × List Int)) (S : String → String → Proc V → Prop) (cs : CState V),
    Reachable cStep (cInit V hash) cs →
    (∀ k v p, S k v p → k ≠ "" → p.validate v = none → L.length ≤ cs.pend.count ⟨k, v, p⟩) → Dis S cs.st L →
    ∀ A B sA RA, L = A ++ B → refAll ref cs.st A = some (sA, RA) →
    ∃ cs', Reachable cStep (cInit V hash) cs' ∧ cs'.st = sA ∧
      ∀ k p, (k, p) ∈ cs'.regs → (k, p) ∈ cs.regs ∨ ∃ n d rs, (n, .register k d (some p), rs) ∈ A := by
  intro L
  induction L with
  | nil =>
    intro S cs hr _ _ A B sA RA hAB hA
    obtain ⟨rfl, -⟩ := List.append_eq_nil_iff.1 hAB.symm
    simp only [refAll, Option.some.injEq, Prod.mk.injEq] at hA
    exact ⟨cs, hr, hA.1, fun k p h => .inl h⟩
  | cons x L ih =>
    obtain ⟨n, c, rs⟩ := x
    intro S cs hr hc hd A B sA RA hAB hA
    cases A with
    | nil =>
      simp only [refAll, Option.some.injEq, Prod.mk.injEq] at hA
      exact ⟨cs, hr, hA.1, fun k p h => .inl h⟩
    | cons y A =>
      simp only [List.cons_append, List.cons.injEq] at hAB
      obtain ⟨rfl, hAB⟩ := hAB
      simp only [refAll] at hA
      cases h1 : ref c rs cs.st with
      | none => simp [h1] at hA
      | some x =>
        obtain ⟨s1, r⟩ := x
        simp only [h1] at hA
        cases h2 : refAll ref s1 A with
        | none => simp [h2] at hA
        | some z =>
          obtain ⟨sz, Rz⟩ := z
          simp only [h2, Option.some.injEq, Prod.mk.injEq] at hA
          obtain ⟨rfl, -⟩ := hA
          have hd2 := hd.2 s1 r h1
          -- the step of the reference
          suffices ∃ cs1 : CState V, Reachable cStep cs cs1 ∧ cs1.st = s1 ∧
              (∀ k v p, (S k v p ∨ (c = .lookup k v ∧ r = .proc (some p))) → k ≠ "" → p.validate v = none → L.length ≤ cs1.pend.count ⟨k, v, p⟩) ∧
              (∀ k p, (k, p) ∈ cs1.regs → (k, p) ∈ cs.regs ∨ ∃ d, c = .register k d (some p)) by
            obtain ⟨cs1, r1, rfl, r3, r4⟩ := this
            obtain ⟨cs', q1, q2, q3⟩ := ih _ cs1 (Reachable.trans hr r1) r3 hd2 A B _ _ hAB h2
            refine ⟨cs', q1, q2, fun k p hkp => ?_⟩
            rcases q3 k p hkp with h | ⟨n', d, rs', h⟩
            · rcases r4 k p h with h | ⟨d, rfl⟩
              · exact .inl h
              · exact .inr ⟨n, d, rs, by simp⟩
            · exact .inr ⟨n', d, rs', by simp [h]⟩
          have hlen : ∀ k v p, S k v p → k ≠ "" → p.validate v = none → L.length ≤ cs.pend.count ⟨k, v, p⟩ := by
            intro k v p h1 h2 h3
            have := hc k v p h1 h2 h3
            simp only [List.length_cons] at this
            omega
          have hnl : ∀ cs1 : CState V, cs1.pend = cs.pend → (∀ k v, c ≠ .lookup k v) →
              ∀ k v p, (S k v p ∨ (c = .lookup k v ∧ r = .proc (some p))) → k ≠ "" → p.validate v = none → L.length ≤ cs1.pend.count ⟨k, v, p⟩ := by
            intro cs1 he hn k v p h
            rcases h with h | ⟨h, -⟩
            · rw [he]; exact hlen k v p h
            · exact absurd h (hn k v)
          have hrs : rs = [] := by
            simp only [ref] at h1
            split at h1
            · assumption
            · simp at h1
          subst hrs
          cases c with
          | register k d vp =>
            simp only [ref, if_true, Option.some.injEq, Prod.mk.injEq] at h1
            obtain ⟨rfl, rfl⟩ := h1
            refine ⟨_, Reachable.step (.register k d vp) rfl, rfl, hnl _ rfl (by simp), ?_⟩
            intro k' p' hkp
            dsimp only at hkp
            split at hkp
            · simp only [List.mem_cons, Prod.mk.injEq] at hkp
              rcases hkp with ⟨rfl, rfl⟩ | hkp
              · exact .inr ⟨d, rfl⟩
              · exact .inl hkp
            · exact .inl hkp
          | deregister k r' =>
            simp only [ref, if_true, Option.some.injEq, Prod.mk.injEq] at h1
            obtain ⟨rfl, rfl⟩ := h1
            exact ⟨_, Reachable.step (.deregister k r') rfl, rfl, hnl _ rfl (by simp), fun _ _ h => .inl h⟩
          | reset k r' =>
            simp only [ref, if_true, Option.some.injEq, Prod.mk.injEq] at h1
            obtain ⟨rfl, rfl⟩ := h1
            exact ⟨_, Reachable.step (.reset k r') rfl, rfl, hnl _ rfl (by simp), fun _ _ h => .inl h⟩
          | save l r' =>
            simp only [ref, if_true, Option.some.injEq, Prod.mk.injEq] at h1
            obtain ⟨rfl, rfl⟩ := h1
            exact ⟨_, Reachable.step (.other (batchSave cs.st.hash l r').1) rfl, rfl, hnl _ rfl (by simp), fun _ _ h => .inl h⟩
          | get k =>
            simp only [ref, if_true, Option.some.injEq, Prod.mk.injEq] at h1
            obtain ⟨rfl, rfl⟩ := h1
            exact ⟨cs, Reachable.refl cs, rfl, hnl _ rfl (by simp), fun _ _ h => .inl h⟩
          | getString k =>
            simp only [ref, if_true, Option.some.injEq, Prod.mk.injEq] at h1
            obtain ⟨rfl, rfl⟩ := h1
            exact ⟨cs, Reachable.refl cs, rfl, hnl _ rfl (by simp), fun _ _ h => .inl h⟩
          | hgetall =>
            simp only [ref, if_true, Option.some.injEq, Prod.mk.injEq] at h1
            obtain ⟨rfl, rfl⟩ := h1
            exact ⟨cs, Reachable.refl cs, rfl, hnl _ rfl (by simp), fun _ _ h => .inl h⟩
          | lookup k v =>
            simp only [ref, if_true, Option.some.injEq, Prod.mk.injEq] at h1
            obtain ⟨rfl, rfl⟩ := h1
            by_cases hh : ∃ p, k ≠ "" ∧ cs.st.proc k = some p ∧ p.validate v = none
            · obtain ⟨p, hk, hp, hv⟩ := hh
              refine ⟨_, lookups cs k v p hk hp hv L.length, rfl, ?_, fun _ _ h => .inl h⟩
              intro k' v' p' h hk' hv'
              simp only [List.count_append]
              rcases h with h | ⟨h, h'⟩
              · have := hlen k' v' p' h hk' hv'; omega
              · simp only [Sec.lookup.injEq] at h
                obtain ⟨rfl, rfl⟩ := h
                simp only [SRet.proc.injEq, hp, Option.some.injEq] at h'
                subst h'
                simp
            · refine ⟨cs, Reachable.refl cs, rfl, ?_, fun _ _ h => .inl h⟩
              intro k' v' p' h hk' hv'
              rcases h with h | ⟨h, h'⟩
              · exact hlen k' v' p' h hk' hv'
              · simp only [Sec.lookup.injEq] at h
                obtain ⟨rfl, rfl⟩ := h
                simp only [SRet.proc.injEq] at h'
                exact absurd ⟨p', hk', h', hv'⟩ hh
          | write k v p =>
            simp only [ref, if_true, Option.some.injEq, Prod.mk.injEq] at h1
            obtain ⟨rfl, rfl⟩ := h1
            obtain ⟨hk, hv, hS⟩ := hd.1 k v p rfl
            have hcnt := hc k v p hS hk hv
            have hmem : (⟨k, v, p⟩ : Pending V) ∈ cs.pend := List.count_pos_iff.1 (by simp only [List.length_cons] at hcnt; omega)
            obtain ⟨i, hi, hget⟩ := List.getElem_of_mem hmem
            have hget' : cs.pend[i]? = some ⟨k, v, p⟩ := by rw [List.getElem?_eq_getElem hi, hget]
            refine ⟨⟨{ cs.st with kv := setKey cs.st.kv k (some (p.convert v)), kvStr := setKey cs.st.kvStr k (some v) }, cs.pend.eraseIdx i, cs.regs⟩,
              Reachable.step (.write i) (by simp only [cStep, hget']), rfl, ?_, fun _ _ h => .inl h⟩
            intro k' v' p' h hk' hv'
            rcases h with h | ⟨h, -⟩
            · have h1 := hc k' v' p' h hk' hv'
              have h2 := count_eraseIdx cs.pend i ⟨k', v', p'⟩
              simp only [List.length_cons] at h1
              dsimp only
              omega
            · simp at h

/-! ### The theorems -/

theorem base_exec {hash : String → Option String} {c0 : Int} {as : List (MAction V)} {s : MSys V}
    (h : exec mStep (mStart V hash c0) as = some s) : Reachable (Atomic.step body) (Atomic.start (memOf (new V hash)) c0) s.base := by
  refine exec_inv (I := fun s : MSys V => Reachable (Atomic.step body) (Atomic.start (memOf (new V hash)) c0) s.base) ?_ as _ _
    (Reachable.refl _) h
  intro s a s' hr hs
  cases a with
  | tick d =>
    simp only [mStep, Atomic.step, Option.map_some, Option.some.injEq] at hs
    subst hs
    exact hr.trans (Reachable.step (.tick d) rfl)
  | call i c =>
    simp only [mStep] at hs
    split at hs
    · simp at hs
    · simp only [Option.some.injEq] at hs; subst hs; exact hr
  | step i =>
    simp only [mStep] at hs
    split at hs
    · simp at hs
    · simp only [Option.some.injEq] at hs; subst hs; exact hr
    · split at hs
      · rename_i x _ _ _ _
        cases hb : Atomic.step body s.base (.call i x) with
        | none => simp [hb] at hs
        | some b =>
          simp only [hb, Option.map_some, Option.some.injEq] at hs
          subst hs
          exact hr.trans (Reachable.step _ hb)
      · cases hb : Atomic.step body s.base (.step i) with
        | none => simp [hb] at hs
        | some b =>
          simp only [hb] at hs
          have : s'.base = b := by split at hs <;> simp only [Option.some.injEq] at hs <;> rw [← hs]
          rw [this]
          exact hr.trans (Reachable.step _ hb)

/-- **C140.**  Any number of goroutines in methods of the store, with any schedule of their instructions: no data races, the sections
take effect one after the other, every write follows its lookup, and every method returns what follows from the results of
its sections. -/
theorem C140_methods (hash : String → Option String) (c0 : Int) (as : List (MAction V)) (s : MSys V)
    (h : exec mStep (mStart V hash c0) as = some s) :
    Linear ref memOf (new V hash) s.base ∧ Disc s.base.hist ∧
    ∀ n c a n', (n, c, a, n') ∈ s.log → Explained s.base.hist n' n (meth c) a := by
  obtain ⟨bs, hb⟩ := base_exec h
  have hi := exec_inv (I := MInv) (fun _ _ _ hi hs => mInv_step hi hs) as _ _ (mInv_start hash c0) h
  exact ⟨C140_sections _ c0 bs s.base hb, hi.disc, hi.log⟩

/-- **C140.**  Every section returns what it returns in a state that the steps of Conc.lean reach, in which only processors are
registered that were given to RegisterKey; and such a state is in memory when no section is under way. -/
theorem C140_states (hash : String → Option String) (c0 : Int) (as : List (MAction V)) (s : MSys V)
    (h : exec mStep (mStart V hash c0) as = some s) :
    (∀ n c t r t', Event.inv n c t ∈ s.base.hist → Event.res n r t' ∈ s.base.hist →
      ∃ cs, Reachable cStep (cInit V hash) cs ∧ (ref c [] cs.st).map (·.2) = some r ∧
        ∀ k p, (k, p) ∈ cs.regs → ∃ m d t, Event.inv m (.register k d (some p)) t ∈ s.base.hist) ∧
    ((∀ i, s.base.thr i = none) → ∃ cs, Reachable cStep (cInit V hash) cs ∧ s.base.mem = memOf cs.st) := by
  obtain ⟨hl, hd, -⟩ := C140_methods hash c0 as s h
  obtain ⟨st, R, hr, hR, hm⟩ := hl.results
  have ho := hl.order
  have hdis := dis_of_disc ho hd hr hR (effects s.base.hist) [] (new V hash) [] rfl rfl
  have key := sim hash (effects s.base.hist) _ (cInit V hash) (Reachable.refl _) (by simp) hdis
  refine ⟨?_, fun hi => ?_⟩
  · intro n c t r t' hinv hres
    obtain ⟨pre, post, he⟩ := List.append_of_mem hres
    obtain ⟨⟨c', rs, t0, heff⟩, -⟩ := (ho pre _ post he).1
    have heff' : Event.eff n c' rs t0 ∈ s.base.hist := by rw [he]; simp [heff]
    obtain ⟨p1, p2, he2⟩ := List.append_of_mem heff'
    obtain ⟨⟨t1, h1, -⟩, -⟩ := (ho p1 _ p2 he2).1
    have hc : c' = c := inv_unique ho (t := t1) (by rw [he2]; simp [h1]) hinv
    subst hc
    obtain ⟨L1, L2, s1, R1, s2, hL, h2, h3⟩ := Atomic.result_of _ hr ho.nodup (Atomic.mem_effects heff') (hR _ _ _ hres)
    obtain ⟨cs, q1, rfl, q3⟩ := key L1 _ s1 R1 hL h2
    have hrs : rs = [] := by
      simp only [ref] at h3
      split at h3
      · assumption
      · simp at h3
    subst hrs
    refine ⟨cs, q1, by rw [h3]; rfl, fun k p hkp => ?_⟩
    rcases q3 k p hkp with hx | ⟨m, d, rs', hx⟩
    · simp [cInit] at hx
    · obtain ⟨t2, ht2⟩ := Atomic.effects_mem (h := s.base.hist) (by rw [hL]; exact List.mem_append_left _ hx)
      obtain ⟨p1, p2, he2⟩ := List.append_of_mem ht2
      obtain ⟨⟨t3, h4, -⟩, -⟩ := (ho p1 _ p2 he2).1
      exact ⟨m, d, t3, by rw [he2]; simp [h4]⟩
  · obtain ⟨cs, q1, rfl, -⟩ := key (effects s.base.hist) [] st R (by simp) hr
    exact ⟨cs, q1, hm hi⟩

theorem explained_le {h : List (Event (SRet V) (Sec V))} {n' : Nat} : ∀ (m : Meth V) (n : Nat) (b : MRet V), Explained h n' n m b → n ≤ n'
  | .ret _, _, _, hx => hx.1
  | .sec _ f, n, b, ⟨m, r, h1, _, _, h4⟩ => by have := explained_le (f r) _ b h4; omega

theorem explained_update {h : List (Event (SRet V) (Sec V))} {n' n : Nat} {k v : String} {q : Option KVError → Meth V} {b : MRet V}
    (hx : Explained h n' n (updateThen k v q) b) : ∃ e n1, n ≤ n1 ∧ Explained h n' n1 (q e) b := by
  simp only [updateThen] at hx
  split at hx
  · exact ⟨_, n, Nat.le_refl _, hx⟩
  obtain ⟨m, r, h1, -, -, h4⟩ := hx
  revert h4
  cases r with
  | proc p =>
    cases p with
    | none => intro h4; exact ⟨_, m + 1, by omega, h4⟩
    | some p =>
      dsimp only
      split
      · intro h4; exact ⟨_, m + 1, by omega, h4⟩
      · rintro ⟨m', r', h1', -, -, h4⟩; exact ⟨_, m' + 1, by omega, h4⟩
  | _ => intro h4; exact ⟨_, m + 1, by omega, h4⟩

theorem explained_pairs {h : List (Event (SRet V) (Sec V))} {n' : Nat} {q : Meth V} {b : MRet V} : ∀ (l : List KVStr) {n : Nat},
    Explained h n' n (pairsThen l q) b → ∃ n1, n ≤ n1 ∧ Explained h n' n1 q b
  | [], n, hx => ⟨n, Nat.le_refl _, hx⟩
  | _ :: l, n, hx => by
    obtain ⟨_, n1, h1, hx⟩ := explained_update hx
    obtain ⟨n2, h2, hx⟩ := explained_pairs l hx
    exact ⟨n2, by omega, hx⟩

theorem explained_load {h : List (Event (SRet V) (Sec V))} {n' n : Nat} {d : Load} {q : Meth V} {b : MRet V}
    (hx : Explained h n' n (loadThen d q) b) : ∃ n1, n ≤ n1 ∧ Explained h n' n1 q b := by
  cases d with
  | skip => exact ⟨n, Nat.le_refl _, hx⟩
  | fail =>
    obtain ⟨m, r, h1, -, -, h4⟩ := hx
    exact ⟨m + 1, by omega, h4⟩
  | keys ks =>
    obtain ⟨m, r, h1, -, -, h4⟩ := hx
    revert h4
    cases r with
    | hash g =>
      intro h4
      obtain ⟨n1, h2, h5⟩ := explained_pairs _ h4
      exact ⟨n1, by omega, h5⟩
    | _ => intro h4; exact ⟨m + 1, by omega, h4⟩

/-- The section of a method that reads. -/
theorem explained_string {h : List (Event (SRet V) (Sec V))} {n' n : Nat} {d : Load} {k : String} {x : Option String}
    (hx : Explained h n' n (getStringThen d k fun v => .ret (.str v)) (MRet.str (V := V) x)) :
    ∃ m r, n ≤ m ∧ m < n' ∧ (∃ t, Event.inv m (.getString k) t ∈ h) ∧ (∃ t, Event.res m r t ∈ h) ∧ (x ≠ none → r = .str x) := by
  obtain ⟨n1, h1, m, r, h2, h3, h4, h5⟩ := explained_load hx
  have hlt : m + 1 ≤ n' := explained_le _ _ _ h5
  refine ⟨m, r, by omega, by omega, h3, h4, fun hne => ?_⟩
  revert h5
  cases r with
  | str v => rintro ⟨-, h⟩; simp only [MRet.str.injEq] at h; rw [h]
  | _ => rintro ⟨-, h⟩; simp only [MRet.str.injEq] at h; exact absurd h.symm hne

theorem explained_value {h : List (Event (SRet V) (Sec V))} {n' n : Nat} {d : Load} {k : String} {x : Option V}
    (hx : Explained h n' n (getThen d k fun v => .ret (.val v)) (MRet.val x)) :
    ∃ m r, n ≤ m ∧ m < n' ∧ (∃ t, Event.inv m (.get k) t ∈ h) ∧ (∃ t, Event.res m r t ∈ h) ∧ (x ≠ none → r = .val x) := by
  obtain ⟨n1, h1, m, r, h2, h3, h4, h5⟩ := explained_load hx
  have hlt : m + 1 ≤ n' := explained_le _ _ _ h5
  refine ⟨m, r, by omega, by omega, h3, h4, fun hne => ?_⟩
  revert h5
  cases r with
  | val v => rintro ⟨-, h⟩; simp only [MRet.val.injEq] at h; rw [h]
  | _ => rintro ⟨-, h⟩; simp only [MRet.val.injEq] at h; exact absurd h.symm hne

/-- **C140.**  A string that GetValueString returns is accepted by a processor with which RegisterKey was called for the key; a value
that GetValue returns is made by such a processor from a string that it accepts. -/
theorem C140_values (hash : String → Option String) (c0 : Int) (as : List (MAction V)) (s : MSys V)
    (h : exec mStep (mStart V hash c0) as = some s) (n n' : Nat) (d : Load) (k : String) :
    (∀ v, (n, .getValueString d k, .str (some v), n') ∈ s.log →
      ∃ p m e t, Event.inv m (.register k e (some p)) t ∈ s.base.hist ∧ p.validate v = none) ∧
    (∀ w, (n, .getValue d k, .val (some w), n') ∈ s.log →
      ∃ p m e t v, Event.inv m (.register k e (some p)) t ∈ s.base.hist ∧ p.validate v = none ∧ w = p.convert v) := by
  obtain ⟨-, -, hlog⟩ := C140_methods hash c0 as s h
  have hst := (C140_states hash c0 as s h).1
  refine ⟨fun v hv => ?_, fun w hw => ?_⟩
  · obtain ⟨m, r, -, -, ⟨t, h1⟩, ⟨t', h2⟩, h3⟩ := explained_string (hlog _ _ _ _ hv)
    rw [h3 (by simp)] at h2
    obtain ⟨cs, q1, q2, q3⟩ := hst _ _ _ _ _ h1 h2
    simp only [ref, if_true, Option.map_some, Option.some.injEq, SRet.str.injEq] at q2
    obtain ⟨p, hp, hpv, -⟩ := (C66_views_partial hash cs q1 k).1 v q2
    obtain ⟨m', e, t2, h4⟩ := q3 k p hp
    exact ⟨p, m', e, t2, h4, hpv⟩
  · obtain ⟨m, r, -, -, ⟨t, h1⟩, ⟨t', h2⟩, h3⟩ := explained_value (hlog _ _ _ _ hw)
    rw [h3 (by simp)] at h2
    obtain ⟨cs, q1, q2, q3⟩ := hst _ _ _ _ _ h1 h2
    simp only [ref, if_true, Option.map_some, Option.some.injEq, SRet.val.injEq] at q2
    obtain ⟨g1, g2⟩ := C66_views_partial hash cs q1 k
    cases hs : getValueString cs.st k with
    | none => rw [g2.1 hs] at q2; simp at q2
    | some v =>
      obtain ⟨p, hp, hpv, hpw⟩ := g1 v hs
      rw [hpw, Option.some.injEq] at q2
      obtain ⟨m', e, t2, h4⟩ := q3 k p hp
      exact ⟨p, m', e, t2, v, h4, hpv, q2.symm⟩

/-- Steps of goroutine `i`. -/
def steps (i k : Nat) : List (MAction Nat) := List.replicate k (.step i)


/-- RegisterKey of a key, from start to end. -/
def reg0 : List (MAction Nat) := .call 0 (.register "a" "0" (some anyProc)) :: steps 0 15

/-- Non-vacuity: a key is registered, and an update and a read overlap: the read begins before the update, and gets the
lock after it. -/
example : (exec mStep (mStart Nat (fun _ => none) 0)
      (reg0 ++ [.call 1 (.getValueString .skip "a"), .step 1, .call 0 (.updateNoPersist "a" "xyz")] ++ steps 0 14 ++ steps 1 5)).map
    (fun s => s.log.map fun x => (x.1, x.2.2.2, match x.2.2.1 with | .str v => v | _ => none)) =
    some [(0, 1, none), (2, 4, none), (1, 4, some "xyz")] := by
  decide +kernel

/-- The finding of C66 with single instructions: the update looks the processor up, DeregisterKey runs from start to end, the update
goes on, and a read of the key that is registered no more hits. -/
example : (exec mStep (mStart Nat (fun _ => none) 0)
      (reg0 ++ [.call 0 (.updateNoPersist "a" "xyz")] ++ steps 0 6 ++ .call 1 (.deregister "a" .ok) :: steps 1 21 ++ steps 0 8 ++
        .call 1 (.getValueString .skip "a") :: steps 1 6)).map
    (fun s => (s.log.map fun x => (x.1, x.2.2.2, match x.2.2.1 with | .str v => v | _ => none), (s.base.mem .proc "a").isSome)) =
    some ([(0, 1, none), (3, 4, none), (1, 4, none), (4, 5, some "xyz")], false) := by
  decide +kernel

end Gears.Confstore
