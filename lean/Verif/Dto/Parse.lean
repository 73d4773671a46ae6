import Verif.Dto.Lex

/-
Maps as ordered lists, and: the automaton accepts exactly the token lists of the specification.
-/

namespace Gears.Dto

open Gears.Str Gears.Utf8

variable {F : Type}

/-! ## Order -/

theorem less_nil_cons (b : UInt8) (t : Bytes) : Less [] (b :: t) := .inl ⟨b :: t, by simp, rfl⟩

theorem not_less_nil (s : Bytes) : ¬ Less s [] := by
  rintro (⟨x, h1, h2⟩ | ⟨p, a, b, x, y, -, h2, -⟩)
  · simp at h2; exact h1 h2.2
  · simp at h2

theorem less_cons (a b : UInt8) (s t : Bytes) : Less (a :: s) (b :: t) ↔ a < b ∨ a = b ∧ Less s t := by
  constructor
  · rintro (⟨x, h1, h2⟩ | ⟨p, a', b', x, y, h1, h2, h3⟩)
    · simp at h2
      exact .inr ⟨h2.1.symm, .inl ⟨x, h1, h2.2⟩⟩
    · cases p with
      | nil =>
        simp at h1 h2
        exact .inl (by rw [h1.1, h2.1]; exact h3)
      | cons c p =>
        simp at h1 h2
        exact .inr ⟨by rw [h1.1, h2.1], .inr ⟨p, a', b', x, y, h1.2, h2.2, h3⟩⟩
  · rintro (h | ⟨rfl, ⟨x, h1, h2⟩ | ⟨p, a', b', x, y, h1, h2, h3⟩⟩)
    · exact .inr ⟨[], a, b, s, t, rfl, rfl, h⟩
    · exact .inl ⟨x, h1, by simp [h2]⟩
    · exact .inr ⟨a :: p, a', b', x, y, by simp [h1], by simp [h2], h3⟩

theorem lt_iff : ∀ s t : Bytes, lt s t = true ↔ Less s t
  | [], [] => by simp [lt, not_less_nil]
  | [], b :: t => by simp [lt, less_nil_cons]
  | a :: s, [] => by simp [lt, not_less_nil]
  | a :: s, b :: t => by rw [less_cons, ← lt_iff s t]; simp [lt]

theorem less_irrefl : ∀ s : Bytes, ¬ Less s s
  | [] => not_less_nil _
  | a :: s => by
    rw [less_cons]
    rintro (h | ⟨-, h⟩)
    · exact UInt8.lt_irrefl _ h
    · exact less_irrefl s h

theorem less_trans : ∀ {s t u : Bytes}, Less s t → Less t u → Less s u
  | _, [], _, h, _ => absurd h (not_less_nil _)
  | _, _ :: _, [], _, h => absurd h (not_less_nil _)
  | [], _ :: _, _ :: _, _, _ => less_nil_cons _ _
  | a :: s, b :: t, c :: u, h1, h2 => by
    rw [less_cons] at h1 h2 ⊢
    rcases h1 with h1 | ⟨rfl, h1⟩
    · rcases h2 with h2 | ⟨rfl, h2⟩
      · exact .inl (UInt8.lt_trans h1 h2)
      · exact .inl h1
    · rcases h2 with h2 | ⟨rfl, h2⟩
      · exact .inl h2
      · exact .inr ⟨rfl, less_trans h1 h2⟩

theorem less_total : ∀ s t : Bytes, s ≠ t → ¬ Less s t → Less t s
  | [], [], h, _ => absurd rfl h
  | [], b :: t, _, h => absurd (less_nil_cons b t) h
  | a :: s, [], _, _ => less_nil_cons a s
  | a :: s, b :: t, h, h' => by
    rw [less_cons] at h' ⊢
    by_cases hab : a = b
    · subst hab
      exact .inr ⟨rfl, less_total s t (fun e => h (by rw [e])) (fun e => h' (.inr ⟨rfl, e⟩))⟩
    · refine .inl ?_
      have h1 : ¬ a < b := fun e => h' (.inl e)
      rw [UInt8.lt_iff_toNat_lt] at h1 ⊢
      have : a.toNat ≠ b.toNat := fun e => hab (UInt8.toNat_inj.1 e)
      omega

/-! ## Maps -/

def Sorted {α : Type} (m : List (Bytes × α)) : Prop := m.Pairwise (fun a b => Less a.1 b.1)

theorem mem_ins {α : Type} {k : Bytes} {v : α} : ∀ {m : List (Bytes × α)}, Sorted m → ∀ e, e ∈ ins k v m ↔ e = (k, v) ∨ e.1 ≠ k ∧ e ∈ m
  | [], _, e => by
    simp [ins]
  | (k', v') :: r, hs, e => by
    have hs' := List.pairwise_cons.1 hs
    unfold ins
    split
    · rename_i hk
      subst hk
      simp only [List.mem_cons]
      constructor
      · rintro (rfl | h)
        · exact .inl rfl
        · refine .inr ⟨fun he => ?_, .inr h⟩
          have := hs'.1 e h
          rw [he] at this
          exact less_irrefl _ this
      · rintro (rfl | ⟨h1, rfl | h2⟩)
        · exact .inl rfl
        · exact absurd rfl h1
        · exact .inr h2
    · rename_i hk
      split
      · rename_i hl
        rw [lt_iff] at hl
        simp only [List.mem_cons]
        constructor
        · rintro (rfl | rfl | h)
          · exact .inl rfl
          · exact .inr ⟨fun e => hk e.symm, .inl rfl⟩
          · refine .inr ⟨fun he => ?_, .inr h⟩
            have := less_trans hl (hs'.1 e h)
            rw [he] at this
            exact less_irrefl _ this
        · rintro (rfl | ⟨-, h⟩)
          · exact .inl rfl
          · exact .inr h
      · rw [List.mem_cons, mem_ins hs'.2 e, List.mem_cons]
        constructor
        · rintro (rfl | rfl | ⟨h1, h2⟩)
          · exact .inr ⟨fun e => hk e.symm, .inl rfl⟩
          · exact .inl rfl
          · exact .inr ⟨h1, .inr h2⟩
        · rintro (rfl | ⟨h1, rfl | h2⟩)
          · exact .inr (.inl rfl)
          · exact .inl rfl
          · exact .inr (.inr ⟨h1, h2⟩)

theorem sorted_ins {α : Type} {k : Bytes} {v : α} : ∀ {m : List (Bytes × α)}, Sorted m → Sorted (ins k v m)
  | [], _ => by simp [ins, Sorted]
  | (k', v') :: r, hs => by
    have hs' := List.pairwise_cons.1 hs
    unfold ins
    split
    · rename_i hk
      subst hk
      exact List.pairwise_cons.2 hs'
    · rename_i hk
      split
      · rename_i hl
        rw [lt_iff] at hl
        refine List.pairwise_cons.2 ⟨fun e he => ?_, hs⟩
        rcases List.mem_cons.1 he with rfl | he
        · exact hl
        · exact less_trans hl (hs'.1 e he)
      · rename_i hl
        rw [lt_iff] at hl
        refine List.pairwise_cons.2 ⟨fun e he => ?_, sorted_ins hs'.2⟩
        rcases (mem_ins hs'.2 e).1 he with rfl | ⟨-, he⟩
        · exact less_total _ _ hk hl
        · exact hs'.1 e he

theorem sorted_unique {α : Type} : ∀ {m n : List (Bytes × α)}, Sorted m → Sorted n → (∀ e, e ∈ m ↔ e ∈ n) → m = n
  | [], [], _, _, _ => rfl
  | [], b :: n, _, _, h => by have := (h b).2 (by simp); simp at this
  | a :: m, [], _, _, h => by have := (h a).1 (by simp); simp at this
  | a :: m, b :: n, hm, hn, h => by
    have hm' := List.pairwise_cons.1 hm
    have hn' := List.pairwise_cons.1 hn
    have hab : a = b := by
      have h1 := (h a).1 (by simp)
      have h2 := (h b).2 (by simp)
      rcases List.mem_cons.1 h1 with e | h1
      · exact e
      · rcases List.mem_cons.1 h2 with e | h2
        · exact e.symm
        · exact absurd (less_trans (hn'.1 a h1) (hm'.1 b h2)) (less_irrefl _)
    subst hab
    congr 1
    refine sorted_unique hm'.2 hn'.2 fun e => ⟨fun he => ?_, fun he => ?_⟩
    · rcases List.mem_cons.1 ((h e).1 (by simp [he])) with rfl | h1
      · exact absurd (hm'.1 _ he) (less_irrefl _)
      · exact h1
    · rcases List.mem_cons.1 ((h e).2 (by simp [he])) with rfl | h1
      · exact absurd (hn'.1 _ he) (less_irrefl _)
      · exact h1

/-- The assignments of l, one after the other. -/
def assign (m l : List (Bytes × G F)) : List (Bytes × G F) := l.foldl (fun m e => ins e.1 e.2 m) m

theorem last_append (k : Bytes) (v : G F) (l : List (Bytes × G F)) (e : Bytes × G F) :
    Last k (l ++ [e]) v ↔ (k, v) = e ∨ k ≠ e.1 ∧ Last k l v := by
  constructor
  · rintro ⟨a, b, hl, hb⟩
    rcases List.eq_nil_or_concat b with rfl | ⟨b', e', rfl⟩
    · have := List.append_inj_right' hl (by simp)
      simp at this
      exact .inl this.symm
    · rw [List.concat_eq_append] at hl hb
      rw [show a ++ (k, v) :: (b' ++ [e']) = (a ++ (k, v) :: b') ++ [e'] by simp] at hl
      have h1 := List.append_inj_right' hl (by simp)
      have h2 := List.append_inj_left' hl (by simp)
      simp at h1
      subst h1
      refine .inr ⟨fun he => hb e (by simp) he.symm, a, b', h2, fun x hx => hb x (by simp [hx])⟩
  · rintro (rfl | ⟨h1, a, b, rfl, hb⟩)
    · exact ⟨l, [], rfl, by simp⟩
    · refine ⟨a, b ++ [e], by simp, fun x hx => ?_⟩
      rcases List.mem_append.1 hx with hx | hx
      · exact hb x hx
      · simp at hx; subst hx; exact fun he => h1 he.symm

theorem isMap_assign (l : List (Bytes × G F)) : IsMap (assign [] l) l := by
  suffices h : ∀ l : List (Bytes × G F), IsMap (assign [] l.reverse) l.reverse by
    have := h l.reverse; rwa [List.reverse_reverse] at this
  intro l
  induction l with
  | nil =>
    refine ⟨List.Pairwise.nil, fun k v => ⟨fun h => by simp [assign] at h, ?_⟩⟩
    rintro ⟨a, b, h, -⟩
    simp at h
  | cons e l ih =>
    rw [List.reverse_cons]
    have ea : assign [] (l.reverse ++ [e]) = ins e.1 e.2 (assign [] l.reverse) := by simp [assign, List.foldl_append]
    rw [ea]
    refine ⟨sorted_ins ih.1, fun k v => ?_⟩
    rw [mem_ins ih.1, last_append, ih.2 k v]

theorem isMap_unique {m n l : List (Bytes × G F)} (h : IsMap m l) (h' : IsMap n l) : m = n :=
  sorted_unique h.1 h'.1 fun e => by rw [show e = (e.1, e.2) from rfl, h.2, h'.2]

theorem isMap_self {m : List (Bytes × G F)} (h : Sorted m) : IsMap m m := by
  refine ⟨h, fun k v => ⟨fun hm => ?_, fun ⟨a, b, hl, _⟩ => by rw [hl]; simp⟩⟩
  obtain ⟨a, b, rfl⟩ := List.append_of_mem hm
  refine ⟨a, b, rfl, fun e he hk => ?_⟩
  have := (List.pairwise_append.1 h).2.1
  have := (List.pairwise_cons.1 this).1 e he
  rw [hk] at this
  exact less_irrefl _ this

/-! ## The automaton accepts -/

variable {pf : Bytes → Option F}

theorem run_append (s : St F) (ts us : List Tok) : run pf s (ts ++ us) = (run pf s ts).bind fun s' => run pf s' us := by
  induction ts generalizing s with
  | nil => rfl
  | cons t ts ih =>
    simp only [List.cons_append, run]
    cases step pf s t with
    | none => rfl
    | some s' => exact ih s'

theorem means_head {d : Nat} {v : G F} {ts : List Tok} (h : Means pf d v ts) : ∃ t us, ts = t :: us ∧ t ≠ .rbrack := by
  cases h <;> exact ⟨_, _, rfl, by simp⟩

theorem step_valOrEnd (st : List (Frame F)) {t : Tok} (h : t ≠ .rbrack) : step pf (.valOrEnd, st) t = step pf (.val, st) t := by
  unfold step
  split <;> simp_all

theorem run_means {d : Nat} {v : G F} {ts : List Tok} (h : Means pf d v ts) : ∀ (st : List (Frame F)) (rest : List Tok),
    st.length + d ≤ maxDepth → run pf (.val, st) (ts ++ rest) = run pf (.done v, st) rest := by
  induction h with
  | null => intros; rfl
  | true => intros; rfl
  | false => intros; rfl
  | str => intros; rfl
  | num hx => intro st rest _; simp [run, step, beginVal, hx]
  | @arr d es hes ih =>
    intro st rest hd
    have hlt : st.length < maxDepth := by omega
    have items : ∀ (es : List (G F × List Tok)) (e : G F × List Tok) (acc : List (G F)),
        (∀ x ∈ e :: es, ∀ (st : List (Frame F)) (rest : List Tok), st.length + d ≤ maxDepth →
          run pf (.val, st) (x.2 ++ rest) = run pf (.done x.1, st) rest) →
        run pf (.val, .arr acc :: st) (commas ((e :: es).map (·.2)) ++ .rbrack :: rest) =
          run pf (.done (.slice (acc ++ (e :: es).map (·.1))), st) rest := by
      intro es
      induction es with
      | nil =>
        intro e acc h
        have := h e (by simp) (.arr acc :: st) (.rbrack :: rest) (by simp; omega)
        simp only [List.map_cons, List.map_nil, commas]
        rw [this]
        rfl
      | cons e' es ihs =>
        intro e acc h
        have := h e (by simp) (.arr acc :: st) (.comma :: (commas ((e' :: es).map (·.2)) ++ .rbrack :: rest)) (by simp; omega)
        simp only [List.map_cons, commas, List.append_assoc, List.cons_append] at this ⊢
        rw [this]
        have ih := ihs e' (acc ++ [e.1]) (fun x hx => h x (by simp at hx ⊢; tauto))
        simp only [List.map_cons, List.append_assoc] at ih
        simp only [run, step]
        exact ih
    cases es with
    | nil =>
      simp [commas, run, step, beginVal, hlt]
    | cons e es =>
      obtain ⟨t, us, htu, ht⟩ := means_head (hes e (by simp))
      have hhead : ∃ ws, commas ((e :: es).map (·.2)) ++ .rbrack :: rest = t :: ws := by
        cases es with
        | nil => exact ⟨us ++ .rbrack :: rest, by simp [commas, htu]⟩
        | cons e' es => exact ⟨_, by simp only [List.map_cons, commas, htu, List.cons_append]; rfl⟩
      have h1 := items es e [] (fun x hx => ih x hx)
      obtain ⟨ws, hws⟩ := hhead
      have e1 : Tok.lbrack :: commas ((e :: es).map (·.2)) ++ [.rbrack] ++ rest = .lbrack :: t :: ws := by
        rw [← hws]; simp
      rw [e1]
      rw [hws] at h1
      have e2 : run pf (.val, st) (.lbrack :: t :: ws) = run pf (.valOrEnd, .arr [] :: st) (t :: ws) := by
        simp [run, step, beginVal, hlt]
      rw [e2]
      have e3 : run pf (.valOrEnd, .arr [] :: st) (t :: ws) = run pf (.val, .arr [] :: st) (t :: ws) := by
        simp only [run, step_valOrEnd _ ht]
      rw [e3, h1]
      rfl
  | @obj d m es hes hm ih =>
    intro st rest hd
    have hlt : st.length < maxDepth := by omega
    have hme : m = assign [] (es.map fun e => (e.1, e.2.1)) := isMap_unique hm (isMap_assign _)
    subst hme
    have items : ∀ (es : List (Bytes × G F × List Tok)) (e : Bytes × G F × List Tok) (acc : List (Bytes × G F)),
        (∀ x ∈ e :: es, ∀ (st : List (Frame F)) (rest : List Tok), st.length + d ≤ maxDepth →
          run pf (.val, st) (x.2.2 ++ rest) = run pf (.done x.2.1, st) rest) →
        run pf (.key, .obj acc :: st) (commas ((e :: es).map fun e => .str e.1 :: .colon :: e.2.2) ++ .rbrace :: rest) =
          run pf (.done (.map (assign acc ((e :: es).map fun e => (e.1, e.2.1)))), st) rest := by
      intro es
      induction es with
      | nil =>
        intro e acc h
        have := h e (by simp) (.objVal acc e.1 :: st) (.rbrace :: rest) (by simp; omega)
        simp only [List.map_cons, List.map_nil, commas, List.cons_append, run, step]
        rw [this]
        rfl
      | cons e' es ihs =>
        intro e acc h
        have := h e (by simp) (.objVal acc e.1 :: st)
          (.comma :: (commas ((e' :: es).map fun e => .str e.1 :: .colon :: e.2.2) ++ .rbrace :: rest)) (by simp; omega)
        have ih := ihs e' (ins e.1 e.2.1 acc) (fun x hx => h x (by simp at hx ⊢; tauto))
        simp only [List.map_cons, commas, List.append_assoc, List.cons_append, run, step] at this ih ⊢
        rw [this, ih]
        rfl
    cases es with
    | nil => simp [commas, run, step, beginVal, hlt, assign]
    | cons e es =>
      have h1 := items es e [] (fun x hx => ih x hx)
      have hhead : ∃ ws, commas ((e :: es).map fun e => .str e.1 :: .colon :: e.2.2) ++ .rbrace :: rest = .str e.1 :: ws := by
        cases es with
        | nil => exact ⟨_, by simp only [List.map_cons, List.map_nil, commas, List.cons_append]; rfl⟩
        | cons e' es => exact ⟨_, by simp only [List.map_cons, commas, List.cons_append]; rfl⟩
      obtain ⟨ws, hws⟩ := hhead
      have e1 : Tok.lbrace :: commas ((e :: es).map fun e => .str e.1 :: .colon :: e.2.2) ++ [.rbrace] ++ rest = .lbrace :: .str e.1 :: ws := by
        rw [← hws]; simp
      rw [e1]
      rw [hws] at h1
      have e2 : run pf (.val, st) (.lbrace :: .str e.1 :: ws) = run pf (.key, .obj [] :: st) (.str e.1 :: ws) := by
        simp [run, step, beginVal, hlt]
      rw [e2, h1]

/-! ## What it accepts -/

theorem commas_concat (l : List (List Tok)) (t : List Tok) : commas (l ++ [t]) = l.flatMap (fun u => u ++ [.comma]) ++ t := by
  induction l with
  | nil => rfl
  | cons u l ih =>
    cases l with
    | nil => simp [commas]
    | cons w l =>
      have : commas (u :: w :: l ++ [t]) = u ++ .comma :: commas (w :: l ++ [t]) := by
        cases l <;> rfl
      rw [this, ih]
      simp

/-- What was read before the value (or key) that is due. -/
inductive Pre (pf : Bytes → Option F) : List (Frame F) → List Tok → Prop where
  | nil : Pre pf [] []
  | arr {st p} (es : List (G F × List Tok)) : Pre pf st p → st.length < maxDepth →
      (∀ e ∈ es, Means pf (maxDepth - (st.length + 1)) e.1 e.2) →
      Pre pf (.arr (es.map (·.1)) :: st) (p ++ .lbrack :: (es.map (·.2)).flatMap (fun u => u ++ [.comma]))
  | obj {st p} (es : List (Bytes × G F × List Tok)) : Pre pf st p → st.length < maxDepth →
      (∀ e ∈ es, Means pf (maxDepth - (st.length + 1)) e.2.1 e.2.2) →
      Pre pf (.obj (assign [] (es.map fun e => (e.1, e.2.1))) :: st)
        (p ++ .lbrace :: (es.map fun e => .str e.1 :: .colon :: e.2.2).flatMap (fun u => u ++ [.comma]))
  | val {st p acc} (k : Bytes) : Pre pf (.obj acc :: st) p → Pre pf (.objVal acc k :: st) (p ++ [.str k, .colon])

/-- The state after the tokens p. -/
def Inv (pf : Bytes → Option F) : St F → List Tok → Prop
  | (.val, st), p => Pre pf st p
  | (.valOrEnd, st), p => Pre pf st p ∧ ∃ st' p', st = .arr [] :: st' ∧ p = p' ++ [.lbrack] ∧ Pre pf st' p' ∧ st'.length < maxDepth
  | (.key, st), p => Pre pf st p ∧ ∃ acc st', st = .obj acc :: st'
  | (.keyOrEnd, st), p => Pre pf st p ∧ ∃ st' p', st = .obj [] :: st' ∧ p = p' ++ [.lbrace] ∧ Pre pf st' p' ∧ st'.length < maxDepth
  | (.colon, st), p => ∃ acc k st' p', st = .objVal acc k :: st' ∧ p = p' ++ [.str k] ∧ Pre pf (.obj acc :: st') p'
  | (.done v, st), p => ∃ p' ts, p = p' ++ ts ∧ Pre pf st p' ∧ Means pf (maxDepth - st.length) v ts

theorem inv_beginVal {st : List (Frame F)} {p : List Tok} {t : Tok} {s' : St F} (hp : Pre pf st p) (h : beginVal pf st t = some s') :
    Inv pf s' (p ++ [t]) := by
  cases t with
  | null => simp [beginVal] at h; subst h; exact ⟨p, _, rfl, hp, .null⟩
  | true => simp [beginVal] at h; subst h; exact ⟨p, _, rfl, hp, .true⟩
  | false => simp [beginVal] at h; subst h; exact ⟨p, _, rfl, hp, .false⟩
  | str s => simp [beginVal] at h; subst h; exact ⟨p, _, rfl, hp, .str⟩
  | num t =>
    simp [beginVal] at h
    obtain ⟨x, hx, rfl⟩ := h
    exact ⟨p, _, rfl, hp, .num hx⟩
  | lbrack =>
    simp [beginVal] at h
    obtain ⟨hl, rfl⟩ := h
    exact ⟨.arr [] hp hl (by simp), st, p, rfl, rfl, hp, hl⟩
  | lbrace =>
    simp [beginVal] at h
    obtain ⟨hl, rfl⟩ := h
    exact ⟨.obj [] hp hl (by simp), st, p, rfl, rfl, hp, hl⟩
  | rbrace => simp [beginVal] at h
  | rbrack => simp [beginVal] at h
  | colon => simp [beginVal] at h
  | comma => simp [beginVal] at h

theorem inv_step {s s' : St F} {p : List Tok} {t : Tok} (hi : Inv pf s p) (h : step pf s t = some s') : Inv pf s' (p ++ [t]) := by
  unfold step at h
  split at h
  · exact inv_beginVal hi h
  · -- [ ]
    rename_i acc st
    simp at h
    subst h
    obtain ⟨-, st', p', he, rfl, hp, hl⟩ := hi
    simp at he
    obtain ⟨rfl, rfl⟩ := he
    refine ⟨p', [.lbrack, .rbrack], by simp, hp, ?_⟩
    rw [show maxDepth - st.length = maxDepth - (st.length + 1) + 1 by omega]
    exact .arr [] (by simp)
  · exact inv_beginVal hi.1 h
  · -- key
    rename_i acc st k
    simp at h
    subst h
    exact ⟨acc, k, st, p, rfl, rfl, hi.1⟩
  · rename_i acc st k
    simp at h
    subst h
    exact ⟨acc, k, st, p, rfl, rfl, hi.1⟩
  · -- { }
    rename_i acc st
    simp at h
    subst h
    obtain ⟨-, st', p', he, rfl, hp, hl⟩ := hi
    simp at he
    obtain ⟨rfl, rfl⟩ := he
    refine ⟨p', [.lbrace, .rbrace], by simp, hp, ?_⟩
    rw [show maxDepth - st.length = maxDepth - (st.length + 1) + 1 by omega]
    exact .obj [] (by simp) (isMap_assign [])
  · -- colon
    simp at h
    subst h
    obtain ⟨acc, k, st', p', rfl, rfl, hp⟩ := hi
    have := Pre.val k hp
    show Pre _ _ _
    simpa using this
  · -- , in an array
    rename_i v acc st
    simp at h
    subst h
    obtain ⟨p', ts, rfl, hp, hv⟩ := hi
    cases hp with
    | @arr _ p0 es h1 h2 h3 =>
      have := Pre.arr (es ++ [(v, ts)]) h1 h2 (by
        intro e he
        rcases List.mem_append.1 he with he | he
        · exact h3 e he
        · simp at he; subst he; exact hv)
      show Pre _ _ _
      simpa using this
  · -- ]
    rename_i v acc st
    simp at h
    subst h
    obtain ⟨p', ts, rfl, hp, hv⟩ := hi
    cases hp with
    | @arr _ p0 es h1 h2 h3 =>
      refine ⟨p0, .lbrack :: commas ((es ++ [(v, ts)]).map (·.2)) ++ [.rbrack], ?_, h1, ?_⟩
      · rw [List.map_append, List.map_cons, List.map_nil, commas_concat]; simp
      · rw [show maxDepth - st.length = maxDepth - (st.length + 1) + 1 by omega]
        have := Means.arr (pf := pf) (d := maxDepth - (st.length + 1)) (es ++ [(v, ts)]) (by
          intro e he
          rcases List.mem_append.1 he with he | he
          · exact h3 e he
          · simp at he; subst he; exact hv)
        simpa using this
  · -- , in an object
    rename_i v acc k st
    simp at h
    subst h
    obtain ⟨p', ts, rfl, hp, hv⟩ := hi
    cases hp with
    | val _ hp =>
      cases hp with
      | @obj _ p0 es h1 h2 h3 =>
        have := Pre.obj (es ++ [(k, v, ts)]) h1 h2 (by
          intro e he
          rcases List.mem_append.1 he with he | he
          · exact h3 e he
          · simp at he; subst he; exact hv)
        have ea : assign [] ((es ++ [(k, v, ts)]).map fun e => (e.1, e.2.1)) = ins k v (assign [] (es.map fun e => (e.1, e.2.1))) := by
          simp [assign, List.foldl_append]
        rw [ea] at this
        refine ⟨?_, _, _, rfl⟩
        simpa using this
  · -- }
    rename_i v acc k st
    simp at h
    subst h
    obtain ⟨p', ts, rfl, hp, hv⟩ := hi
    cases hp with
    | val _ hp =>
      cases hp with
      | @obj _ p0 es h1 h2 h3 =>
        refine ⟨p0, .lbrace :: commas ((es ++ [(k, v, ts)]).map fun e => .str e.1 :: .colon :: e.2.2) ++ [.rbrace], ?_, h1, ?_⟩
        · rw [List.map_append, List.map_cons, List.map_nil, commas_concat]; simp
        · rw [show maxDepth - st.length = maxDepth - (st.length + 1) + 1 by omega]
          refine Means.obj (pf := pf) (d := maxDepth - (st.length + 1)) (es ++ [(k, v, ts)]) ?_ ?_
          · intro e he
            rcases List.mem_append.1 he with he | he
            · exact h3 e he
            · simp at he; subst he; exact hv
          · have ea : assign [] ((es ++ [(k, v, ts)]).map fun e => (e.1, e.2.1)) = ins k v (assign [] (es.map fun e => (e.1, e.2.1))) := by
              simp [assign, List.foldl_append]
            rw [← ea]
            exact isMap_assign _
  · simp at h

theorem inv_run (us : List Tok) : ∀ (s s' : St F) (p : List Tok), Inv pf s p → run pf s us = some s' → Inv pf s' (p ++ us) := by
  induction us with
  | nil => intro s s' p hi h; simp [run] at h; subst h; simpa using hi
  | cons t us ih =>
    intro s s' p hi h
    unfold run at h
    split at h
    · rename_i s1 hs
      have := ih s1 s' _ (inv_step hi hs) h
      simpa using this
    · simp at h

theorem run_sound {ts : List Tok} {v : G F} (h : run pf (.val, []) ts = some (.done v, [])) : Means pf maxDepth v ts := by
  obtain ⟨p, us, he, hp, hm⟩ := inv_run ts _ _ [] (show Inv pf (.val, []) [] from Pre.nil) h
  cases hp
  simp at he
  subst he
  exact hm

/-! ## Numbers are apart -/

theorem apart_cons {t : Tok} (ht : t.isNum = false) {ts : List Tok} (h : Apart ts) : Apart (t :: ts) := by
  cases ts with
  | nil => trivial
  | cons u ts => exact ⟨by simp [ht], h⟩

theorem apart_prefix : ∀ {ts us : List Tok}, Apart (ts ++ us) → Apart ts
  | [], _, _ => trivial
  | [_], _, _ => trivial
  | _ :: u :: ts, us, h => ⟨h.1, apart_prefix (ts := u :: ts) h.2⟩

theorem means_apart {d : Nat} {v : G F} {ts : List Tok} (h : Means pf d v ts) : ∀ (u : Tok) (rest : List Tok),
    u = .comma ∨ u = .rbrack ∨ u = .rbrace → Apart (u :: rest) → Apart (ts ++ u :: rest) := by
  have notnum : ∀ u : Tok, u = .comma ∨ u = .rbrack ∨ u = .rbrace → u.isNum = false := by rintro u (rfl | rfl | rfl) <;> rfl
  induction h with
  | null => intro u rest _ h; exact apart_cons rfl h
  | true => intro u rest _ h; exact apart_cons rfl h
  | false => intro u rest _ h; exact apart_cons rfl h
  | str => intro u rest _ h; exact apart_cons rfl h
  | num hx => intro u rest hu h; exact ⟨fun _ => hu, h⟩
  | @arr d es _ ih =>
    intro u rest hu hr
    have items : ∀ es : List (G F × List Tok), (∀ e ∈ es, ∀ (u : Tok) (rest : List Tok), u = .comma ∨ u = .rbrack ∨ u = .rbrace →
        Apart (u :: rest) → Apart (e.2 ++ u :: rest)) → Apart (commas (es.map (·.2)) ++ .rbrack :: u :: rest) := by
      intro es
      induction es with
      | nil => intro _; exact apart_cons rfl hr
      | cons e es ihs =>
        intro h
        cases es with
        | nil => exact h e (by simp) .rbrack _ (by simp) (apart_cons rfl hr)
        | cons e' es =>
          have := h e (by simp) .comma _ (.inl rfl) (apart_cons rfl (ihs fun x hx => h x (by simp at hx ⊢; tauto)))
          simpa [commas] using this
    have := apart_cons (t := .lbrack) rfl (items es ih)
    simpa using this
  | @obj d m es _ _ ih =>
    intro u rest hu hr
    have items : ∀ es : List (Bytes × G F × List Tok), (∀ e ∈ es, ∀ (u : Tok) (rest : List Tok), u = .comma ∨ u = .rbrack ∨ u = .rbrace →
        Apart (u :: rest) → Apart (e.2.2 ++ u :: rest)) →
        Apart (commas (es.map fun e => .str e.1 :: .colon :: e.2.2) ++ .rbrace :: u :: rest) := by
      intro es
      induction es with
      | nil => intro _; exact apart_cons rfl hr
      | cons e es ihs =>
        intro h
        cases es with
        | nil => exact apart_cons rfl (apart_cons rfl (h e (by simp) .rbrace _ (by simp) (apart_cons rfl hr)))
        | cons e' es =>
          have := apart_cons (t := .str e.1) rfl (apart_cons (t := .colon) rfl
            (h e (by simp) .comma _ (.inl rfl) (apart_cons rfl (ihs fun x hx => h x (by simp at hx ⊢; tauto)))))
          simpa [commas] using this
    have := apart_cons (t := .lbrace) rfl (items es ih)
    simpa using this

end Gears.Dto
