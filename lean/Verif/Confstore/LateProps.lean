import Verif.Confstore.Late

/-
C145: configurations in redis over a network that delays and loses commands.
-/

namespace Gears.Confstore.Late

open Gears.Confstore

variable {V : Type}

/-- **C145.**  Redis has no values but those it had and those of the commands of calls: a call's pairs, as they were given. -/
theorem C145_values (R : Nat) (hash : String → Option String) (as : List (Act V)) (c : LNet V) (h : exec (step R) (lnInit V hash) as = some c)
    (k v : String) (hv : c.hash k = some v) : hash k = some v ∨ ∃ id l, c.cmd id = some (.set l) ∧ (⟨k, v⟩ : KVStr) ∈ l := by
  revert v
  refine exec_inv (I := fun c => ∀ v, c.hash k = some v → hash k = some v ∨ ∃ id l, c.cmd id = some (.set l) ∧ (⟨k, v⟩ : KVStr) ∈ l) ?_ as _ _ ?_ h
  · intro s a s' hI hs v hv
    have keep : s.hash k = some v → hash k = some v ∨ ∃ id l, s'.cmd id = some (.set l) ∧ (⟨k, v⟩ : KVStr) ∈ l := by
      intro h0
      rcases hI v h0 with h | ⟨id, l, h1, h2⟩
      · exact .inl h
      · exact .inr ⟨id, l, cmd_keep hs h1, h2⟩
    cases kind hs with
    | quiet hh hl hc ht ho => exact keep (hh ▸ hv)
    | begin id' m' hn hno hh hl hc ht ho => exact keep (hh ▸ hv)
    | send id' hn hno hR hh hl hc ht ho => exact keep (hh ▸ hv)
    | done id' b hno hb hh hl hc ht ho => exact keep (hh ▸ hv)
    | run id' n m hm hn hnew hh hl hc ht ho =>
      rw [hh, apply_val] at hv
      cases hval : m.val k with
      | none => rw [hval] at hv; exact keep hv
      | some w =>
        rw [hval] at hv
        simp only [Option.getD_some] at hv
        subst hv
        cases m with
        | set l =>
          simp only [Cmd.val, Option.map_eq_some_iff, Option.some.injEq] at hval
          obtain ⟨v', h1, rfl⟩ := hval
          exact .inr ⟨id', l, cmd_keep hs hm, lastOf_mem h1⟩
        | del k' =>
          simp only [Cmd.val] at hval
          split at hval <;> simp at hval
  · intro v hv
    exact .inl hv

/-- The calls that write or delete field `k` have returned. -/
def Returned (k : String) (c : LNet V) : Prop := ∀ id m, c.cmd id = some m → m.val k ≠ none → c.out id ≠ none

/-- None of their transmissions is still on its way. -/
def Landed (k : String) (c : LNet V) : Prop := ∀ id m, c.cmd id = some m → m.val k ≠ none → ∀ n, n < c.tries id → ∃ e ∈ c.log, e.id = id ∧ e.n = n

/-- Between `c0` and `c` no call that writes or deletes field `k` has begun but `a`. -/
def Only (k : String) (a : Nat) (c0 c : LNet V) : Prop := ∀ id m, c.cmd id = some m → m.val k ≠ none → c0.cmd id = none → id = a

/-- Invariant from `c0` on: who has changed field `k`. -/
structure Since (k : String) (a : Nat) (c0 c : LNet V) : Prop where
  old  : ∀ id m, c0.cmd id = some m → c.cmd id = some m ∧ (m.val k ≠ none → c.tries id = c0.tries id ∧ c.out id = c0.out id)
  grow : ∀ e ∈ c0.log, e ∈ c.log
  src  : (c.hash k = c0.hash k ∧ ∀ e ∈ c.log, e.id ≠ a) ∨ (∃ m, c.cmd a = some m ∧ m.val k = some (c.hash k)) ∨
    (∃ id m n, c0.cmd id = some m ∧ m.val k = some (c.hash k) ∧ n < c0.tries id ∧ ∀ e ∈ c0.log, ¬ (e.id = id ∧ e.n = n))

theorem since_step {R : Nat} {k : String} {a : Nat} {c0 c c' : LNet V} {x : Act V} (hret : Returned k c0) (hs : step R c x = some c') (honly : Only k a c0 c') (h : Since k a c0 c) (hk : ∀ m, c'.cmd a = some m → m.val k ≠ none) : Since k a c0 c' := by
  obtain ⟨h1, h2, h3⟩ := h
  cases kind hs with
  | quiet hh hl hc ht ho => exact ⟨by rw [hc, ht, ho]; exact h1, by rw [hl]; exact h2, by rw [hh, hl, hc]; exact h3⟩
  | begin id m hn hno hh hl hc ht ho =>
    refine ⟨?_, by rw [hl]; exact h2, ?_⟩
    · intro i m' hi
      have := h1 i m' hi
      have hne : i ≠ id := by rintro rfl; rw [hn] at this; simp at this
      rw [hc, ht, ho]
      simpa [upd, hne] using this
    · rw [hh, hl]
      rcases h3 with h | ⟨m', h, h'⟩ | h
      · exact .inl h
      · exact .inr (.inl ⟨m', cmd_keep hs h, h'⟩)
      · exact .inr (.inr h)
  | send id hn hno hR hh hl hc ht ho =>
    refine ⟨?_, by rw [hl]; exact h2, by rw [hh, hl, hc]; exact h3⟩
    intro i m' hi
    have h4 := h1 i m' hi
    rw [hc, ht, ho]
    refine ⟨h4.1, fun hv => ?_⟩
    have h5 := h4.2 hv
    have hne : i ≠ id := by
      rintro rfl
      have := hret i m' hi hv
      rw [← h5.2] at this
      exact this hno
    simpa [upd, hne] using h5
  | done id b hno hb hh hl hc ht ho =>
    refine ⟨?_, by rw [hl]; exact h2, by rw [hh, hl, hc]; exact h3⟩
    intro i m' hi
    have h4 := h1 i m' hi
    rw [hc, ht, ho]
    refine ⟨h4.1, fun hv => ?_⟩
    have h5 := h4.2 hv
    have hne : i ≠ id := by
      rintro rfl
      have := hret i m' hi hv
      rw [← h5.2] at this
      exact this hno
    simpa [upd, hne] using h5
  | run id n m hm hn hnew hh hl hc ht ho =>
    refine ⟨by rw [hc, ht, ho]; exact h1, fun e he => by rw [hl]; simp [h2 e he], ?_⟩
    rw [hh, apply_val, hc]
    cases hval : m.val k with
    | none =>
      simp only [Option.getD_none]
      have hne : id ≠ a := by
        rintro rfl
        exact hk m (by rw [hc]; exact hm) hval
      rcases h3 with ⟨h, h'⟩ | h | h
      · left
        refine ⟨h, fun e he => ?_⟩
        rw [hl, List.mem_append, List.mem_singleton] at he
        rcases he with he | rfl
        · exact h' e he
        · exact hne
      · exact .inr (.inl h)
      · exact .inr (.inr h)
    | some w =>
      simp only [Option.getD_some]
      right
      cases h0id : c0.cmd id with
      | none =>
        have := honly id m (by rw [hc]; exact hm) (by rw [hval]; simp) h0id
        subst this
        exact .inl ⟨m, hm, hval⟩
      | some m0 =>
        have h4 := h1 id m0 h0id
        have hmm : m0 = m := by
          have := h4.1
          rw [hm] at this
          exact (Option.some.inj this).symm
        subst hmm
        refine .inr ⟨id, m0, n, h0id, hval, ?_, fun e he => hnew e (h2 e he)⟩
        rw [← (h4.2 (by rw [hval]; simp)).1]
        exact hn

theorem since_run {R : Nat} {k : String} {a : Nat} {c0 : LNet V} (hret : Returned k c0) (h0 : c0.cmd a = none) : ∀ (bs : List (Act V)) (c c' : LNet V), Inv R c →
    exec (step R) c bs = some c' → Only k a c0 c' → (∀ m, c'.cmd a = some m → m.val k ≠ none) → Since k a c0 c → Since k a c0 c'
  | [], c, c', hi, h, ho, hk, hs => by simp only [exec, Option.some.injEq] at h; subst h; exact hs
  | x :: bs, c, c', hi, h, ho, hk, hs => by
    simp only [exec] at h
    split at h
    · rename_i c1 h1
      have keep : ∀ (bs : List (Act V)) (c c' : LNet V), exec (step R) c bs = some c' → ∀ id m, c.cmd id = some m → c'.cmd id = some m := by
        intro bs
        induction bs with
        | nil => intro c c' h id m hc; simp only [exec, Option.some.injEq] at h; subst h; exact hc
        | cons y bs ih =>
          intro c c' h id m hc
          simp only [exec] at h
          split at h
          · rename_i c2 h2
            exact ih c2 c' h id m (cmd_keep h2 hc)
          · simp at h
      refine since_run hret h0 bs c1 c' (inv_step R c x c1 hi h1) h ho hk (since_step hret h1 ?_ hs ?_)
      · intro id m hc hv hn
        exact ho id m (keep bs c1 c' h id m hc) hv hn
      · intro m hc
        exact hk m (keep bs c1 c' h a m hc)
    · simp at h

theorem since_refl {R : Nat} {k : String} {a : Nat} {c0 : LNet V} (hinv : Inv R c0) (h0 : c0.cmd a = none) : Since k a c0 c0 := by
  refine ⟨fun id m h => ⟨h, fun _ => ⟨rfl, rfl⟩⟩, fun e he => he, .inl ⟨rfl, fun e he h => ?_⟩⟩
  have := (hinv.calls e he).1
  rw [h, h0] at this
  simp at this

/-- **C145, partial.**  When all calls for field `k` have returned and a further one is answered, redis holds what that one wrote,
or what an earlier one wrote whose transmission was then still on its way.  Missing: the first alternative alone
(`C145_failed_violated`, `C145_acked_violated`). -/
theorem C145_old_partial (R : Nat) (hash : String → Option String) (as bs : List (Act V)) (c0 c : LNet V)
    (h0 : exec (step R) (lnInit V hash) as = some c0) (h : exec (step R) c0 bs = some c) (k : String) (hret : Returned k c0) (a : Nat) (m : Cmd) (v : Option String)
    (ha0 : c0.cmd a = none) (hm : c.cmd a = some m) (hv : m.val k = some v) (hack : c.out a = some true) (honly : Only k a c0 c) :
    c.hash k = v ∨ ∃ id m' n, c0.cmd id = some m' ∧ m'.val k = some (c.hash k) ∧ n < c0.tries id ∧ ∀ e ∈ c0.log, ¬ (e.id = id ∧ e.n = n) := by
  have hi0 := inv h0
  have hi : Inv R c := exec_inv (inv_step R) bs _ _ hi0 h
  have hs := since_run hret ha0 bs c0 c hi0 h honly (by
    intro m' hm'
    rw [hm] at hm'
    cases hm'
    rw [hv]; simp) (since_refl hi0 ha0)
  rcases hs.src with ⟨-, hno⟩ | ⟨m', hm', hv'⟩ | hold
  · obtain ⟨e, he, h1, -⟩ := hi.acked a m hm hack
    exact absurd h1 (hno e he)
  · left
    rw [hm] at hm'
    cases hm'
    rw [hv] at hv'
    exact (Option.some.inj hv').symm
  · exact .inr hold

/-- **C145, partial.**  When all calls for field `k` have returned and none of their transmissions is on its way, a further call that
is answered, even if it was sent several times, has its value in redis as long as no other begins. -/
theorem C145_landed_partial (R : Nat) (hash : String → Option String) (as bs : List (Act V)) (c0 c : LNet V)
    (h0 : exec (step R) (lnInit V hash) as = some c0) (h : exec (step R) c0 bs = some c) (k : String) (hret : Returned k c0) (hland : Landed k c0) (a : Nat) (m : Cmd)
    (v : Option String) (ha0 : c0.cmd a = none) (hm : c.cmd a = some m) (hv : m.val k = some v) (hack : c.out a = some true) (honly : Only k a c0 c) :
    c.hash k = v := by
  rcases C145_old_partial R hash as bs c0 c h0 h k hret a m v ha0 hm hv hack honly with h | ⟨id, m', n, h1, h2, h3, h4⟩
  · exact h
  · obtain ⟨e, he, h5⟩ := hland id m' h1 (by rw [h2]; simp) n h3
    exact absurd h5 (h4 e he)

/-- C145 (full statement): when all calls for field `k` have returned and a further one is answered by redis, its value stays until
another begins. -/
def C145Claim (V : Type) (R : Nat) : Prop :=
  ∀ (hash : String → Option String) (as bs : List (Act V)) (c0 c : LNet V), exec (step R) (lnInit V hash) as = some c0 → exec (step R) c0 bs = some c →
  ∀ (k : String) (a : Nat) (m : Cmd) (v : Option String), Returned k c0 → c0.cmd a = none → c.cmd a = some m → m.val k = some v → c.out a = some true →
  Only k a c0 c → c.hash k = v

/-- The same, if every call was answered. -/
def C145AckedClaim (V : Type) (R : Nat) : Prop :=
  ∀ (hash : String → Option String) (as bs : List (Act V)) (c0 c : LNet V), exec (step R) (lnInit V hash) as = some c0 → exec (step R) c0 bs = some c →
  ∀ (k : String) (a : Nat) (m : Cmd) (v : Option String), (∀ id b, c0.out id = some b → b = true) →
  Returned k c0 → c0.cmd a = none → c.cmd a = some m → m.val k = some v → c.out a = some true →
  Only k a c0 c → c.hash k = v

/-- **C145, partial.**  Without sending again, if every call was answered. -/
theorem C145_once_partial : C145AckedClaim V 0 := by
  intro hash as bs c0 c h0 h k a m v hall hret ha0 hm hv hack honly
  refine C145_landed_partial 0 hash as bs c0 c h0 h k hret ?_ a m v ha0 hm hv hack honly
  have hi := inv h0
  intro id m' hc hk n hn
  have hout := hret id m' hc hk
  cases ho : c0.out id with
  | none => exact absurd ho hout
  | some b =>
    have := hall id b ho
    subst this
    obtain ⟨e, he, h1, h2⟩ := hi.acked id m' hc ho
    have := hi.few id
    exact ⟨e, he, h1, by omega⟩

/-! ### Violations -/

theorem step_mono {R R' : Nat} (h : R ≤ R') {c c' : LNet V} {a : Act V} (hs : step R c a = some c') : step R' c a = some c' := by
  cases a with
  | send id =>
    simp only [step, Option.ite_none_right_eq_some] at hs ⊢
    exact ⟨⟨hs.1.1, hs.1.2.1, by omega⟩, hs.2⟩
  | _ => exact hs

theorem exec_mono {R R' : Nat} (h : R ≤ R') : ∀ (as : List (Act V)) (c c' : LNet V), exec (step R) c as = some c' → exec (step R') c as = some c'
  | [], c, c', hs => hs
  | a :: as, c, c', hs => by
    simp only [exec] at hs ⊢
    cases h1 : step R c a with
    | none => simp [h1] at hs
    | some s1 =>
      rw [h1] at hs
      rw [step_mono h h1]
      exact exec_mono h as s1 c' hs

/-- If the action begins a call, its number satisfies `P`. -/
def Begins (P : Nat → Prop) : Act V → Prop
  | .batch id _ _ => P id
  | .update id _ _ _ => P id
  | .reset id _ _ => P id
  | .deregister id _ _ => P id
  | _ => True

/-- Which calls there are. -/
theorem started {R : Nat} (P : Nat → Prop) (as : List (Act V)) (c c' : LNet V) (hc : ∀ id, ¬ P id → c.cmd id = none)
    (hP : ∀ a ∈ as, Begins P a)
    (h : exec (step R) c as = some c') : ∀ id, ¬ P id → c'.cmd id = none := by
  have hb : ∀ (c c' : LNet V) (id i : Nat) (s : State V) (m : Option Cmd), P id → (∀ id, ¬ P id → c.cmd id = none) → c.begin id i s m = some c' →
      ∀ id, ¬ P id → c'.cmd id = none := by
    intro c c' id i s m hp hc hs j hj
    simp only [LNet.begin, Option.ite_none_right_eq_some, Option.some.injEq] at hs
    obtain ⟨-, rfl⟩ := hs
    have : j ≠ id := by rintro rfl; exact hj hp
    simp [upd, this, hc j hj]
  refine exec_inv_on (I := fun c => ∀ id, ¬ P id → c.cmd id = none) (P := Begins P) ?_ as c c' hP hc h
  intro s a s' hp hI hs
  cases a with
  | batch id i l => exact hb _ _ _ _ _ _ hp hI hs
  | update id i k v =>
    simp only [step] at hs
    split at hs <;> exact hb _ _ _ _ _ _ hp hI hs
  | reset id i k => exact hb _ _ _ _ _ _ hp hI hs
  | deregister id i k => exact hb _ _ _ _ _ _ hp hI hs
  | register i k d vp =>
    simp only [step, Option.some.injEq] at hs
    subst hs
    exact hI
  | load i ks =>
    simp only [step, Option.some.injEq] at hs
    subst hs
    exact hI
  | send id =>
    simp only [step, Option.ite_none_right_eq_some, Option.some.injEq] at hs
    obtain ⟨-, rfl⟩ := hs
    exact hI
  | run id n =>
    simp only [step] at hs
    split at hs
    · simp at hs
    · simp only [Option.ite_none_right_eq_some, Option.some.injEq] at hs
      obtain ⟨-, rfl⟩ := hs
      exact hI
  | ack id =>
    simp only [step, Option.ite_none_right_eq_some, Option.some.injEq] at hs
    obtain ⟨-, rfl⟩ := hs
    exact hI
  | fail id =>
    simp only [step, Option.ite_none_right_eq_some, Option.some.injEq] at hs
    obtain ⟨-, rfl⟩ := hs
    exact hI

/-- Without `fail` every call that has returned was answered. -/
theorem all_acked {R : Nat} (as : List (Act V)) (c c' : LNet V) (hc : ∀ id b, c.out id = some b → b = true) (hP : ∀ a ∈ as, ∀ id, a ≠ .fail id)
    (h : exec (step R) c as = some c') : ∀ id b, c'.out id = some b → b = true := by
  have hb : ∀ (c c' : LNet V) (id i : Nat) (s : State V) (m : Option Cmd), (∀ id b, c.out id = some b → b = true) → c.begin id i s m = some c' →
      ∀ id b, c'.out id = some b → b = true := by
    intro c c' id i s m hc hs j b hj
    simp only [LNet.begin, Option.ite_none_right_eq_some, Option.some.injEq] at hs
    obtain ⟨-, rfl⟩ := hs
    simp only [upd] at hj
    split at hj
    · split at hj
      · exact (Option.some.inj hj).symm
      · simp at hj
    · exact hc j b hj
  refine exec_inv_on (I := fun c => ∀ id b, c.out id = some b → b = true) (P := fun a => ∀ id, a ≠ .fail id) ?_ as c c' hP hc h
  intro s a s' hp hI hs
  cases a with
  | batch id i l => exact hb _ _ _ _ _ _ hI hs
  | update id i k v =>
    simp only [step] at hs
    split at hs <;> exact hb _ _ _ _ _ _ hI hs
  | reset id i k => exact hb _ _ _ _ _ _ hI hs
  | deregister id i k => exact hb _ _ _ _ _ _ hI hs
  | register i k d vp =>
    simp only [step, Option.some.injEq] at hs
    subst hs
    exact hI
  | load i ks =>
    simp only [step, Option.some.injEq] at hs
    subst hs
    exact hI
  | send id =>
    simp only [step, Option.ite_none_right_eq_some, Option.some.injEq] at hs
    obtain ⟨-, rfl⟩ := hs
    exact hI
  | run id n =>
    simp only [step] at hs
    split at hs
    · simp at hs
    · simp only [Option.ite_none_right_eq_some, Option.some.injEq] at hs
      obtain ⟨-, rfl⟩ := hs
      exact hI
  | ack id =>
    simp only [step, Option.ite_none_right_eq_some, Option.some.injEq] at hs
    obtain ⟨-, rfl⟩ := hs
    intro j b hj
    simp only [upd] at hj
    split at hj
    · exact (Option.some.inj hj).symm
    · exact hI j b hj
  | fail id => exact absurd rfl (hp id)

/-- Process 0 sets the key; the first transmission is delayed, the second one answered. -/
def sentTwice : List (Act Nat) :=
  [.register 0 "a" "0" (some lenProc), .register 1 "a" "0" (some lenProc), .batch 0 0 [⟨"a", "old"⟩], .send 0, .send 0, .run 0 1, .ack 0]

/-- Process 0 sets the key; the transmission is delayed and the call gives up. -/
def givenUp : List (Act Nat) :=
  [.register 0 "a" "0" (some lenProc), .register 1 "a" "0" (some lenProc), .batch 0 0 [⟨"a", "old"⟩], .send 0, .fail 0]

/-- Process 0 sets the key again, with success. -/
def again : List (Act Nat) := [.batch 1 0 [⟨"a", "new"⟩], .send 1, .run 1 0, .ack 1]

/-- The witness: after `again` the delayed transmission arrives. -/
theorem late_wins {R R0 : Nat} (hR : R0 ≤ R) (pre : List (Act Nat)) (hpre : ∀ a ∈ pre, Begins (· = 0) a)
    (h1 : (exec (step R0) (lnInit Nat fun _ => none) pre).map (fun c => (c.cmd 0, (c.out 0).isSome, c.cmd 1)) = some (some (.set [⟨"a", "old"⟩]), true, none))
    (h2 : (exec (step R0) (lnInit Nat fun _ => none) (pre ++ (again ++ [.run 0 0]))).map (fun c => (c.cmd 1, c.out 1, c.hash "a")) =
      some (some (.set [⟨"a", "new"⟩]), some true, some "old")) :
    ∃ c0 c, exec (step R) (lnInit Nat fun _ => none) pre = some c0 ∧ exec (step R) c0 (again ++ [.run 0 0]) = some c ∧ Returned "a" c0 ∧ c0.cmd 1 = none ∧
      c.cmd 1 = some (.set [⟨"a", "new"⟩]) ∧ c.out 1 = some true ∧ Only "a" 1 c0 c ∧ c.hash "a" = some "old" := by
  rw [Option.map_eq_some_iff] at h1 h2
  obtain ⟨c0, e0, h1⟩ := h1
  obtain ⟨c, e, h2⟩ := h2
  simp only [Prod.mk.injEq] at h1 h2
  rw [exec_append, e0] at e
  have e' : exec (step R0) c0 (again ++ [.run 0 0]) = some c := e
  have s0 := started (· = 0) pre _ _ (by intros; rfl) hpre e0
  have s1 := started (fun i => i = 0 ∨ i = 1) _ _ _ (fun id hid => s0 id (fun h => hid (.inl h))) (by
    intro a ha
    simp only [again, List.cons_append, List.nil_append, List.mem_cons, List.not_mem_nil, or_false] at ha
    rcases ha with rfl | rfl | rfl | rfl | rfl <;> simp [Begins]) e'
  refine ⟨c0, c, exec_mono hR _ _ _ e0, exec_mono hR _ _ _ e', ?_, h1.2.2, h2.1, h2.2.1, ?_, h2.2.2⟩
  · intro id m hm _ ho
    by_cases hid : id = 0
    · subst hid
      rw [ho] at h1
      simp at h1
    · rw [s0 id hid] at hm
      simp at hm
  · intro id m hm _ h0
    by_cases hid : id = 0 ∨ id = 1
    · rcases hid with rfl | rfl
      · rw [h1.1] at h0; simp at h0
      · rfl
    · rw [s1 id hid] at hm
      simp at hm

/-- **C145 is violated**, with any `MaxRetries`: a command whose call has given up arrives after a later call was answered, and its
old value stays. -/
theorem C145_failed_violated (R : Nat) : ¬ C145Claim Nat R := by
  intro hcl
  obtain ⟨c0, c, e0, e, h1, h2, h3, h4, h5, h6⟩ := late_wins (R := R) (Nat.zero_le R) givenUp (by
    intro a ha
    simp only [givenUp, List.mem_cons, List.not_mem_nil, or_false] at ha
    rcases ha with rfl | rfl | rfl | rfl | rfl <;> simp [Begins]) (by decide +kernel) (by decide +kernel)
  have := hcl _ _ _ c0 c e0 e "a" 1 _ (some "new") h1 h2 h3 (by decide) h4 h5
  rw [h6] at this
  exact absurd this (by decide)

/-- **C145 is violated** with one retry or more even if every call was answered: the first of two transmissions of an answered call
arrives after a later call was answered. -/
theorem C145_acked_violated (R : Nat) (hR : 1 ≤ R) : ¬ C145AckedClaim Nat R := by
  intro hcl
  obtain ⟨c0, c, e0, e, h1, h2, h3, h4, h5, h6⟩ := late_wins hR sentTwice (by
    intro a ha
    simp only [sentTwice, List.mem_cons, List.not_mem_nil, or_false] at ha
    rcases ha with rfl | rfl | rfl | rfl | rfl | rfl | rfl <;> simp [Begins]) (by decide +kernel) (by decide +kernel)
  have hall := all_acked (R := R) _ _ c0 (by intro id b h; simp [lnInit] at h) (by
    intro a ha
    simp only [sentTwice, List.mem_cons, List.not_mem_nil, or_false] at ha
    rcases ha with rfl | rfl | rfl | rfl | rfl | rfl | rfl <;> simp) e0
  have := hcl _ _ _ c0 c e0 e "a" 1 _ (some "new") hall h1 h2 h3 (by decide) h4 h5
  rw [h6] at this
  exact absurd this (by decide)

/-- **C145 is violated** for readers: with every call answered, a process reads the new value and later, though nobody has called
anything in between, the old one. -/
theorem C145_reads_violated : ∃ c1 c2 : LNet Nat,
    exec (step 1) (lnInit Nat fun _ => none) (sentTwice ++ again ++ [.load 1 ["a"]]) = some c1 ∧ exec (step 1) c1 [.run 0 0, .load 1 ["a"]] = some c2 ∧
    getValueString (c1.node 1) "a" = some "new" ∧ getValueString (c2.node 1) "a" = some "old" :=
  ⟨_, _, rfl, rfl, by decide +kernel, by decide +kernel⟩

/-- Non-vacuity: the call was sent twice, both have landed, and the further call is answered. -/
example : ∃ c0 c : LNet Nat, exec (step 1) (lnInit Nat fun _ => none) (sentTwice ++ [.run 0 0]) = some c0 ∧ exec (step 1) c0 again = some c ∧
    c0.tries 0 = 2 ∧ c0.log.length = 2 ∧ c.out 1 = some true ∧ c.hash "a" = some "new" :=
  ⟨_, _, rfl, rfl, by decide +kernel, by decide +kernel, by decide +kernel, by decide +kernel⟩

end Gears.Confstore.Late
