import Verif.TtlRedis.Lemmas

/-
Lemmas for the admission bound C17.
-/

namespace Gears.TtlRedis

open SlidingWindow (Spaced)

/-- Lists live at non-block keys, strings at block keys. -/
structure Typed (BK : Str → Prop) (db : Db) : Prop where
  hlist : ∀ k l E, db k = some ⟨.list l, E⟩ → ¬ BK k
  hstr  : ∀ k m E, db k = some ⟨.str m, E⟩ → BK k

theorem typed_empty (BK : Str → Prop) : Typed BK Db.empty :=
  ⟨by intro k l E h; simp [Db.empty] at h, by intro k m E h; simp [Db.empty] at h⟩

theorem typed_set_list {BK : Str → Prop} {db : Db} (h : Typed BK db) {k : Str} (hk : ¬ BK k) (l : List Int)
    (E : Option Int) : Typed BK (db.set k (some ⟨.list l, E⟩)) := by
  constructor
  · intro k' l' E' he
    by_cases e : k' = k
    · subst e; exact hk
    · rw [set_ne _ _ e] at he; exact h.hlist _ _ _ he
  · intro k' l' E' he
    by_cases e : k' = k
    · subst e; rw [set_self] at he; simp at he
    · rw [set_ne _ _ e] at he; exact h.hstr _ _ _ he

theorem typed_set_str {BK : Str → Prop} {db : Db} (h : Typed BK db) {k : Str} (hk : BK k) (m : Str)
    (E : Option Int) : Typed BK (db.set k (some ⟨.str m, E⟩)) := by
  constructor
  · intro k' l' E' he
    by_cases e : k' = k
    · subst e; rw [set_self] at he; simp at he
    · rw [set_ne _ _ e] at he; exact h.hlist _ _ _ he
  · intro k' l' E' he
    by_cases e : k' = k
    · subst e; exact hk
    · rw [set_ne _ _ e] at he; exact h.hstr _ _ _ he

theorem typed_set_none {BK : Str → Prop} {db : Db} (h : Typed BK db) (k : Str) : Typed BK (db.set k none) := by
  constructor
  · intro k' l' E' he
    by_cases e : k' = k
    · subst e; rw [set_self] at he; simp at he
    · rw [set_ne _ _ e] at he; exact h.hlist _ _ _ he
  · intro k' l' E' he
    by_cases e : k' = k
    · subst e; rw [set_self] at he; simp at he
    · rw [set_ne _ _ e] at he; exact h.hstr _ _ _ he

theorem typed_rpush {BK : Str → Prop} {db : Db} (h : Typed BK db) {k : Str} (hk : ¬ BK k) (t v : Int) :
    Typed BK (rpush db t k v) := by
  unfold rpush
  split
  · exact typed_set_list h hk _ _
  · exact typed_set_list h hk _ _
  · exact h

theorem typed_lpop {BK : Str → Prop} {db : Db} (h : Typed BK db) {k : Str} (hk : ¬ BK k) (t : Int) :
    Typed BK (lpop db t k) := by
  unfold lpop
  split
  · exact typed_set_list h hk _ _
  · exact typed_set_none h _
  · exact h

theorem typed_lpopN {BK : Str → Prop} (n : Nat) {db : Db} (h : Typed BK db) {k : Str} (hk : ¬ BK k) (t : Int) :
    Typed BK (lpopN db t k n) := by
  induction n generalizing db with
  | zero => exact h
  | succ n ih => exact ih (typed_lpop h hk t)

theorem typed_expire {BK : Str → Prop} {db : Db} (h : Typed BK db) {k : Str} (hk : ¬ BK k) (t s : Int) :
    Typed BK (expire db t k s) := by
  unfold expire
  split
  · exact h
  · rename_i e he
    obtain ⟨hd, _⟩ := live_some he
    obtain ⟨v, ex⟩ := e
    cases v with
    | list l => exact typed_set_list h hk _ _
    | str m => exact absurd (h.hstr _ _ _ hd) hk

theorem typed_setExNx {BK : Str → Prop} {db : Db} (h : Typed BK db) {k : Str} (hk : BK k) (t : Int) (v : Str)
    (s : Int) : Typed BK (setExNx db t k v s) := by
  unfold setExNx
  split
  · exact h
  · exact typed_set_str h hk _ _

theorem typed_script1 {BK : Str → Prop} {db : Db} (h : Typed BK db) {key keyb : Str} (hk : ¬ BK key) (hb : BK keyb)
    (t cap win exp now : Int) (msg : Str) : Typed BK (script1 db t key keyb cap win exp now msg).1 := by
  unfold script1
  split
  · exact h
  · split
    · split <;> exact h
    · split
      · exact h
      · split
        · exact typed_expire (typed_rpush h hk _ _) hk _ _
        · dsimp only
          split
          · exact typed_expire (typed_rpush (typed_lpopN _ h hk _) hk _ _) hk _ _
          · split
            · exact typed_expire (typed_lpop (typed_rpush (typed_lpopN _ h hk _) hk _ _) hk _) hk _ _
            · exact typed_setExNx (typed_lpopN _ h hk _) hb _ _ _

/-- The store after a push on a list key. -/
theorem push_store (db : Db) (t : Int) (k : Str) (v s : Int) (R : List Int) (hs : 0 < s)
    (h : (live db t k = none ∧ R = []) ∨ ∃ E, live db t k = some ⟨.list R, E⟩) :
    expire (rpush db t k v) t k s k = some ⟨.list (R ++ [v]), some (t + s * 1000)⟩ := by
  rcases h with ⟨h, rfl⟩ | ⟨E, h⟩
  · have h1 : rpush db t k v = db.set k (some ⟨.list [v], none⟩) := by simp [rpush, h]
    have h2 : live (db.set k (some ⟨.list [v], none⟩)) t k = some ⟨.list [v], none⟩ :=
      live_set _ _ _ _ (by simp [Entry.expired])
    simp [h1, expire, h2, set_self]
  · have h1 : rpush db t k v = db.set k (some ⟨.list (R ++ [v]), E⟩) := by simp [rpush, h]
    have h2 : live (db.set k (some ⟨.list (R ++ [v]), E⟩)) t k = some ⟨.list (R ++ [v]), E⟩ :=
      live_set _ _ _ _ (live_some h).2
    simp [h1, expire, h2, set_self]

/-- The store after push and pop. -/
theorem shift_store (db : Db) (t : Int) (k : Str) (v s : Int) (a : Int) (R : List Int) (E : Option Int)
    (h : live db t k = some ⟨.list (a :: R), E⟩) :
    expire (lpop (rpush db t k v) t k) t k s k = some ⟨.list (R ++ [v]), some (t + s * 1000)⟩ := by
  have hx := (live_some h).2
  have h1 : rpush db t k v = db.set k (some ⟨.list (a :: R ++ [v]), E⟩) := by simp [rpush, h]
  have h2 : live (db.set k (some ⟨.list (a :: R ++ [v]), E⟩)) t k = some ⟨.list (a :: R ++ [v]), E⟩ :=
    live_set _ _ _ _ hx
  have h3 : lpop (db.set k (some ⟨.list (a :: R ++ [v]), E⟩)) t k = db.set k (some ⟨.list (R ++ [v]), E⟩) := by
    unfold lpop
    rw [h2]
    cases R with
    | nil => simp [set_set]
    | cons b R => simp [set_set]
  have h4 : live (db.set k (some ⟨.list (R ++ [v]), E⟩)) t k = some ⟨.list (R ++ [v]), E⟩ :=
    live_set _ _ _ _ hx
  rw [h1, h3]
  simp [expire, h4, set_self]

/-- The invariant of one list key: `A` are the client times of the requests passed so far. -/
def ListInv (c : Nat) (w e δ : Int) (L : Str) (A : List Int) (tl : Int) (db : Db) : Prop :=
  Spaced c w A ∧
  ((db L = none ∧ A = []) ∨
   ∃ P R T, db L = some ⟨.list R, some (T + e * 2 * 1000)⟩ ∧ A = P ++ R ∧ R ≠ [] ∧ R.length ≤ c ∧
     (R.length < c → ∀ p ∈ P, ∀ r ∈ R, r - p > w) ∧ (∀ a ∈ A, a ≤ (T + δ) / 1000) ∧ T ≤ tl)

/-- One ShouldBlock2 for list key `L`. -/
theorem list_step {BK : Str → Prop} {c : Nat} (hc : 0 < c) {w e δ : Int} (hw : 0 < w) (he : 0 < e) (hwe : w < 2 * e)
    {L keyb : Str} (hL : ¬ BK L) (hb : BK keyb) {A : List Int} {tl : Int} {db : Db} (ht : Typed BK db)
    (inv : ListInv c w e δ L A tl db) (t : Int) (htl : tl ≤ t) (msg : Str) :
    ∃ r, (script1 db t L keyb c w e ((t + δ) / 1000) msg).2 = .ok r ∧
      ListInv c w e δ L (A ++ (if r.block = 0 then [(t + δ) / 1000] else [])) t
        (script1 db t L keyb c w e ((t + δ) / 1000) msg).1 := by
  obtain ⟨hsp, hdb⟩ := inv
  have hne : L ≠ keyb := by rintro rfl; exact hL hb
  have hpar : ¬ ((c : Int) ≤ 0 ∨ w ≤ 0 ∨ e ≤ 0) := by omega
  unfold script1
  rw [if_neg hpar]
  generalize hnow : (t + δ) / 1000 = now
  -- the invariant does not depend on the clock
  have inv_later : ∀ db', db' L = db L → ListInv c w e δ L A t db' := by
    intro db' h'
    refine ⟨hsp, ?_⟩
    rw [h']
    rcases hdb with h | ⟨P, R, T, h1, h2, h3, h4, h5, h6, h7⟩
    · exact Or.inl h
    · exact Or.inr ⟨P, R, T, h1, h2, h3, h4, h5, h6, by omega⟩
  by_cases hx : existsK db t keyb = true
  · rw [if_pos hx]
    cases hg : getStr db t keyb with
    | error er =>
      exfalso
      unfold getStr at hg
      split at hg
      · simp at hg
      · rename_i l E hl
        exact ht.hlist _ _ _ (live_some hl).1 hb
      · simp at hg
    | ok m =>
      refine ⟨_, rfl, ?_⟩
      simpa using inv_later db rfl
  · rw [if_neg hx]
    -- the visible list
    have hvis : (live db t L = none ∧ ∀ a ∈ A, now - a > w) ∨
        ∃ P R T, live db t L = some ⟨.list R, some (T + e * 2 * 1000)⟩ ∧ A = P ++ R ∧ R ≠ [] ∧ R.length ≤ c ∧
          (R.length < c → ∀ p ∈ P, ∀ r ∈ R, r - p > w) ∧ (∀ a ∈ A, a ≤ now) := by
      rcases hdb with ⟨h, hA⟩ | ⟨P, R, T, h1, h2, h3, h4, h5, h6, h7⟩
      · left; exact ⟨by simp [live, h], by simp [hA]⟩
      · by_cases hexp : T + e * 2 * 1000 < t
        · left
          refine ⟨by simp [live, h1, Entry.expired, hexp], ?_⟩
          intro a ha
          have := h6 a ha
          omega
        · right
          refine ⟨P, R, T, by simp [live, h1, Entry.expired, hexp], h2, h3, h4, h5, ?_⟩
          intro a ha
          have := h6 a ha
          omega
    rcases hvis with ⟨hl, hA⟩ | ⟨P, R, T, hl, hAeq, hRne, hRlen, hold, hmono⟩
    · have hlen : llen db t L = .ok 0 := by simp [llen, hl]
      have hlt : (0 : Int) < c := by omega
      rw [hlen]
      simp only
      rw [if_pos hlt]
      refine ⟨_, rfl, ?_⟩
      simp only [Reply.pass, if_true]
      have hst := push_store db t L now (e * 2) [] (by omega) (Or.inl ⟨hl, rfl⟩)
      refine ⟨?_, Or.inr ⟨A, [now], t, hst, rfl, by simp, by simp; omega, ?_, ?_, Int.le_refl _⟩⟩
      · apply hsp.snoc hc
        intro a _ ha
        exact hA a (List.mem_of_getElem? ha)
      · intro _ p hp r hr
        simp at hr; subst hr
        exact hA p hp
      · intro a ha
        rcases List.mem_append.mp ha with h | h
        · have := hA a h; omega
        · simp at h; omega
    · have hlen : llen db t L = .ok R.length := by simp [llen, hl]
      rw [hlen]
      simp only
      by_cases hlt : (R.length : Int) < c
      · rw [if_pos hlt]
        refine ⟨_, rfl, ?_⟩
        simp only [Reply.pass, if_true]
        have hst := push_store db t L now (e * 2) R (by omega) (Or.inr ⟨_, hl⟩)
        obtain ⟨r0, hr0⟩ := List.exists_mem_of_ne_nil R hRne
        have hfar : ∀ p ∈ P, now - p > w := by
          intro p hp
          have h1 := hold (by omega) p hp r0 hr0
          have h2 := hmono r0 (by rw [hAeq]; simp [hr0])
          omega
        refine ⟨?_, Or.inr ⟨P, R ++ [now], t, hst, by rw [hAeq]; simp, by simp, by simp; omega, ?_, ?_,
          Int.le_refl _⟩⟩
        · apply hsp.snoc hc
          intro a hle ha
          apply hfar
          rw [hAeq] at ha
          rw [List.length_append] at ha
          rw [List.getElem?_append_left (by rw [hAeq, List.length_append] at hle; omega)] at ha
          exact List.mem_of_getElem? ha
        · intro _ p hp r hr
          rcases List.mem_append.mp hr with h | h
          · exact hold (by omega) p hp r h
          · simp at h; subst h; exact hfar p hp
        · intro a ha
          rw [hnow]
          rcases List.mem_append.mp ha with h | h
          · exact hmono a h
          · simp at h; omega
      · rw [if_neg hlt]
        have hz : ((R.length : Int) - c).toNat = 0 := by omega
        have hRc : R.length = c := by omega
        rw [hz]
        simp only [lpopN]
        cases R with
        | nil => exact absurd rfl hRne
        | cons a R =>
          have hlr : lrange00 db t L = some a := by simp [lrange00, hl]
          rw [hlr]
          simp only
          by_cases hwin : now - a > w
          · rw [if_pos hwin]
            refine ⟨_, rfl, ?_⟩
            simp only [Reply.pass, if_true]
            have hst := shift_store db t L now (e * 2) a R _ hl
            refine ⟨?_, Or.inr ⟨P ++ [a], R ++ [now], t, hst, by rw [hAeq]; simp, by simp,
              by simp at hRc ⊢; omega, ?_, ?_, Int.le_refl _⟩⟩
            · apply hsp.snoc hc
              intro x hle hx'
              rw [hAeq] at hx'
              have hpos : (P ++ a :: R).length - c = P.length := by rw [List.length_append]; omega
              rw [hpos] at hx'
              simp at hx'; omega
            · intro hcon
              simp at hcon hRc; omega
            · intro x hx'
              rw [hnow]
              rcases List.mem_append.mp hx' with h | h
              · exact hmono x h
              · simp at h; omega
          · rw [if_neg hwin]
            refine ⟨_, rfl, ?_⟩
            simp only [Int.one_ne_zero, if_false, List.append_nil]
            exact inv_later _ (setExNx_ne _ _ _ _ hne)

end Gears.TtlRedis
