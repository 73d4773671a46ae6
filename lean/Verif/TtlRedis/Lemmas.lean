import Verif.TtlRedis.Model
import Verif.SlidingWindow.Lemmas

namespace Gears.TtlRedis

theorem set_self (db : Db) (k : Str) (e : Option Entry) : (db.set k e) k = e := by simp [Db.set]

theorem set_ne (db : Db) {k k' : Str} (e : Option Entry) (h : k' ≠ k) : (db.set k e) k' = db k' := by
  simp [Db.set, h]

theorem set_set (db : Db) (k : Str) (e e' : Option Entry) : (db.set k e).set k e' = db.set k e' := by
  funext k'; simp only [Db.set]; split <;> rfl

theorem live_congr {db1 db2 : Db} {k : Str} (h : db1 k = db2 k) (t : Int) : live db1 t k = live db2 t k := by
  simp [live, h]

theorem live_set (db : Db) (k : Str) (e : Entry) (t : Int) (h : e.expired t = false) :
    live (db.set k (some e)) t k = some e := by
  simp [live, set_self, h]

theorem live_some {db : Db} {t : Int} {k : Str} {e : Entry} (h : live db t k = some e) :
    db k = some e ∧ e.expired t = false := by
  unfold live at h
  split at h
  · simp at h
  · split at h
    · simp at h
    · rename_i e' he hx
      simp at h; subst h
      exact ⟨he, by simpa using hx⟩

/-! ### Frame: an operation on `k` changes only `k` -/

theorem rpush_ne (db : Db) (t : Int) {k k' : Str} (v : Int) (h : k' ≠ k) : rpush db t k v k' = db k' := by
  unfold rpush
  rcases live db t k with _ | ⟨_ | (_ | ⟨_, _ | ⟨_, _⟩⟩), _⟩ <;> simp [set_ne, h]

theorem lpop_ne (db : Db) (t : Int) {k k' : Str} (h : k' ≠ k) : lpop db t k k' = db k' := by
  unfold lpop
  rcases live db t k with _ | ⟨_ | (_ | ⟨_, _ | ⟨_, _⟩⟩), _⟩ <;> simp [set_ne, h]

theorem lpopN_ne (n : Nat) (db : Db) (t : Int) {k k' : Str} (h : k' ≠ k) : lpopN db t k n k' = db k' := by
  induction n generalizing db with
  | zero => rfl
  | succ n ih => simp [lpopN, ih, lpop_ne db t h]

theorem expire_ne (db : Db) (t : Int) {k k' : Str} (s : Int) (h : k' ≠ k) : expire db t k s k' = db k' := by
  unfold expire
  rcases live db t k with _ | ⟨_ | (_ | ⟨_, _ | ⟨_, _⟩⟩), _⟩ <;> simp [set_ne, h]

theorem setExNx_ne (db : Db) (t : Int) {k k' : Str} (v : Str) (s : Int) (h : k' ≠ k) :
    setExNx db t k v s k' = db k' := by
  unfold setExNx
  rcases live db t k with _ | ⟨_ | (_ | ⟨_, _ | ⟨_, _⟩⟩), _⟩ <;> simp [set_ne, h]

theorem script1_ne (db : Db) (t : Int) (key keyb : Str) (cap win exp now : Int) (msg : Str) {k : Str}
    (h1 : k ≠ key) (h2 : k ≠ keyb) : (script1 db t key keyb cap win exp now msg).1 k = db k := by
  unfold script1
  split
  · rfl
  · split
    · split <;> rfl
    · split
      · rfl
      · split
        · simp only; rw [expire_ne _ _ _ h1, rpush_ne _ _ _ h1]
        · dsimp only
          split
          · simp only; rw [expire_ne _ _ _ h1, rpush_ne _ _ _ h1, lpopN_ne _ _ _ h1]
          · split
            · simp only; rw [expire_ne _ _ _ h1, lpop_ne _ _ h1, rpush_ne _ _ _ h1, lpopN_ne _ _ _ h1]
            · simp only; rw [setExNx_ne _ _ _ _ h2, lpopN_ne _ _ _ h1]

/-! ### Determinacy: an operation on `k` depends only on `k` -/

theorem rpush_congr {db1 db2 : Db} {k : Str} (h : db1 k = db2 k) (t v : Int) :
    rpush db1 t k v k = rpush db2 t k v k := by
  unfold rpush; rw [live_congr h]
  rcases live db2 t k with _ | ⟨_ | (_ | ⟨_, _ | ⟨_, _⟩⟩), _⟩ <;> simp [set_self, h]

theorem lpop_congr {db1 db2 : Db} {k : Str} (h : db1 k = db2 k) (t : Int) : lpop db1 t k k = lpop db2 t k k := by
  unfold lpop; rw [live_congr h]
  rcases live db2 t k with _ | ⟨_ | (_ | ⟨_, _ | ⟨_, _⟩⟩), _⟩ <;> simp [set_self, h]

theorem lpopN_congr (n : Nat) {db1 db2 : Db} {k : Str} (h : db1 k = db2 k) (t : Int) :
    lpopN db1 t k n k = lpopN db2 t k n k := by
  induction n generalizing db1 db2 with
  | zero => exact h
  | succ n ih => exact ih (lpop_congr h t)

theorem expire_congr {db1 db2 : Db} {k : Str} (h : db1 k = db2 k) (t s : Int) :
    expire db1 t k s k = expire db2 t k s k := by
  unfold expire; rw [live_congr h]
  rcases live db2 t k with _ | ⟨_ | (_ | ⟨_, _ | ⟨_, _⟩⟩), _⟩ <;> simp [set_self, h]

theorem setExNx_congr {db1 db2 : Db} {k : Str} (h : db1 k = db2 k) (t : Int) (v : Str) (s : Int) :
    setExNx db1 t k v s k = setExNx db2 t k v s k := by
  unfold setExNx; rw [live_congr h]
  rcases live db2 t k with _ | ⟨_ | (_ | ⟨_, _ | ⟨_, _⟩⟩), _⟩ <;> simp [set_self, h]

/-- Helper: a store transformer that only reads and writes key `a`. -/
structure Local (a : Str) (f : Db → Db) : Prop where
  other : ∀ db k, k ≠ a → f db k = db k
  self  : ∀ db1 db2, db1 a = db2 a → f db1 a = f db2 a

theorem Local.agree {a : Str} {f : Db → Db} (h : Local a f) {db1 db2 : Db} (ha : db1 a = db2 a) {k : Str}
    (hk : db1 k = db2 k) : f db1 k = f db2 k := by
  by_cases e : k = a
  · subst e; exact h.self _ _ ha
  · rw [h.other _ _ e, h.other _ _ e, hk]

theorem local_rpush (k : Str) (t v : Int) : Local k (fun db => rpush db t k v) :=
  ⟨fun db _ h => rpush_ne db t v h, fun _ _ h => rpush_congr h t v⟩
theorem local_lpop (k : Str) (t : Int) : Local k (fun db => lpop db t k) :=
  ⟨fun db _ h => lpop_ne db t h, fun _ _ h => lpop_congr h t⟩
theorem local_lpopN (k : Str) (t : Int) (n : Nat) : Local k (fun db => lpopN db t k n) :=
  ⟨fun db _ h => lpopN_ne n db t h, fun _ _ h => lpopN_congr n h t⟩
theorem local_expire (k : Str) (t s : Int) : Local k (fun db => expire db t k s) :=
  ⟨fun db _ h => expire_ne db t s h, fun _ _ h => expire_congr h t s⟩
theorem local_setExNx (k : Str) (t : Int) (v : Str) (s : Int) : Local k (fun db => setExNx db t k v s) :=
  ⟨fun db _ h => setExNx_ne db t v s h, fun _ _ h => setExNx_congr h t v s⟩

/-- script1 reads only `key` and `keyb`: on stores that agree there it replies the same and the results agree there. -/
theorem script1_congr {db1 db2 : Db} {key keyb : Str} (h1 : db1 key = db2 key) (h2 : db1 keyb = db2 keyb)
    (t cap win exp now : Int) (msg : Str) :
    (script1 db1 t key keyb cap win exp now msg).2 = (script1 db2 t key keyb cap win exp now msg).2 ∧
    ∀ k, db1 k = db2 k →
      (script1 db1 t key keyb cap win exp now msg).1 k = (script1 db2 t key keyb cap win exp now msg).1 k := by
  have le := live_congr h1 t
  have lb := live_congr h2 t
  have hp : ∀ n, live (lpopN db1 t key n) t key = live (lpopN db2 t key n) t key :=
    fun n => live_congr (lpopN_congr n h1 t) t
  have hx : existsK db1 t keyb = existsK db2 t keyb := by simp [existsK, lb]
  have hg : getStr db1 t keyb = getStr db2 t keyb := by simp [getStr, lb]
  have ht : ttl db1 t keyb = ttl db2 t keyb := by simp [ttl, lb]
  have hl : llen db1 t key = llen db2 t key := by simp [llen, le]
  have hr : ∀ n, lrange00 (lpopN db1 t key n) t key = lrange00 (lpopN db2 t key n) t key := by
    intro n; simp [lrange00, hp n]
  unfold script1
  rw [hx, hg, ht, hl]
  split
  · exact ⟨rfl, fun _ h => h⟩
  · split
    · split <;> exact ⟨rfl, fun _ h => h⟩
    · split
      · exact ⟨rfl, fun _ h => h⟩
      · rename_i size _
        split
        · refine ⟨rfl, fun k hk => ?_⟩
          exact (local_expire key t _).agree ((local_rpush key t now).self _ _ h1)
            ((local_rpush key t now).agree h1 hk)
        · dsimp only
          rw [hr]
          have a1 := (local_lpopN key t (size - cap).toNat).self _ _ h1
          split
          · refine ⟨rfl, fun k hk => ?_⟩
            have a2 := (local_lpopN key t (size - cap).toNat).agree h1 hk
            exact (local_expire key t _).agree ((local_rpush key t now).self _ _ a1)
              ((local_rpush key t now).agree a1 a2)
          · split
            · refine ⟨rfl, fun k hk => ?_⟩
              have a2 := (local_lpopN key t (size - cap).toNat).agree h1 hk
              exact (local_expire key t _).agree
                ((local_lpop key t).self _ _ ((local_rpush key t now).self _ _ a1))
                ((local_lpop key t).agree ((local_rpush key t now).self _ _ a1)
                  ((local_rpush key t now).agree a1 a2))
            · refine ⟨rfl, fun k hk => ?_⟩
              have a2 := (local_lpopN key t (size - cap).toNat).agree h1 hk
              have a3 := (local_lpopN key t (size - cap).toNat).agree h1 h2
              exact (local_setExNx keyb t _ _).agree a3 a2

/-! ### A live block is never touched -/

theorem script1_keeps_str (db : Db) (t : Int) (key keyb : Str) (cap win exp now : Int) (msg : Str) (k m : Str)
    (E : Int) (hk : db k = some ⟨.str m, some E⟩) (ht : t ≤ E) :
    (script1 db t key keyb cap win exp now msg).1 k = some ⟨.str m, some E⟩ := by
  have hlive : live db t k = some ⟨.str m, some E⟩ := by
    simp [live, hk, Entry.expired]; omega
  by_cases h2 : k = keyb
  · subst h2
    unfold script1
    have hx : existsK db t k = true := by simp [existsK, hlive]
    rw [hx]
    split
    · exact hk
    · split
      · split <;> exact hk
      · rename_i h; simp at h
  · by_cases h1 : k = key
    · subst h1
      unfold script1
      have hl : llen db t k = .error .wrongType := by simp [llen, hlive]
      rw [hl]
      split
      · exact hk
      · split
        · split <;> exact hk
        · exact hk
    · rw [script1_ne _ _ _ _ _ _ _ _ _ h1 h2]; exact hk

theorem exec_keeps_str (db : Db) (t : Int) (c : Call) (k m : Str) (E : Int)
    (hk : db k = some ⟨.str m, some E⟩) (ht : t ≤ E) : (c.exec db t).1 k = some ⟨.str m, some E⟩ := by
  cases c with
  | should tag pc pu key bk msg now =>
    simp only [Call.exec, shouldBlock2]
    split
    · exact hk
    · exact script1_keeps_str _ _ _ _ _ _ _ _ _ _ _ _ hk ht
  | isBlocked bk => exact hk
  | shouldDown pc => exact hk
  | isBlockedDown => exact hk

theorem run_keeps_str (cs : List (Int × Call)) : ∀ (db : Db) (k m : Str) (E : Int),
    db k = some ⟨.str m, some E⟩ → (∀ x ∈ cs, x.1 ≤ E) → (run db cs).1 k = some ⟨.str m, some E⟩ := by
  induction cs with
  | nil => intro db k m E h _; exact h
  | cons x cs ih =>
    intro db k m E h hx
    exact ih _ _ _ _ (exec_keeps_str db x.1 x.2 k m E h (hx x (by simp))) (fun y hy => hx y (by simp [hy]))

/-- What a triggered reply means for the store and the parameters. -/
theorem script1_triggered (db : Db) (t : Int) (key keyb : Str) (cap win exp now : Int) (msg : Str) (r : Reply)
    (h : (script1 db t key keyb cap win exp now msg).2 = .ok r) (hr : r.triggered = 1) :
    0 < exp ∧ r = ⟨1, 1, exp, msg⟩ ∧
    ((script1 db t key keyb cap win exp now msg).1 keyb = some ⟨.str msg, some (t + exp * 1000)⟩ ∨
      (keyb = key)) := by
  unfold script1 at h ⊢
  by_cases hp : cap ≤ 0 ∨ win ≤ 0 ∨ exp ≤ 0
  · rw [if_pos hp] at h; simp at h; subst h; simp [Reply.pass] at hr
  · rw [if_neg hp] at h ⊢
    by_cases hx : existsK db t keyb = true
    · rw [if_pos hx] at h
      split at h
      · simp at h
      · simp at h; subst h; simp at hr
    · rw [if_neg hx] at h ⊢
      split at h
      · simp at h
      · rename_i size hsz
        rw [hsz] at *
        simp only at h ⊢
        split at h
        · simp at h; subst h; simp [Reply.pass] at hr
        · rename_i hlt
          rw [if_neg hlt]
          split at h
          · simp at h; subst h; simp [Reply.pass] at hr
          · rename_i oldest ho
            split at h
            · simp at h; subst h; simp [Reply.pass] at hr
            · rename_i hw
              simp at h; subst h
              refine ⟨by omega, rfl, ?_⟩
              by_cases he : keyb = key
              · exact Or.inr he
              · left
                simp only [ho, if_neg hw]
                have hnone : live (lpopN db t key (size - cap).toNat) t keyb = none := by
                  rw [live_congr (lpopN_ne _ _ _ he)]
                  simpa [existsK] using hx
                simp [setExNx, hnone, set_self]

/-- With `keyb = key` nothing ever triggers. -/
theorem script1_same_key (db : Db) (t : Int) (key : Str) (cap win exp now : Int) (msg : Str) (r : Reply)
    (h : (script1 db t key key cap win exp now msg).2 = .ok r) : r.triggered ≠ 1 := by
  unfold script1 at h
  by_cases hp : cap ≤ 0 ∨ win ≤ 0 ∨ exp ≤ 0
  · rw [if_pos hp] at h; simp at h; subst h; simp [Reply.pass]
  · rw [if_neg hp] at h
    by_cases hx : existsK db t key = true
    · rw [if_pos hx] at h
      split at h
      · simp at h
      · simp at h; subst h; simp
    · rw [if_neg hx] at h
      have hnone : live db t key = none := by simpa [existsK] using hx
      have hl : llen db t key = .ok 0 := by simp [llen, hnone]
      rw [hl] at h
      simp only at h
      have : (0 : Int) < cap := by omega
      rw [if_pos this] at h
      simp at h; subst h; simp [Reply.pass]

theorem script1_triggered' (db : Db) (t : Int) (key keyb : Str) (cap win exp now : Int) (msg : Str) (r : Reply)
    (h : (script1 db t key keyb cap win exp now msg).2 = .ok r) (hr : r.triggered = 1) :
    0 < exp ∧ r = ⟨1, 1, exp, msg⟩ ∧
    (script1 db t key keyb cap win exp now msg).1 keyb = some ⟨.str msg, some (t + exp * 1000)⟩ := by
  obtain ⟨h1, h2, h3⟩ := script1_triggered db t key keyb cap win exp now msg r h hr
  refine ⟨h1, h2, ?_⟩
  rcases h3 with h3 | h3
  · exact h3
  · subst h3
    exact absurd hr (script1_same_key db t keyb cap win exp now msg r h)

/-- All possible replies. -/
theorem script1_reply (db : Db) (t : Int) (key keyb : Str) (cap win exp now : Int) (msg : Str) (r : Reply)
    (h : (script1 db t key keyb cap win exp now msg).2 = .ok r) :
    r = .pass ∨ (r = ⟨1, 1, exp, msg⟩ ∧ 0 < exp) ∨
    ∃ m, getStr db t keyb = .ok m ∧ existsK db t keyb = true ∧ r = ⟨1, 0, ttl db t keyb, m⟩ := by
  unfold script1 at h
  split at h
  · simp at h; exact Or.inl h.symm
  · rename_i hp
    split at h
    · rename_i hx
      split at h
      · simp at h
      · rename_i m hm
        simp at h
        exact Or.inr (Or.inr ⟨m, hm, hx, h.symm⟩)
    · split at h
      · simp at h
      · split at h
        · simp at h; exact Or.inl h.symm
        · dsimp only at h
          split at h
          · simp at h; exact Or.inl h.symm
          · split at h
            · simp at h; exact Or.inl h.symm
            · simp at h; exact Or.inr (Or.inl ⟨h.symm, by omega⟩)

end Gears.TtlRedis
