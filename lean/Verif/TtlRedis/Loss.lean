import Verif.TtlRedis.Doubles

/-
A redis that loses data (/repo/ratelimiter/ttl_ratelimiter_redis.go: all state of the limiters is in redis): keys that are
evicted, a restart from an older snapshot or from nothing, the failover of a server or of one shard of a cluster to a
replica that has not received the last writes.

* One event of this kind sets the keys in `ks` back to what they were `n` events ago; keys that did not exist then are gone.
  A replica receives the effects of a script as a whole, in order, so what it has is the state after some earlier event.
* Expiry times are absolute, so a key that comes back keeps its old expiry time.
* That replies are lost or scripts are unknown on the new server is the subject of C144 and C126.
-/

namespace Gears.TtlRedis

open SlidingWindow (Spaced)

/-- What redis executes, or what happens to it. -/
inductive Act where
  | call (c : Call)
  /-- the keys in `ks` are again what they were `n` events ago -/
  | lose (ks : Str → Bool) (n : Nat)

/-- The database `n` events ago, in a history with the newest first; before all, redis was empty. -/
def past (h : List Db) (n : Nat) : Db := h[n]?.getD Db.empty

/-- One event at redis time `t`. -/
def Act.exec (h : List Db) (t : Int) : Act → List Db × List Event
  | .call c => ((c.exec (past h 0) t).1 :: h, [⟨t, c, (c.exec (past h 0) t).2⟩])
  | .lose ks n => ((fun k => if ks k then past h n k else past h 0 k) :: h, [])

/-- A sequence of events. -/
def runL (h : List Db) : List (Int × Act) → List Db × List Event
  | [] => (h, [])
  | (t, a) :: as =>
    let r := a.exec h t
    let r2 := runL r.1 as
    (r2.1, r.2 ++ r2.2)

/-- The event sets key `k` back. -/
def Act.hits (k : Str) : Act → Bool
  | .call _ => false
  | .lose ks _ => ks k

/-- The hypotheses of C17 on one event. -/
def ActOk (BK : Str → Prop) (L : Str) (c w e δ : Int) (t : Int) : Act → Prop
  | .call x => CallOk BK L c w e δ t x
  | .lose _ _ => True

theorem past_zero (d : Db) (h : List Db) : past (d :: h) 0 = d := rfl

theorem past_succ (d : Db) (h : List Db) (n : Nat) : past (d :: h) (n + 1) = past h n := rfl

theorem past_cases (h : List Db) (n : Nat) : past h n = Db.empty ∨ past h n ∈ h := by
  unfold past
  cases hn : h[n]? with
  | none => exact .inl rfl
  | some d => exact .inr (List.mem_of_getElem? hn)

theorem runL_append (h : List Db) (as bs : List (Int × Act)) :
    runL h (as ++ bs) = ((runL (runL h as).1 bs).1, (runL h as).2 ++ (runL (runL h as).1 bs).2) := by
  induction as generalizing h with
  | nil => rfl
  | cons x as ih => obtain ⟨t, a⟩ := x; simp [runL, ih]

theorem runL_calls (h : List Db) (cs : List (Int × Call)) :
    (runL h (cs.map fun x => (x.1, .call x.2))).2 = (run (past h 0) cs).2 ∧
    past (runL h (cs.map fun x => (x.1, .call x.2))).1 0 = (run (past h 0) cs).1 := by
  induction cs generalizing h with
  | nil => exact ⟨rfl, rfl⟩
  | cons x cs ih =>
    obtain ⟨t, c⟩ := x
    have := ih (((c.exec (past h 0) t).1) :: h)
    rw [past_zero] at this
    simp [runL, Act.exec, run, this]

/-! ### Admission -/

/-- What the database may hold for the list key. -/
def Held (c : Nat) (e δ : Int) (L : Str) (tl : Int) (db : Db) : Prop :=
  db L = none ∨ ∃ R T, db L = some ⟨.list R, some (T + e * 2 * 1000)⟩ ∧ R ≠ [] ∧ R.length ≤ c ∧
    (∀ a ∈ R, a ≤ (T + δ) / 1000) ∧ T ≤ tl

theorem Held.later {c : Nat} {e δ tl t : Int} {L : Str} {db : Db} (h : Held c e δ L tl db) (ht : tl ≤ t) : Held c e δ L t db := by
  rcases h with h | ⟨R, T, h1, h2, h3, h4, h5⟩
  · exact .inl h
  · exact .inr ⟨R, T, h1, h2, h3, h4, by omega⟩

theorem ListInv.held {c : Nat} {w e δ tl : Int} {L : Str} {A : List Int} {db : Db} (h : ListInv c w e δ L A tl db) :
    Held c e δ L tl db := by
  rcases h.2 with h | ⟨P, R, T, h1, h2, h3, h4, -, h6, h7⟩
  · exact .inl h.1
  · exact .inr ⟨R, T, h1, h3, h4, fun a ha => h6 a (by simp [h2, ha]), h7⟩

theorem ListInv.later {c : Nat} {w e δ tl t : Int} {L : Str} {A : List Int} {db db' : Db} (h : ListInv c w e δ L A tl db)
    (hd : db' L = db L) (ht : tl ≤ t) : ListInv c w e δ L A t db' := by
  refine ⟨h.1, ?_⟩
  rw [hd]
  rcases h.2 with h | ⟨P, R, T, h1, h2, h3, h4, h5, h6, h7⟩
  · exact .inl h
  · exact .inr ⟨P, R, T, h1, h2, h3, h4, h5, h6, by omega⟩

theorem ListInv.le {c : Nat} {w e δ tl : Int} {L : Str} {A : List Int} {db : Db} (h : ListInv c w e δ L A tl db) :
    ∀ a ∈ A, a ≤ (tl + δ) / 1000 := by
  intro a ha
  rcases h.2 with ⟨-, h⟩ | ⟨P, R, T, -, -, -, -, -, h6, h7⟩
  · simp [h] at ha
  · have := h6 a ha
    omega

/-- A database of the past is a fresh start for the list key. -/
theorem Held.inv {c : Nat} {w e δ tl : Int} {L : Str} {db : Db} (h : Held c e δ L tl db) : ∃ A, ListInv c w e δ L A tl db := by
  rcases h with h | ⟨R, T, h1, h2, h3, h4, h5⟩
  · exact ⟨[], Spaced.short (by simp), .inl ⟨h, rfl⟩⟩
  · exact ⟨R, Spaced.short h3, .inr ⟨[], R, T, h1, rfl, h2, h3, by simp, h4, h5⟩⟩

theorem passed_cons (L : Str) (ev : Event) (h : List Event) : passed L (ev :: h) = passed L [ev] ++ passed L h :=
  passed_append L [ev] h

/-- One call. -/
theorem call_step {BK : Str → Prop} {c : Nat} (hc : 0 < c) {w e δ : Int} (hw : 0 < w) (he : 0 < e) (hwe : w < 2 * e) {L : Str}
    (hLb : ¬ BK L) {A : List Int} {tl t : Int} {db : Db} {x : Call} (ht : Typed BK db) (inv : ListInv c w e δ L A tl db)
    (htl : tl ≤ t) (hok : CallOk BK L c w e δ t x) :
    Typed BK (x.exec db t).1 ∧ ListInv c w e δ L (A ++ passed L [⟨t, x, (x.exec db t).2⟩]) t (x.exec db t).1 := by
  have rest : ∀ db', db' L = db L → ListInv c w e δ L (A ++ []) t db' := fun db' h => by simpa using inv.later h htl
  cases x with
  | should tag pc pu key bk msg now =>
    obtain ⟨hb, hnb, hL⟩ := hok
    by_cases hkey : listKey tag key = L
    · obtain ⟨rfl, rfl, rfl⟩ := hL hkey
      obtain ⟨r, hr, inv'⟩ := list_step (BK := BK) hc hw he hwe (hkey ▸ hnb) hb ht inv t htl msg
      have hty := typed_script1 ht hnb hb t c w e ((t + δ) / 1000) msg
      have hns : ¬ (⟨c, w, e⟩ : Params).notSet := by unfold Params.notSet; simp only; omega
      have hex : (Call.should tag ⟨c, w, e⟩ ⟨c, w, e⟩ key bk msg ((t + δ) / 1000)).exec db t =
          ((script1 db t L (blockRKey tag bk) c w e ((t + δ) / 1000) msg).1, Result.ofReply r) := by
        simp only [Call.exec, shouldBlock2, if_neg hns, hkey, hr, Result.ofEval]
      rw [hkey] at hty
      rw [hex]
      refine ⟨hty, ?_⟩
      simp only [passed, hkey, true_and]
      have hblk : (Result.ofReply r).block = false ↔ r.block = 0 := by
        rcases script1_reply _ _ _ _ _ _ _ _ _ _ hr with h | ⟨h, _⟩ | ⟨m, _, _, h⟩ <;> subst h <;>
          simp [Result.ofReply, Reply.pass]
      by_cases h0 : r.block = 0
      · rw [if_pos (hblk.mpr h0)]
        rw [if_pos h0] at inv'
        exact inv'
      · rw [if_neg (fun h => h0 (hblk.mp h))]
        rw [if_neg h0] at inv'
        exact inv'
    · have hLne : L ≠ blockRKey tag bk := by rintro rfl; exact hLb hb
      have hsame : ((Call.should tag pc pu key bk msg now).exec db t).1 L = db L := by
        simp only [Call.exec, shouldBlock2]
        split
        · rfl
        · exact script1_ne _ _ _ _ _ _ _ _ _ (fun h => hkey h.symm) hLne
      have hty : Typed BK ((Call.should tag pc pu key bk msg now).exec db t).1 := by
        simp only [Call.exec, shouldBlock2]
        split
        · exact ht
        · exact typed_script1 ht hnb hb _ _ _ _ _ _
      refine ⟨hty, ?_⟩
      simp only [passed, if_neg (fun h : listKey tag key = L ∧ _ => hkey h.1)]
      exact rest _ hsame
  | isBlocked bk => exact ⟨ht, rest db rfl⟩
  | shouldDown pc => exact ⟨ht, rest db rfl⟩
  | isBlockedDown => exact ⟨ht, rest db rfl⟩

theorem passed_ge {BK : Str → Prop} {c w e δ : Int} {L : Str} {t0 : Int} (as : List (Int × Act)) :
    ∀ (h : List Db), (∀ x ∈ as, t0 ≤ x.1) → (∀ x ∈ as, ActOk BK L c w e δ x.1 x.2) →
      ∀ a ∈ passed L (runL h as).2, (t0 + δ) / 1000 ≤ a := by
  induction as with
  | nil => intro h _ _ a ha; simp [runL, passed] at ha
  | cons x as ih =>
    intro h ht hok a ha
    obtain ⟨t, y⟩ := x
    have hrest := ih (y.exec h t).1 (fun z hz => ht z (by simp [hz])) (fun z hz => hok z (by simp [hz])) a
    simp only [runL, passed_append, List.mem_append] at ha
    refine ha.elim (fun ha => ?_) hrest
    have h0 := ht _ (List.mem_cons_self ..)
    have hk := hok _ (List.mem_cons_self ..)
    cases y with
    | lose ks n => simp [Act.exec, passed] at ha
    | call x =>
      cases x with
      | should tag pc pu key bk msg now =>
        obtain ⟨-, -, hL⟩ := hk
        simp only [Act.exec, passed] at ha
        split at ha
        · rename_i hp
          obtain ⟨-, -, hn⟩ := hL hp.1
          simp only [List.mem_singleton] at ha
          dsimp only at h0 hn
          omega
        · simp at ha
      | isBlocked bk => simp [Act.exec, passed] at ha
      | shouldDown pc => simp [Act.exec, passed] at ha
      | isBlockedDown => simp [Act.exec, passed] at ha

/-- The client time `a` is in the closed interval of length `w` from `lo`. -/
def inWin (lo w a : Int) : Bool := decide (lo ≤ a) && decide (a ≤ lo + w)

theorem inWin_iff {lo w a : Int} : inWin lo w a = true ↔ lo ≤ a ∧ a ≤ lo + w := by simp [inWin]

theorem spaced_count {c : Nat} (hc : 0 < c) {w : Int} {A : List Int} (h : Spaced c w A) (lo : Int) :
    A.countP (inWin lo w) ≤ c := by
  have := h.count_le hc lo
  exact this

/-- The events in the interval that set key `L` back. -/
def hitsIn (L : Str) (lo w δ : Int) (x : Int × Act) : Bool := x.2.hits L && inWin lo w ((x.1 + δ) / 1000)

theorem runL_admission {BK : Str → Prop} {c : Nat} (hc : 0 < c) {w e δ : Int} (hw : 0 < w) (he : 0 < e) (hwe : w < 2 * e)
    {L : Str} (hLb : ¬ BK L) (lo : Int) (as : List (Int × Act)) :
    ∀ (A : List Int) (tl : Int) (h : List Db), (∀ n, Typed BK (past h n) ∧ Held c e δ L tl (past h n)) →
      ListInv c w e δ L A tl (past h 0) → (tl :: as.map (·.1)).Pairwise (· ≤ ·) →
      (∀ x ∈ as, ActOk BK L c w e δ x.1 x.2) →
      A.countP (inWin lo w) + (passed L (runL h as).2).countP (inWin lo w) ≤ c * (1 + as.countP (hitsIn L lo w δ)) := by
  induction as with
  | nil =>
    intro A tl h _ inv _ _
    simpa [runL, passed] using spaced_count hc inv.1 lo
  | cons x as ih =>
    intro A tl h hh inv hsort hok
    obtain ⟨t, y⟩ := x
    rw [List.map_cons, List.pairwise_cons] at hsort
    obtain ⟨hle, hsort'⟩ := hsort
    have htl : tl ≤ t := hle t (by simp)
    have hy : ActOk BK L c w e δ t y := hok (t, y) (by simp)
    have hok' : ∀ x ∈ as, ActOk BK L c w e δ x.1 x.2 := fun y hy => hok y (by simp [hy])
    cases y with
    | call x =>
      obtain ⟨h1, h2⟩ := call_step hc hw he hwe hLb (hh 0).1 inv htl hy
      have := ih _ t ((x.exec (past h 0) t).1 :: h) (fun n => by
        cases n with
        | zero => exact ⟨h1, h2.held⟩
        | succ n => exact ⟨(hh n).1, (hh n).2.later htl⟩) h2 hsort' hok'
      simp only [runL, Act.exec, List.singleton_append, List.countP_cons, hitsIn, Act.hits, Bool.false_and, Bool.false_eq_true,
        if_false, Nat.add_zero]
      rw [passed_cons, List.countP_append]
      rw [List.countP_append] at this
      omega
    | lose ks n =>
      have hty : Typed BK (fun k => if ks k then past h n k else past h 0 k) := by
        constructor <;> intro k a b hk <;> split at hk
        · exact (hh n).1.hlist _ _ _ hk
        · exact (hh 0).1.hlist _ _ _ hk
        · exact (hh n).1.hstr _ _ _ hk
        · exact (hh 0).1.hstr _ _ _ hk
      simp only [runL, Act.exec, List.nil_append, List.countP_cons]
      have hth : ∀ (d : Db), Typed BK d → Held c e δ L t d → ∀ n, Typed BK (past (d :: h) n) ∧ Held c e δ L t (past (d :: h) n) := by
        intro d h1 h2 n
        cases n with
        | zero => exact ⟨h1, h2⟩
        | succ n => exact ⟨(hh n).1, (hh n).2.later htl⟩
      by_cases hk : ks L = true
      · have hheld : Held c e δ L t (fun k => if ks k then past h n k else past h 0 k) := by
          have := (hh n).2.later htl
          unfold Held at this ⊢
          simp only [hk, if_true]
          exact this
        obtain ⟨A', inv'⟩ := hheld.inv (w := w)
        have hrec := ih A' t (_ :: h) (hth _ hty hheld) inv' hsort' hok'
        have hA : A.countP (inWin lo w) ≤ c := spaced_count hc inv.1 lo
        by_cases hin : inWin lo w ((t + δ) / 1000) = true
        · have : hitsIn L lo w δ (t, .lose ks n) = true := by simp [hitsIn, Act.hits, hk, hin]
          rw [if_pos this, Nat.mul_add, Nat.mul_add]
          rw [Nat.mul_add] at hrec
          omega
        · have : ¬ hitsIn L lo w δ (t, .lose ks n) = true := by simp [hitsIn, Act.hits, hin]
          rw [if_neg this, Nat.add_zero]
          rw [inWin_iff] at hin
          by_cases hlo : lo ≤ (t + δ) / 1000
          · have hz : (passed L (runL ((fun k => if ks k then past h n k else past h 0 k) :: h) as).2).countP (inWin lo w) = 0 := by
              rw [List.countP_eq_zero]
              intro a ha
              have hts : ∀ x ∈ as, t ≤ x.1 := by
                rw [List.pairwise_cons] at hsort'
                intro x hx
                exact hsort'.1 x.1 (List.mem_map.2 ⟨x, hx, rfl⟩)
              have := passed_ge as _ hts hok' a ha
              rw [inWin_iff]
              omega
            rw [hz, Nat.mul_add]
            omega
          · have hz : A.countP (inWin lo w) = 0 := by
              rw [List.countP_eq_zero]
              intro a ha
              have := inv.le a ha
              rw [inWin_iff]
              omega
            omega
      · have hsame : (fun k => if ks k then past h n k else past h 0 k) L = past h 0 L := by simp [hk]
        have inv' := inv.later (db' := fun k => if ks k then past h n k else past h 0 k) hsame htl
        have := ih A t (_ :: h) (hth _ hty inv'.held) inv' hsort' hok'
        have hf : hitsIn L lo w δ (t, .lose ks n) = false := by simp [hitsIn, Act.hits, hk]
        rw [hf]
        simpa using this

/-- The claim: the bound of C17, whatever data redis loses on the way. -/
def C153Claim : Prop :=
  ∀ (BK : Str → Prop) (L : Str), ¬ BK L → ∀ (c : Nat) (w e δ : Int), 0 < c → 0 < w → 0 < e → w < 2 * e →
    ∀ (as : List (Int × Act)), (as.map (·.1)).Pairwise (· ≤ ·) → (∀ x ∈ as, ActOk BK L c w e δ x.1 x.2) →
    ∀ lo, (passed L (runL [] as).2).countP (inWin lo w) ≤ c

/-- **C153** (partial).  Under the hypotheses of C17 at most `c` calls pass in any closed interval of `w` seconds, and `c` more
for every event in the interval that sets the list key back, however far back it goes.  What is missing in `C153Claim` is the
term with the events. -/
theorem C153_admission_partial (BK : Str → Prop) (L : Str) (hL : ¬ BK L) (c : Nat) (w e δ : Int) (hc : 0 < c) (hw : 0 < w)
    (he : 0 < e) (hwe : w < 2 * e) (as : List (Int × Act)) (hsort : (as.map (·.1)).Pairwise (· ≤ ·))
    (hok : ∀ x ∈ as, ActOk BK L c w e δ x.1 x.2) (lo : Int) :
    (passed L (runL [] as).2).countP (inWin lo w) ≤ c * (1 + as.countP (hitsIn L lo w δ)) := by
  cases as with
  | nil => simp [runL, passed]
  | cons x as =>
    have := runL_admission (BK := BK) hc hw he hwe hL lo (x :: as) [] x.1 [] (fun n => ⟨typed_empty BK, .inl rfl⟩)
      ⟨Spaced.short (by simp), .inl ⟨rfl, rfl⟩⟩ (by
        rw [List.pairwise_cons]
        refine ⟨?_, hsort⟩
        intro y hy
        rw [List.map_cons, List.pairwise_cons] at hsort
        rw [List.map_cons, List.mem_cons] at hy
        rcases hy with rfl | hy
        · exact Int.le_refl _
        · exact hsort.1 y hy) hok
    simpa using this

/-! ### Blocks -/

/-- No event goes back beyond the moment `i` events ago for key `B`. -/
def Spared (B : Str) : Nat → List (Int × Act) → Prop
  | _, [] => True
  | i, (_, .call _) :: as => Spared B (i + 1) as
  | i, (_, .lose ks n) :: as => (ks B = true → n ≤ i) ∧ Spared B (i + 1) as

theorem kept_str {B m : Str} {E : Int} (as : List (Int × Act)) : ∀ (i : Nat) (h : List Db), Spared B i as →
    (∀ x ∈ as, x.1 ≤ E) → (∀ j, j ≤ i → past h j B = some ⟨.str m, some E⟩) →
    past (runL h as).1 0 B = some ⟨.str m, some E⟩ := by
  induction as with
  | nil => intro i h _ _ hh; exact hh 0 (by omega)
  | cons x as ih =>
    intro i h hk hE hh
    obtain ⟨t, y⟩ := x
    have ht : t ≤ E := hE (t, y) (by simp)
    have hE' : ∀ x ∈ as, x.1 ≤ E := fun x hx => hE x (by simp [hx])
    cases y with
    | call c =>
      refine ih (i + 1) _ hk hE' ?_
      intro j hj
      cases j with
      | zero => exact exec_keeps_str _ _ _ _ _ _ (hh 0 (by omega)) ht
      | succ j => exact hh j (by omega)
    | lose ks n =>
      refine ih (i + 1) _ hk.2 hE' ?_
      intro j hj
      cases j with
      | zero =>
        show (if ks B then past h n B else past h 0 B) = _
        split
        · exact hh n (hk.1 ‹_›)
        · exact hh 0 (by omega)
      | succ j => exact hh j (by omega)

/-- The claim: a block lasts until its timeout is over, whatever data redis loses. -/
def C153BlockClaim : Prop :=
  ∀ (h : List Db) (T : Int) (tag : Str) (pc pu : Params) (key bk msg : Str) (now : Int),
    (shouldBlock2 (past h 0) T tag pc pu key bk msg now).2.triggered = true →
    ∀ (mid : List (Int × Act)), (∀ x ∈ mid, x.1 ≤ T + pu.timeout * 1000) → ∀ t, t ≤ T + pu.timeout * 1000 →
    ∀ (pc' pu' : Params), pc'.set → pu'.set → ∀ (key' msg' : Str) (now' : Int),
    let h1 := (runL h ((T, .call (.should tag pc pu key bk msg now)) :: mid)).1
    let r := (shouldBlock2 (past h1 0) t tag pc' pu' key' bk msg' now').2
    r.block = true ∧ r.triggered = false ∧ r.msg = msg

/-- **C153** (partial).  A block lasts until its timeout is over if no event in between sets its key back to before the
trigger; an event that goes back to the trigger or to later, as the failover to a replica that has received the trigger, does
not matter.  What is missing in `C153BlockClaim` is this condition. -/
theorem C153_block_partial (h : List Db) (T : Int) (tag : Str) (pc pu : Params) (key bk msg : Str) (now : Int)
    (htrig : (shouldBlock2 (past h 0) T tag pc pu key bk msg now).2.triggered = true)
    (mid : List (Int × Act)) (hmid : ∀ x ∈ mid, x.1 ≤ T + pu.timeout * 1000) (hkept : Spared (blockRKey tag bk) 0 mid)
    (t : Int) (ht : t ≤ T + pu.timeout * 1000) (pc' pu' : Params) (hp : pc'.set) (hp' : pu'.set) (key' msg' : Str) (now' : Int) :
    let h1 := (runL h ((T, .call (.should tag pc pu key bk msg now)) :: mid)).1
    let r := (shouldBlock2 (past h1 0) t tag pc' pu' key' bk msg' now').2
    r.block = true ∧ r.triggered = false ∧ r.msg = msg := by
  obtain ⟨_, _, hst⟩ := triggered_store _ T tag pc pu key bk msg now htrig
  have hst1 := kept_str mid 0 ((shouldBlock2 (past h 0) T tag pc pu key bk msg now).1 :: h) hkept hmid (fun j hj => by
    obtain rfl : j = 0 := by omega
    exact hst)
  intro h1 r
  have hst2 : past h1 0 (blockRKey tag bk) = some ⟨.str msg, some (T + pu.timeout * 1000)⟩ := hst1
  obtain ⟨hx, hg, _⟩ := isBlocked_of_str (past h1 0) t _ _ _ hst2 ht
  have hpar : ¬ (pu'.capacity ≤ 0 ∨ pu'.window ≤ 0 ∨ pu'.timeout ≤ 0) := by
    unfold Params.set at hp'; omega
  have : r = ⟨true, false, ttl (past h1 0) t (blockRKey tag bk), msg⟩ := by
    show (shouldBlock2 (past h1 0) t tag pc' pu' key' bk msg' now').2 = _
    unfold shouldBlock2
    rw [if_neg (Params.set_notSet hp)]
    simp only [script1, if_neg hpar, hx, if_true, hg, Result.ofEval, Result.ofReply]
    rfl
  rw [this]
  exact ⟨rfl, rfl, rfl⟩

/-! ### Causes -/

theorem runL_justified (as : List (Int × Act)) : ∀ (evs : List Event) (h : List Db), (∀ n, Justified evs (past h n)) →
    ∀ n, Justified (evs ++ (runL h as).2) (past (runL h as).1 n) := by
  induction as with
  | nil => intro evs h hj n; simpa [runL] using hj n
  | cons x as ih =>
    intro evs h hj
    obtain ⟨t, y⟩ := x
    have more : ∀ (es : List Event) (n : Nat), Justified (evs ++ es) (past h n) := by
      intro es n k m E hk
      obtain ⟨ev, hev, rest⟩ := hj n k m E hk
      exact ⟨ev, by simp [hev], rest⟩
    cases y with
    | call c =>
      have := ih _ ((c.exec (past h 0) t).1 :: h) (fun n => by
        cases n with
        | zero => exact exec_justified evs (past h 0) t c (hj 0)
        | succ n => exact more _ n)
      simpa [runL, Act.exec] using this
    | lose ks n =>
      have := ih evs ((fun k => if ks k then past h n k else past h 0 k) :: h) (fun j => by
        cases j with
        | zero =>
          intro k m E hk
          simp only [past_zero] at hk
          split at hk
          · exact hj n k m E hk
          · exact hj 0 k m E hk
        | succ j => exact hj j)
      simpa [runL, Act.exec] using this

/-- **C153.**  What redis loses does not make up blocks: whatever is lost, and comes back by a failover, on a redis that
started empty a block that `IsBlocked` reports was triggered by an earlier call on its key, with the reported message, and the
timeout of that call is not over. -/
theorem C153_cause (as : List (Int × Act)) (t : Int) (bk : Str)
    (hb : (isBlocked (past (runL [] as).1 0) t bk).block = true) :
    ∃ ev ∈ (runL [] as).2, ∃ tag pc pu key bk' msg now,
      ev.call = .should tag pc pu key bk' msg now ∧ blockRKey tag bk' = blockRKey standalone bk ∧
      ev.result.triggered = true ∧ t ≤ ev.time + pu.timeout * 1000 ∧
      (isBlocked (past (runL [] as).1 0) t bk).msg = msg := by
  have hj := runL_justified as [] [] (fun n => by intro k m E h; simp [past, Db.empty] at h) 0
  rw [List.nil_append] at hj
  generalize past (runL [] as).1 0 = db at *
  unfold isBlocked script2 at hb ⊢
  by_cases hx : existsK db t (bk ++ sfx) = true
  · rw [if_pos hx] at hb ⊢
    cases hg : getStr db t (bk ++ sfx) with
    | error e => rw [hg] at hb; simp [Result.ofEval, Result.zero] at hb
    | ok m =>
      obtain ⟨E, hl⟩ := getStr_ok_live hx hg
      obtain ⟨hd, hexp⟩ := live_some hl
      obtain ⟨ev, hev, tag, pc, pu, key, bk', now, h1, h2, h3, h4⟩ := hj _ _ _ hd
      refine ⟨ev, hev, tag, pc, pu, key, bk', m, now, h1, ?_, h3, ?_, rfl⟩
      · rw [h2]; simp [blockRKey, standalone]
      · subst h4; simp [Entry.expired] at hexp; omega
  · rw [if_neg hx] at hb; simp [Result.ofEval, Result.ofReply, Reply.pass] at hb

/-- **C153.**  Without such events the history is that of `run`. -/
theorem C153_none (cs : List (Int × Call)) :
    (runL [] (cs.map fun x => (x.1, .call x.2))).2 = (run Db.empty cs).2 ∧
    past (runL [] (cs.map fun x => (x.1, .call x.2))).1 0 = (run Db.empty cs).1 :=
  runL_calls [] cs

/-! ### What is lost -/

/-- `c + 1` calls at one moment. -/
def burst (p : Params) (t now : Int) (tag key bk msg : Str) : List (Int × Act) :=
  List.replicate (p.capacity.toNat + 1) (t, .call (.should tag p p key bk msg now))

/-- `k + 1` bursts with a loss of all data between them, after `i` events. -/
def bursts (p : Params) (t now : Int) (tag key bk msg : Str) (i : Nat) : Nat → List (Int × Act)
  | 0 => burst p t now tag key bk msg
  | k + 1 => burst p t now tag key bk msg ++
      (t, .lose (fun _ => true) (i + (p.capacity.toNat + 1))) :: bursts p t now tag key bk msg (i + (p.capacity.toNat + 1) + 1) k

theorem burst_blocks (p : Params) (hp : p.set) (t now : Int) (tag key bk msg : Str) (hne : listKey tag key ≠ blockRKey tag bk)
    (h : List Db) (h0 : past h 0 = Db.empty) :
    (runL h (burst p t now tag key bk msg)).2.map (·.result.block) = List.replicate p.capacity.toNat false ++ [true] := by
  have := (runL_calls h (List.replicate (p.capacity.toNat + 1) (t, .should tag p p key bk msg now))).1
  rw [List.map_replicate] at this
  unfold burst
  rw [this, h0]
  obtain ⟨h1, h2, h3⟩ := hp
  exact Lua.filled hne h1 h2 h3 t now msg rfl rfl _ 0 Db.empty (by omega) rfl (.inl ⟨rfl, rfl⟩)

theorem runL_length (h : List Db) (as : List (Int × Act)) : (runL h as).1.length = h.length + as.length := by
  induction as generalizing h with
  | nil => rfl
  | cons x as ih =>
    obtain ⟨t, a⟩ := x
    have : (a.exec h t).1.length = h.length + 1 := by cases a <;> rfl
    simp only [runL, ih, this, List.length_cons]
    omega

theorem bursts_blocks (p : Params) (hp : p.set) (t now : Int) (tag key bk msg : Str) (hne : listKey tag key ≠ blockRKey tag bk)
    (k : Nat) : ∀ (h : List Db), past h 0 = Db.empty →
    (runL h (bursts p t now tag key bk msg h.length k)).2.map (·.result.block) =
      (List.replicate (k + 1) (List.replicate p.capacity.toNat false ++ [true])).flatten := by
  induction k with
  | zero => intro h h0; simp [bursts, burst_blocks p hp t now tag key bk msg hne h h0]
  | succ k ih =>
    intro h h0
    have hl : (runL h (burst p t now tag key bk msg)).1.length = h.length + (p.capacity.toNat + 1) := by
      rw [runL_length]; simp [burst]
    have he : past (runL h (burst p t now tag key bk msg)).1 (h.length + (p.capacity.toNat + 1)) = Db.empty := by
      unfold past
      rw [List.getElem?_eq_none (by omega)]
      rfl
    have := ih (Db.empty :: (runL h (burst p t now tag key bk msg)).1) rfl
    rw [List.length_cons, hl] at this
    rw [bursts, runL_append, List.map_append, burst_blocks p hp t now tag key bk msg hne h h0]
    simp only [runL, Act.exec, he, if_true, List.nil_append]
    rw [show (fun k => Db.empty k) = Db.empty from rfl, this]
    rw [List.replicate_succ (n := k + 1), List.flatten_cons]

/-- The term with the events is needed in full: with any parameters and for any number `k`, redis losing its data `k` times
lets `c` calls pass `k + 1` times in one moment, and triggers the block `k + 1` times. -/
theorem C153_bursts_violated (p : Params) (hp : p.set) (t now : Int) (tag key bk msg : Str)
    (hne : listKey tag key ≠ blockRKey tag bk) (k : Nat) :
    (runL [] (bursts p t now tag key bk msg 0 k)).2.map (·.result.block) =
      (List.replicate (k + 1) (List.replicate p.capacity.toNat false ++ [true])).flatten :=
  bursts_blocks p hp t now tag key bk msg hne k [] rfl

/-- So the claim on admission is false. -/
theorem C153_violated : ¬ C153Claim := by
  intro h
  have := h (fun k => k = ":bl".toList) "_rl:".toList (by decide) 1 1 1 0 (by decide) (by decide) (by decide) (by decide)
    (bursts ⟨1, 1, 1⟩ 0 0 [] [] [] [] 0 1) (by decide) (by
      intro x hx
      simp only [bursts, burst, List.mem_append, List.mem_cons] at hx
      rcases hx with hx | rfl | hx
      · rw [List.eq_of_mem_replicate hx]; exact ⟨by decide, by decide, fun _ => ⟨rfl, rfl, rfl⟩⟩
      · trivial
      · rw [List.eq_of_mem_replicate hx]; exact ⟨by decide, by decide, fun _ => ⟨rfl, rfl, rfl⟩⟩) 0
  revert this
  decide

/-- A block that has just been triggered and that the new server has not received is gone: whatever the state, the parameters
and the keys, `IsBlocked` reports none, and the call that triggered it triggers it a second time. -/
theorem C153_block_violated (h : List Db) (T : Int) (pc pu : Params) (key bk msg : Str) (now : Int)
    (htrig : (shouldBlock2 (past h 0) T standalone pc pu key bk msg now).2.triggered = true) (t : Int) (ht : T ≤ t) :
    let h1 := (runL h [(T, .call (.should standalone pc pu key bk msg now)), (T, .lose (fun _ => true) 1)]).1
    (isBlocked (past h1 0) t bk).block = false ∧
    (shouldBlock2 (past h1 0) T standalone pc pu key bk msg now).2.triggered = true := by
  intro h1
  have h2 : past h1 0 = past h 0 := by
    simp [h1, runL, Act.exec, past_zero, past_succ]
  rw [h2]
  refine ⟨?_, htrig⟩
  have hx : existsK (past h 0) T (bk ++ sfx) = false := by
    have hb : blockRKey standalone bk = bk ++ sfx := by simp [blockRKey, standalone]
    unfold shouldBlock2 at htrig
    split at htrig
    · simp [Result.zero] at htrig
    · dsimp only at htrig
      rw [hb] at htrig
      unfold script1 at htrig
      split at htrig
      · simp [Result.ofEval, Result.ofReply, Reply.pass] at htrig
      · cases he : existsK (past h 0) T (bk ++ sfx) with
        | false => rfl
        | true =>
          rw [if_pos he] at htrig
          split at htrig <;> simp [Result.ofEval, Result.ofReply, Result.zero] at htrig
  have hx' : existsK (past h 0) t (bk ++ sfx) = false := by
    unfold existsK live at hx ⊢
    cases hd : past h 0 (bk ++ sfx) with
    | none => rfl
    | some e =>
      rw [hd] at hx
      dsimp only at hx ⊢
      have : e.expired t = true := by
        cases hE : e.expired T with
        | false => rw [hE] at hx; simp at hx
        | true =>
          unfold Entry.expired at hE ⊢
          cases he : e.expireAt with
          | none => rw [he] at hE; simp at hE
          | some w => rw [he] at hE; simp at hE ⊢; omega
      rw [this]
      rfl
  simp [isBlocked, script2, hx', Result.ofEval, Result.ofReply, Reply.pass]

/-- The calls of the examples: capacity 1, window 9 s, timeout 5 s. -/
def exCall (now : Int) : Act := .call (.should [] ⟨1, 9, 5⟩ ⟨1, 9, 5⟩ ['k'] ['k'] ['m'] now)

/-- So the claim on blocks is false. -/
theorem C153_block_claim_violated : ¬ C153BlockClaim := by
  intro h
  have := h (runL [] [(0, exCall 0)]).1 1 [] ⟨1, 9, 5⟩ ⟨1, 9, 5⟩ ['k'] ['k'] ['m'] 0 (by decide) [(1, .lose (fun _ => true) 1)]
    (by decide) 1 (by decide) ⟨1, 9, 5⟩ ⟨1, 9, 5⟩ (by simp [Params.set]) (by simp [Params.set]) ['k'] ['m'] 0
  revert this
  decide

/-- Non-vacuity of C153: the third event triggers the block, the failover goes back to just after it, the block is still there;
a second failover goes back to the start, and the next call passes, within 9 seconds of the first. -/
example :
    (runL [] [(0, exCall 0), (1000, exCall 1), (1500, exCall 1), (2000, .lose (fun _ => true) 1), (2000, exCall 2),
      (3000, .lose (fun k => k == "_rl:k".toList) 9), (3000, exCall 3), (3500, .lose (fun _ => true) 9), (4000, exCall 4)]).2.map
      (fun ev => (ev.result.block, ev.result.triggered)) =
    [(false, false), (true, true), (true, false), (true, false), (true, false), (false, false)] := by decide

example : Spared "k:bl".toList 0 [(1500, exCall 1), (2000, .lose (fun _ => true) 1), (2000, exCall 2),
    (3000, .lose (fun k => k == "_rl:k".toList) 9)] := by
  simp [Spared, exCall]

example : [(0, exCall 0), (3000, Act.lose (fun k => k == "_rl:k".toList) 9), (3500, .lose (fun k => k == "k:bl".toList) 9),
    (20000, .lose (fun _ => true) 9)].countP (hitsIn "_rl:k".toList 0 9 0) = 1 := by decide

end Gears.TtlRedis
