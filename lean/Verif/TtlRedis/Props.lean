import Verif.TtlRedis.Admission
import Verif.TtlRedis.Slot

/-
Property theorems for the redis TTL limiter (C15-C22).  Times `t` are redis milliseconds.
-/

namespace Gears.TtlRedis

/-! ### C15 -/

/-- The parameters of a call are usable. -/
def Params.set (p : Params) : Prop := 0 < p.capacity ∧ 0 < p.window ∧ 0 < p.timeout

theorem Params.set_notSet {p : Params} (h : p.set) : ¬ p.notSet := by
  unfold Params.set at h; unfold Params.notSet; omega

theorem isBlocked_of_str (db : Db) (t : Int) (k m : Str) (E : Int) (h : db k = some ⟨.str m, some E⟩) (ht : t ≤ E) :
    existsK db t k = true ∧ getStr db t k = .ok m ∧ ttl db t k = (E - t + 500) / 1000 := by
  have hlive : live db t k = some ⟨.str m, some E⟩ := by simp [live, h, Entry.expired]; omega
  refine ⟨by simp [existsK, hlive], by simp [getStr, hlive], ?_⟩
  simp only [ttl, hlive]
  rw [Int.max_eq_left (by omega)]

/-- A call that triggers a block leaves the block entry in the store. -/
theorem triggered_store (db : Db) (T : Int) (tag : Str) (pc pu : Params) (key bk msg : Str) (now : Int)
    (h : (shouldBlock2 db T tag pc pu key bk msg now).2.triggered = true) :
    0 < pu.timeout ∧ (shouldBlock2 db T tag pc pu key bk msg now).2 = ⟨true, true, pu.timeout, msg⟩ ∧
    (shouldBlock2 db T tag pc pu key bk msg now).1 (blockRKey tag bk) =
      some ⟨.str msg, some (T + pu.timeout * 1000)⟩ := by
  unfold shouldBlock2 at h ⊢
  split at h
  · simp [Result.zero] at h
  · rename_i hn
    rw [if_neg hn]
    dsimp only at h ⊢
    cases hr : (script1 db T (listKey tag key) (blockRKey tag bk) pu.capacity pu.window pu.timeout now msg).2 with
    | error e => rw [hr] at h; simp [Result.ofEval, Result.zero] at h
    | ok r =>
      rw [hr] at h
      have h1 : r.triggered = 1 := by simpa [Result.ofEval, Result.ofReply] using h
      obtain ⟨a, b, c⟩ := script1_triggered' _ _ _ _ _ _ _ _ _ r hr h1
      refine ⟨a, ?_, c⟩
      rw [b]; rfl

/-- **C15.** Once a `ShouldBlock2` call reports Triggered at redis time `T` with timeout `e`, then — whatever calls
`mid` of whatever limiters happen — every `ShouldBlock2` on the same block key (any key, any usable parameters) up to
redis time `T + e` seconds reports Block, not Triggered, with the original message.  The database before the
triggering call is arbitrary. -/
theorem C15_block_lasts (db : Db) (T : Int) (tag : Str) (pc pu : Params) (key bk msg : Str) (now : Int)
    (htrig : (shouldBlock2 db T tag pc pu key bk msg now).2.triggered = true)
    (mid : List (Int × Call)) (hmid : ∀ x ∈ mid, x.1 ≤ T + pu.timeout * 1000)
    (t : Int) (ht : t ≤ T + pu.timeout * 1000) (pc' pu' : Params) (hp : pc'.set) (hp' : pu'.set)
    (key' msg' : Str) (now' : Int) :
    let db1 := (run (shouldBlock2 db T tag pc pu key bk msg now).1 mid).1
    let r := (shouldBlock2 db1 t tag pc' pu' key' bk msg' now').2
    r.block = true ∧ r.triggered = false ∧ r.msg = msg := by
  obtain ⟨_, _, hst⟩ := triggered_store db T tag pc pu key bk msg now htrig
  have hst1 := run_keeps_str mid _ _ _ _ hst hmid
  intro db1 r
  obtain ⟨hx, hg, _⟩ := isBlocked_of_str db1 t _ _ _ hst1 ht
  have hpar : ¬ (pu'.capacity ≤ 0 ∨ pu'.window ≤ 0 ∨ pu'.timeout ≤ 0) := by
    unfold Params.set at hp'; omega
  have : r = ⟨true, false, ttl db1 t (blockRKey tag bk), msg⟩ := by
    show (shouldBlock2 db1 t tag pc' pu' key' bk msg' now').2 = _
    unfold shouldBlock2
    rw [if_neg (Params.set_notSet hp)]
    simp only [script1, if_neg hpar, hx, if_true, hg, Result.ofEval, Result.ofReply]
    rfl
  rw [this]
  exact ⟨rfl, rfl, rfl⟩

/-- A limiter with capacity 2, window 10 s, timeout 3 s, used in the examples. -/
def exParams : Params := ⟨2, 10, 3⟩

/-- Non-vacuity of C15 and C18: three quick requests; the third triggers; it stays blocked until the timeout is over
and a request just after it triggers again. -/
example : (run Db.empty
    [(1000, .should [] exParams exParams ['k'] ['k'] ['m'] 1), (1100, .should [] exParams exParams ['k'] ['k'] ['n'] 1),
     (1200, .should [] exParams exParams ['k'] ['k'] ['o'] 1), (2000, .should [] exParams exParams ['k'] ['k'] ['p'] 2),
     (4200, .should [] exParams exParams ['k'] ['k'] ['q'] 4), (4201, .should [] exParams exParams ['k'] ['k'] ['r'] 4)]).2.map
      (·.result) =
    [⟨false, false, 0, []⟩, ⟨false, false, 0, []⟩, ⟨true, true, 3, ['o']⟩, ⟨true, false, 2, ['o']⟩,
     ⟨true, false, 0, ['o']⟩, ⟨true, true, 3, ['r']⟩] := by decide

/-! ### C16 -/

/-- The block entries of the store come from triggering calls of the history. -/
def Justified (h : List Event) (db : Db) : Prop :=
  ∀ k m E, db k = some ⟨.str m, E⟩ → ∃ ev ∈ h, ∃ tag pc pu key bk now,
    ev.call = .should tag pc pu key bk m now ∧ blockRKey tag bk = k ∧ ev.result.triggered = true ∧
    E = some (ev.time + pu.timeout * 1000)

theorem rpush_str (db : Db) (t : Int) (k : Str) (v : Int) (k' m : Str) (E : Option Int)
    (h : rpush db t k v k' = some ⟨.str m, E⟩) : db k' = some ⟨.str m, E⟩ := by
  by_cases e : k' = k
  · subst e
    unfold rpush at h
    rcases hl : live db t k' with _ | ⟨_ | l, _⟩ <;> simp [hl, set_self] at h
    exact h
  · rwa [rpush_ne _ _ _ e] at h

theorem lpop_str (db : Db) (t : Int) (k : Str) (k' m : Str) (E : Option Int)
    (h : lpop db t k k' = some ⟨.str m, E⟩) : db k' = some ⟨.str m, E⟩ := by
  by_cases e : k' = k
  · subst e
    unfold lpop at h
    rcases hl : live db t k' with _ | ⟨_ | (_ | ⟨_, _ | ⟨_, _⟩⟩), _⟩ <;> simp [hl, set_self] at h
    · exact h
    · exact h
  · rwa [lpop_ne _ _ e] at h

theorem lpopN_str (n : Nat) (db : Db) (t : Int) (k : Str) (k' m : Str) (E : Option Int)
    (h : lpopN db t k n k' = some ⟨.str m, E⟩) : db k' = some ⟨.str m, E⟩ := by
  induction n generalizing db with
  | zero => exact h
  | succ n ih => exact lpop_str _ _ _ _ _ _ (ih _ h)

/-- The strings in the store after script1: an old one, or the block just triggered. -/
theorem script1_str (db : Db) (t : Int) (key keyb : Str) (cap win exp now : Int) (msg : Str) (k m : Str)
    (E : Option Int) (h : (script1 db t key keyb cap win exp now msg).1 k = some ⟨.str m, E⟩) :
    db k = some ⟨.str m, E⟩ ∨
    (k = keyb ∧ m = msg ∧ E = some (t + exp * 1000) ∧
      (script1 db t key keyb cap win exp now msg).2 = .ok ⟨1, 1, exp, msg⟩) := by
  have hexp : ∀ d : Db, expire d t key (exp * 2) k = some ⟨.str m, E⟩ → ¬ (∃ m' E', live d t key = some ⟨.str m', E'⟩) →
      d k = some ⟨.str m, E⟩ := by
    intro d hd hn
    by_cases e : k = key
    · subst e
      unfold expire at hd
      rcases hl : live d t k with _ | ⟨_ | l, _⟩
      · simp [hl] at hd; exact hd
      · exact absurd ⟨_, _, hl⟩ hn
      · simp [hl, set_self] at hd
    · rwa [expire_ne _ _ _ e] at hd
  unfold script1 at h ⊢
  by_cases hp : cap ≤ 0 ∨ win ≤ 0 ∨ exp ≤ 0
  · rw [if_pos hp] at h; exact Or.inl h
  · rw [if_neg hp] at h ⊢
    by_cases hx : existsK db t keyb = true
    · rw [if_pos hx] at h
      left
      split at h <;> exact h
    · rw [if_neg hx] at h ⊢
      cases hsz : llen db t key with
      | error e => rw [hsz] at h; exact Or.inl h
      | ok size =>
        rw [hsz] at h
        simp only at h ⊢
        -- key does not hold a visible string
        have hns : ¬ ∃ m' E', live db t key = some ⟨.str m', E'⟩ := by
          rintro ⟨m', E', hl⟩
          simp [llen, hl] at hsz
        have vis : ∀ d : Db, (∀ k' m' E', d k' = some ⟨.str m', E'⟩ → db k' = some ⟨.str m', E'⟩) →
            ¬ ∃ m' E', live d t key = some ⟨.str m', E'⟩ := by
          rintro d hd ⟨m', E', hl⟩
          obtain ⟨h1, h2⟩ := live_some hl
          exact hns ⟨m', E', by simp [live, hd _ _ _ h1, h2]⟩
        by_cases hlt : size < cap
        · rw [if_pos hlt] at h
          left
          exact rpush_str _ _ _ _ _ _ _ (hexp _ h (vis _ (fun _ _ _ h' => rpush_str _ _ _ _ _ _ _ h')))
        · rw [if_neg hlt] at h ⊢
          cases hr : lrange00 (lpopN db t key (size - cap).toNat) t key with
          | none =>
            simp only [hr] at h
            left
            have h1 := hexp _ h (vis _ (fun _ _ _ h' => lpopN_str _ _ _ _ _ _ _ (rpush_str _ _ _ _ _ _ _ h')))
            exact lpopN_str _ _ _ _ _ _ _ (rpush_str _ _ _ _ _ _ _ h1)
          | some oldest =>
            simp only [hr] at h ⊢
            by_cases hw : now - oldest > win
            · rw [if_pos hw] at h
              left
              have h1 := hexp _ h (vis _ (fun _ _ _ h' => lpopN_str _ _ _ _ _ _ _
                (rpush_str _ _ _ _ _ _ _ (lpop_str _ _ _ _ _ _ h'))))
              exact lpopN_str _ _ _ _ _ _ _ (rpush_str _ _ _ _ _ _ _ (lpop_str _ _ _ _ _ _ h1))
            · rw [if_neg hw] at h ⊢
              by_cases e : k = keyb
              · subst e
                unfold setExNx at h
                rcases hl : live (lpopN db t key (size - cap).toNat) t k with _ | en
                · simp [hl, set_self] at h
                  obtain ⟨rfl, rfl⟩ := h
                  exact Or.inr ⟨rfl, rfl, rfl, rfl⟩
                · simp [hl] at h
                  exact Or.inl (lpopN_str _ _ _ _ _ _ _ h)
              · left
                dsimp only at h
                rw [setExNx_ne _ _ _ _ e] at h
                exact lpopN_str _ _ _ _ _ _ _ h

theorem exec_justified (h : List Event) (db : Db) (t : Int) (c : Call) (hj : Justified h db) :
    Justified (h ++ [⟨t, c, (c.exec db t).2⟩]) (c.exec db t).1 := by
  have keep : Justified (h ++ [⟨t, c, (c.exec db t).2⟩]) db := by
    intro k m E hk
    obtain ⟨ev, hev, rest⟩ := hj k m E hk
    exact ⟨ev, by simp [hev], rest⟩
  cases c with
  | should tag pc pu key bk msg now =>
    simp only [Call.exec, shouldBlock2] at keep ⊢
    split
    · rename_i hn; simpa [hn] using keep
    · rename_i hn
      rw [if_neg hn] at keep
      intro k m E hk
      rcases script1_str _ _ _ _ _ _ _ _ _ _ _ _ hk with hold | ⟨rfl, rfl, rfl, hrep⟩
      · exact keep k m E hold
      · refine ⟨_, by simp; exact Or.inr rfl, tag, pc, pu, key, bk, now, rfl, rfl, ?_, rfl⟩
        rw [hrep]; rfl
  | isBlocked bk => exact keep
  | shouldDown pc => exact keep
  | isBlockedDown => exact keep

theorem run_justified (cs : List (Int × Call)) : ∀ (h : List Event) (db : Db), Justified h db →
    Justified (h ++ (run db cs).2) (run db cs).1 := by
  induction cs with
  | nil => intro h db hj; simpa [run] using hj
  | cons x cs ih =>
    intro h db hj
    have := ih _ _ (exec_justified h db x.1 x.2 hj)
    simpa [run] using this

/-- **C16.** On a redis that started empty, after any history of limiter calls, if `IsBlocked(blockKey)` at redis time
`t` reports a block then some earlier call on the redis key of `blockKey` triggered it, with the reported message, and
its timeout is not over: `t ≤ T + e` seconds.  So nothing that was not triggered is reported, and a block is released
once every trigger's timeout is over. -/
theorem C16_block_has_cause (cs : List (Int × Call)) (t : Int) (bk : Str)
    (hb : (isBlocked (run Db.empty cs).1 t bk).block = true) :
    ∃ ev ∈ (run Db.empty cs).2, ∃ tag pc pu key bk' msg now,
      ev.call = .should tag pc pu key bk' msg now ∧ blockRKey tag bk' = blockRKey standalone bk ∧
      ev.result.triggered = true ∧ t ≤ ev.time + pu.timeout * 1000 ∧
      (isBlocked (run Db.empty cs).1 t bk).msg = msg := by
  have hj := run_justified cs [] Db.empty (by intro k m E h; simp [Db.empty] at h)
  rw [List.nil_append] at hj
  generalize (run Db.empty cs).1 = db at *
  unfold isBlocked script2 at hb ⊢
  by_cases hx : existsK db t (bk ++ sfx) = true
  · rw [if_pos hx] at hb ⊢
    cases hg : getStr db t (bk ++ sfx) with
    | error e => rw [hg] at hb; simp [Result.ofEval, Result.zero] at hb
    | ok m =>
      unfold getStr at hg
      split at hg
      · rename_i s E hl
        simp at hg; subst hg
        obtain ⟨hd, hexp⟩ := live_some hl
        obtain ⟨ev, hev, tag, pc, pu, key, bk', now, h1, h2, h3, h4⟩ := hj _ _ _ hd
        refine ⟨ev, hev, tag, pc, pu, key, bk', s, now, h1, ?_, h3, ?_, rfl⟩
        · rw [h2]; simp [blockRKey, standalone]
        · subst h4; simp [Entry.expired] at hexp; omega
      · simp at hg
      · rename_i hl
        simp [existsK, hl] at hx
  · rw [if_neg hx] at hb; simp [Result.ofEval, Result.ofReply, Reply.pass] at hb

/-- **C16**, release: when all calls are made by standalone limiters and every trigger of `blockKey` is more than its
timeout ago, `IsBlocked(blockKey)` reports no block. -/
theorem C16_released (cs : List (Int × Call)) (t : Int) (bk : Str)
    (hstand : ∀ ev ∈ (run Db.empty cs).2, ∀ tag pc pu key bk' msg now,
      ev.call = .should tag pc pu key bk' msg now → tag = standalone)
    (hover : ∀ ev ∈ (run Db.empty cs).2, ∀ tag pc pu key msg now,
      ev.call = .should tag pc pu key bk msg now → ev.result.triggered = true → ev.time + pu.timeout * 1000 < t) :
    (isBlocked (run Db.empty cs).1 t bk).block = false := by
  cases hb : (isBlocked (run Db.empty cs).1 t bk).block with
  | false => rfl
  | true =>
    exfalso
    obtain ⟨ev, hev, tag, pc, pu, key, bk', msg, now, h1, h2, h3, h4, _⟩ := C16_block_has_cause cs t bk hb
    have htag := hstand ev hev _ _ _ _ _ _ _ h1
    subst htag
    have : bk' = bk := by
      simp only [blockRKey, standalone, List.append_nil] at h2
      exact List.append_cancel_right h2
    subst this
    have := hover ev hev _ _ _ _ _ _ h1 h3
    omega

/-- Non-vacuity of C16. -/
example :
    let cs : List (Int × Call) := [(0, .should [] ⟨1, 9, 1⟩ ⟨1, 9, 1⟩ ['k'] ['b'] ['m'] 0),
      (1, .should [] ⟨1, 9, 1⟩ ⟨1, 9, 1⟩ ['k'] ['b'] ['m'] 0)]
    (isBlocked (run Db.empty cs).1 1001 ['b']).block = true ∧ (isBlocked (run Db.empty cs).1 1002 ['b']).block = false := by
  decide

/-! ### C17 -/

/-- Client times of the calls on list key `L` that were not blocked. -/
def passed (L : Str) : List Event → List Int
  | [] => []
  | ev :: h =>
    match ev.call with
    | .should tag _ _ key _ _ now =>
      if listKey tag key = L ∧ ev.result.block = false then now :: passed L h else passed L h
    | _ => passed L h

/-- Hypotheses of C17 on one call, at redis time `t`: its redis block key satisfies `BK`, its list key does not (the two
kinds of redis keys do not collide), and if it is for list key `L` its parameters are `(c, w, e)` and its client clock
shows the redis time shifted by `δ` ms, in whole seconds. -/
def CallOk (BK : Str → Prop) (L : Str) (c w e δ : Int) (t : Int) : Call → Prop
  | .should tag pc pu key bk _ now =>
    BK (blockRKey tag bk) ∧ ¬ BK (listKey tag key) ∧
    (listKey tag key = L → pc = ⟨c, w, e⟩ ∧ pu = ⟨c, w, e⟩ ∧ now = (t + δ) / 1000)
  | _ => True

theorem passed_append (L : Str) (a b : List Event) : passed L (a ++ b) = passed L a ++ passed L b := by
  induction a with
  | nil => rfl
  | cons ev a ih =>
    simp only [List.cons_append, passed]
    split
    · split <;> simp [ih]
    · exact ih

theorem run_admission {BK : Str → Prop} {c : Nat} (hc : 0 < c) {w e δ : Int} (hw : 0 < w) (he : 0 < e)
    (hwe : w < 2 * e) {L : Str} (hLb : ¬ BK L) (cs : List (Int × Call)) :
    ∀ (A : List Int) (tl : Int) (db : Db), Typed BK db → ListInv c w e δ L A tl db →
      (tl :: cs.map (·.1)).Pairwise (· ≤ ·) → (∀ x ∈ cs, CallOk BK L c w e δ x.1 x.2) →
      SlidingWindow.Spaced c w (A ++ passed L (run db cs).2) := by
  induction cs with
  | nil => intro A tl db _ inv _ _; simpa [run, passed] using inv.1
  | cons x cs ih =>
    intro A tl db ht inv hsort hok
    obtain ⟨t, call⟩ := x
    rw [List.map_cons, List.pairwise_cons] at hsort
    obtain ⟨hle, hsort'⟩ := hsort
    have htl : tl ≤ t := hle t (by simp)
    have hcall : CallOk BK L c w e δ t call := hok (t, call) (by simp)
    have hok' : ∀ x ∈ cs, CallOk BK L c w e δ x.1 x.2 := fun y hy => hok y (by simp [hy])
    have later : ∀ db', db' L = db L → ListInv c w e δ L A t db' := by
      intro db' h'
      obtain ⟨hsp, hdb⟩ := inv
      refine ⟨hsp, ?_⟩
      rw [h']
      rcases hdb with h | ⟨P, R, T, h1, h2, h3, h4, h5, h6, h7⟩
      · exact Or.inl h
      · exact Or.inr ⟨P, R, T, h1, h2, h3, h4, h5, h6, by omega⟩
    cases call with
    | should tag pc pu key bk msg now =>
      obtain ⟨hb, hnb, hL⟩ := hcall
      by_cases hkey : listKey tag key = L
      · obtain ⟨rfl, rfl, rfl⟩ := hL hkey
        obtain ⟨r, hr, inv'⟩ := list_step (BK := BK) hc hw he hwe (hkey ▸ hnb) hb ht inv t htl msg
        have hty := typed_script1 ht hnb hb t c w e ((t + δ) / 1000) msg
        have hns : ¬ (⟨c, w, e⟩ : Params).notSet := by unfold Params.notSet; simp only; omega
        have hex : (Call.should tag ⟨c, w, e⟩ ⟨c, w, e⟩ key bk msg ((t + δ) / 1000)).exec db t =
            ((script1 db t L (blockRKey tag bk) c w e ((t + δ) / 1000) msg).1, Result.ofReply r) := by
          simp only [Call.exec, shouldBlock2, if_neg hns, hkey, hr, Result.ofEval]
        rw [hkey] at hty
        have hrest := ih _ _ _ hty inv' hsort' hok'
        simp only [run, hex, passed, hkey, true_and]
        -- the reply's block flag is 0 or 1
        have hblk : (Result.ofReply r).block = false ↔ r.block = 0 := by
          rcases script1_reply _ _ _ _ _ _ _ _ _ _ hr with h | ⟨h, _⟩ | ⟨m, _, _, h⟩ <;> subst h <;>
            simp [Result.ofReply, Reply.pass]
        by_cases h0 : r.block = 0
        · rw [if_pos (hblk.mpr h0)]
          rw [if_pos h0] at hrest
          simpa using hrest
        · rw [if_neg (fun h => h0 (hblk.mp h))]
          rw [if_neg h0] at hrest
          simpa using hrest
      · have hLne : L ≠ blockRKey tag bk := by rintro rfl; exact hLb hb
        have hsame : ((Call.should tag pc pu key bk msg now).exec db t).1 L = db L := by
          simp only [Call.exec, shouldBlock2]
          split
          · rfl
          · exact script1_ne _ _ _ _ _ _ _ _ _ (fun h => hkey h.symm) hLne
        have hty : Typed BK ((Call.should tag pc pu key bk msg now).exec db t).1 := by
          simp only [Call.exec, shouldBlock2]
          split
          · exact ht
          · exact typed_script1 ht hnb hb _ _ _ _ _ _
        have hrest := ih _ _ _ hty (later _ hsame) hsort' hok'
        simp only [run, passed, if_neg (fun h : listKey tag key = L ∧ _ => hkey h.1)]
        exact hrest
    | isBlocked bk => 
      exact ih A t db ht (later db rfl) hsort' hok'
    | shouldDown pc => exact ih A t db ht (later db rfl) hsort' hok'
    | isBlockedDown => exact ih A t db ht (later db rfl) hsort' hok'

/-- **C17.** On a redis that started empty, for one list key `L` whose callers all use capacity `c`, window `w` and
timeout `e` seconds with `w < 2e`, with a non-decreasing redis clock, client clocks a fixed offset `δ` from it, and no
collision between list keys and block keys: whatever else happens (other keys, other limiters, block keys, queries), at
most `c` calls that were not blocked fall, by client time, in any closed interval of length `w`. -/
theorem C17_admission (BK : Str → Prop) (L : Str) (hL : ¬ BK L) (c : Nat) (w e δ : Int) (hc : 0 < c) (hw : 0 < w)
    (he : 0 < e) (hwe : w < 2 * e) (cs : List (Int × Call)) (hsort : (cs.map (·.1)).Pairwise (· ≤ ·))
    (hok : ∀ x ∈ cs, CallOk BK L c w e δ x.1 x.2) (lo : Int) :
    (passed L (run Db.empty cs).2).countP (fun a => lo ≤ a ∧ a ≤ lo + w) ≤ c := by
  have hsp : SlidingWindow.Spaced c w ([] ++ passed L (run Db.empty cs).2) := by
    cases cs with
    | nil => intro i a b h; simp [run, passed] at h
    | cons x cs =>
      refine run_admission hc hw he hwe hL (x :: cs) [] x.1 Db.empty (typed_empty BK)
        ⟨by intro i a b h; simp at h, Or.inl ⟨rfl, rfl⟩⟩ ?_ hok
      rw [List.pairwise_cons]
      refine ⟨?_, hsort⟩
      intro y hy
      rw [List.map_cons, List.pairwise_cons] at hsort
      rw [List.map_cons, List.mem_cons] at hy
      rcases hy with rfl | hy
      · exact Int.le_refl _
      · exact hsort.1 y hy
  rw [List.nil_append] at hsp
  have := hsp.count_le hc lo
  simpa using this

/-- Non-vacuity of C17: two pass, one triggers, and after the block (3 s) the oldest is 10 s or more ago. -/
example :
    passed (listKey [] ['k']) (run Db.empty
    [(1000, .should [] exParams exParams ['k'] ['k'] ['m'] 1), (3000, .should [] exParams exParams ['k'] ['k'] ['n'] 3),
     (9000, .should [] exParams exParams ['k'] ['k'] ['o'] 9)]).2 = [1, 3] := by decide

/-! ### C18 -/

/-- The results a limiter may give: pass, or a block with a TTL. -/
def Legal (minTtl : Int) (r : Result) : Prop :=
  r = Result.zero ∨ (r.block = true ∧ minTtl ≤ r.ttl)

theorem ttl_nonneg_of_expiry (db : Db) (t : Int) (k : Str) (v : Val) (E : Int)
    (h : live db t k = some ⟨v, some E⟩) : 0 ≤ ttl db t k := by
  simp only [ttl, h]
  have h2 := (live_some h).2
  simp [Entry.expired] at h2
  omega

/-- Every block entry in the store has an expiry, on histories that started from an empty redis. -/
theorem run_str_expiry (cs : List (Int × Call)) (k m : Str) (E : Option Int)
    (h : (run Db.empty cs).1 k = some ⟨.str m, E⟩) : ∃ T, E = some T := by
  have hj := run_justified cs [] Db.empty (by intro k m E h; simp [Db.empty] at h)
  obtain ⟨ev, _, _, _, pu, _, _, _, _, _, _, h4⟩ := hj k m E h
  exact ⟨_, h4⟩

theorem getStr_ok_live {db : Db} {t : Int} {k m : Str} (hx : existsK db t k = true) (h : getStr db t k = .ok m) :
    ∃ E, live db t k = some ⟨.str m, E⟩ := by
  unfold getStr at h
  split at h
  · rename_i s E hl
    simp at h; subst h; exact ⟨_, hl⟩
  · simp at h
  · rename_i hl
    simp [existsK, hl] at hx

/-- **C18** (partial): after any history on a redis that started empty, every `ShouldBlock2` result is either the zero
result (pass) or a block with TTL ≥ 0, and Triggered implies Block with TTL = the timeout > 0.  The full claim wants
TTL > 0 for every block, which `C18_ttl_zero_violated` refutes. -/
theorem C18_results_partial (cs : List (Int × Call)) (t : Int) (tag : Str) (pc pu : Params) (key bk msg : Str)
    (now : Int) :
    let r := (shouldBlock2 (run Db.empty cs).1 t tag pc pu key bk msg now).2
    Legal 0 r ∧ (r.triggered = true → r.block = true ∧ r.ttl = pu.timeout ∧ 0 < r.ttl ∧ r.msg = msg) := by
  intro r
  constructor
  · have hstr := run_str_expiry cs
    change Legal 0 (shouldBlock2 (run Db.empty cs).1 t tag pc pu key bk msg now).2
    generalize (run Db.empty cs).1 = db at hstr
    unfold shouldBlock2
    split
    · exact Or.inl rfl
    · dsimp only
      cases hr : (script1 db t (listKey tag key) (blockRKey tag bk) pu.capacity pu.window pu.timeout now msg).2 with
      | error e => exact Or.inl rfl
      | ok rep =>
        rcases script1_reply _ _ _ _ _ _ _ _ _ _ hr with h | ⟨h, hpos⟩ | ⟨m, hg, hx, h⟩
        · subst h; exact Or.inl rfl
        · subst h; right; exact ⟨rfl, by simp [Result.ofEval, Result.ofReply]; omega⟩
        · subst h
          right
          refine ⟨rfl, ?_⟩
          obtain ⟨E, hl⟩ := getStr_ok_live hx hg
          obtain ⟨T, rfl⟩ := hstr _ _ _ (live_some hl).1
          exact ttl_nonneg_of_expiry _ _ _ _ _ hl
  · intro h
    obtain ⟨h1, h2, _⟩ := triggered_store _ _ _ _ _ _ _ _ _ h
    have : r = ⟨true, true, pu.timeout, msg⟩ := h2
    rw [this]
    exact ⟨rfl, rfl, h1, rfl⟩

/-- **C18** (violated): a block may be reported with TTL 0, because redis TTL rounds to whole seconds. -/
theorem C18_ttl_zero_violated :
    ∃ (cs : List (Int × Call)) (t : Int) (p : Params), p.set ∧
      ¬ Legal 1 (shouldBlock2 (run Db.empty cs).1 t standalone p p ['k'] ['k'] ['m'] (t / 1000)).2 := by
  refine ⟨[(0, .should [] ⟨1, 9, 1⟩ ⟨1, 9, 1⟩ ['k'] ['k'] ['m'] 0),
    (1, .should [] ⟨1, 9, 1⟩ ⟨1, 9, 1⟩ ['k'] ['k'] ['m'] 0)], 700, ⟨1, 9, 1⟩, by simp [Params.set], ?_⟩
  have : (shouldBlock2 (run Db.empty [(0, .should [] ⟨1, 9, 1⟩ ⟨1, 9, 1⟩ ['k'] ['k'] ['m'] 0),
    (1, .should [] ⟨1, 9, 1⟩ ⟨1, 9, 1⟩ ['k'] ['k'] ['m'] 0)]).1 700 standalone ⟨1, 9, 1⟩ ⟨1, 9, 1⟩ ['k'] ['k'] ['m']
      (700 / 1000)).2 = ⟨true, false, 0, ['m']⟩ := by decide
  rw [this]
  rintro (h | ⟨_, h⟩)
  · simp [Result.zero] at h
  · simp at h

/-- **C18**, at most one Triggered per block episode: after a trigger, no call on the same block key reports Triggered
until the timeout is over (usable or not, its parameters are arbitrary). -/
theorem C18_triggers_once_partial (db : Db) (T : Int) (tag : Str) (pc pu : Params) (key bk msg : Str) (now : Int)
    (htrig : (shouldBlock2 db T tag pc pu key bk msg now).2.triggered = true)
    (mid : List (Int × Call)) (hmid : ∀ x ∈ mid, x.1 ≤ T + pu.timeout * 1000)
    (t : Int) (ht : t ≤ T + pu.timeout * 1000) (pc' pu' : Params) (key' msg' : Str) (now' : Int) :
    (shouldBlock2 (run (shouldBlock2 db T tag pc pu key bk msg now).1 mid).1 t tag pc' pu' key' bk msg' now').2.triggered
      = false := by
  obtain ⟨_, _, hst⟩ := triggered_store db T tag pc pu key bk msg now htrig
  have hst1 := run_keeps_str mid _ _ _ _ hst hmid
  generalize (run (shouldBlock2 db T tag pc pu key bk msg now).1 mid).1 = db1 at hst1
  obtain ⟨hx, hg, _⟩ := isBlocked_of_str db1 t _ _ _ hst1 ht
  unfold shouldBlock2
  split
  · rfl
  · dsimp only
    unfold script1
    split
    · rfl
    · simp only [hx, if_true, hg]; rfl

/-! ### C20 -/

/-- **C20** (partial: standalone): `IsBlocked` agrees with what a `ShouldBlock2` with the same block key at the same
instant does about an existing block: it reports Block exactly when that call reports Block without Triggered, with the
same TTL and message. -/
theorem C20_isBlocked_agrees_partial (db : Db) (t : Int) (bk : Str) (pc pu : Params) (hp : pc.set) (hp' : pu.set)
    (key msg : Str) (now : Int) (hstr : ∀ l E, db (blockRKey standalone bk) ≠ some ⟨.list l, E⟩) :
    let q := isBlocked db t bk
    let r := (shouldBlock2 db t standalone pc pu key bk msg now).2
    (q.block = true ↔ (r.block = true ∧ r.triggered = false)) ∧
    (q.block = true → r.ttl = q.ttl ∧ r.msg = q.msg ∧ q.triggered = false) := by
  have hk : blockRKey standalone bk = bk ++ sfx := by simp [blockRKey, standalone]
  have hpar : ¬ (pu.capacity ≤ 0 ∨ pu.window ≤ 0 ∨ pu.timeout ≤ 0) := by unfold Params.set at hp'; omega
  intro q r
  have hq : q = isBlocked db t bk := rfl
  have hr : r = (shouldBlock2 db t standalone pc pu key bk msg now).2 := rfl
  unfold isBlocked script2 at hq
  by_cases hx : existsK db t (bk ++ sfx) = true
  · rw [if_pos hx] at hq
    have hg : ∃ m, getStr db t (bk ++ sfx) = .ok m := by
      unfold getStr
      split
      · exact ⟨_, rfl⟩
      · rename_i l E hl
        exact absurd (live_some hl).1 (hk ▸ hstr l E)
      · exact ⟨_, rfl⟩
    obtain ⟨m, hg⟩ := hg
    rw [hg] at hq
    unfold shouldBlock2 at hr
    rw [if_neg (Params.set_notSet hp), hk] at hr
    simp only [script1, if_neg hpar, hx, if_true, hg] at hr
    rw [hq, hr]
    simp [Result.ofEval, Result.ofReply]
  · rw [if_neg hx] at hq
    have hqb : q.block = false := by rw [hq]; simp [Result.ofEval, Result.ofReply, Reply.pass]
    rw [hqb]
    refine ⟨⟨by simp, ?_⟩, by simp⟩
    rintro ⟨h1, h2⟩
    exfalso
    unfold shouldBlock2 at hr
    rw [if_neg (Params.set_notSet hp), hk] at hr
    dsimp only at hr
    cases hs : (script1 db t (listKey standalone key) (bk ++ sfx) pu.capacity pu.window pu.timeout now msg).2 with
    | error e => rw [hs] at hr; rw [hr] at h1; simp [Result.ofEval, Result.zero] at h1
    | ok rep =>
      rw [hs] at hr
      rcases script1_reply _ _ _ _ _ _ _ _ _ _ hs with h | ⟨h, _⟩ | ⟨m, _, hx', _⟩
      · subst h; rw [hr] at h1; simp [Result.ofEval, Result.ofReply, Reply.pass] at h1
      · subst h; rw [hr] at h2; simp [Result.ofEval, Result.ofReply] at h2
      · exact hx hx'

/-- **C20** (violated): a limiter with a hash tag (cluster mode) blocks, and `IsBlocked` of the same limiter does not
see it, because it leaves the hash tag out of the redis key. -/
theorem C20_cluster_violated :
    ∃ (tag : Str) (cs : List (Int × Call)) (t : Int) (p : Params), p.set ∧
      let db := (run Db.empty cs).1
      (shouldBlock2 db t tag p p ['k'] ['k'] ['m'] (t / 1000)).2.block = true ∧ (isBlocked db t ['k']).block = false := by
  refine ⟨clusterTag ['h'], [(0, .should (clusterTag ['h']) ⟨1, 9, 5⟩ ⟨1, 9, 5⟩ ['k'] ['k'] ['m'] 0),
    (1, .should (clusterTag ['h']) ⟨1, 9, 5⟩ ⟨1, 9, 5⟩ ['k'] ['k'] ['m'] 0)], 700, ⟨1, 9, 5⟩, by simp [Params.set], ?_⟩
  decide

/-- **C20**, for `ShouldBlock` with one key: a block it triggers is seen by `IsBlocked` of the same key, with its
message, whatever calls come between, until it ends; and apart from the list and the block of this key, nothing in the
store changes. -/
theorem C20_shouldBlock (db : Db) (T : Int) (pc pu : Params) (key msg : Str) (now : Int) :
    ((shouldBlock db T standalone pc pu key msg now).2.triggered = true →
      ∀ (mid : List (Int × Call)), (∀ x ∈ mid, x.1 ≤ T + pu.timeout * 1000) → ∀ t, t ≤ T + pu.timeout * 1000 →
        (isBlocked (run (shouldBlock db T standalone pc pu key msg now).1 mid).1 t key).block = true ∧
        (isBlocked (run (shouldBlock db T standalone pc pu key msg now).1 mid).1 t key).msg = msg) ∧
    ∀ k, k ≠ "_rl:".toList ++ key → k ≠ key ++ ":bl".toList →
      (shouldBlock db T standalone pc pu key msg now).1 k = db k := by
  constructor
  · intro htrig mid hmid t ht
    obtain ⟨_, _, hst⟩ := triggered_store db T standalone pc pu key key msg now htrig
    have hst1 := run_keeps_str mid _ _ _ _ hst hmid
    have hk : blockRKey standalone key = key ++ sfx := by simp [blockRKey, standalone]
    rw [hk] at hst1
    unfold shouldBlock
    obtain ⟨hx, hg, _⟩ := isBlocked_of_str _ t _ _ _ hst1 ht
    unfold isBlocked script2
    rw [if_pos hx, hg]
    exact ⟨rfl, rfl⟩
  · intro k h1 h2
    unfold shouldBlock shouldBlock2
    split
    · rfl
    · exact script1_ne db T _ _ _ _ _ _ _ (by simpa [listKey, standalone, pfx] using h1)
        (by simpa [blockRKey, standalone, sfx] using h2)

example : (shouldBlock (shouldBlock Db.empty 0 standalone ⟨1, 9, 5⟩ ⟨1, 9, 5⟩ ['k'] ['m'] 0).1 1 standalone ⟨1, 9, 5⟩
    ⟨1, 9, 5⟩ ['k'] ['m'] 0).2.triggered = true := by decide

/-- **C20**: `IsBlocked` never changes the store. -/
theorem C20_isBlocked_reads_only (db : Db) (t : Int) (bk : Str) : ((Call.isBlocked bk).exec db t).1 = db := rfl

/-! ### C21 -/

/-- **C21.** Unset parameters: the zero result, and redis is not touched. -/
theorem C21_unset_passes (db : Db) (t : Int) (tag : Str) (pc pu : Params)
    (h : pc.capacity ≤ 0 ∨ pc.window ≤ 0 ∨ pc.timeout ≤ 0) (key bk msg : Str) (now : Int) :
    shouldBlock2 db t tag pc pu key bk msg now = (db, Result.zero) := by
  have hn : pc.notSet := by unfold Params.notSet; omega
  simp [shouldBlock2, hn]

/-- **C21.** An error reply of redis, whatever it is, lets the request pass. -/
theorem C21_errors_pass (db : Db) (t : Int) (tag : Str) (pc pu : Params) (key bk msg : Str) (now : Int) (e : Err)
    (h : (script1 db t (listKey tag key) (blockRKey tag bk) pu.capacity pu.window pu.timeout now msg).2 = .error e) :
    (shouldBlock2 db t tag pc pu key bk msg now).2 = Result.zero := by
  unfold shouldBlock2
  split
  · rfl
  · simp [h, Result.ofEval]

/-- **C21.** When redis is down nothing is blocked. -/
theorem C21_down_passes (db : Db) (t : Int) (pc : Params) :
    (Call.shouldDown pc).exec db t = (db, Result.zero) ∧ Call.isBlockedDown.exec db t = (db, Result.zero) := by
  simp [Call.exec, Result.ofEval]

/-- Non-vacuity of C21: a wrong type error is possible, and unset parameters are. -/
example : (script1 ((fun k => if k = ['_', 'r', 'l', ':', 'k'] then some ⟨.str [], none⟩ else none)) 0
    (listKey [] ['k']) (blockRKey [] ['k']) 1 1 1 0 []).2 = .error .wrongType ∧ (⟨0, 1, 1⟩ : Params).notSet := by
  refine ⟨by decide, by decide⟩

/-! ### C19 -/

/-- The redis keys a call uses. -/
def Call.rkeys : Call → List Str
  | .should tag _ _ key bk _ _ => [listKey tag key, blockRKey tag bk]
  | .isBlocked bk => [blockRKey standalone bk]
  | _ => []

theorem exec_frame (db : Db) (t : Int) (c : Call) (k : Str) (h : k ∉ c.rkeys) : (c.exec db t).1 k = db k := by
  cases c with
  | should tag pc pu key bk msg now =>
    simp [Call.rkeys] at h
    simp only [Call.exec, shouldBlock2]
    split
    · rfl
    · exact script1_ne _ _ _ _ _ _ _ _ _ h.1 h.2
  | _ => rfl

theorem exec_congr (db1 db2 : Db) (t : Int) (c : Call) (h : ∀ k ∈ c.rkeys, db1 k = db2 k) :
    (c.exec db1 t).2 = (c.exec db2 t).2 ∧ ∀ k, db1 k = db2 k → (c.exec db1 t).1 k = (c.exec db2 t).1 k := by
  cases c with
  | should tag pc pu key bk msg now =>
    simp only [Call.rkeys, List.mem_cons, List.not_mem_nil, or_false, forall_eq_or_imp, forall_eq] at h
    simp only [Call.exec, shouldBlock2]
    split
    · exact ⟨rfl, fun _ h => h⟩
    · obtain ⟨a, b⟩ := script1_congr h.1 h.2 t pu.capacity pu.window pu.timeout now msg
      exact ⟨by rw [a], b⟩
  | isBlocked bk =>
    simp only [Call.rkeys, List.mem_singleton, forall_eq] at h
    have hk : blockRKey standalone bk = bk ++ sfx := by simp [blockRKey, standalone]
    rw [hk] at h
    have hl := live_congr h t
    refine ⟨?_, fun _ h => h⟩
    have hx : existsK db1 t (bk ++ sfx) = existsK db2 t (bk ++ sfx) := by simp [existsK, hl]
    have hg : getStr db1 t (bk ++ sfx) = getStr db2 t (bk ++ sfx) := by simp [getStr, hl]
    have ht : ttl db1 t (bk ++ sfx) = ttl db2 t (bk ++ sfx) := by simp [ttl, hl]
    simp only [Call.exec, isBlocked, script2, hx, hg, ht]
  | shouldDown pc => exact ⟨rfl, fun _ h => h⟩
  | isBlockedDown => exact ⟨rfl, fun _ h => h⟩

/-- The call only uses redis keys of the group `G`. -/
def Call.inside (G : Str → Bool) (c : Call) : Bool := c.rkeys.all G

/-- The call uses no redis key of the group `G`. -/
def Call.outside (G : Str → Bool) (c : Call) : Bool := c.rkeys.all (fun k => !G k)

/-- **C19** (partial: only for redis keys that do not collide; `C19_collision_violated` shows that distinct keys may
collide).  Let `G` be any set of redis keys such that every call works wholly inside or wholly outside `G`.  Then
removing all calls that work outside `G` changes no result of the remaining ones. -/
theorem C19_isolation_partial (G : Str → Bool) (cs : List (Int × Call))
    (hsep : ∀ x ∈ cs, x.2.inside G = true ∨ x.2.outside G = true) :
    ∀ (db1 db2 : Db), (∀ k, G k = true → db1 k = db2 k) →
    (run db1 cs).2.filter (fun ev => ev.call.inside G) = (run db2 (cs.filter (fun x => x.2.inside G))).2 := by
  induction cs with
  | nil => intro _ _ _; rfl
  | cons x cs ih =>
    intro db1 db2 hag
    obtain ⟨t, c⟩ := x
    have ih := ih (fun y hy => hsep y (by simp [hy]))
    by_cases hin : c.inside G = true
    · obtain ⟨e1, e2⟩ := exec_congr db1 db2 t c (fun k hk => hag k (List.all_eq_true.mp hin k hk))
      simp only [run, List.filter_cons, hin, if_true]
      rw [ih _ _ (fun k hk => e2 k (hag k hk)), e1]
    · have hout : c.outside G = true := (hsep (t, c) (by simp)).resolve_left hin
      simp only [run, List.filter_cons, hin]
      apply ih
      intro k hk
      rw [exec_frame, hag k hk]
      intro hmem
      have := List.all_eq_true.mp hout k hmem
      simp [hk] at this

/-- A block key that does not begin with `_rl` never collides with a list key (standalone limiters). -/
theorem list_block_disjoint (key bk : Str) (h : ¬ "_rl".toList <+: bk) :
    listKey standalone key ≠ blockRKey standalone bk := by
  intro he
  simp only [listKey, blockRKey, standalone, pfx, sfx, List.append_nil] at he
  rcases bk with _ | ⟨a, _ | ⟨b, _ | ⟨c, bk⟩⟩⟩ <;> simp at he
  obtain ⟨rfl, rfl, rfl, _⟩ := he
  exact h ⟨bk, rfl⟩

/-- **C19** for API keys (partial: standalone limiters, block keys that do not begin with `_rl`): the calls on
`(key, blockKey)` give the same results whether or not calls on other, different keys happen in between. -/
theorem C19_keys_partial (key bk : Str) (cs : List (Int × Call)) (db : Db) (hbk : ¬ "_rl".toList <+: bk)
    (hcs : ∀ x ∈ cs, (∃ pc pu msg now, x.2 = .should standalone pc pu key bk msg now) ∨ x.2 = .isBlocked bk ∨
      (∃ key' bk' pc pu msg now, x.2 = .should standalone pc pu key' bk' msg now ∧ key' ≠ key ∧ bk' ≠ bk ∧
        ¬ "_rl".toList <+: bk') ∨
      (∃ bk', x.2 = .isBlocked bk' ∧ bk' ≠ bk ∧ ¬ "_rl".toList <+: bk')) :
    let mine : Str → Bool := fun k => k = listKey standalone key ∨ k = blockRKey standalone bk
    (run db cs).2.filter (fun ev => ev.call.inside mine) = (run db (cs.filter (fun x => x.2.inside mine))).2 ∧
    (∀ x ∈ cs, (x.2.inside mine = true ↔
      ((∃ pc pu msg now, x.2 = .should standalone pc pu key bk msg now) ∨ x.2 = .isBlocked bk))) := by
  intro mine
  have cancelB : ∀ a b : Str, blockRKey standalone a = blockRKey standalone b → a = b := by
    intro a b h
    simp only [blockRKey, standalone, List.append_nil] at h
    exact List.append_cancel_right h
  have cancelL : ∀ a b : Str, listKey standalone a = listKey standalone b → a = b := by
    intro a b h
    simp only [listKey, standalone, List.append_nil] at h
    exact List.append_cancel_left h
  have cls : ∀ x ∈ cs, (x.2.inside mine = true ∧
        ((∃ pc pu msg now, x.2 = .should standalone pc pu key bk msg now) ∨ x.2 = .isBlocked bk)) ∨
      (x.2.outside mine = true ∧ x.2.inside mine = false ∧
        ¬ ((∃ pc pu msg now, x.2 = .should standalone pc pu key bk msg now) ∨ x.2 = .isBlocked bk)) := by
    intro x hx
    rcases hcs x hx with ⟨pc, pu, msg, now, h⟩ | h | ⟨key', bk', pc, pu, msg, now, h, hk, hb, hp⟩ | ⟨bk', h, hb, hp⟩
    · left; exact ⟨by rw [h]; simp [Call.inside, Call.rkeys, mine], Or.inl ⟨_, _, _, _, h⟩⟩
    · left; exact ⟨by rw [h]; simp [Call.inside, Call.rkeys, mine], Or.inr h⟩
    · right
      have n1 : listKey standalone key' ≠ listKey standalone key := fun e => hk (cancelL _ _ e)
      have n2 : blockRKey standalone bk' ≠ blockRKey standalone bk := fun e => hb (cancelB _ _ e)
      have n3 := list_block_disjoint key' bk hbk
      have n4 : blockRKey standalone bk' ≠ listKey standalone key := fun e => list_block_disjoint key bk' hp e.symm
      rw [h]
      refine ⟨by simp [Call.outside, Call.rkeys, mine, n1, n2, n3, n4],
        by simp [Call.inside, Call.rkeys, mine, n1, n3], ?_⟩
      simp [hk]
    · right
      have n2 : blockRKey standalone bk' ≠ blockRKey standalone bk := fun e => hb (cancelB _ _ e)
      have n4 : blockRKey standalone bk' ≠ listKey standalone key := fun e => list_block_disjoint key bk' hp e.symm
      rw [h]
      refine ⟨by simp [Call.outside, Call.rkeys, mine, n2, n4], by simp [Call.inside, Call.rkeys, mine, n2, n4], ?_⟩
      simp [hb]
  constructor
  · apply C19_isolation_partial
    · intro x hx
      rcases cls x hx with h | h
      · exact Or.inl h.1
      · exact Or.inr h.1
    · intro _ _; rfl
  · intro x hx
    rcases cls x hx with h | h
    · exact ⟨fun _ => h.2, fun _ => h.1⟩
    · exact ⟨fun e => by rw [h.2.1] at e; simp at e, fun e => absurd e h.2.2⟩

/-- **C19** (violated): `("a:bl", "x")` and `("y", "_rl:a")` are different keys and block keys, but after one passed
call on the first pair a call on the second one runs into a redis type error and passes even when it would be
blocked. -/
theorem C19_collision_violated :
    ∃ (key bk key' bk' : Str) (other : List (Int × Call)) (cs : List (Int × Call)) (t : Int) (p : Params),
      key ≠ key' ∧ bk ≠ bk' ∧ p.set ∧
      (∀ x ∈ other, ∃ pc pu msg now, x.2 = .should standalone pc pu key bk msg now) ∧
      (∀ x ∈ cs, ∃ pc pu msg now, x.2 = .should standalone pc pu key' bk' msg now) ∧
      (shouldBlock2 (run Db.empty (other ++ cs)).1 t standalone p p key' bk' ['m'] (t / 1000)).2.block = false ∧
      (shouldBlock2 (run Db.empty cs).1 t standalone p p key' bk' ['m'] (t / 1000)).2.block = true := by
  refine ⟨"a:bl".toList, "x".toList, "y".toList, "_rl:a".toList,
    [(0, .should standalone ⟨1, 9, 5⟩ ⟨1, 9, 5⟩ "a:bl".toList "x".toList [] 0)],
    [(1, .should standalone ⟨1, 9, 5⟩ ⟨1, 9, 5⟩ "y".toList "_rl:a".toList [] 0)], 2, ⟨1, 9, 5⟩, by decide, by decide,
    by simp [Params.set], ?_, ?_, by decide, by decide⟩
  · intro x hx
    simp at hx; subst hx
    exact ⟨_, _, _, _, rfl⟩
  · intro x hx
    simp at hx; subst hx
    exact ⟨_, _, _, _, rfl⟩

/-! ### C22 -/

theorem trim_head (s : Str) (h : trimBraces s ≠ []) :
    ∃ c r, trimBraces s = c :: r ∧ isBrace c = false := by
  unfold trimBraces at h ⊢
  have hpre : ((s.dropWhile isBrace).reverse.dropWhile isBrace).reverse <+: s.dropWhile isBrace := by
    have := (List.dropWhile_suffix (l := (s.dropWhile isBrace).reverse) isBrace)
    have := List.reverse_prefix.mpr this
    simpa using this
  cases hp : ((s.dropWhile isBrace).reverse.dropWhile isBrace).reverse with
  | nil => exact absurd hp h
  | cons c r =>
    refine ⟨c, r, rfl, ?_⟩
    rw [hp] at hpre
    obtain ⟨tl, htl⟩ := hpre
    have : (s.dropWhile isBrace).head? = some c := by rw [← htl]; rfl
    have h2 := List.head?_dropWhile_not isBrace s
    rw [this] at h2
    simpa using h2

/-- The hashed part of a redis key made of a text without `{` and the cluster hash tag. -/
theorem hashPart_tag (x hashTag : Str) (hx : '{' ∉ x) (ht : trimBraces hashTag ≠ []) :
    hashPart (x ++ clusterTag hashTag) = (trimBraces hashTag).takeWhile (· != '}') := by
  obtain ⟨c, r, htr, hc⟩ := trim_head hashTag ht
  have hdrop : (x ++ clusterTag hashTag).dropWhile (· != '{') = clusterTag hashTag := by
    rw [List.dropWhile_append_of_pos]
    · simp [clusterTag]
    · intro a ha
      simp only [bne_iff_ne]
      rintro rfl
      exact hx ha
  have hcn : c ≠ '}' := by
    rintro rfl; simp [isBrace] at hc
  have htw : ∀ l : Str, (l ++ ['}']).takeWhile (· != '}') = l.takeWhile (· != '}') := by
    intro l
    induction l with
    | nil => simp
    | cons a l ih => simp only [List.cons_append, List.takeWhile_cons]; rw [ih]
  unfold hashPart
  rw [hdrop]
  simp only [clusterTag, List.cons_append]
  rw [if_pos (by simp)]
  rw [htw, htr]
  have : (c != '}') = true := by simpa using hcn
  simp [List.takeWhile_cons, this]

/-- **C22** (partial): in cluster mode, when neither the key nor the block key contains `{` and the hash tag is not
empty after trimming braces, the two redis keys of a `ShouldBlock2` call are in the same slot.  The full claim is for
all keys, block keys and hash tags; the theorems below show that it does not hold. -/
theorem C22_same_slot_partial (hashTag key bk : Str) (hk : '{' ∉ key) (hb : '{' ∉ bk) (ht : trimBraces hashTag ≠ []) :
    slot (listKey (clusterTag hashTag) key) = slot (blockRKey (clusterTag hashTag) bk) := by
  have h1 : '{' ∉ pfx ++ key := by simp [pfx, hk]
  have h2 : '{' ∉ bk ++ sfx := by simp [sfx, hb]
  unfold slot listKey blockRKey
  rw [hashPart_tag _ _ h1 ht, hashPart_tag _ _ h2 ht]

/-- **C22** (violated): braces in the keys. -/
theorem C22_braces_violated :
    ∃ hashTag key bk : Str, trimBraces hashTag ≠ [] ∧
      slot (listKey (clusterTag hashTag) key) ≠ slot (blockRKey (clusterTag hashTag) bk) := by
  refine ⟨"t".toList, "{a}".toList, "{b}".toList, by decide, by decide +kernel⟩

/-- **C22** (violated): an empty hash tag. -/
theorem C22_empty_tag_violated :
    ∃ hashTag key bk : Str, '{' ∉ key ∧ '{' ∉ bk ∧
      slot (listKey (clusterTag hashTag) key) ≠ slot (blockRKey (clusterTag hashTag) bk) := by
  refine ⟨[], "a".toList, "b".toList, by decide, by decide, by decide +kernel⟩

/-- Non-vacuity of C22: the CRC is the one of the redis specification (`crc16("123456789") = 0x31C3`), and an ordinary
pair of keys is in one slot. -/
example : crc16 (bytes "123456789".toList) = 0x31C3 ∧
    slot (listKey (clusterTag "{user}".toList) "k".toList) = slot (blockRKey (clusterTag "{user}".toList) "b".toList) ∧
    slot (listKey (clusterTag "{user}".toList) "k".toList) = slot "user".toList := by decide +kernel

end Gears.TtlRedis
