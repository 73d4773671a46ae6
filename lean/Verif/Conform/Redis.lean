import Verif.Conform.Props
import Verif.TtlRedis.Skew

/-
Callers of the redis limiter that keep to the limit (property C166): /repo/ratelimiter/ttl_ratelimiter_redis.go:54-233, with the model of
`Verif/TtlRedis/Model.lean`.
-/

namespace Gears.Conform
open TtlRedis

/-! ## Specification -/

/-- When redis executed the calls of `ShouldBlock` for list key `L` (ms). -/
def callsOf (L : Str) (cs : List (Int × Call)) : List Int :=
  cs.filterMap fun x => match x.2 with
    | .should tag _ _ key _ _ _ => if listKey tag key = L then some x.1 else none
    | _ => none

/-- All calls of a key have the same parameters, all clocks show the same time, and the keys of lists and blocks differ. -/
def Settings (BK : Str → Prop) (cap : Str → Nat) (win tmo : Str → Int) (δ η : Int) (cs : List (Int × Call)) : Prop :=
  (cs.map (·.1)).Pairwise (· ≤ ·) ∧ (∀ L, 0 < cap L ∧ 0 < win L ∧ 0 < tmo L) ∧
  ∀ L, ∀ x ∈ cs, CallSkewed BK L (cap L) (win L) (tmo L) δ η x.1 x.2

/-- **C166** for the redis limiter: if no key has more calls than the capacity in any time of the length of its window, nothing is blocked. -/
def C166Redis : Prop := ∀ (BK : Str → Prop) (cap : Str → Nat) (win tmo : Str → Int) (δ : Int) (cs : List (Int × Call)),
  Settings BK cap win tmo δ 0 cs → (∀ L, AtMost (cap L) (1000 * win L + 1) (callsOf L cs)) → ∀ ev ∈ (run Db.empty cs).2, ev.result.block = false

/-! ## Proof -/

theorem callsOf_append (L : Str) (xs ys : List (Int × Call)) : callsOf L (xs ++ ys) = callsOf L xs ++ callsOf L ys := by
  simp [callsOf]

/-- An event is the execution of a call after those before it. -/
theorem event_of : ∀ (cs : List (Int × Call)) (db : Db) (ev : Event), ev ∈ (run db cs).2 →
    ∃ pre t c post, cs = pre ++ (t, c) :: post ∧ ev = ⟨t, c, (c.exec (run db pre).1 t).2⟩
  | [], _, ev, h => by simp [run] at h
  | (t, c) :: cs, db, ev, h => by
    simp only [run, List.mem_cons] at h
    rcases h with rfl | h
    · exact ⟨[], t, c, cs, rfl, rfl⟩
    · obtain ⟨pre, t', c', post, e1, e2⟩ := event_of cs _ ev h
      exact ⟨(t, c) :: pre, t', c', post, by rw [e1]; rfl, e2⟩

/-- Calls that passed are calls. -/
theorem passed_le (L : Str) (lo hi : Int) : ∀ (cs : List (Int × Call)) (db : Db),
    (passedAt L (run db cs).2).countP (fun a => decide (lo ≤ a.1) && decide (a.1 ≤ hi)) ≤ callsIn (callsOf L cs) lo hi
  | [], _ => by simp [run, passedAt]
  | (t, c) :: cs, db => by
    have ih := passed_le L lo hi cs (c.exec db t).1
    have e : callsOf L ((t, c) :: cs) = callsOf L [(t, c)] ++ callsOf L cs := callsOf_append L [(t, c)] cs
    rw [e, callsIn_append]
    simp only [run]
    cases c with
    | should tag pc pu key bk msg now =>
      simp only [passedAt]
      split
      · rename_i h
        rw [List.countP_cons]
        have : callsOf L [(t, Call.should tag pc pu key bk msg now)] = [t] := by simp [callsOf, h.1]
        rw [this]
        simp only [callsIn, List.countP_cons, List.countP_nil] at ih ⊢
        omega
      · exact Nat.le_trans ih (Nat.le_add_left _ _)
    | isBlocked bk => exact Nat.le_trans ih (Nat.le_add_left _ _)
    | shouldDown pc => exact Nat.le_trans ih (Nat.le_add_left _ _)
    | isBlockedDown => exact Nat.le_trans ih (Nat.le_add_left _ _)

/-- A call that is blocked triggers the block, or finds one that a call before has triggered. -/
theorem blocked_cause (cs : List (Int × Call)) (t : Int) (c : Call) (hb : (c.exec (run Db.empty cs).1 t).2.block = true) :
    (c.exec (run Db.empty cs).1 t).2.triggered = true ∨ ∃ ev ∈ (run Db.empty cs).2, ev.result.triggered = true := by
  cases c with
  | should tag pc pu key bk msg now =>
    have hj := run_justified cs [] Db.empty (by intro k m E h; simp [Db.empty] at h)
    rw [List.nil_append] at hj
    generalize (run Db.empty cs).1 = db at *
    simp only [Call.exec, shouldBlock2] at hb ⊢
    split at hb
    · simp [Result.zero] at hb
    · rename_i hn
      rw [if_neg hn]
      dsimp only at hb ⊢
      unfold script1 at hb ⊢
      split at hb
      · simp [Result.ofEval, Result.ofReply, Reply.pass] at hb
      · rename_i h1
        rw [if_neg h1]
        split at hb
        · rename_i hx
          right
          cases hg : getStr db t (blockRKey tag bk) with
          | error e => rw [hg] at hb; simp [Result.ofEval, Result.zero] at hb
          | ok m =>
            unfold getStr at hg
            split at hg
            · rename_i s E hl
              obtain ⟨hd, _⟩ := live_some hl
              obtain ⟨ev, hev, _, _, _, _, _, _, _, _, h3, _⟩ := hj _ _ _ hd
              exact ⟨ev, hev, h3⟩
            · simp at hg
            · rename_i hl
              simp [existsK, hl] at hx
        · rename_i hx
          rw [if_neg hx]
          left
          split at hb
          · simp [Result.ofEval, Result.zero] at hb
          · rename_i size hs
            dsimp only at hb ⊢
            split at hb
            · simp [Result.ofEval, Result.ofReply, Reply.pass] at hb
            · rename_i h2
              rw [if_neg h2]
              split at hb
              · simp [Result.ofEval, Result.ofReply, Reply.pass] at hb
              · rename_i oldest ho
                split at hb
                · simp [Result.ofEval, Result.ofReply, Reply.pass] at hb
                · rename_i h3
                  rw [if_neg h3]
                  rfl
  | isBlocked bk =>
    obtain ⟨ev, hev, _, _, _, _, _, _, _, _, _, h3, _⟩ := C16_block_has_cause cs t bk hb
    exact .inr ⟨ev, hev, h3⟩
  | shouldDown pc =>
    simp only [Call.exec] at hb
    split at hb <;> simp [Result.zero, Result.ofEval] at hb
  | isBlockedDown => simp [Call.exec, Result.zero, Result.ofEval] at hb

theorem only_should (db : Db) (t : Int) (c : Call) (h : (c.exec db t).2.triggered = true) :
    ∃ tag pc pu key bk msg now, c = .should tag pc pu key bk msg now := by
  cases c with
  | should tag pc pu key bk msg now => exact ⟨tag, pc, pu, key, bk, msg, now, rfl⟩
  | isBlocked bk =>
    simp only [Call.exec, isBlocked, script2] at h
    split at h
    · split at h <;> simp [Result.ofEval, Result.zero, Result.ofReply] at h
    · simp [Result.ofEval, Result.ofReply, Reply.pass] at h
  | shouldDown pc =>
    simp only [Call.exec] at h
    split at h <;> simp [Result.zero, Result.ofEval] at h
  | isBlockedDown => simp [Call.exec, Result.zero, Result.ofEval] at h

/-- **C166** for the redis limiter: if no key has more calls than its capacity in any time that is a second longer than its window (and longer by
the difference of the clocks), nothing is blocked, and `IsBlocked` says so too.  Missing: `C166Redis`, the window itself. -/
theorem C166_redis_partial (BK : Str → Prop) (cap : Str → Nat) (win tmo : Str → Int) (δ η : Int) (hη : 0 ≤ η) (cs : List (Int × Call))
    (hs : Settings BK cap win tmo δ η cs) (hk : ∀ L, AtMost (cap L) (1000 * win L + 2 * η + 1000) (callsOf L cs)) :
    ∀ ev ∈ (run Db.empty cs).2, ev.result.block = false := by
  obtain ⟨hsort, hpos, hok⟩ := hs
  -- nothing triggers a block
  have htrig : ∀ pre t c post, cs = pre ++ (t, c) :: post → (c.exec (run Db.empty pre).1 t).2.triggered = true → False := by
    rintro pre t c post rfl htr
    obtain ⟨tag, pc, pu, key, bk, msg, now, rfl⟩ := only_should _ _ _ htr
    obtain ⟨p1, p2, p3⟩ := hpos (listKey tag key)
    have e : pre ++ (t, Call.should tag pc pu key bk msg now) :: post = pre ++ [(t, Call.should tag pc pu key bk msg now)] ++ post := by simp
    have hL : ¬ BK (listKey tag key) := (hok (listKey tag key) (t, Call.should tag pc pu key bk msg now) (by simp)).2.1
    have h1 := C138_trigger BK (listKey tag key) hL (cap (listKey tag key)) (win (listKey tag key)) (tmo (listKey tag key)) δ η p1 p2 p3 hη pre t tag pc pu
      key bk msg now
      (by rw [e, List.map_append] at hsort; exact (List.pairwise_append.1 hsort).1)
      (fun x hx => hok _ x (by rw [e]; exact List.mem_append_left _ hx)) rfl htr
    have h2 := passed_le (listKey tag key) (t - 1000 * win (listKey tag key) - 2 * η - 999) t pre Db.empty
    have h3 := hk (listKey tag key) (t - 1000 * win (listKey tag key) - 2 * η - 999)
    rw [e, callsOf_append, callsOf_append, callsIn_append, callsIn_append,
      show t - 1000 * win (listKey tag key) - 2 * η - 999 + (1000 * win (listKey tag key) + 2 * η + 1000) - 1 = t by omega,
      show callsOf (listKey tag key) [(t, Call.should tag pc pu key bk msg now)] = [t] by simp [callsOf],
      callsIn_all (xs := [t]) (by simp; omega)] at h3
    simp only [List.length_cons, List.length_nil] at h3
    omega
  intro ev hev
  obtain ⟨pre, t, c, post, e1, rfl⟩ := event_of cs Db.empty ev hev
  cases hb : (c.exec (run Db.empty pre).1 t).2.block with
  | false => rfl
  | true =>
    exfalso
    rcases blocked_cause pre t c hb with h | ⟨ev', hev', h⟩
    · exact htrig pre t c post e1 h
    · obtain ⟨pre', t', c', post', e2, rfl⟩ := event_of pre Db.empty ev' hev'
      exact htrig pre' t' c' (post' ++ (t, c) :: post) (by rw [e1, e2]; simp) h

/-- **C166 is violated** by the redis limiter: times are cut to seconds.  Capacity 1, a window of ten seconds: of two calls that are 10.999 seconds
apart the second is blocked. -/
theorem C166_redis_violated : ¬ C166Redis := by
  intro h
  have := h (fun k => k = blockRKey [] ['b']) (fun _ => 1) (fun _ => 10) (fun _ => 20) 0
    [(1000, .should [] ⟨1, 10, 20⟩ ⟨1, 10, 20⟩ ['k'] ['b'] ['m'] 1), (11999, .should [] ⟨1, 10, 20⟩ ⟨1, 10, 20⟩ ['k'] ['b'] ['m'] 11)]
    ⟨by decide, fun _ => ⟨by simp, by simp, by simp⟩, by
      intro L x hx
      simp only [List.mem_cons, List.not_mem_nil, or_false] at hx
      rcases hx with rfl | rfl <;> exact ⟨rfl, by decide, fun _ => ⟨rfl, rfl, by decide⟩⟩⟩
    (by
      intro L a
      by_cases hL : listKey [] ['k'] = L
      · simp only [callsOf, List.filterMap_cons, List.filterMap_nil, hL, if_true, callsIn, List.countP_cons, List.countP_nil, Bool.and_eq_true, decide_eq_true_eq]
        split <;> split <;> omega
      · simp [callsOf, hL, callsIn])
    ⟨11999, .should [] ⟨1, 10, 20⟩ ⟨1, 10, 20⟩ ['k'] ['b'] ['m'] 11, ⟨true, true, 20, ['m']⟩⟩ (by decide +kernel)
  simp at this

/-- Non-vacuity: the same two calls, eleven seconds apart. -/
example : Settings (fun k => k = blockRKey [] ['b']) (fun _ => 1) (fun _ => 10) (fun _ => 20) 0 0
    [(1000, .should [] ⟨1, 10, 20⟩ ⟨1, 10, 20⟩ ['k'] ['b'] ['m'] 1), (12000, .should [] ⟨1, 10, 20⟩ ⟨1, 10, 20⟩ ['k'] ['b'] ['m'] 12)] ∧
    AtMost 1 11000 (callsOf (listKey [] ['k'])
      [(1000, .should [] ⟨1, 10, 20⟩ ⟨1, 10, 20⟩ ['k'] ['b'] ['m'] 1), (12000, .should [] ⟨1, 10, 20⟩ ⟨1, 10, 20⟩ ['k'] ['b'] ['m'] 12)]) := by
  refine ⟨⟨by decide, fun _ => ⟨by simp, by simp, by simp⟩, ?_⟩, ?_⟩
  · intro L x hx
    simp only [List.mem_cons, List.not_mem_nil, or_false] at hx
    rcases hx with rfl | rfl <;> exact ⟨rfl, by decide, fun _ => ⟨rfl, rfl, by decide⟩⟩
  · intro a
    simp only [callsOf, List.filterMap_cons, List.filterMap_nil, if_true, callsIn, List.countP_cons, List.countP_nil, Bool.and_eq_true, decide_eq_true_eq]
    split <;> split <;> omega

end Gears.Conform
