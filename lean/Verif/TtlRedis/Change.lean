import Verif.TtlRedis.Again

/-
The redis limiter when its parameters change at run time (property C168): /repo/ratelimiter/ttl_ratelimiter_redis.go:54-233; the parameters are read
anew in every call (`TtlRateLimiterParams`, "Interface for the need of runtime rate limit parameters", /repo/ratelimiter/ttl_ratelimiter.go:61-71).
Model of `Verif/TtlRedis/Model.lean`.
-/

namespace Gears.TtlRedis.Change
open Gears.TtlRedis.Again (resultOf)

/-! ## Specification -/

instance (p : Params) : Decidable p.set := by unfold Params.set; infer_instance

/-- A call of `ShouldBlock` for list key `L` while the limiter is on: all parameters are positive whenever it reads them. -/
def On (L : Str) : Call → Prop
  | .should tag pc pu key _ _ _ => listKey tag key = L ∧ pc.set ∧ pu.set
  | _ => False

/-- The parameters that a call sends to redis. -/
def paramsOf : Call → Params
  | .should _ _ pu _ _ _ _ => pu
  | _ => ⟨0, 0, 0⟩

/-- Redis time and client time of the calls for `L` that passed while the limiter was on. -/
def passes (L : Str) : List Event → List (Int × Int)
  | [] => []
  | ev :: h =>
    match ev.call with
    | .should tag pc pu key _ _ now =>
      if (listKey tag key = L ∧ pc.set ∧ pu.set) ∧ ev.result.block = false then (ev.time, now) :: passes L h else passes L h
    | _ => passes L h

/-- How many calls passed in the `V` seconds before the client time `n` (all clocks show the same). -/
def recent (L : Str) (cs : List (Int × Call)) (n V : Int) : Nat := (passes L (run Db.empty cs).2).countP fun a => decide (n - a.2 ≤ V)

/-- Lists and blocks have different keys, all calls for `L` have block key `B`, and the clocks of the clients show the time of redis plus `δ`. -/
structure Base (BK : Str → Prop) (L B : Str) (δ : Int) (cs : List (Int × Call)) : Prop where
  sorted : (cs.map (·.1)).Pairwise (· ≤ ·)
  calls  : ∀ x ∈ cs, ∀ tag pc pu key bk msg now, x.2 = .should tag pc pu key bk msg now → BK (blockRKey tag bk) ∧ ¬ BK (listKey tag key) ∧
    (listKey tag key = L → blockRKey tag bk = B ∧ now = (x.1 + δ) / 1000)

/-- All timeouts are at least `E` seconds. -/
def Timeouts (L : Str) (E : Int) (cs : List (Int × Call)) : Prop := ∀ x ∈ cs, On L x.2 → E ≤ (paramsOf x.2).timeout

/-- The capacity is never raised. -/
def Lowered (L : Str) (cs : List (Int × Call)) : Prop :=
  ∀ pre b post, cs = pre ++ b :: post → On L b.2 → ∀ c ∈ post, On L c.2 → (paramsOf c.2).capacity ≤ (paramsOf b.2).capacity

/-- The capacity is not raised after it was lowered. -/
def NoDip (L : Str) (cs : List (Int × Call)) : Prop :=
  ∀ pre b post, cs = pre ++ b :: post → On L b.2 → ∀ a ∈ pre, On L a.2 → ∀ c ∈ post, On L c.2 →
    (paramsOf b.2).capacity < (paramsOf a.2).capacity → (paramsOf c.2).capacity ≤ (paramsOf b.2).capacity

/-- **C168**: a call passes only if, with it, not more calls than the capacity passed within the window, with the parameters of that moment (the
window is always shorter than twice the timeout, see C17). -/
def C168Claim : Prop := ∀ (BK : Str → Prop) (L B : Str) (δ E : Int) (pre : List (Int × Call)) (t : Int) (c : Call),
  Base BK L B δ (pre ++ [(t, c)]) → Timeouts L E (pre ++ [(t, c)]) → (∀ x ∈ pre ++ [(t, c)], On L x.2 → (paramsOf x.2).window < 2 * E) →
  On L c → (resultOf pre t c).block = false →
  (recent L pre ((t + δ) / 1000) (paramsOf c).window + 1 : Int) ≤ (paramsOf c).capacity

/-! ## One call -/

theorem lpopN_drop (t : Int) (k : Str) (E : Option Int) : ∀ (n : Nat) (db : Db) (R : List Int), live db t k = some ⟨.list R, E⟩ → n < R.length →
    live (lpopN db t k n) t k = some ⟨.list (R.drop n), E⟩
  | 0, db, R, h, _ => by simpa [lpopN] using h
  | n + 1, db, R, h, hn => by
    match R, hn with
    | a :: b :: l, hn =>
      have hx := (live_some h).2
      have h1 : lpop db t k = db.set k (some ⟨.list (b :: l), E⟩) := by simp [lpop, h]
      have h2 : live (lpop db t k) t k = some ⟨.list (b :: l), E⟩ := by rw [h1]; exact live_set _ _ _ _ hx
      have := lpopN_drop t k E n (lpop db t k) (b :: l) h2 (by simpa using hn)
      simpa [lpopN] using this
    | [a], hn => simp at hn

/-- What a call that is on does, if `V` is the list that redis sees. -/
inductive Outcome (db : Db) (t : Int) (L B : Str) (p : Params) (now : Int) (V : List Int) : Db → Except Err Reply → Prop
  | held {db' r} : existsK db t B = true → db' = db → r.block = 1 → r.triggered = 0 → Outcome db t L B p now V db' (.ok r)
  | room {db'} : existsK db t B = false → (V.length : Int) < p.capacity →
      db' L = some ⟨.list (V ++ [now]), some (t + p.timeout * 2 * 1000)⟩ → Outcome db t L B p now V db' (.ok .pass)
  | shift {db' D a R} : existsK db t B = false → V = D ++ a :: R → ((a :: R).length : Int) = p.capacity → now - a > p.window →
      db' L = some ⟨.list (R ++ [now]), some (t + p.timeout * 2 * 1000)⟩ → Outcome db t L B p now V db' (.ok .pass)
  | begins {db' D a R X m} : existsK db t B = false → V = D ++ a :: R → ((a :: R).length : Int) = p.capacity → now - a ≤ p.window →
      live db t L = some ⟨.list V, X⟩ → db' L = some ⟨.list (a :: R), X⟩ → db' B = some ⟨.str m, some (t + p.timeout * 1000)⟩ →
      Outcome db t L B p now V db' (.ok ⟨1, 1, p.timeout, m⟩)

theorem outcome {BK : Str → Prop} {db : Db} (ht : Typed BK db) {L B : Str} (hL : ¬ BK L) (hB : BK B) (t now : Int) {p : Params} (hp : p.set)
    (msg : Str) {V : List Int} (hV : (live db t L = none ∧ V = []) ∨ ∃ X, live db t L = some ⟨.list V, X⟩) :
    Outcome db t L B p now V (script1 db t L B p.capacity p.window p.timeout now msg).1
      (script1 db t L B p.capacity p.window p.timeout now msg).2 := by
  have hne : L ≠ B := by rintro rfl; exact hL hB
  have hpar : ¬ (p.capacity ≤ 0 ∨ p.window ≤ 0 ∨ p.timeout ≤ 0) := by unfold Params.set at hp; omega
  unfold Params.set at hp
  unfold script1
  rw [if_neg hpar]
  by_cases hx : existsK db t B = true
  · rw [if_pos hx]
    cases hg : getStr db t B with
    | error er =>
      exfalso
      unfold getStr at hg
      split at hg
      · simp at hg
      · rename_i l E hl
        exact ht.hlist _ _ _ (live_some hl).1 hB
      · simp at hg
    | ok m => exact .held hx rfl rfl rfl
  · rw [if_neg hx]
    have hx : existsK db t B = false := by simpa using hx
    have hlen : llen db t L = .ok V.length := by
      rcases hV with ⟨h, rfl⟩ | ⟨X, h⟩ <;> simp [llen, h]
    rw [hlen]
    simp only
    by_cases hlt : (V.length : Int) < p.capacity
    · rw [if_pos hlt]
      exact .room hx hlt (push_store db t L now (p.timeout * 2) V (by omega) hV)
    · rw [if_neg hlt]
      rcases hV with ⟨_, rfl⟩ | ⟨X, hl⟩
      · simp at hlt; omega
      · have hn : ((V.length : Int) - p.capacity).toNat < V.length := by omega
        have hd := lpopN_drop t L X ((V.length : Int) - p.capacity).toNat db V hl hn
        generalize hdb1 : lpopN db t L ((V.length : Int) - p.capacity).toNat = db1 at *
        have hdl : ((V.drop ((V.length : Int) - p.capacity).toNat).length : Int) = p.capacity := by rw [List.length_drop]; omega
        have hVs := (List.take_append_drop ((V.length : Int) - p.capacity).toNat V).symm
        generalize V.drop ((V.length : Int) - p.capacity).toNat = S at *
        cases S with
        | nil => simp at hdl; omega
        | cons a R =>
          have hlr : lrange00 db1 t L = some a := by simp [lrange00, hd]
          rw [hlr]
          simp only
          by_cases hw : now - a > p.window
          · rw [if_pos hw]
            exact .shift hx hVs hdl hw (shift_store db1 t L now (p.timeout * 2) a R X hd)
          · rw [if_neg hw]
            refine .begins hx hVs hdl (by omega) hl ?_ ?_
            · show setExNx db1 t B msg p.timeout L = _
              rw [setExNx_ne _ _ _ _ hne]; exact (live_some hd).1
            · have : live db1 t B = none := by
                rw [← hdb1, live_congr (lpopN_ne _ _ _ (fun h => hne h.symm))]
                simpa [existsK] using hx
              simp [setExNx, this, set_self]

/-! ## All calls -/

/-- Why a call that passed and is no longer in the list of length `m` does no harm. -/
def Lost (L B : Str) (W E δ : Int) (db : Db) (post : List (Int × Call)) (tl : Int) (m : Nat) (p : Int × Int) : Prop :=
  (tl + δ) / 1000 - p.2 > W ∨ (W < E ∧ ∃ s X, db B = some ⟨.str s, some X⟩ ∧ p.1 + 1000 * E ≤ X) ∨
  ∀ x ∈ post, On L x.2 → (paramsOf x.2).capacity ≤ m

structure Inv (BK : Str → Prop) (L B : Str) (W E δ : Int) (pre post : List (Int × Call)) (tl : Int) : Prop where
  typed : Typed BK (run Db.empty pre).1
  times : (passes L (run Db.empty pre).2).Pairwise (fun x y => x.1 ≤ y.1) ∧
    ∀ a ∈ passes L (run Db.empty pre).2, a.1 ≤ tl ∧ a.2 = (a.1 + δ) / 1000
  list  : ∃ P R, passes L (run Db.empty pre).2 = P ++ R ∧
    (((run Db.empty pre).1 L = none ∧ R = []) ∨ ∃ X, (run Db.empty pre).1 L = some ⟨.list (R.map (·.2)), some X⟩ ∧
      ∀ a ∈ passes L (run Db.empty pre).2, a.1 + 2000 * E ≤ X) ∧
    (R = [] ∨ ∃ x ∈ pre, On L x.2 ∧ (R.length : Int) ≤ (paramsOf x.2).capacity) ∧
    ∀ p ∈ P, Lost L B W E δ (run Db.empty pre).1 post tl R.length p

theorem Lost.later {L B : Str} {W E δ : Int} {db db' : Db} {x : Int × Call} {post : List (Int × Call)} {tl t : Int} {m : Nat} {p : Int × Int}
    (h : Lost L B W E δ db (x :: post) tl m p) (htl : tl ≤ t) (hp : p.2 = (p.1 + δ) / 1000)
    (hdb : ∀ s X, db B = some ⟨.str s, some X⟩ → t ≤ X → db' B = some ⟨.str s, some X⟩) : Lost L B W E δ db' post t m p := by
  rcases h with h | ⟨h1, s, X, h2, h3⟩ | h
  · left; omega
  · by_cases hX : t ≤ X
    · exact .inr (.inl ⟨h1, s, X, hdb s X h2 hX, h3⟩)
    · left; omega
  · exact .inr (.inr fun y hy => h y (List.mem_cons_of_mem _ hy))

theorem passes_append (L : Str) (xs ys : List Event) : passes L (xs ++ ys) = passes L xs ++ passes L ys := by
  induction xs with
  | nil => rfl
  | cons ev xs ih =>
    simp only [List.cons_append, passes]
    split
    · split <;> simp [ih]
    · exact ih

/-- Calls that are not for `L`, or made while the limiter is off. -/
theorem step_off {BK : Str → Prop} {L B : Str} (hL : ¬ BK L) {W E δ : Int} {pre post : List (Int × Call)} {tl t : Int} {c : Call}
    (inv : Inv BK L B W E δ pre ((t, c) :: post) tl) (htl : tl ≤ t)
    (hok : ∀ tag pc pu key bk msg now, c = .should tag pc pu key bk msg now → BK (blockRKey tag bk) ∧ ¬ BK (listKey tag key)) (hoff : ¬ On L c) :
    Inv BK L B W E δ (pre ++ [(t, c)]) post t := by
  obtain ⟨htyped, ⟨hsort, htime⟩, P, R, hA, hdb, hlen, hlost⟩ := inv
  have hpass : passes L (run Db.empty (pre ++ [(t, c)])).2 = passes L (run Db.empty pre).2 := by
    rw [run_snoc, passes_append]
    cases c with
    | should tag pc pu key bk msg now =>
      simp only [passes]
      rw [if_neg (fun h => hoff h.1)]
      simp
    | isBlocked bk => simp [passes]
    | shouldDown pc => simp [passes]
    | isBlockedDown => simp [passes]
  have hL' : Typed BK (run Db.empty (pre ++ [(t, c)])).1 ∧ (run Db.empty (pre ++ [(t, c)])).1 L = (run Db.empty pre).1 L := by
    rw [run_snoc]
    cases c with
    | should tag pc pu key bk msg now =>
      obtain ⟨hb, hnb⟩ := hok _ _ _ _ _ _ _ rfl
      simp only [Call.exec, shouldBlock2]
      split
      · exact ⟨htyped, rfl⟩
      · rename_i hn
        refine ⟨typed_script1 htyped hnb hb _ _ _ _ _ _, ?_⟩
        by_cases hkey : listKey tag key = L
        · have : pu.capacity ≤ 0 ∨ pu.window ≤ 0 ∨ pu.timeout ≤ 0 := by
            have h1 : ¬ pu.set := fun h => hoff ⟨hkey, by unfold Params.notSet at hn; unfold Params.set; omega, h⟩
            unfold Params.set at h1
            omega
          simp only [script1, if_pos this]
        · exact script1_ne _ _ _ _ _ _ _ _ _ (fun h => hkey h.symm) (by rintro rfl; exact hL hb)
    | isBlocked bk => exact ⟨htyped, rfl⟩
    | shouldDown pc => exact ⟨htyped, rfl⟩
    | isBlockedDown => exact ⟨htyped, rfl⟩
  refine ⟨hL'.1, ?_, ?_⟩
  · rw [hpass]
    exact ⟨hsort, fun a ha => ⟨Int.le_trans (htime a ha).1 htl, (htime a ha).2⟩⟩
  · rw [hpass, hL'.2]
    refine ⟨P, R, hA, hdb, ?_, ?_⟩
    · rcases hlen with h | ⟨x, hx, h⟩
      · exact .inl h
      · exact .inr ⟨x, by simp [hx], h⟩
    · intro p hp
      refine (hlost p hp).later htl (htime p (by rw [hA]; simp [hp])).2 ?_
      intro s X h hX
      rw [run_snoc]
      exact exec_keeps_str _ _ _ _ _ _ h hX

/-- What is assumed about the changes. -/
def Tame (L : Str) (W E : Int) (cs : List (Int × Call)) : Prop :=
  ((∀ x ∈ cs, On L x.2 → W ≤ (paramsOf x.2).window) ∧ (W < E ∨ NoDip L cs)) ∨ Lowered L cs

/-- A call that is on: the invariant stays, and what is known if it passes or begins a block. -/
theorem step_on {BK : Str → Prop} {L B : Str} {W E δ : Int} (hE : W < 2 * E) {pre post : List (Int × Call)} {tl t : Int} {c : Call}
    (inv : Inv BK L B W E δ pre ((t, c) :: post) tl) (htl : tl ≤ t) (htame : Tame L W E (pre ++ (t, c) :: post))
    (hok : ∀ tag pc pu key bk msg now, c = .should tag pc pu key bk msg now → BK (blockRKey tag bk) ∧ ¬ BK (listKey tag key) ∧
      (listKey tag key = L → blockRKey tag bk = B ∧ now = (t + δ) / 1000)) (hon : On L c) (hEt : E ≤ (paramsOf c).timeout) :
    Inv BK L B W E δ (pre ++ [(t, c)]) post t ∧
    ((resultOf pre t c).block = false → (recent L pre ((t + δ) / 1000) (min W (paramsOf c).window) + 1 : Int) ≤ (paramsOf c).capacity) ∧
    ((resultOf pre t c).triggered = true → (paramsOf c).capacity ≤ recent L pre ((t + δ) / 1000) (paramsOf c).window) := by
  obtain ⟨htyped, ⟨hsort, htime⟩, P, R, hA, hdb, hlen, hlost⟩ := inv
  cases c with
  | isBlocked bk => exact hon.elim
  | shouldDown pc => exact hon.elim
  | isBlockedDown => exact hon.elim
  | should tag pc pu key bk msg now =>
  obtain ⟨hB, hL, hk⟩ := hok _ _ _ _ _ _ _ rfl
  obtain ⟨hkey, hpc, hpu⟩ := hon
  obtain ⟨hBk, hnow⟩ := hk hkey
  have hon : On L (Call.should tag pc pu key bk msg now) := ⟨hkey, hpc, hpu⟩
  rw [hkey] at hL
  rw [hBk] at hB
  simp only [paramsOf] at hEt ⊢
  have hcap : 0 < pu.capacity := hpu.1
  have hmono : ∀ a ∈ passes L (run Db.empty pre).2, ∀ b ∈ passes L (run Db.empty pre).2, a.1 ≤ b.1 → a.2 ≤ b.2 := by
    intro a ha b hb h
    have h1 := (htime a ha).2
    have h2 := (htime b hb).2
    omega
  have hagain : ∀ a ∈ passes L (run Db.empty pre).2, a.1 ≤ t ∧ a.2 = (a.1 + δ) / 1000 ∧ a.2 ≤ now := by
    intro a ha
    obtain ⟨h1, h2⟩ := htime a ha
    exact ⟨by omega, h2, by omega⟩
  -- what is lost, seen at the time of the call
  have hlost0 : existsK (run Db.empty pre).1 t B = false → ∀ p ∈ P, now - p.2 > W ∨
      ∀ x ∈ (t, Call.should tag pc pu key bk msg now) :: post, On L x.2 → (paramsOf x.2).capacity ≤ R.length := by
    intro hx p hp
    have h1 := (htime p (by rw [hA]; simp [hp])).2
    rcases hlost p hp with h | ⟨h2, s, X, h3, h4⟩ | h
    · left; omega
    · left
      have : ¬ t ≤ X := by
        intro h
        rw [(isBlocked_of_str _ t B s X h3 h).1] at hx
        simp at hx
      omega
    · exact .inr h
  -- the list that redis sees
  obtain ⟨P0, R0, hA0, hV, hlost1, hX0, hlen0⟩ : ∃ P0 R0, passes L (run Db.empty pre).2 = P0 ++ R0 ∧
      ((live (run Db.empty pre).1 t L = none ∧ R0.map (·.2) = []) ∨ ∃ X, live (run Db.empty pre).1 t L = some ⟨.list (R0.map (·.2)), X⟩) ∧
      (existsK (run Db.empty pre).1 t B = false → ∀ p ∈ P0, now - p.2 > W ∨
        ∀ x ∈ (t, Call.should tag pc pu key bk msg now) :: post, On L x.2 → (paramsOf x.2).capacity ≤ R0.length) ∧
      (∀ v X, live (run Db.empty pre).1 t L = some ⟨v, X⟩ → ∃ Y, X = some Y ∧ ∀ a ∈ passes L (run Db.empty pre).2, a.1 + 2000 * E ≤ Y) ∧
      (R0 = [] ∨ ∃ x ∈ pre, On L x.2 ∧ (R0.length : Int) ≤ (paramsOf x.2).capacity) := by
    rcases hdb with ⟨h, rfl⟩ | ⟨X, h, hX⟩
    · refine ⟨P, [], hA, .inl ⟨by simp [live, h], rfl⟩, ?_, ?_, .inl rfl⟩
      · exact hlost0
      · intro v X hl; simp [live, h] at hl
    · by_cases hexp : X < t
      · have hn : live (run Db.empty pre).1 t L = none := by simp [live, h, Entry.expired, hexp]
        refine ⟨passes L (run Db.empty pre).2, [], by simp, .inl ⟨hn, rfl⟩, ?_, ?_, .inl rfl⟩
        · intro _ p hp
          left
          have h1 := hX p hp
          have h2 := (htime p hp).2
          omega
        · intro v X hl; rw [hn] at hl; simp at hl
      · have hl : live (run Db.empty pre).1 t L = some ⟨.list (R.map (·.2)), some X⟩ := by simp [live, h, Entry.expired, hexp]
        refine ⟨P, R, hA, .inr ⟨_, hl⟩, hlost0, ?_, hlen⟩
        intro v X' hl'
        rw [hl] at hl'
        simp only [Option.some.injEq, Entry.mk.injEq] at hl'
        exact ⟨X, hl'.2.symm, hX⟩
  have hex : (Call.should tag pc pu key bk msg now).exec (run Db.empty pre).1 t =
      ((script1 (run Db.empty pre).1 t L B pu.capacity pu.window pu.timeout now msg).1,
        .ofEval (script1 (run Db.empty pre).1 t L B pu.capacity pu.window pu.timeout now msg).2) := by
    simp only [Call.exec, shouldBlock2, if_neg (Params.set_notSet hpc), hkey, hBk]
  have hty' : Typed BK (script1 (run Db.empty pre).1 t L B pu.capacity pu.window pu.timeout now msg).1 := typed_script1 htyped hL hB _ _ _ _ _ _
  have hout := outcome htyped hL hB t now hpu msg hV
  generalize script1 (run Db.empty pre).1 t L B pu.capacity pu.window pu.timeout now msg = S at *
  obtain ⟨db', rep⟩ := S
  simp only at hout hty' hex
  have hrun : run Db.empty (pre ++ [(t, Call.should tag pc pu key bk msg now)]) =
      (db', (run Db.empty pre).2 ++ [⟨t, Call.should tag pc pu key bk msg now, .ofEval rep⟩]) := by rw [run_snoc, hex]
  have hres : resultOf pre t (Call.should tag pc pu key bk msg now) = .ofEval rep := by unfold resultOf; rw [hex]
  rw [hres, ← hnow]
  have hself : (t, Call.should tag pc pu key bk msg now) ∈ pre ++ [(t, Call.should tag pc pu key bk msg now)] := by simp
  -- a call that passes is recorded
  have hinv : ∀ P1 R1, P1 ++ R1 = passes L (run Db.empty pre).2 ++ [(t, now)] → rep = .ok .pass →
      db' L = some ⟨.list (R1.map (·.2)), some (t + pu.timeout * 2 * 1000)⟩ → (R1.length : Int) ≤ pu.capacity →
      (∀ p ∈ P1, now - p.2 > W ∨ ∀ x ∈ post, On L x.2 → (paramsOf x.2).capacity ≤ R1.length) →
      Inv BK L B W E δ (pre ++ [(t, Call.should tag pc pu key bk msg now)]) post t := by
    intro P1 R1 h1 h2 h3 h4 h5
    have hpass : passes L (run Db.empty (pre ++ [(t, Call.should tag pc pu key bk msg now)])).2 = passes L (run Db.empty pre).2 ++ [(t, now)] := by
      rw [hrun, passes_append, h2]
      simp [passes, hkey, hpc, hpu, Result.ofEval, Result.ofReply, Reply.pass]
    have hall : ∀ a ∈ passes L (run Db.empty pre).2 ++ [(t, now)], a.1 ≤ t ∧ a.2 = (a.1 + δ) / 1000 := by
      intro a ha
      rcases List.mem_append.1 ha with h | h
      · exact ⟨(hagain a h).1, (hagain a h).2.1⟩
      · simp only [List.mem_singleton] at h; subst h; exact ⟨Int.le_refl _, hnow⟩
    refine ⟨by rw [hrun]; exact hty', ?_, P1, R1, ?_, ?_, ?_, ?_⟩
    · rw [hpass]
      refine ⟨List.pairwise_append.2 ⟨hsort, by simp, ?_⟩, hall⟩
      intro a ha b hb
      simp only [List.mem_singleton] at hb; subst hb
      exact (hagain a ha).1
    · rw [hpass, h1]
    · rw [hpass, hrun]
      exact .inr ⟨_, h3, fun a ha => by have := (hall a ha).1; omega⟩
    · exact .inr ⟨_, hself, hon, h4⟩
    · intro p hp
      rcases h5 p hp with h | h
      · left; rw [← hnow]; exact h
      · exact .inr (.inr h)
  -- a call that is blocked is not
  have hkeep : (.ofEval rep : Result).block = true →
      passes L (run Db.empty (pre ++ [(t, Call.should tag pc pu key bk msg now)])).2 = passes L (run Db.empty pre).2 := by
    intro h
    rw [hrun, passes_append]
    simp [passes, h]
  -- later capacities, if the list is cut to `pu.capacity`
  have hlow : Lowered L (pre ++ (t, Call.should tag pc pu key bk msg now) :: post) → ∀ x ∈ post, On L x.2 → (paramsOf x.2).capacity ≤ pu.capacity :=
    fun h x hx hx' => h pre _ post rfl hon x hx hx'
  cases hout with
  | held hx e1 e2 e3 =>
    subst e1
    rename_i r
    have hb : (Result.ofEval (.ok r)).block = true := by simp [Result.ofEval, Result.ofReply, e2]
    have htr : (Result.ofEval (.ok r)).triggered = false := by simp [Result.ofEval, Result.ofReply, e3]
    refine ⟨⟨by rw [hrun]; exact hty', ?_, P, R, ?_, ?_, ?_, ?_⟩, fun h => by rw [hb] at h; simp at h, fun h => by rw [htr] at h; simp at h⟩
    · rw [hkeep hb]
      exact ⟨hsort, fun a ha => ⟨(hagain a ha).1, (hagain a ha).2.1⟩⟩
    · rw [hkeep hb, hA]
    · rw [hkeep hb, hrun]; exact hdb
    · rcases hlen with h | ⟨x, hx, h⟩
      · exact .inl h
      · exact .inr ⟨x, by simp [hx], h⟩
    · intro p hp
      rw [hrun]
      exact (hlost p hp).later htl (htime p (by rw [hA]; simp [hp])).2 (fun s X h _ => h)
  | room hx hlt hst =>
    have hfar : ∀ p ∈ P0, now - p.2 > W := by
      intro p hp
      rcases hlost1 hx p hp with h | h
      · exact h
      · have := h _ (List.mem_cons_self ..) hon
        simp only [paramsOf, List.length_map] at this hlt
        omega
    refine ⟨hinv P0 (R0 ++ [(t, now)]) (by rw [hA0]; simp) rfl (by simpa using hst) (by simp at hlt ⊢; omega) (fun p hp => .inl (hfar p hp)), ?_,
      fun h => by simp [Result.ofEval, Result.ofReply, Reply.pass] at h⟩
    intro _
    unfold recent
    rw [hA0, List.countP_append, List.countP_eq_zero.2 (fun p hp => by have := hfar p hp; simp; omega)]
    have := List.countP_le_length (p := fun a : Int × Int => decide (now - a.2 ≤ min W pu.window)) (l := R0)
    simp only [List.length_map] at hlt
    omega
  | shift hx hVs hl hw hst =>
    rename_i D a R1
    obtain ⟨D', R', e1, e2, e3⟩ := List.map_eq_append_iff.1 hVs
    obtain ⟨a', R1', e4, e5, e6⟩ := List.map_eq_cons_iff.1 e3
    subst e1 e4 e5
    have hmem : a' ∈ passes L (run Db.empty pre).2 := by rw [hA0]; simp
    have hold : ∀ p ∈ P0 ++ D' ++ [a'], now - p.2 > pu.window := by
      intro p hp
      have hs := hsort
      rw [hA0, show P0 ++ (D' ++ a' :: R1') = (P0 ++ D' ++ [a']) ++ R1' by simp] at hs
      have hs1 := (List.pairwise_append.1 hs).1
      have hpm : p ∈ passes L (run Db.empty pre).2 := by
        rw [hA0]
        simp only [List.mem_append, List.mem_cons, List.not_mem_nil, or_false] at hp ⊢
        rcases hp with (h | h) | h <;> simp [h]
      rcases List.mem_append.1 hp with h | h
      · have := hmono p hpm a' hmem ((List.pairwise_append.1 hs1).2.2 p h a' (by simp))
        omega
      · simp only [List.mem_singleton] at h; subst h; exact hw
    have hlenR : ((R1' ++ [(t, now)]).length : Int) = pu.capacity := by
      rw [← e6] at hl; simp at hl ⊢; omega
    refine ⟨hinv (P0 ++ D' ++ [a']) (R1' ++ [(t, now)]) (by rw [hA0]; simp) rfl (by rw [← e6] at hst; simpa using hst) (by omega) ?_, ?_,
      fun h => by simp [Result.ofEval, Result.ofReply, Reply.pass] at h⟩
    · intro p hp
      have := hold p hp
      rcases htame with ⟨h1, _⟩ | h1
      · have := h1 (t, Call.should tag pc pu key bk msg now) (by simp) hon
        simp only [paramsOf] at this
        left; omega
      · right
        intro x hx hx'
        have := hlow h1 x hx hx'
        omega
    · intro _
      unfold recent
      rw [hA0, show P0 ++ (D' ++ a' :: R1') = (P0 ++ D' ++ [a']) ++ R1' by simp, List.countP_append,
        List.countP_eq_zero.2 (fun p hp => by have := hold p hp; simp; omega)]
      have := List.countP_le_length (p := fun a : Int × Int => decide (now - a.2 ≤ min W pu.window)) (l := R1')
      simp at hlenR
      omega
  | begins hx hVs hl hw hlive hst hstB =>
    rename_i D a R1 X m
    obtain ⟨D', R', e1, e2, e3⟩ := List.map_eq_append_iff.1 hVs
    obtain ⟨a', R1', e4, e5, e6⟩ := List.map_eq_cons_iff.1 e3
    subst e1 e4 e5
    have hb : (Result.ofEval (.ok ⟨1, 1, pu.timeout, m⟩)).block = true := rfl
    have hmem : a' ∈ passes L (run Db.empty pre).2 := by rw [hA0]; simp
    obtain ⟨Y, rfl, hY⟩ := hX0 _ _ hlive
    have hlenR : ((a' :: R1').length : Int) = pu.capacity := by rw [← e6] at hl; simpa using hl
    refine ⟨⟨by rw [hrun]; exact hty', ?_, P0 ++ D', a' :: R1', ?_, ?_, ?_, ?_⟩, fun h => by rw [hb] at h; simp at h, ?_⟩
    · rw [hkeep hb]
      exact ⟨hsort, fun a ha => ⟨(hagain a ha).1, (hagain a ha).2.1⟩⟩
    · rw [hkeep hb, hA0]; simp
    · rw [hkeep hb, hrun]
      exact .inr ⟨Y, by rw [← e6] at hst; exact hst, hY⟩
    · exact .inr ⟨_, hself, hon, by simp only [paramsOf]; omega⟩
    · intro p hp
      rw [hrun]
      have hpm : p ∈ passes L (run Db.empty pre).2 := by
        rw [hA0]; simp only [List.mem_append, List.mem_cons] at hp ⊢; rcases hp with h | h <;> simp [h]
      by_cases hWE : W < E
      · exact .inr (.inl ⟨hWE, m, _, hstB, by have := (hagain p hpm).1; omega⟩)
      · cases D' with
        | nil =>
          rcases hlost1 hx p (by simpa using hp) with h | h
          · left; rw [← hnow]; exact h
          · exact .inr (.inr fun x hx => by simpa using h x (List.mem_cons_of_mem _ hx))
        | cons d D' =>
          right; right
          have hdip : NoDip L (pre ++ (t, Call.should tag pc pu key bk msg now) :: post) ∨
              Lowered L (pre ++ (t, Call.should tag pc pu key bk msg now) :: post) := by
            rcases htame with ⟨_, h | h⟩ | h
            · exact absurd h hWE
            · exact .inl h
            · exact .inr h
          intro x hx hx'
          have : (paramsOf x.2).capacity ≤ pu.capacity := by
            rcases hdip with h | h
            · rcases hlen0 with h0 | ⟨y, hy, hy1, hy2⟩
              · simp at h0
              · refine h pre _ post rfl hon y hy hy1 x hx hx' ?_
                simp only [paramsOf, List.length_append, List.length_cons] at hy2 hlenR ⊢
                simp only [Int.natCast_add] at hy2 hlenR
                omega
            · exact hlow h x hx hx'
          omega
    · intro _
      unfold recent
      rw [hA0, show P0 ++ (D' ++ a' :: R1') = (P0 ++ D') ++ a' :: R1' by simp, List.countP_append]
      have : (a' :: R1').countP (fun a => decide (now - a.2 ≤ pu.window)) = (a' :: R1').length := by
        rw [List.countP_eq_length]
        intro q hq
        have hqm : q ∈ passes L (run Db.empty pre).2 := by
          rw [hA0]; simp only [List.mem_append, List.mem_cons] at hq ⊢; rcases hq with h | h <;> simp [h]
        have hs := hsort
        rw [hA0, show P0 ++ (D' ++ a' :: R1') = (P0 ++ D') ++ a' :: R1' by simp] at hs
        have : a'.2 ≤ q.2 := by
          rcases List.mem_cons.1 hq with rfl | h
          · exact Int.le_refl _
          · exact hmono a' hmem q hqm ((List.pairwise_cons.1 (List.pairwise_append.1 hs).2.1).1 q h)
        simp only [decide_eq_true_eq]
        omega
      rw [this]
      omega

theorem On.dec (L : Str) (c : Call) : On L c ∨ ¬ On L c := Classical.em _

/-- The invariant holds after all calls. -/
theorem inv_all {BK : Str → Prop} {L B : Str} (hL : ¬ BK L) {W E δ : Int} (hE : W < 2 * E) : ∀ (mid pre post : List (Int × Call)) (tl : Int),
    Inv BK L B W E δ pre (mid ++ post) tl → (∀ x ∈ mid ++ post, tl ≤ x.1) → Base BK L B δ (pre ++ mid ++ post) → Timeouts L E (pre ++ mid ++ post) →
    Tame L W E (pre ++ mid ++ post) → ∃ tl', Inv BK L B W E δ (pre ++ mid) post tl' ∧ ∀ x ∈ post, tl' ≤ x.1
  | [], pre, post, tl, inv, htl, _, _, _ => ⟨tl, by simpa using inv, by simpa using htl⟩
  | (t, c) :: mid, pre, post, tl, inv, htl, hb, ht, htame => by
    have e : pre ++ (t, c) :: mid ++ post = (pre ++ [(t, c)]) ++ mid ++ post := by simp
    have e' : pre ++ (t, c) :: mid ++ post = pre ++ (t, c) :: (mid ++ post) := by simp
    have hmem : (t, c) ∈ pre ++ (t, c) :: mid ++ post := by simp
    have hle : tl ≤ t := htl (t, c) (by simp)
    have inv' : Inv BK L B W E δ (pre ++ [(t, c)]) (mid ++ post) t := by
      rcases On.dec L c with hon | hoff
      · exact (step_on hE (by simpa using inv) hle (by rw [← e']; exact htame) (fun tag pc pu key bk msg now h => hb.calls _ hmem _ _ _ _ _ _ _ h) hon
          (ht _ hmem hon)).1
      · exact step_off hL (by simpa using inv) hle
          (fun tag pc pu key bk msg now h => by obtain ⟨h1, h2, _⟩ := hb.calls _ hmem _ _ _ _ _ _ _ h; exact ⟨h1, h2⟩) hoff
    have hs := hb.sorted
    rw [e'] at hs
    rw [e] at hb ht htame
    have := inv_all hL hE mid (pre ++ [(t, c)]) post t inv' (fun x hx => (Again.sorted_split hs).2 x hx) hb ht htame
    simpa using this

/-- What is known of a call after all those before it. -/
theorem at_call {BK : Str → Prop} {L B : Str} {W E δ : Int} (hE : W < 2 * E) {pre : List (Int × Call)} {t : Int} {c : Call}
    (hb : Base BK L B δ (pre ++ [(t, c)])) (ht : Timeouts L E (pre ++ [(t, c)])) (htame : Tame L W E (pre ++ [(t, c)])) (hon : On L c) :
    ((resultOf pre t c).block = false → (recent L pre ((t + δ) / 1000) (min W (paramsOf c).window) + 1 : Int) ≤ (paramsOf c).capacity) ∧
    ((resultOf pre t c).triggered = true → (paramsOf c).capacity ≤ recent L pre ((t + δ) / 1000) (paramsOf c).window) := by
  have hmem : (t, c) ∈ pre ++ [(t, c)] := by simp
  have hL : ¬ BK L := by
    cases c with
    | should tag pc pu key bk msg now =>
      have h := (hb.calls _ hmem _ _ _ _ _ _ _ rfl).2.1
      rw [hon.1] at h; exact h
    | isBlocked bk => exact hon.elim
    | shouldDown pc => exact hon.elim
    | isBlockedDown => exact hon.elim
  obtain ⟨t0, ht0⟩ : ∃ t0, ∀ x ∈ pre ++ [(t, c)], t0 ≤ x.1 := by
    have hs := hb.sorted
    cases hc : pre ++ [(t, c)] with
    | nil => simp at hc
    | cons y ys =>
      rw [hc] at hs
      refine ⟨y.1, fun x hx => ?_⟩
      rcases List.mem_cons.1 hx with rfl | h
      · exact Int.le_refl _
      · exact (Again.sorted_split (pre := []) hs).2 x h
  have i0 : Inv BK L B W E δ [] (pre ++ [(t, c)]) t0 :=
    ⟨typed_empty BK, ⟨by simp [run, passes], by simp [run, passes]⟩, [], [], by simp [run, passes], .inl ⟨rfl, rfl⟩, .inl rfl, by simp⟩
  obtain ⟨tl, inv, hle⟩ := inv_all hL hE pre [] [(t, c)] t0 i0 ht0 (by simpa using hb) (by simpa using ht) (by simpa using htame)
  exact (step_on hE (by simpa using inv) (hle (t, c) (by simp)) htame (fun tag pc pu key bk msg now h => hb.calls _ hmem _ _ _ _ _ _ _ h) hon
    (ht _ hmem hon)).2

/-! ## The property -/

/-- **C168.**  If `W` seconds are not more than any window and less than any timeout, or if they are less than two timeouts and the capacity is not
raised after it was lowered: a call passes only if, with it, not more calls than the capacity of that moment passed within `W` seconds.
Missing: `C168Claim`, the window of that moment and capacities that go down and up again. -/
theorem C168_bound_partial (BK : Str → Prop) (L B : Str) (δ W E : Int) (pre : List (Int × Call)) (t : Int) (c : Call)
    (hb : Base BK L B δ (pre ++ [(t, c)])) (ht : Timeouts L E (pre ++ [(t, c)])) (hW : ∀ x ∈ pre ++ [(t, c)], On L x.2 → W ≤ (paramsOf x.2).window)
    (h : 0 ≤ W ∧ W < E ∨ W < 2 * E ∧ NoDip L (pre ++ [(t, c)])) (hon : On L c) (hp : (resultOf pre t c).block = false) :
    (recent L pre ((t + δ) / 1000) W + 1 : Int) ≤ (paramsOf c).capacity := by
  have := (at_call (W := W) (E := E) (by omega) hb ht (.inl ⟨hW, h.imp And.right And.right⟩) hon).1 hp
  rwa [Int.min_eq_left (hW (t, c) (by simp) hon)] at this

/-- **C168.**  If the capacity is never raised, the claim holds: with the window and the capacity of that moment. -/
theorem C168_lowered (BK : Str → Prop) (L B : Str) (δ E : Int) (pre : List (Int × Call)) (t : Int) (c : Call)
    (hb : Base BK L B δ (pre ++ [(t, c)])) (ht : Timeouts L E (pre ++ [(t, c)])) (hW : (paramsOf c).window < 2 * E)
    (h : Lowered L (pre ++ [(t, c)])) (hon : On L c) (hp : (resultOf pre t c).block = false) :
    (recent L pre ((t + δ) / 1000) (paramsOf c).window + 1 : Int) ≤ (paramsOf c).capacity := by
  have := (at_call (W := (paramsOf c).window) (E := E) hW hb ht (.inr h) hon).1 hp
  rwa [Int.min_self] at this

/-- **C168.**  However the parameters change: a block begins only if as many calls as the capacity of that moment passed within the window of that
moment. -/
theorem C168_trigger (BK : Str → Prop) (L B : Str) (δ : Int) (pre : List (Int × Call)) (t : Int) (c : Call)
    (hb : Base BK L B δ (pre ++ [(t, c)])) (hon : On L c) (htr : (resultOf pre t c).triggered = true) :
    (paramsOf c).capacity ≤ recent L pre ((t + δ) / 1000) (paramsOf c).window := by
  have hset : ∀ x ∈ pre ++ [(t, c)], On L x.2 → (paramsOf x.2).set := by
    intro x _ h
    generalize x.2 = d at *
    cases d with
    | should tag pc pu key bk msg now => exact h.2.2
    | isBlocked bk => exact h.elim
    | shouldDown pc => exact h.elim
    | isBlockedDown => exact h.elim
  refine (at_call (W := 0) (E := 1) (by omega) hb (fun x hx h => ?_) (.inl ⟨fun x hx h => ?_, .inl (by omega)⟩) hon).2 htr
  · have := (hset x hx h).2.2; omega
  · have := (hset x hx h).2.1; omega

/-- A call with the given parameters. -/
def callP (c w e now : Int) : Call := .should [] ⟨c, w, e⟩ ⟨c, w, e⟩ ['k'] ['b'] ['m'] now

/-- Calls at the given times (ms), with capacity, window and timeout. -/
def callsP (xs : List (Int × Int × Int × Int)) : List (Int × Call) := xs.map fun x => (x.1, callP x.2.1 x.2.2.1 x.2.2.2 (x.1 / 1000))

theorem base_ex (xs : List (Int × Int × Int × Int)) (h : (xs.map (·.1)).Pairwise (· ≤ ·)) :
    Base (fun k => k = blockRKey [] ['b']) (listKey [] ['k']) (blockRKey [] ['b']) 0 (callsP xs) := by
  refine ⟨by simpa [callsP, Function.comp_def] using h, ?_⟩
  intro x hx tag pc pu key bk msg now he
  obtain ⟨y, _, rfl⟩ := List.mem_map.1 hx
  simp only [callP, Call.should.injEq] at he
  obtain ⟨rfl, rfl, rfl, rfl, rfl, rfl, rfl⟩ := he
  exact ⟨rfl, by decide, fun _ => ⟨rfl, by simp⟩⟩

/-- **C168 is violated**: the list is cut when the capacity is lowered, and what was cut is not known any more when it is raised again.  Window ten
seconds, timeout six seconds: three calls pass with capacity three, one with capacity one begins a block and cuts the list, and six seconds later
one more passes with capacity three, the fourth within ten seconds. -/
theorem C168_violated : ¬ C168Claim := by
  intro h
  have := h (fun k => k = blockRKey [] ['b']) (listKey [] ['k']) (blockRKey [] ['b']) 0 6
    (callsP [(1000, 3, 10, 6), (1000, 3, 10, 6), (1000, 3, 10, 6), (1000, 1, 10, 6)]) 7001 (callP 3 10 6 7)
    (base_ex [(1000, 3, 10, 6), (1000, 3, 10, 6), (1000, 3, 10, 6), (1000, 1, 10, 6), (7001, 3, 10, 6)] (by decide))
    (by
      intro x hx _
      simp only [callsP, List.map_cons, List.map_nil, List.cons_append, List.nil_append, List.mem_cons, List.not_mem_nil, or_false] at hx
      rcases hx with rfl | rfl | rfl | rfl | rfl <;> decide)
    (by
      intro x hx _
      simp only [callsP, List.map_cons, List.map_nil, List.cons_append, List.nil_append, List.mem_cons, List.not_mem_nil, or_false] at hx
      rcases hx with rfl | rfl | rfl | rfl | rfl <;> decide)
    ⟨rfl, by decide, by decide⟩ (by decide +kernel)
  revert this
  decide +kernel

/-- And when capacity and window are raised together: what has left the short window is not known in the long one. -/
theorem C168_raised_violated : ¬ C168Claim := by
  intro h
  have := h (fun k => k = blockRKey [] ['b']) (listKey [] ['k']) (blockRKey [] ['b']) 0 100
    (callsP [(1000, 1, 10, 100), (12000, 1, 10, 100)]) 13000 (callP 2 100 100 13)
    (base_ex [(1000, 1, 10, 100), (12000, 1, 10, 100), (13000, 2, 100, 100)] (by decide))
    (by
      intro x hx _
      simp only [callsP, List.map_cons, List.map_nil, List.cons_append, List.nil_append, List.mem_cons, List.not_mem_nil, or_false] at hx
      rcases hx with rfl | rfl | rfl <;> decide)
    (by
      intro x hx _
      simp only [callsP, List.map_cons, List.map_nil, List.cons_append, List.nil_append, List.mem_cons, List.not_mem_nil, or_false] at hx
      rcases hx with rfl | rfl | rfl <;> decide)
    ⟨rfl, by decide, by decide⟩ (by decide +kernel)
  revert this
  decide +kernel

/-- Non-vacuity: the capacity is lowered from three to one; the call after the ten seconds of the window passes, with the limiter off in between. -/
example : Base (fun k => k = blockRKey [] ['b']) (listKey [] ['k']) (blockRKey [] ['b']) 0
      (callsP [(1000, 3, 10, 6), (1000, 3, 10, 6), (1500, 0, 10, 6), (2000, 1, 10, 6), (12000, 1, 10, 6)]) ∧
    (resultOf (callsP [(1000, 3, 10, 6), (1000, 3, 10, 6), (1500, 0, 10, 6)]) 2000 (callP 1 10 6 2)).triggered = true ∧
    (resultOf (callsP [(1000, 3, 10, 6), (1000, 3, 10, 6), (1500, 0, 10, 6), (2000, 1, 10, 6)]) 12000 (callP 1 10 6 12)).block = false ∧
    recent (listKey [] ['k']) (callsP [(1000, 3, 10, 6), (1000, 3, 10, 6), (1500, 0, 10, 6), (2000, 1, 10, 6)]) 12 10 = 0 :=
  ⟨base_ex _ (by decide), by decide +kernel, by decide +kernel, by decide +kernel⟩

end Gears.TtlRedis.Change
