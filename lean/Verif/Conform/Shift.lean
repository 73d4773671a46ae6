import Verif.Conform.Compare
import Verif.CircuitBreaker.Model

/-
The answers of a limiter when all times are shifted (property C171): the limiters of /repo/ratelimiter.

The models are those of `Verif/TokenBucket/Model.lean` (/repo/ratelimiter/tokenbucket.go:67-104), `Verif/AtomicBucket/Model.lean`
(tokenbucket.go:106-177), `Verif/SlidingWindow/Model.lean` (slidingwindow.go:42-117), `Verif/FixedWindow/Model.lean`
(fixedwindow.go:46-104), `Verif/TtlRedis/Model.lean` (ttl_ratelimiter_redis.go:54-233) and, for the circuit breaker,
`Verif/CircuitBreaker/Model.lean` (/repo/circuitbreaker/circuitbreaker.go:46-134).  No new model.
-/

namespace Gears.Conform

/-! ## Specification -/

/-- The same answers, at times that are later by `d`. -/
def shifted (d : Int) (h : History) : History := h.map fun e => (e.1 + d, e.2)

def later (d : Int) (ts : List Int) : List Int := ts.map (· + d)

/-- **C171** for the fixed window: all times later by `d`, the same answers. -/
def C171Fixed : Prop := ∀ (c w d : Int), 1 ≤ c → 1 ≤ w → 0 ≤ d → ∀ ts, NonDecreasing (1 :: ts) →
  (FixedWindow.run (FixedWindow.new c w) (later d ts)).2 = shifted d (FixedWindow.run (FixedWindow.new c w) ts).2

/-- **C171** for the fixed window, shifted by whole windows. -/
def C171FixedWhole : Prop := ∀ (c w m : Int), 1 ≤ c → 1 ≤ w → 0 ≤ m → ∀ ts, NonDecreasing (1 :: ts) →
  (FixedWindow.run (FixedWindow.new c w) (later (m * w) ts)).2 = shifted (m * w) (FixedWindow.run (FixedWindow.new c w) ts).2

/-! ## Token buckets -/

section Bucket
open TokenBucket

def moved (d : Int) (s : State) : State := { s with last := s.last + d }

theorem moved_acquire (d : Int) (s : State) (t : Int) : acquire (moved d s) (t + d) = (moved d (acquire s t).1, (acquire s t).2) := by
  have hi : issueIfNecessary (moved d s) (t + d) = moved d (issueIfNecessary s t) := by
    simp only [issueIfNecessary, moved, show t + d - (s.last + d) = t - s.last by omega]
    split
    · rfl
    · split <;> rfl
  unfold acquire
  rw [hi]
  generalize issueIfNecessary s t = x
  dsimp only
  by_cases h : x.tokens > 0
  · rw [if_pos h, if_pos (show (moved d x).tokens > 0 from h)]
    rfl
  · rw [if_neg h, if_neg (show ¬ (moved d x).tokens > 0 from h)]

theorem moved_run (d : Int) : ∀ (ts : List Int) (s : State), (run (moved d s) (later d ts)).2 = shifted d (run s ts).2
  | [], _ => rfl
  | t :: ts, s => by
    have := moved_run d ts (acquire s t).1
    simp only [later, shifted, List.map_cons, run, moved_acquire] at this ⊢
    rw [this]

/-- **C171** for the token bucket: created later by `d` and called later by `d`, whatever the clock shows, it gives the same answers. -/
theorem C171_bucket (c r t0 d : Int) (ts : List Int) : (run (new c r (t0 + d)) (later d ts)).2 = shifted d (run (new c r t0) ts).2 :=
  moved_run d ts (new c r t0)

/-- **C171** for the atomic token bucket, called sequentially. -/
theorem C171_atomic (c r t0 d : Int) (n n' : Nat) (cs cs' : List (Int × Nat)) (s s' : AtomicBucket.State)
    (h : AtomicBucket.SeqExec (AtomicBucket.init c r t0 n) cs s) (h' : AtomicBucket.SeqExec (AtomicBucket.init c r (t0 + d) n') cs' s')
    (hs : AtomicBucket.readings (t0 + d) cs' = later d (AtomicBucket.readings t0 cs)) : s'.log = s.log := by
  rw [AtomicBucket.C05_sequential_equals_sync c r t0 n cs s h, AtomicBucket.C05_sequential_equals_sync c r (t0 + d) n' cs' s' h', hs, C171_bucket]
  simp [shifted, Function.comp_def]

/-- Non-vacuity. -/
example : (run (new 1 1 7) [7, 7, 1000000007]).2 = [(7, true), (7, false), (1000000007, true)] ∧
    (run (new 1 1 0) [0, 0, 1000000000]).2 = [(0, true), (0, false), (1000000000, true)] := by decide

end Bucket

/-! ## Sliding window -/

section Sliding
open SlidingWindow

def movedS (d : Int) (s : State) : State := { s with records := s.records.map (· + d) }

/-- The same call, later by `d`. -/
def laterOp (d : Int) : Op → Op
  | .acquire now => .acquire (now + d)
  | .updateConfig c w => .updateConfig c w

theorem movedS_acquire (d : Int) (s : State) (t : Int) : acquire (movedS d s) (t + d) = (acquire s t).map fun x => (movedS d x.1, x.2) := by
  obtain ⟨c, w, rs⟩ := s
  simp only [acquire, movedS, List.length_map]
  split
  · rfl
  · split
    · simp
    · cases rs with
      | nil => rfl
      | cons r rs =>
        simp only [List.map_cons, show t + d - (r + d) = t - r by omega]
        split <;> simp

theorem shrink_map (d c : Int) : ∀ rs : List Int, shrink c (rs.map (· + d)) = (shrink c rs).map (· + d)
  | [] => rfl
  | r :: rs => by
    have ih := shrink_map d c rs
    simp only [List.map_cons, shrink, List.length_cons, List.length_map, ih]
    split <;> simp

theorem movedS_run (d : Int) : ∀ (ops : List Op) (s : State),
    (run (movedS d s) (ops.map (laterOp d))).map (·.2) = (run s ops).map fun x => shifted d x.2
  | [], _ => rfl
  | .acquire t :: ops, s => by
    simp only [List.map_cons, laterOp, run, movedS_acquire]
    cases ha : acquire s t with
    | none => rfl
    | some x =>
      obtain ⟨s1, b⟩ := x
      have ih := movedS_run d ops s1
      simp only [Option.map_some]
      cases hr : run s1 ops with
      | none =>
        rw [hr] at ih
        simp only [Option.map_none, Option.map_eq_none_iff] at ih
        rw [ih]; rfl
      | some y =>
        rw [hr] at ih
        simp only [Option.map_some, Option.map_eq_some_iff] at ih
        obtain ⟨z, e1, e2⟩ := ih
        rw [e1]
        simp only [Option.map_some, e2]
        rfl
  | .updateConfig c w :: ops, s => by
    have ih := movedS_run d ops (updateConfig s c w)
    simp only [List.map_cons, laterOp, run]
    rw [← ih]
    simp only [updateConfig, movedS, shrink_map]

/-- **C171** for the sliding window, with changes of the configuration, whatever the clock shows: called later by `d` it gives the same answers (or
panics in both cases). -/
theorem C171_sliding (c w d : Int) (ops : List Op) : (run (new c w) (ops.map (laterOp d))).map (·.2) = (run (new c w) ops).map fun x => shifted d x.2 :=
  movedS_run d ops (new c w)

/-- Non-vacuity. -/
example : (run (new 1 10) [.acquire 0, .acquire 10, .updateConfig 1 9, .acquire 10]).map (·.2) = some [(0, true), (10, false), (10, true)] := by decide

end Sliding

/-! ## Fixed window -/

section Fixed
open FixedWindow

theorem later_interval (h : History) (W m k : Int) : admittedInInterval (shifted (m * W) h) W (k + m) = admittedInInterval h W k := by
  rw [inInterval_eq, inInterval_eq]
  simp only [admittedIn, shifted, List.countP_map]
  have e1 : (k + m - 1) * W = (k - 1) * W + m * W := by rw [show k + m - 1 = (k - 1) + m by omega, Int.add_mul]
  have e2 : (k + m) * W = k * W + m * W := Int.add_mul ..
  apply List.countP_congr
  intro e _
  simp only [Function.comp_apply, Bool.and_eq_true, decide_eq_true_eq, e1, e2]
  constructor <;> rintro ⟨⟨a, b⟩, c⟩ <;> exact ⟨⟨a, by omega⟩, by omega⟩

theorem fixed_snoc : ∀ (ts : List Int) (s : State) (t : Int), (run s (ts ++ [t])).2 = (run s ts).2 ++ [(t, (acquire (run s ts).1 t).2)]
  | [], _, _ => rfl
  | u :: ts, s, t => by simp only [List.cons_append, run, fixed_snoc ts]

/-- **C171** for the fixed window, clock restricted as in C13 before and after: called later by whole windows it gives the same answers.  Missing:
`C171Fixed`, `C171FixedWhole`. -/
theorem C171_fixed_partial (c W m : Int) (hW : 0 < W) (hW2 : W < 2 ^ 53) (ts : List Int) (hok : ClockOk W ts) (hok' : ClockOk W (later (m * W) ts)) :
    (run (new c W) (later (m * W) ts)).2 = shifted (m * W) (run (new c W) ts).2 := by
  generalize hn : ts.length = n
  induction n generalizing ts with
  | zero => cases List.length_eq_zero_iff.1 hn; rfl
  | succ n ih =>
    obtain ⟨pre, t, rfl⟩ : ∃ pre t, ts = pre ++ [t] := ⟨ts.dropLast, ts.getLast (by intro h; rw [h] at hn; cases hn), (List.dropLast_append_getLast _).symm⟩
    have front : ∀ us : List Int, ∀ u, ClockOk W (us ++ [u]) → ClockOk W us := by
      intro us u h
      rcases List.eq_nil_or_concat us with rfl | ⟨vs, v, rfl⟩
      · trivial
      · rw [List.concat_eq_append] at h ⊢
        exact clockOk_prefix (pre := vs) (t := v) (post := [u]) (by simpa using h)
    have e : later (m * W) (pre ++ [t]) = later (m * W) pre ++ [t + m * W] := by simp [later]
    rw [e] at hok' ⊢
    have ih := ih pre (front _ _ hok) (front _ _ hok') (by simpa using hn)
    obtain ⟨k, hk1, hk2⟩ := exists_ceil t W hW
    have r1 := C13_reject_iff_used_up_partial c W hW hW2 pre t k hok hk1 hk2
    have r2 := C13_reject_iff_used_up_partial c W hW hW2 (later (m * W) pre) (t + m * W) (k + m) hok'
      (by rw [show k + m - 1 = (k - 1) + m by omega, Int.add_mul]; omega) (by rw [Int.add_mul]; omega)
    rw [ih, later_interval, ← r1] at r2
    rw [fixed_snoc, fixed_snoc, ih]
    simp only [shifted, List.map_append, List.map_cons, List.map_nil]
    congr 3
    cases h1 : (acquire (run (new c W) (later (m * W) pre)).1 (t + m * W)).2 <;> cases h2 : (acquire (run (new c W) pre).1 t).2 <;> simp_all

/-- **C171 is violated** by the fixed window: which calls are in the same interval depends on the time of day.  Capacity 1, window 10. -/
theorem C171_fixed_violated : ¬ C171Fixed := by
  intro h
  have := h 1 10 1 (by decide) (by decide) (by decide) [10, 11] (by decide)
  revert this
  decide +kernel

/-- And not even whole windows are without effect: the first interval is not computed exactly at the times of today (C13). -/
theorem C171_fixed_whole_violated : ¬ C171FixedWhole := by
  intro h
  have h1 := h 1 111111111 15300000018 (by decide) (by decide) (by decide) [1700000000522222219 - 15300000018 * 111111111, 1700000000633333330 - 15300000018 * 111111111] (by decide)
  rw [show later (15300000018 * 111111111) [1700000000522222219 - 15300000018 * 111111111, 1700000000633333330 - 15300000018 * 111111111] =
    [1700000000522222219, 1700000000633333330] by decide] at h1
  have h2 : (run (new 1 111111111) [1700000000522222219 - 15300000018 * 111111111, 1700000000633333330 - 15300000018 * 111111111]).2.map (·.2) = [true, true] := by
    decide +kernel
  have h3 : (run (new 1 111111111) [1700000000522222219, 1700000000633333330]).2.map (·.2) = [true, false] := by
    simp [run, acquire, new, contains, reset, goCeilDiv_sample3]
  rw [h1] at h3
  rw [show (shifted (15300000018 * 111111111) (run (new 1 111111111) [1700000000522222219 - 15300000018 * 111111111, 1700000000633333330 - 15300000018 * 111111111]).2).map (·.2) =
    (run (new 1 111111111) [1700000000522222219 - 15300000018 * 111111111, 1700000000633333330 - 15300000018 * 111111111]).2.map (·.2) by simp [shifted, Function.comp_def], h2] at h3
  cases h3

/-- Non-vacuity of the partial theorem. -/
example : ClockOk 10 [3, 4, 13] ∧ ClockOk 10 (later (5 * 10) [3, 4, 13]) ∧ (run (new 1 10) [3, 4, 13]).2 = [(3, true), (4, false), (13, true)] := by
  refine ⟨?_, ?_, by decide +kernel⟩ <;> simp [ClockOk, FirstOk, Steady, later]

end Fixed

/-! ## Redis -/

section Redis
open TtlRedis

/-- A value whose list was pushed by clients with clocks that are ahead by `σ` seconds. -/
def movedV (σ : Int) : Val → Val
  | .str s => .str s
  | .list l => .list (l.map (· + σ))

/-- An entry of a redis whose clock is ahead by `δ` ms. -/
def movedE (δ σ : Int) (e : Entry) : Entry := ⟨movedV σ e.val, e.expireAt.map (· + δ)⟩

def movedDb (δ σ : Int) (db : Db) : Db := fun k => (db k).map (movedE δ σ)

/-- The same call from a client whose clock is ahead by `σ` seconds. -/
def laterCall (σ : Int) : Call → Call
  | .should tag pc pu key bk msg now => .should tag pc pu key bk msg (now + σ)
  | c => c

theorem moved_expired (δ σ : Int) (e : Entry) (t : Int) : (movedE δ σ e).expired (t + δ) = e.expired t := by
  obtain ⟨v, w⟩ := e
  cases w with
  | none => rfl
  | some w =>
    simp only [movedE, Entry.expired, Option.map_some]
    congr 1
    exact propext ⟨fun h => by omega, fun h => by omega⟩

theorem moved_live (δ σ : Int) (db : Db) (t : Int) (k : Str) : live (movedDb δ σ db) (t + δ) k = (live db t k).map (movedE δ σ) := by
  simp only [live, movedDb]
  cases h : db k with
  | none => rfl
  | some e =>
    simp only [Option.map_some, moved_expired]
    split <;> rfl

theorem moved_set (δ σ : Int) (db : Db) (k : Str) (e : Option Entry) : (movedDb δ σ db).set k (e.map (movedE δ σ)) = movedDb δ σ (db.set k e) := by
  funext k'
  simp only [Db.set, movedDb]
  split <;> rfl

theorem moved_rpush (δ σ : Int) (db : Db) (t : Int) (k : Str) (v : Int) : rpush (movedDb δ σ db) (t + δ) k (v + σ) = movedDb δ σ (rpush db t k v) := by
  simp only [rpush, moved_live]
  rcases hl : live db t k with _ | ⟨s | l, E⟩
  · exact moved_set δ σ db k (some ⟨.list [v], none⟩)
  · rfl
  · have := moved_set δ σ db k (some ⟨.list (l ++ [v]), E⟩)
    simpa [movedE, movedV] using this

theorem moved_lpop (δ σ : Int) (db : Db) (t : Int) (k : Str) : lpop (movedDb δ σ db) (t + δ) k = movedDb δ σ (lpop db t k) := by
  simp only [lpop, moved_live]
  rcases hl : live db t k with _ | ⟨_ | (_ | ⟨a, _ | ⟨b, l⟩⟩), E⟩
  · rfl
  · rfl
  · exact moved_set δ σ db k none
  · exact moved_set δ σ db k none
  · exact moved_set δ σ db k (some ⟨.list (b :: l), E⟩)

theorem moved_lpopN (δ σ : Int) (t : Int) (k : Str) : ∀ (n : Nat) (db : Db), lpopN (movedDb δ σ db) (t + δ) k n = movedDb δ σ (lpopN db t k n)
  | 0, _ => rfl
  | n + 1, db => by simp only [lpopN, moved_lpop, moved_lpopN δ σ t k n]

theorem moved_expire (δ σ : Int) (db : Db) (t : Int) (k : Str) (x : Int) : expire (movedDb δ σ db) (t + δ) k x = movedDb δ σ (expire db t k x) := by
  simp only [expire, moved_live]
  cases hl : live db t k with
  | none => rfl
  | some e =>
    have := moved_set δ σ db k (some { e with expireAt := some (t + x * 1000) })
    simp only [Option.map_some] at this ⊢
    rw [← this]
    simp only [movedE, Option.map_some, show t + δ + x * 1000 = t + x * 1000 + δ by omega]

theorem moved_setExNx (δ σ : Int) (db : Db) (t : Int) (k v : Str) (x : Int) : setExNx (movedDb δ σ db) (t + δ) k v x = movedDb δ σ (setExNx db t k v x) := by
  simp only [setExNx, moved_live]
  cases hl : live db t k with
  | some e => rfl
  | none =>
    have := moved_set δ σ db k (some ⟨.str v, some (t + x * 1000)⟩)
    simp only [Option.map_some, Option.map_none] at this ⊢
    rw [← this]
    simp only [movedE, movedV, Option.map_some, show t + δ + x * 1000 = t + x * 1000 + δ by omega]

theorem moved_exists (δ σ : Int) (db : Db) (t : Int) (k : Str) : existsK (movedDb δ σ db) (t + δ) k = existsK db t k := by
  simp only [existsK, moved_live, Option.isSome_map]

theorem moved_getStr (δ σ : Int) (db : Db) (t : Int) (k : Str) : getStr (movedDb δ σ db) (t + δ) k = getStr db t k := by
  simp only [getStr, moved_live]
  rcases hl : live db t k with _ | ⟨_ | _, E⟩ <;> rfl

theorem moved_ttl (δ σ : Int) (db : Db) (t : Int) (k : Str) : ttl (movedDb δ σ db) (t + δ) k = ttl db t k := by
  simp only [ttl, moved_live]
  rcases hl : live db t k with _ | ⟨v, _ | w⟩
  · rfl
  · rfl
  · simp only [Option.map_some, movedE, show w + δ - (t + δ) = w - t by omega]

theorem moved_llen (δ σ : Int) (db : Db) (t : Int) (k : Str) : llen (movedDb δ σ db) (t + δ) k = llen db t k := by
  simp only [llen, moved_live]
  rcases hl : live db t k with _ | ⟨_ | l, E⟩
  · rfl
  · rfl
  · simp [movedE, movedV]

theorem moved_lrange (δ σ : Int) (db : Db) (t : Int) (k : Str) : lrange00 (movedDb δ σ db) (t + δ) k = (lrange00 db t k).map (· + σ) := by
  simp only [lrange00, moved_live]
  rcases hl : live db t k with _ | ⟨_ | (_ | ⟨a, l⟩), E⟩ <;> rfl

theorem moved_script1 (δ σ : Int) (db : Db) (t : Int) (key keyb : Str) (cap win exp now : Int) (msg : Str) :
    script1 (movedDb δ σ db) (t + δ) key keyb cap win exp (now + σ) msg =
      (movedDb δ σ (script1 db t key keyb cap win exp now msg).1, (script1 db t key keyb cap win exp now msg).2) := by
  simp only [script1, moved_exists, moved_getStr, moved_ttl, moved_llen, moved_lpopN, moved_lrange]
  split
  · rfl
  split
  · split <;> rfl
  split
  · rfl
  split
  · simp only [moved_rpush, moved_expire]
  rename_i size _ _
  cases h : lrange00 (lpopN db t key (size - cap).toNat) t key with
  | none => simp only [Option.map_none, moved_rpush, moved_expire]
  | some oldest =>
    simp only [Option.map_some, show now + σ - (oldest + σ) = now - oldest by omega]
    split
    · simp only [moved_rpush, moved_lpop, moved_expire]
    · simp only [moved_setExNx]

theorem moved_exec (δ σ : Int) (db : Db) (t : Int) (c : Call) :
    (laterCall σ c).exec (movedDb δ σ db) (t + δ) = (movedDb δ σ (c.exec db t).1, (c.exec db t).2) := by
  cases c with
  | should tag pc pu key bk msg now =>
    simp only [laterCall, Call.exec, shouldBlock2, moved_script1]
    split <;> rfl
  | isBlocked bk => simp only [laterCall, Call.exec, TtlRedis.isBlocked, script2, moved_exists, moved_getStr, moved_ttl]
  | shouldDown pc => rfl
  | isBlockedDown => rfl

theorem moved_calls (δ σ : Int) : ∀ (cs : List (Int × Call)) (db : Db),
    (run (movedDb δ σ db) (cs.map fun x => (x.1 + δ, laterCall σ x.2))).2.map (·.result) = (run db cs).2.map (·.result)
  | [], _ => rfl
  | (t, c) :: cs, db => by
    have ih := moved_calls δ σ cs (c.exec db t).1
    simp only [List.map_cons, run, moved_exec, List.cons.injEq, true_and]
    exact ih

/-- **C171** for the redis limiter: if the clock of redis is ahead by `δ` ms and the clocks of all clients by `σ` seconds, whatever the two are, all
calls of all limiters have the same results. -/
theorem C171_redis (δ σ : Int) (cs : List (Int × Call)) :
    (run Db.empty (cs.map fun x => (x.1 + δ, laterCall σ x.2))).2.map (·.result) = (run Db.empty cs).2.map (·.result) :=
  moved_calls δ σ cs Db.empty

/-- Non-vacuity: capacity 1, window 10 s, timeout 6 s; the clients are 100 s behind redis. -/
example : (run Db.empty ((Change.callsP [(1000, 1, 10, 6), (2000, 1, 10, 6), (12000, 1, 10, 6)]).map fun x => (x.1 + 0, laterCall (-100) x.2))).2.map (·.result.block) =
    [false, true, false] := by decide +kernel

end Redis

/-! ## Circuit breaker -/

section Breaker
open CircuitBreaker

def laterPC (d : Int) : PC → PC
  | .deciding now => .deciding (now + d)
  | p => p

def laterEv (d : Int) : Ev → Ev
  | .start i now => .start i (now + d)
  | .refuse i now => .refuse i (now + d)
  | .recFail i now => .recFail i (now + d)
  | e => e

def laterAct (d : Int) : Action → Action
  | .call now => .call (now + d)
  | .record i now => .record i (now + d)
  | a => a

/-- **C171** for the circuit breaker. -/
def C171Breaker : Prop := ∀ (th tm d : Int) (as : List Action) (s : State), exec step (init th tm) as = some s →
  ∃ s', exec step (init th tm) (as.map (laterAct d)) = some s' ∧ s'.log = s.log.map (laterEv d)

/-- The breaker of the later execution.  The timestamp 0 of a breaker without failures is not shifted. -/
structure Same (d : Int) (s s' : State) : Prop where
  th  : 1 ≤ s.b.threshold
  nn  : 0 ≤ s.b.failures
  eth : s'.b.threshold = s.b.threshold
  eto : s'.b.timeout = s.b.timeout
  ef  : s'.b.failures = s.b.failures
  els : 1 ≤ s.b.failures → s'.b.lastTs = s.b.lastTs + d
  pcs : s'.pcs = s.pcs.map (laterPC d)
  log : s'.log = s.log.map (laterEv d)

theorem same_mode {d : Int} {s s' : State} (h : Same d s s') (now : Int) : s'.b.mode (now + d) = s.b.mode now := by
  have h1 := h.th
  have h2 := h.els
  simp only [Breaker.mode, h.eth, h.eto, h.ef]
  by_cases hf : s.b.failures ≥ s.b.threshold
  · rw [h2 (by omega), show now + d - (s.b.lastTs + d) = now - s.b.lastTs by omega]
  · simp [hf]

theorem same_get {d : Int} {s s' : State} (h : Same d s s') (i : Nat) : s'.pcs[i]? = (s.pcs[i]?).map (laterPC d) := by
  rw [h.pcs, List.getElem?_map]

theorem same_upd {d : Int} {s s' : State} (h : Same d s s') (i : Nat) (p : PC) (ev : List Ev) :
    Same d (s.upd s.b i p ev) (s'.upd s'.b i (laterPC d p) (ev.map (laterEv d))) :=
  ⟨h.th, h.nn, h.eth, h.eto, h.ef, h.els, by simp [State.upd, h.pcs, List.map_set], by simp [State.upd, h.log]⟩

theorem same_step (d : Int) (s s' t : State) (a : Action) (h : Same d s s') (ht : step s a = some t) :
    ∃ t', step s' (laterAct d a) = some t' ∧ Same d t t' := by
  cases a with
  | call now =>
    simp only [step, Option.some.injEq] at ht
    subst ht
    exact ⟨_, rfl, h.th, h.nn, h.eth, h.eto, h.ef, h.els, by simp [h.pcs, laterPC], h.log⟩
  | decide i =>
    simp only [step, laterAct, same_get h i] at ht ⊢
    rcases hp : s.pcs[i]? with _ | (now | _ | _ | e | e | _ | _) <;> simp only [hp, reduceCtorEq] at ht
    simp only [Option.map_some, laterPC, same_mode h]
    cases hm : s.b.mode now <;> simp only [hm, Option.some.injEq] at ht <;> subst ht <;> exact ⟨_, rfl, same_upd h i _ _⟩
  | openCb i =>
    simp only [step, laterAct, same_get h i] at ht ⊢
    rcases hp : s.pcs[i]? with _ | (now | _ | _ | e | e | _ | _) <;> simp only [hp, reduceCtorEq, Option.some.injEq] at ht
    subst ht
    exact ⟨_, rfl, same_upd h i _ _⟩
  | taskEnd i o =>
    simp only [step, laterAct, same_get h i] at ht ⊢
    rcases hp : s.pcs[i]? with _ | (now | _ | _ | e | e | _ | _) <;> simp only [hp, reduceCtorEq] at ht
    cases o <;> simp only [Option.some.injEq] at ht <;> subst ht <;> exact ⟨_, rfl, same_upd h i _ _⟩
  | record i now =>
    simp only [step, laterAct, same_get h i] at ht ⊢
    rcases hp : s.pcs[i]? with _ | (now | _ | _ | e | e | _ | _) <;> simp only [hp, reduceCtorEq, Option.some.injEq] at ht
    subst ht
    have h0 := h.nn
    refine ⟨_, rfl, h.th, ?_, h.eth, h.eto, ?_, fun _ => rfl, by simp [State.upd, h.pcs, List.map_set, laterPC], by simp [State.upd, h.log, laterEv]⟩
    · simp only [State.upd, Breaker.recordFailure]; omega
    · simp only [State.upd, Breaker.recordFailure, h.ef]
  | errCb i =>
    simp only [step, laterAct, same_get h i] at ht ⊢
    rcases hp : s.pcs[i]? with _ | (now | _ | _ | e | e | _ | _) <;> simp only [hp, reduceCtorEq, Option.some.injEq] at ht
    subst ht
    exact ⟨_, rfl, same_upd h i _ _⟩
  | reset i =>
    simp only [step, laterAct, same_get h i] at ht ⊢
    rcases hp : s.pcs[i]? with _ | (now | _ | _ | e | e | _ | _) <;> simp only [hp, reduceCtorEq, Option.some.injEq] at ht
    subst ht
    refine ⟨_, rfl, h.th, ?_, h.eth, h.eto, rfl, ?_, by simp [State.upd, h.pcs, List.map_set, laterPC], by simp [State.upd, h.log, laterEv]⟩
    · simp [State.upd, Breaker.reset]
    · simp only [State.upd, Breaker.reset]; omega

theorem same_exec (d : Int) : ∀ (as : List Action) (s s' t : State), Same d s s' → exec step s as = some t →
    ∃ t', exec step s' (as.map (laterAct d)) = some t' ∧ Same d t t'
  | [], s, s', t, h, ht => by
    simp only [exec, Option.some.injEq] at ht
    subst ht
    exact ⟨s', rfl, h⟩
  | a :: as, s, s', t, h, ht => by
    simp only [exec] at ht
    cases hs : step s a with
    | none => rw [hs] at ht; cases ht
    | some s1 =>
      rw [hs] at ht
      obtain ⟨t1, e1, e2⟩ := same_step d s s' s1 a h hs
      obtain ⟨t2, e3, e4⟩ := same_exec d as s1 t1 t e2 ht
      refine ⟨t2, ?_, e4⟩
      simp only [List.map_cons, exec, e1]
      exact e3

/-- **C171** for the circuit breaker with a threshold of at least one: in every execution with concurrent calls, whatever the clock shows, all calls
decide the same at times that are later by `d`.  Missing: `C171Breaker`. -/
theorem C171_breaker_partial (th tm d : Int) (hth : 1 ≤ th) (as : List Action) (s : State) (h : exec step (init th tm) as = some s) :
    ∃ s', exec step (init th tm) (as.map (laterAct d)) = some s' ∧ s'.log = s.log.map (laterEv d) := by
  obtain ⟨s', e1, e2⟩ := same_exec d as (init th tm) (init th tm) s ⟨hth, by simp [init, new], rfl, rfl, rfl, by simp [init, new], rfl, rfl⟩ h
  exact ⟨s', e1, e2.log⟩

/-- **C171 is violated** by a circuit breaker with threshold 0: until the first failure it compares the clock with 0.  Timeout 5: a call at 3 is
refused, one at 13 is not. -/
theorem C171_breaker_violated : ¬ C171Breaker := by
  intro h
  obtain ⟨s', e1, e2⟩ := h 0 5 10 [.call 3, .decide 0] _ rfl
  have e3 : exec step (init 0 5) ([Action.call 3, .decide 0].map (laterAct 10)) = some ⟨⟨0, 5, 0, 0⟩, [.running], [.start 0 13]⟩ := by decide
  rw [e3] at e1
  cases e1
  revert e2
  decide

/-- Non-vacuity: threshold 1, timeout 10; opened at 101, refused at 111, tried again at 112. -/
example : ((exec step (init 1 10) [.call 100, .decide 0, .taskEnd 0 (.err 7), .record 0 101, .call 111, .decide 1, .call 112, .decide 2]).map (·.log)) =
    some [.start 0 100, .finish 0 (.err 7), .recFail 0 101, .refuse 1 111, .start 2 112] := by decide

end Breaker

end Gears.Conform
