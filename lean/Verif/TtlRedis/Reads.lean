import Verif.TtlRedis.Model

/-
The parameters of the redis limiter, read one by one (property C172): /repo/ratelimiter/ttl_ratelimiter.go:36-101 and
/repo/ratelimiter/ttl_ratelimiter_redis.go:132-257.

`Verif/TtlRedis/Model.lean` takes the values of the check in line 189 and of the arguments in lines 214-216 as two triples.  Here the getters are
called one after another: an object that implements `TtlRateLimiterParams` is what its getters return at each instant, and a call of the limiter
reads at successive instants.  Since what happens at the instants is arbitrary, so is the time between them.
-/

namespace Gears.TtlRedis.Reads

/-! ## Model -/

/-- The methods of `TtlRateLimiterParams` (ttl_ratelimiter.go:63-71). -/
inductive Getter where
  | window | capacity | timeout
deriving Repr, DecidableEq

/-- `fixedTtlRateLimiterParams` (ttl_ratelimiter.go:85-89). -/
structure Fixed where
  timeoutSec    : Int
  windowSizeSec : Int
  capacity      : Int
deriving Repr, DecidableEq

/-- What can be passed as `params`: the fixed parameters, an implementation of the application, or a limiter, since `TtlRateLimiter` embeds
`TtlRateLimiterParams` (ttl_ratelimiter.go:38). -/
inductive Obj where
  | fixed (f : Fixed)
  | other (get : Getter → Nat → Int)
  /-- `redisTtlRateLimiter` (ttl_ratelimiter_redis.go:152-156), without the client -/
  | limiter (params : Obj) (hashTag : Str)

/-- `NewFixedTtlRateLimiterParams` (ttl_ratelimiter.go:77-83). -/
def newFixed (capacity windowsSizeSec timeoutSec : Int) : Obj :=
  .fixed { capacity := capacity, windowSizeSec := windowsSizeSec, timeoutSec := timeoutSec }

/-- `NewRedisTtlRateLimiter` (ttl_ratelimiter_redis.go:132-138). -/
def newLimiter (params : Obj) : Obj := .limiter params standalone

/-- `NewRedisTtlRateLimiterCluster` (143-150). -/
def newCluster (params : Obj) (hashTag : Str) : Obj := .limiter params (clusterTag hashTag)

/-- The getters at instant `i`: ttl_ratelimiter.go:91-101 and ttl_ratelimiter_redis.go:247-257. -/
def Obj.get : Obj → Getter → Nat → Int
  | .fixed f, .window, _ => f.windowSizeSec
  | .fixed f, .timeout, _ => f.timeoutSec
  | .fixed f, .capacity, _ => f.capacity
  | .other g, x, i => g x i
  | .limiter p _, x, i => p.get x i

/-- `isParamsNotSet` (ttl_ratelimiter.go:73-75), from instant `i`: the result and the next instant.  `||` stops at the first true operand. -/
def isParamsNotSet (p : Obj) (i : Nat) : Bool × Nat :=
  if p.get .capacity i ≤ 0 then (true, i + 1)
  else if p.get .timeout (i + 1) ≤ 0 then (true, i + 2)
  else if p.get .window (i + 2) ≤ 0 then (true, i + 3)
  else (false, i + 3)

/-- `ShouldBlock2Context` (ttl_ratelimiter_redis.go:186-233) of a limiter with parameters `p`, from instant `i`; the arguments of `EvalSha` are
evaluated from left to right (214-216). -/
def shouldBlock2Context (p : Obj) (tag : Str) (i : Nat) (db : Db) (t : Int) (key blockKey msg : Str) (now : Int) : Db × Result :=
  let (unset, i) := isParamsNotSet p i
  if unset then (db, .zero)
  else
    let cap := p.get .capacity i
    let win := p.get .window (i + 1)
    let exp := p.get .timeout (i + 2)
    let r := script1 db t (listKey tag key) (blockRKey tag blockKey) cap win exp now msg
    (r.1, .ofEval r.2)

/-- `ShouldBlockContext` (158-160), `ShouldBlock2` (239-241), `ShouldBlock` (235-237). -/
def shouldBlockContext (p : Obj) (tag : Str) (i : Nat) (db : Db) (t : Int) (key msg : Str) (now : Int) : Db × Result :=
  shouldBlock2Context p tag i db t key key msg now

def shouldBlock2 (p : Obj) (tag : Str) (i : Nat) (db : Db) (t : Int) (key blockKey msg : Str) (now : Int) : Db × Result :=
  shouldBlock2Context p tag i db t key blockKey msg now

def shouldBlock (p : Obj) (tag : Str) (i : Nat) (db : Db) (t : Int) (key msg : Str) (now : Int) : Db × Result :=
  shouldBlock2 p tag i db t key key msg now

/-! ## Specification -/

/-- The three values at one instant. -/
def paramsAt (p : Obj) (j : Nat) : Params := ⟨p.get .capacity j, p.get .window j, p.get .timeout j⟩

/-- What a call does with one set of parameters. -/
def withParams (q : Params) (tag : Str) (db : Db) (t : Int) (key blockKey msg : Str) (now : Int) : Db × Result :=
  (Call.should tag q q key blockKey msg now).exec db t

/-- A limiter, that has a limiter as parameters, and so on, `n` times; the innermost has the parameters `p`. -/
def nested (p : Obj) : List Str → Obj
  | [] => p
  | tag :: tags => .limiter (nested p tags) tag

/-- **C172**: a call acts as with one set of parameters that was in force at some instant of the call. -/
def C172Claim : Prop := ∀ (p : Obj) (tag : Str) (i : Nat) (db : Db) (t : Int) (key blockKey msg : Str) (now : Int),
  ∃ j, i ≤ j ∧ j ≤ i + 5 ∧ shouldBlock2Context p tag i db t key blockKey msg now = withParams (paramsAt p j) tag db t key blockKey msg now

/-- A getter returns the same during a call. -/
def Steady (p : Obj) (x : Getter) (i : Nat) : Prop := ∀ j, i ≤ j → j ≤ i + 5 → p.get x j = p.get x i

/-! ## Proofs -/

/-- The six values of a call in the model of the other properties: `pc` of the check and `pu` of the arguments. -/
theorem reads_eq (p : Obj) (tag : Str) (i : Nat) (db : Db) (t : Int) (key blockKey msg : Str) (now : Int) :
    shouldBlock2Context p tag i db t key blockKey msg now =
      (Call.should tag ⟨p.get .capacity i, p.get .window (i + 2), p.get .timeout (i + 1)⟩
        ⟨p.get .capacity (i + 3), p.get .window (i + 4), p.get .timeout (i + 5)⟩ key blockKey msg now).exec db t := by
  simp only [shouldBlock2Context, isParamsNotSet, Call.exec, TtlRedis.shouldBlock2, Params.notSet]
  by_cases h1 : p.get .capacity i ≤ 0
  · simp [h1]
  · by_cases h2 : p.get .timeout (i + 1) ≤ 0
    · simp [h1, h2]
    · by_cases h3 : p.get .window (i + 2) ≤ 0
      · simp [h1, h2, h3]
      · simp [h1, h2, h3]

/-- **C172**, the model of the other properties: they take the parameters of the check and those of the script as given, for each call; whatever the
getters return, a call is one of these. -/
theorem C172_refines (p : Obj) (tag : Str) (i : Nat) (db : Db) (t : Int) (key blockKey msg : Str) (now : Int) :
    ∃ pc pu, shouldBlock2Context p tag i db t key blockKey msg now = (Call.should tag pc pu key blockKey msg now).exec db t ∧
      (∃ j, i ≤ j ∧ j ≤ i + 5 ∧ pu.capacity = p.get .capacity j) ∧ (∃ j, i ≤ j ∧ j ≤ i + 5 ∧ pu.window = p.get .window j) ∧
      (∃ j, i ≤ j ∧ j ≤ i + 5 ∧ pu.timeout = p.get .timeout j) :=
  ⟨_, _, reads_eq p tag i db t key blockKey msg now, ⟨i + 3, by omega, by omega, rfl⟩, ⟨i + 4, by omega, by omega, rfl⟩, ⟨i + 5, by omega, by omega, rfl⟩⟩

/-- The script does nothing without parameters. -/
theorem script_off (db : Db) (t : Int) (key keyb : Str) (cap win exp now : Int) (msg : Str) (h : cap ≤ 0 ∨ win ≤ 0 ∨ exp ≤ 0) :
    script1 db t key keyb cap win exp now msg = (db, .ok .pass) := by
  unfold script1
  rw [if_pos h]

/-- The arguments of the script decide. -/
theorem exec_use (tag : Str) (pc pu : Params) (db : Db) (t : Int) (key blockKey msg : Str) (now : Int) (h : ¬ pc.notSet) :
    (Call.should tag pc pu key blockKey msg now).exec db t = withParams pu tag db t key blockKey msg now := by
  simp only [withParams, Call.exec, TtlRedis.shouldBlock2, if_neg h]
  by_cases h' : pu.notSet
  · rw [if_pos h', script_off _ _ _ _ _ _ _ _ _ (by unfold Params.notSet at h'; omega)]
    rfl
  · rw [if_neg h']

theorem exec_off (tag : Str) (q : Params) (db : Db) (t : Int) (key blockKey msg : Str) (now : Int) (h : q.notSet) :
    withParams q tag db t key blockKey msg now = (db, .zero) := by
  simp only [withParams, Call.exec, TtlRedis.shouldBlock2, if_pos h]

/-- **C172**, switched off: if one of the values that are read is not positive, whichever it is, at the check or later, then the request passes,
with the empty result, and redis is not changed. -/
theorem C172_off (p : Obj) (tag : Str) (i : Nat) (db : Db) (t : Int) (key blockKey msg : Str) (now : Int)
    (h : p.get .capacity i ≤ 0 ∨ p.get .timeout (i + 1) ≤ 0 ∨ p.get .window (i + 2) ≤ 0 ∨
      p.get .capacity (i + 3) ≤ 0 ∨ p.get .window (i + 4) ≤ 0 ∨ p.get .timeout (i + 5) ≤ 0) :
    shouldBlock2Context p tag i db t key blockKey msg now = (db, .zero) := by
  rw [reads_eq]
  by_cases hc : (⟨p.get .capacity i, p.get .window (i + 2), p.get .timeout (i + 1)⟩ : Params).notSet
  · simp only [Call.exec, TtlRedis.shouldBlock2, if_pos hc]
  · rw [exec_use _ _ _ _ _ _ _ _ _ hc]
    apply exec_off
    unfold Params.notSet at hc ⊢
    dsimp only at hc ⊢
    omega

/-- **C172, partial**: the claim, if the three arguments of the script were in force together at an instant of the call.  Missing: `C172Claim`. -/
theorem C172_together_partial (p : Obj) (tag : Str) (i : Nat) (db : Db) (t : Int) (key blockKey msg : Str) (now : Int)
    (h : ∃ j, i ≤ j ∧ j ≤ i + 5 ∧ paramsAt p j = ⟨p.get .capacity (i + 3), p.get .window (i + 4), p.get .timeout (i + 5)⟩) :
    ∃ j, i ≤ j ∧ j ≤ i + 5 ∧ shouldBlock2Context p tag i db t key blockKey msg now = withParams (paramsAt p j) tag db t key blockKey msg now := by
  rw [reads_eq]
  by_cases hc : (⟨p.get .capacity i, p.get .window (i + 2), p.get .timeout (i + 1)⟩ : Params).notSet
  · have e : (Call.should tag ⟨p.get .capacity i, p.get .window (i + 2), p.get .timeout (i + 1)⟩
        ⟨p.get .capacity (i + 3), p.get .window (i + 4), p.get .timeout (i + 5)⟩ key blockKey msg now).exec db t = (db, .zero) := by
      simp only [Call.exec, TtlRedis.shouldBlock2, if_pos hc]
    rw [e]
    have off : ∀ j, (paramsAt p j).notSet → (db, Result.zero) = withParams (paramsAt p j) tag db t key blockKey msg now :=
      fun j hj => (exec_off tag _ db t key blockKey msg now hj).symm
    simp only [Params.notSet] at hc off
    rcases hc with hc | hc | hc
    · exact ⟨i, by omega, by omega, off i (.inl hc)⟩
    · exact ⟨i + 1, by omega, by omega, off _ (.inr (.inl hc))⟩
    · exact ⟨i + 2, by omega, by omega, off _ (.inr (.inr hc))⟩
  · obtain ⟨j, h1, h2, h3⟩ := h
    exact ⟨j, h1, h2, by rw [exec_use _ _ _ _ _ _ _ _ _ hc, h3]⟩

/-- **C172, partial**: in particular if at least two of the three getters return the same during the call, however the third one changes. -/
theorem C172_steady_partial (p : Obj) (tag : Str) (i : Nat) (db : Db) (t : Int) (key blockKey msg : Str) (now : Int) (x y : Getter) (hxy : x ≠ y)
    (hx : Steady p x i) (hy : Steady p y i) :
    ∃ j, i ≤ j ∧ j ≤ i + 5 ∧ shouldBlock2Context p tag i db t key blockKey msg now = withParams (paramsAt p j) tag db t key blockKey msg now := by
  apply C172_together_partial
  have ex : ∀ j k, i ≤ j → j ≤ i + 5 → i ≤ k → k ≤ i + 5 → p.get x j = p.get x k := fun j k a b c d => by rw [hx j a b, hx k c d]
  have ey : ∀ j k, i ≤ j → j ≤ i + 5 → i ≤ k → k ≤ i + 5 → p.get y j = p.get y k := fun j k a b c d => by rw [hy j a b, hy k c d]
  clear hx hy
  cases x <;> cases y <;> first
    | exact absurd rfl hxy
    | (refine ⟨i + 3, by omega, by omega, ?_⟩
       unfold paramsAt
       congr 1 <;> first | (apply ex <;> omega) | (apply ey <;> omega))
    | (refine ⟨i + 4, by omega, by omega, ?_⟩
       unfold paramsAt
       congr 1 <;> first | (apply ex <;> omega) | (apply ey <;> omega))
    | (refine ⟨i + 5, by omega, by omega, ?_⟩
       unfold paramsAt
       congr 1 <;> first | (apply ex <;> omega) | (apply ey <;> omega))

/-- **C172**, nested: a limiter that gets its parameters from a limiter, to any depth, has the getters of the innermost parameters, and with
them does what a limiter with the same hash tag does. -/
theorem C172_nested (p : Obj) (tags : List Str) (tag : Str) (i : Nat) (db : Db) (t : Int) (key blockKey msg : Str) (now : Int) :
    (∀ x j, (nested p tags).get x j = p.get x j) ∧
    shouldBlock2Context (nested p tags) tag i db t key blockKey msg now = shouldBlock2Context p tag i db t key blockKey msg now := by
  have h : ∀ x j, (nested p tags).get x j = p.get x j := by
    intro x j
    induction tags with
    | nil => rfl
    | cons tag tags ih => simpa only [nested, Obj.get] using ih
  refine ⟨h, ?_⟩
  rw [reads_eq, reads_eq]
  simp only [h]

/-- **C172**, fixed parameters: the getters of the parameters and of the limiter, to any depth, return what was given to
`NewFixedTtlRateLimiterParams`, and all calls are made with this one set. -/
theorem C172_fixed (capacity windowsSizeSec timeoutSec : Int) (tags : List Str) (tag : Str) (i : Nat) (db : Db) (t : Int) (key blockKey msg : Str) (now : Int) :
    (∀ j, paramsAt (nested (newFixed capacity windowsSizeSec timeoutSec) tags) j = ⟨capacity, windowsSizeSec, timeoutSec⟩) ∧
    shouldBlock2Context (nested (newFixed capacity windowsSizeSec timeoutSec) tags) tag i db t key blockKey msg now =
      withParams ⟨capacity, windowsSizeSec, timeoutSec⟩ tag db t key blockKey msg now := by
  obtain ⟨h1, h2⟩ := C172_nested (newFixed capacity windowsSizeSec timeoutSec) tags tag i db t key blockKey msg now
  refine ⟨fun j => by simp only [paramsAt, h1]; rfl, ?_⟩
  rw [h2, reads_eq]
  rfl

/-- **C172**, the methods without context and with one key are the one with two keys. -/
theorem C172_methods (p : Obj) (tag : Str) (i : Nat) (db : Db) (t : Int) (key msg : Str) (now : Int) :
    shouldBlock p tag i db t key msg now = shouldBlock2Context p tag i db t key key msg now ∧
    shouldBlockContext p tag i db t key msg now = shouldBlock2Context p tag i db t key key msg now ∧
    ∀ blockKey, shouldBlock2 p tag i db t key blockKey msg now = shouldBlock2Context p tag i db t key blockKey msg now :=
  ⟨rfl, rfl, fun _ => rfl⟩

/-! ## Violations -/

/-- Parameters that the application changes from `a` to `b` just before instant `n`. -/
def changed (a b : Params) (n : Nat) : Obj := .other fun x j =>
  let q := if j < n then a else b
  match x with
  | .capacity => q.capacity
  | .window => q.window
  | .timeout => q.timeout

/-- The requests that were made before, with the first parameters: key `k`, block key `k`. -/
def before (q : Params) (ts : List Int) : Db := (run Db.empty (ts.map fun t => (t * 1000, Call.should [] q q ['k'] ['k'] ['m'] t))).1

theorem changed_cases (a b : Params) (n j : Nat) : paramsAt (changed a b n) j = a ∨ paramsAt (changed a b n) j = b := by
  by_cases h : j < n
  · left; simp [paramsAt, changed, Obj.get, h]
  · right; simp [paramsAt, changed, Obj.get, h]

/-- The claim and one change: the result is that with the old or that with the new parameters. -/
theorem one_change (h : C172Claim) (a b : Params) (n : Nat) (db : Db) (t now : Int) :
    (shouldBlock2Context (changed a b n) [] 0 db t ['k'] ['k'] ['m'] now).2 = (withParams a [] db t ['k'] ['k'] ['m'] now).2 ∨
    (shouldBlock2Context (changed a b n) [] 0 db t ['k'] ['k'] ['m'] now).2 = (withParams b [] db t ['k'] ['k'] ['m'] now).2 := by
  obtain ⟨j, _, _, e⟩ := h (changed a b n) [] 0 db t ['k'] ['k'] ['m'] now
  rcases changed_cases a b n j with hj | hj
  · left; rw [e, hj]
  · right; rw [e, hj]

/-- **C172 is violated**: the parameters are not read together.  One request was made ten seconds ago.  The parameters change from one request in a
second to two in an hour, while a call is made; both let it pass, but the call has read the capacity before and the window after the change: one
request in an hour, and it is blocked. -/
theorem C172_torn_block_violated : ¬ C172Claim := by
  intro h
  have := one_change h ⟨1, 1, 60⟩ ⟨2, 3600, 60⟩ 4 (before ⟨1, 1, 60⟩ [100]) 110000 110
  revert this
  decide +kernel

/-- And the other way: two requests were made, ten seconds ago and now.  The parameters change from two in an hour to one in a second; both block, but
the capacity is read before and the window after the change: two requests in a second, and it passes. -/
theorem C172_torn_pass_violated : ¬ C172Claim := by
  intro h
  have := one_change h ⟨2, 3600, 60⟩ ⟨1, 1, 60⟩ 4 (before ⟨2, 3600, 60⟩ [100, 110]) 110000 110
  revert this
  decide +kernel

/-! ## Examples -/

/-- What the three calls of the first violation return. -/
example : (shouldBlock2Context (changed ⟨1, 1, 60⟩ ⟨2, 3600, 60⟩ 4) [] 0 (before ⟨1, 1, 60⟩ [100]) 110000 ['k'] ['k'] ['m'] 110).2 = ⟨true, true, 60, ['m']⟩ ∧
    (withParams ⟨1, 1, 60⟩ [] (before ⟨1, 1, 60⟩ [100]) 110000 ['k'] ['k'] ['m'] 110).2 = .zero ∧
    (withParams ⟨2, 3600, 60⟩ [] (before ⟨1, 1, 60⟩ [100]) 110000 ['k'] ['k'] ['m'] 110).2 = .zero := by
  decide +kernel

/-- Non-vacuity of the partial theorems: the timeout changes during the call, the others do not. -/
example : Steady (changed ⟨1, 1, 60⟩ ⟨1, 1, 30⟩ 4) .capacity 0 ∧ Steady (changed ⟨1, 1, 60⟩ ⟨1, 1, 30⟩ 4) .window 0 ∧
    ¬ Steady (changed ⟨1, 1, 60⟩ ⟨1, 1, 30⟩ 4) .timeout 0 := by
  refine ⟨fun j _ _ => ?_, fun j _ _ => ?_, fun h => ?_⟩
  · simp only [changed, Obj.get]; split <;> rfl
  · simp only [changed, Obj.get]; split <;> rfl
  · have := h 5 (by omega) (by omega)
    revert this
    decide

/-- Fixed parameters in a cluster limiter in a limiter. -/
example : nested (newFixed 5 10 60) [standalone, clusterTag ['x']] = newLimiter (newCluster (newFixed 5 10 60) ['x']) ∧
    (newLimiter (newCluster (newFixed 5 10 60) ['x'])).get .window 0 = 10 ∧ (newLimiter (newFixed 5 10 60)).get .capacity 0 = 5 ∧
    (newFixed 5 10 60).get .timeout 0 = 60 := ⟨rfl, rfl, rfl, rfl⟩

end Gears.TtlRedis.Reads
