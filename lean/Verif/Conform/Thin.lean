import Verif.AtomicBucket.Props
import Verif.SlidingWindow.Props
import Verif.FixedWindow.Props
import Verif.CircuitBreaker.Model
import Verif.TtlRedis.Model

/-
Calls that are refused leave no trace (C176): if calls that were refused are left out, all other calls get the same answers.

The models are those of TokenBucket/Model.lean (/repo/ratelimiter/tokenbucket.go:71-104), AtomicBucket/Model.lean
(tokenbucket.go:120-177), SlidingWindow/Model.lean (slidingwindow.go:62-87), FixedWindow/Model.lean (fixedwindow.go:66-104),
TtlRedis/Model.lean (ttl_ratelimiter_redis.go:54-233) and CircuitBreaker/Model.lean (/repo/circuitbreaker/circuitbreaker.go:75-119).
No new model.
-/

namespace Gears.Conform.Thin

open Gears

/-! ### Specification -/

/-- `h'` is `h` without some of the calls whose answer is a refusal. -/
inductive Without {ι α : Type} (refused : α → Bool) : List (ι × α) → List (ι × α) → Prop
  | nil : Without refused [] []
  | keep (e : ι × α) {h h' : List (ι × α)} : Without refused h h' → Without refused (e :: h) (e :: h')
  | drop (e : ι × α) {h h' : List (ι × α)} : refused e.2 = true → Without refused h h' → Without refused (e :: h) h'

/-- Calls one after the other, and their answers. -/
def runG {σ ι α : Type} (f : σ → ι → σ × α) : σ → List ι → σ × List (ι × α)
  | s, [] => (s, [])
  | s, c :: cs => ((runG f (f s c).1 cs).1, (c, (f s c).2) :: (runG f (f s c).1 cs).2)

/-- Refused calls leave no trace. -/
def NoTrace {σ ι α : Type} (f : σ → ι → σ × α) (refused : α → Bool) (s : σ) (cs : List ι) : Prop :=
  ∀ h', Without refused (runG f s cs).2 h' → (runG f s (h'.map (·.1))).2 = h'

theorem noTrace_of {σ ι α : Type} (f : σ → ι → σ × α) (refused : α → Bool) (Inv : σ → List ι → Prop)
    (hs : ∀ s c cs, Inv s (c :: cs) → Inv (f s c).1 cs)
    (hd : ∀ s c cs, Inv s (c :: cs) → refused (f s c).2 = true → (f s c).1 = s) :
    ∀ (cs : List ι) (s : σ), Inv s cs → NoTrace f refused s cs := by
  intro cs
  induction cs with
  | nil =>
    intro s _ h' hw
    simp only [runG] at hw
    cases hw
    rfl
  | cons c cs ih =>
    intro s hi h' hw
    simp only [runG] at hw
    have h1 := ih _ (hs s c cs hi)
    generalize hx : (c, (f s c).2) = x at hw
    cases hw with
    | keep _ hw =>
      subst hx
      simp only [List.map_cons, runG, h1 _ hw]
    | drop _ hr hw =>
      subst hx
      have := h1 _ hw
      rwa [hd s c cs hi hr] at this

theorem noTrace_state {σ ι α : Type} (f : σ → ι → σ × α) (refused : α → Bool)
    (hd : ∀ s c, refused (f s c).2 = true → (f s c).1 = s) (cs : List ι) (s : σ) : NoTrace f refused s cs :=
  noTrace_of f refused (fun _ _ => True) (fun _ _ _ _ => trivial) (fun s c _ _ => hd s c) cs s trivial

/-! ### Token buckets -/

theorem bucket_run (ts : List Int) : ∀ s, runG TokenBucket.acquire s ts = TokenBucket.run s ts := by
  induction ts with
  | nil => intro s; rfl
  | cons t ts ih => intro s; simp only [runG, TokenBucket.run, ih]

/-- Issuing with a clock that has not gone back: a bucket that is still empty has not changed. -/
theorem bucket_issue (s : TokenBucket.State) (t : Int) (hl : s.last ≤ t) (hr : 0 ≤ s.rate) (hk : 0 ≤ s.tokens ∨ s.capacity ≤ s.tokens) :
    (TokenBucket.issueIfNecessary s t).rate = s.rate ∧ (TokenBucket.issueIfNecessary s t).capacity = s.capacity ∧
    (0 ≤ (TokenBucket.issueIfNecessary s t).tokens ∨ (TokenBucket.issueIfNecessary s t).capacity ≤ (TokenBucket.issueIfNecessary s t).tokens) ∧
    ((TokenBucket.issueIfNecessary s t).last = s.last ∨ (TokenBucket.issueIfNecessary s t).last = t) ∧
    ((TokenBucket.issueIfNecessary s t).tokens ≤ 0 → TokenBucket.issueIfNecessary s t = s) := by
  have hd : 0 ≤ Int.tdiv (t - s.last) TokenBucket.second * s.rate := by
    apply Int.mul_nonneg _ hr
    exact Int.tdiv_nonneg (by omega) (by decide)
  simp only [TokenBucket.issueIfNecessary]
  split
  · exact ⟨rfl, rfl, hk, .inl rfl, fun _ => rfl⟩
  · next hc =>
    split
    · exact ⟨rfl, rfl, hk, .inl rfl, fun _ => rfl⟩
    · next hz =>
      refine ⟨rfl, rfl, .inl ?_, .inr rfl, fun h => ?_⟩
      · dsimp only; split <;> omega
      · exfalso; revert h; dsimp only; split <;> omega

/-- The claim for the token bucket, whatever the clock shows. -/
def C176Bucket : Prop := ∀ (c r t0 : Int) (ts : List Int), 0 ≤ r → NoTrace TokenBucket.acquire (! ·) (TokenBucket.new c r t0) ts

/-- **C176**, token bucket, for a clock that does not go back. -/
theorem C176_bucket_partial (c r t0 : Int) (hr : 0 ≤ r) (ts : List Int) (hm : NonDecreasing (t0 :: ts)) (h' : History)
    (hw : Without (! ·) (TokenBucket.run (TokenBucket.new c r t0) ts).2 h') :
    (TokenBucket.run (TokenBucket.new c r t0) (h'.map (·.1))).2 = h' := by
  rw [← bucket_run] at hw ⊢
  refine noTrace_of TokenBucket.acquire (! ·)
    (fun s ts => NonDecreasing (s.last :: ts) ∧ 0 ≤ s.rate ∧ (0 ≤ s.tokens ∨ s.capacity ≤ s.tokens)) ?_ ?_ ts _
    ⟨hm, hr, .inr (Int.le_refl _)⟩ h' hw
  · intro s t ts ⟨h1, h2, h3⟩
    have hp := List.pairwise_cons.1 h1
    have hl : s.last ≤ t := hp.1 t (by simp)
    obtain ⟨e1, e2, e3, e4, e5⟩ := bucket_issue s t hl h2 h3
    refine ⟨?_, ?_, ?_⟩
    · have : (TokenBucket.acquire s t).1.last = (TokenBucket.issueIfNecessary s t).last := by
        simp only [TokenBucket.acquire]; split <;> rfl
      rw [this]
      rcases e4 with e | e
      · rw [e]; exact List.pairwise_cons.2 ⟨fun x hx => hp.1 x (by simp [hx]), (List.pairwise_cons.1 hp.2).2⟩
      · rw [e]; exact hp.2
    · simp only [TokenBucket.acquire]; split
      · exact e1 ▸ h2
      · exact e1 ▸ h2
    · simp only [TokenBucket.acquire]; split
      · next hx => exact .inl (by dsimp only; omega)
      · exact e3
  · intro s t ts ⟨h1, h2, h3⟩ hr
    have hp := List.pairwise_cons.1 h1
    have hl : s.last ≤ t := hp.1 t (by simp)
    obtain ⟨e1, e2, e3, e4, e5⟩ := bucket_issue s t hl h2 h3
    have hr' : (TokenBucket.acquire s t).2 = false := by simpa using hr
    revert hr'
    simp only [TokenBucket.acquire]
    split
    · intro h'; cases h'
    · next hx => intro _; exact e5 (by omega)

/-- **C176**, violated for a clock that goes back: the refused call at 8 s takes two tokens that the bucket does not have, and
the call at 11.5 s is refused. -/
theorem C176_back_violated : ¬ C176Bucket := by
  intro h
  have := h 1 1 10000000000 [10000000000, 8000000000, 10900000000, 11500000000] (by omega)
    [(10000000000, true), (10900000000, false), (11500000000, false)]
    (.keep _ (.drop _ rfl (.keep _ (.keep _ .nil))))
  revert this
  decide

/-- Non-vacuity: two refused calls, one of them left out. -/
example : (TokenBucket.run (TokenBucket.new 1 1 0) [0, 5, 6, 1000000000]).2 =
      [(0, true), (5, false), (6, false), (1000000000, true)] ∧
    (TokenBucket.run (TokenBucket.new 1 1 0) [0, 6, 1000000000]).2 = [(0, true), (6, false), (1000000000, true)] := by decide

/-- **C176**, atomic token bucket, calls one after the other. -/
theorem C176_atomic_partial (c r t0 : Int) (hr : 0 ≤ r) (n n' : Nat) (cs cs' : List (Int × Nat)) (s s' : AtomicBucket.State)
    (hm : NonDecreasing (t0 :: AtomicBucket.readings t0 cs))
    (h : AtomicBucket.SeqExec (AtomicBucket.init c r t0 n) cs s) (h2 : AtomicBucket.SeqExec (AtomicBucket.init c r t0 n') cs' s')
    (e e' : History) (he : e.map (·.1) = AtomicBucket.readings t0 cs) (hl : e.map (·.2) = s.log)
    (hw : Without (! ·) e e') (he' : e'.map (·.1) = AtomicBucket.readings t0 cs') : s'.log = e'.map (·.2) := by
  have h1 := AtomicBucket.C05_sequential_equals_sync c r t0 n cs s h
  have h3 := AtomicBucket.C05_sequential_equals_sync c r t0 n' cs' s' h2
  have hf : ∀ (ts : List Int) s, (TokenBucket.run s ts).2.map (·.1) = ts := by
    intro ts
    induction ts with
    | nil => intro s; rfl
    | cons t ts ih => intro s; simp [TokenBucket.run, ih]
  have : e = (TokenBucket.run (TokenBucket.new c r t0) (AtomicBucket.readings t0 cs)).2 := by
    have key : ∀ (a b : History), a.map (·.1) = b.map (·.1) → a.map (·.2) = b.map (·.2) → a = b := by
      intro a
      induction a with
      | nil => intro b h _; cases b with
        | nil => rfl
        | cons _ _ => simp at h
      | cons x a ih => intro b h h'; cases b with
        | nil => simp at h
        | cons y b =>
          simp only [List.map_cons, List.cons.injEq] at h h'
          rw [ih b h.2 h'.2, Prod.ext h.1 h'.1]
    exact key _ _ (by rw [he, hf]) (by rw [hl, h1])
  subst this
  rw [h3, ← he', C176_bucket_partial c r t0 hr _ hm e' hw]

/-! ### Windows -/

/-- `SlidingWindow.acquire`; the panic does not occur from `new` (C10), and would be a call let pass here. -/
def sliding (s : SlidingWindow.State) (t : Int) : SlidingWindow.State × Bool :=
  match SlidingWindow.acquire s t with
  | some x => x
  | none => (s, true)

/-- **C176**, sliding window, whatever the clock shows. -/
theorem C176_sliding (s : SlidingWindow.State) (ts : List Int) : NoTrace sliding (! ·) s ts := by
  apply noTrace_state
  intro s t h
  have h' : (sliding s t).2 = false := by simpa using h
  revert h'
  simp only [sliding, SlidingWindow.acquire]
  split
  · next x hx =>
    intro h'
    split at hx
    · cases hx; simp at h'
    · split at hx
      · cases hx; simp at h'
      · split at hx
        · cases hx
        · split at hx
          · cases hx; simp at h'
          · cases hx; rfl
  · intro h'; cases h'

/-- **C176**, sliding window, in terms of its `run`. -/
theorem C176_sliding_run (c W : Int) (ts : List Int) (s : SlidingWindow.State) (h h' : History)
    (hr : SlidingWindow.run (SlidingWindow.new c W) (SlidingWindow.acquires ts) = some (s, h)) (hw : Without (! ·) h h') :
    ∃ s', SlidingWindow.run (SlidingWindow.new c W) (SlidingWindow.acquires (h'.map (·.1))) = some (s', h') := by
  have key : ∀ (ts : List Int) (s0 s : SlidingWindow.State) (h : History),
      SlidingWindow.run s0 (SlidingWindow.acquires ts) = some (s, h) → runG sliding s0 ts = (s, h) := by
    intro ts
    induction ts with
    | nil =>
      intro s0 s h e
      simp only [SlidingWindow.acquires, List.map_nil, SlidingWindow.run, Option.some.injEq, Prod.mk.injEq] at e
      obtain ⟨rfl, rfl⟩ := e
      rfl
    | cons t ts ih =>
      intro s0 s h e
      simp only [SlidingWindow.acquires, List.map_cons, SlidingWindow.run] at e
      split at e
      · cases e
      · next s1 b ha =>
        split at e
        · cases e
        · next s2 h2 hr =>
          simp only [Option.some.injEq, Prod.mk.injEq] at e
          obtain ⟨rfl, rfl⟩ := e
          have := ih s1 s2 h2 hr
          have hs : sliding s0 t = (s1, b) := by simp only [sliding, ha]
          simp only [runG, hs, this]
  have h1 := C176_sliding (SlidingWindow.new c W) ts h' (by rw [key _ _ _ _ hr]; exact hw)
  obtain ⟨s', h2, e⟩ := SlidingWindow.C10_never_panics c W (SlidingWindow.acquires (h'.map (·.1)))
  have := key _ _ _ _ e
  rw [this] at h1
  exact ⟨s', by rw [e]; exact congrArg (fun x => some (s', x)) h1⟩

/-- Non-vacuity. -/
example : (runG sliding (SlidingWindow.new 1 10) [0, 5, 11]).2 = [(0, true), (5, false), (11, true)] ∧
    (runG sliding (SlidingWindow.new 1 10) [0, 11]).2 = [(0, true), (11, true)] := by decide

theorem fixed_none (ts : List Int) : ∀ s : FixedWindow.State, s.capacity ≤ 0 → 0 ≤ s.count →
    (runG FixedWindow.acquire s ts).2 = ts.map (·, false) := by
  induction ts with
  | nil => intro s _ _; rfl
  | cons t ts ih =>
    intro s hc hn
    have : (FixedWindow.acquire s t).2 = false ∧ (FixedWindow.acquire s t).1.capacity ≤ 0 ∧ 0 ≤ (FixedWindow.acquire s t).1.count := by
      by_cases hk : FixedWindow.contains s t
      · have h0 : ¬ s.count < s.capacity := by omega
        simp only [FixedWindow.acquire, hk, not_true_eq_false, if_false, h0]
        exact ⟨trivial, hc, hn⟩
      · have h0 : ¬ (0 : Int) < s.capacity := by omega
        simp only [FixedWindow.acquire, FixedWindow.reset, hk, not_false_eq_true, if_true, if_false, h0]
        exact ⟨trivial, hc, Int.le_refl _⟩
    simp only [runG, List.map_cons, this.1, ih _ this.2.1 this.2.2]

theorem without_none {h h' : History} (hw : Without (! ·) h h') : (∀ e ∈ h, e.2 = false) → h' = (h'.map (·.1)).map (·, false) := by
  induction hw with
  | nil => intro _; rfl
  | keep e _ ih =>
    intro hf
    have h1 := ih (fun x hx => hf x (by simp [hx]))
    have h2 : e = (e.1, false) := Prod.ext rfl (hf e (by simp))
    rw [List.map_cons, List.map_cons, ← h1, ← h2]
  | drop e _ _ ih => intro hf; exact ih (fun x hx => hf x (by simp [hx]))

/-- **C176**, fixed window, whatever the clock shows. -/
theorem C176_fixed (c W : Int) (ts : List Int) :
    NoTrace FixedWindow.acquire (! ·) (FixedWindow.new c W) ts := by
  by_cases hc : 1 ≤ c
  case neg =>
    intro h' hw
    rw [fixed_none ts _ (by simp only [FixedWindow.new]; omega) (Int.le_refl _)] at hw
    rw [fixed_none _ _ (by simp only [FixedWindow.new]; omega) (Int.le_refl _)]
    exact (without_none hw (by simp)).symm
  refine noTrace_of FixedWindow.acquire (! ·) (fun s _ => 1 ≤ s.capacity) ?_ ?_ ts _ hc
  · intro s t ts h
    simp only [FixedWindow.acquire, FixedWindow.reset]
    repeat' split
    all_goals exact h
  · intro s t ts h hr
    have hr' : (FixedWindow.acquire s t).2 = false := by simpa using hr
    revert hr'
    by_cases hc : FixedWindow.contains s t
    · simp only [FixedWindow.acquire, hc, not_true_eq_false, if_false]
      split
      · intro h'; cases h'
      · intro _; rfl
    · have h0 : (0 : Int) < s.capacity := by omega
      simp only [FixedWindow.acquire, FixedWindow.reset, hc, not_false_eq_true, if_true, if_false, h0]
      intro h'; cases h'

/-! ### Circuit breaker -/

/-- One call of `Do`: the clock at its start, what its task would do, the clock when it has failed; the answer is what the
caller sees. -/
def once (b : CircuitBreaker.Breaker) (c : Int × CircuitBreaker.Outcome × Int) : CircuitBreaker.Breaker × List CircuitBreaker.Ev :=
  b.doSeq 0 c.1 c.2.1 c.2.2

/-- The call is refused. -/
def isRefused : List CircuitBreaker.Ev → Bool
  | .refuse _ _ :: _ => true
  | _ => false

/-- **C176**, circuit breaker, whatever the clock shows. -/
theorem C176_breaker (th tm : Int) (cs : List (Int × CircuitBreaker.Outcome × Int)) :
    NoTrace once isRefused (CircuitBreaker.new th tm) cs := by
  apply noTrace_state
  intro b c h
  obtain ⟨now, o, now2⟩ := c
  simp only [once, CircuitBreaker.Breaker.doSeq] at h ⊢
  cases hm : b.mode now with
  | opened => rfl
  | closed => rw [hm] at h; cases o <;> simp [isRefused] at h
  | halfOpen => rw [hm] at h; cases o <;> simp [isRefused] at h

/-- Non-vacuity: a failure, a refused call, a success. -/
example : (runG once (CircuitBreaker.new 1 10) [(1, .err 7, 2), (5, .ok, 6), (13, .ok, 14)]).2.map (fun e => isRefused e.2) =
    [false, true, false] := by decide

/-! ### The redis limiter -/

def redis (db : TtlRedis.Db) (c : Int × TtlRedis.Call) : TtlRedis.Db × TtlRedis.Result := c.2.exec db c.1

/-- The claim for the redis limiter. -/
def C176Redis : Prop := ∀ cs : List (Int × TtlRedis.Call), NoTrace redis (·.block) TtlRedis.Db.empty cs

/-- **C176**, redis limiter: calls refused because of a block that exists leave no trace; they do not prolong it. -/
theorem C176_redis_partial (db : TtlRedis.Db) (cs : List (Int × TtlRedis.Call)) :
    NoTrace redis (fun r => r.block && !r.triggered) db cs := by
  apply noTrace_state
  intro db c h
  obtain ⟨t, c⟩ := c
  cases c with
  | isBlocked bk => rfl
  | shouldDown pc => rfl
  | isBlockedDown => rfl
  | should tag pc pu key bk msg now =>
    simp only [redis, TtlRedis.Call.exec, TtlRedis.shouldBlock2] at h ⊢
    split
    · rfl
    · next hn =>
      rw [if_neg hn] at h
      dsimp only at h ⊢
      generalize TtlRedis.listKey tag key = k1 at h ⊢
      generalize TtlRedis.blockRKey tag bk = k2 at h ⊢
      simp only [TtlRedis.script1] at h ⊢
      repeat' split at h
      all_goals simp_all [TtlRedis.Result.ofEval, TtlRedis.Result.ofReply, TtlRedis.Result.zero, TtlRedis.Reply.pass]
      split <;> rfl

/-- One call in ten seconds, blocked for a minute. -/
def pr : TtlRedis.Params := ⟨1, 10, 60⟩

def at_ (s : Int) : Int × TtlRedis.Call := (s * 1000, .should [] pr pr ['k'] ['k'] [] s)

/-- **C176**, violated for the redis limiter: the first call that is refused blocks the key; without it the call at 20 s would
pass. -/
theorem C176_redis_violated : ¬ C176Redis := by
  intro h
  have h1 := h [at_ 0, at_ 5, at_ 20]
    [(at_ 0, ⟨false, false, 0, []⟩), (at_ 20, ⟨true, false, 45, []⟩)]
    (by
      have : (runG redis TtlRedis.Db.empty [at_ 0, at_ 5, at_ 20]).2 =
        [(at_ 0, ⟨false, false, 0, []⟩), (at_ 5, ⟨true, true, 60, []⟩), (at_ 20, ⟨true, false, 45, []⟩)] := by decide
      rw [this]
      exact .keep _ (.drop _ rfl (.keep _ .nil)))
  revert h1
  decide

/-- Non-vacuity of the partial result: the third call is refused because of the block. -/
example : (runG redis TtlRedis.Db.empty [at_ 0, at_ 5, at_ 20, at_ 66]).2.map (fun e => (e.2.block, e.2.triggered)) =
      [(false, false), (true, true), (true, false), (false, false)] ∧
    (runG redis TtlRedis.Db.empty [at_ 0, at_ 5, at_ 66]).2.map (fun e => (e.2.block, e.2.triggered)) =
      [(false, false), (true, true), (false, false)] := by decide

end Gears.Conform.Thin
