import Verif.Common.Exec

/-
Concurrent calls of a limiter that reads the clock before it takes its lock: `Acquire` of SyncSlidingWindow
(/repo/ratelimiter/slidingwindow.go:62-66) and of SyncFixedWindow (/repo/ratelimiter/fixedwindow.go:66-70).

A call has two steps: it reads the clock, and later, when it gets the lock, it decides.  Any number of calls may be
between the two steps, and they get the lock in any order.  The clock never goes backwards.
-/

namespace Gears.Calls

/-- A call that has returned: the clock reading it took, the time at which it held the lock, and its result. -/
structure Entry where
  reading : Int
  decided : Int
  result  : Bool
deriving Repr, DecidableEq

/-- A limiter with the calls in flight.  `waiting` are the readings of the calls that have read the clock and do not
have the lock yet; `log` are the calls that have returned, in lock order. -/
structure Sys (σ : Type) where
  lim     : σ
  clock   : Int
  waiting : List Int
  log     : List Entry

inductive Action where
  /-- time passes -/
  | tick (d : Nat)
  /-- a call reads the clock (slidingwindow.go:63, fixedwindow.go:67) -/
  | read
  /-- the `i`-th call in flight gets the lock, decides and returns (slidingwindow.go:65-86, fixedwindow.go:69-81) -/
  | enter (i : Nat)
deriving Repr, DecidableEq

/-- One step; `acq` is the body of the critical section, `none` if it panics. -/
def step {σ : Type} (acq : σ → Int → Option (σ × Bool)) (s : Sys σ) : Action → Option (Sys σ)
  | .tick d => some { s with clock := s.clock + d }
  | .read => some { s with waiting := s.waiting ++ [s.clock] }
  | .enter i =>
    match s.waiting[i]? with
    | none => none
    | some t =>
      match acq s.lim t with
      | none => none
      | some (l, b) => some { s with lim := l, waiting := s.waiting.eraseIdx i, log := s.log ++ [⟨t, s.clock, b⟩] }

/-- A limiter nobody has called yet, at time `c0`. -/
def start {σ : Type} (l : σ) (c0 : Int) : Sys σ := ⟨l, c0, [], []⟩

/-- No call took longer than `δ` from reading the clock to its decision. -/
def Within (δ : Int) (log : List Entry) : Prop := ∀ e ∈ log, e.decided - e.reading ≤ δ

instance (δ : Int) (log : List Entry) : Decidable (Within δ log) := by unfold Within; infer_instance

/-- Number of admitted calls that satisfy `p`. -/
def passed (log : List Entry) (p : Entry → Bool) : Nat := log.countP (fun e => e.result && p e)

/-- What the two steps guarantee about clock and log. -/
structure Timely {σ : Type} (c0 : Int) (s : Sys σ) : Prop where
  hstart : c0 ≤ s.clock
  hwait  : ∀ t ∈ s.waiting, c0 ≤ t ∧ t ≤ s.clock
  hlog   : ∀ e ∈ s.log, c0 ≤ e.reading ∧ e.reading ≤ e.decided ∧ e.decided ≤ s.clock
  hsort  : s.log.Pairwise (fun a b => a.decided ≤ b.decided)

theorem timely_start {σ : Type} (l : σ) (c0 : Int) : Timely c0 (start l c0) :=
  ⟨Int.le_refl _, by simp [start], by simp [start], by simp [start]⟩

theorem timely_step {σ : Type} {acq : σ → Int → Option (σ × Bool)} {c0 : Int} {s s' : Sys σ} {a : Action}
    (h : Timely c0 s) (hs : step acq s a = some s') : Timely c0 s' := by
  obtain ⟨h1, h2, h3, h4⟩ := h
  cases a with
  | tick d =>
    simp only [step, Option.some.injEq] at hs
    subst hs
    refine ⟨by simp only; omega, fun t ht => ?_, fun e he => ?_, h4⟩
    · have := h2 t ht; simp only; omega
    · have := h3 e he; simp only; omega
  | read =>
    simp only [step, Option.some.injEq] at hs
    subst hs
    refine ⟨h1, fun t ht => ?_, h3, h4⟩
    simp only [List.mem_append, List.mem_singleton] at ht
    rcases ht with ht | rfl
    · exact h2 t ht
    · exact ⟨h1, Int.le_refl _⟩
  | enter i =>
    simp only [step] at hs
    split at hs
    · simp at hs
    · rename_i t ht
      split at hs
      · simp at hs
      · simp only [Option.some.injEq] at hs
        subst hs
        have hm := h2 t (List.mem_of_getElem? ht)
        refine ⟨h1, fun u hu => h2 u (List.mem_of_mem_eraseIdx hu), fun e he => ?_, ?_⟩
        · simp only [List.mem_append, List.mem_singleton] at he
          rcases he with he | rfl
          · exact h3 e he
          · exact ⟨hm.1, hm.2, Int.le_refl _⟩
        · refine List.pairwise_append.2 ⟨h4, by simp, fun a ha b hb => ?_⟩
          simp only [List.mem_singleton] at hb
          subst hb
          exact (h3 a ha).2.2

theorem timely_exec {σ : Type} {acq : σ → Int → Option (σ × Bool)} {c0 : Int} {l : σ} {as : List Action} {s : Sys σ}
    (h : exec (step acq) (start l c0) as = some s) : Timely c0 s :=
  exec_inv (fun _ _ _ hi hs => timely_step hi hs) as _ _ (timely_start l c0) h

end Gears.Calls
