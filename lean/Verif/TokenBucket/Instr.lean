import Verif.Common.Atomic
import Verif.TokenBucket.Model

/-
The methods of SyncTokenBucket (/repo/ratelimiter/tokenbucket.go:67-104) instruction by instruction: every access to a field is
a step of its own, and goroutines may be preempted between any two.  `Capacity` takes no lock; the field it reads is never
assigned after construction.  The clock is read under the lock, and only if the bucket is not full.
-/

namespace Gears.TokenBucket

open Atomic (Prog Mem Mode Event Action Sys Guarded TwoPhase Refines Linear)

/-- The fields (tokenbucket.go:58-65). -/
inductive Field where
  | capacity | tokens | rate | last
deriving DecidableEq, Repr

/-- The fields that are never assigned. -/
def Field.const : Field → Bool
  | .capacity => true
  | .rate => true
  | _ => false

/-- The calls. -/
inductive Call where
  | acquire
  | capacity
deriving DecidableEq, Repr

inductive Ret where
  | bool (b : Bool)
  | int (v : Int)
deriving DecidableEq, Repr

abbrev P := Prog Field (fun _ => Int) Ret

/-- `defer t.lock.Unlock()` and the return. -/
def done (r : Ret) : P := .rel 0 .W (.ret r)

/-- The end of `Acquire` (tokenbucket.go:77-81). -/
def take : P :=
  .load .tokens fun n =>                                                      -- 77
  if n > 0 then .load .tokens fun n => .store .tokens (n - 1) <| done (.bool true)   -- 78
  else done (.bool false)

/-- The bodies (tokenbucket.go:67-83), with `issueIfNecessary` (85-104) in place. -/
def body : Call → P
  | .acquire =>
    .acq 0 .W <|                                                              -- 72
    .load .tokens fun n => .load .capacity fun c =>                           -- 86
    if n ≥ c then take else
    .now fun now =>                                                           -- 89
    .load .last fun l => .load .rate fun r =>                                 -- 91, 92
    let delta := Int.tdiv (now - l) second * r
    if delta = 0 then take else                                               -- 94
    .load .tokens fun n => .store .tokens (n + delta) <|                      -- 98
    .load .tokens fun n => .load .capacity fun c =>                           -- 99
    if n > c then .load .capacity fun c => .store .tokens c <| .store .last now take   -- 100, 103
    else .store .last now take                                                -- 103
  | .capacity => .load .capacity fun c => .ret (.int c)                       -- 67-69

@[reducible] def memOf (s : State) : Mem (fun _ : Field => Int)
  | .capacity => s.capacity
  | .tokens => s.tokens
  | .rate => s.rate
  | .last => s.last

/-- The model of Model.lean, as a reference: the clock is read if the bucket is not full. -/
def ref : Call → List Int → State → Option (State × Ret)
  | .acquire, rs, s =>
    if s.tokens ≥ s.capacity then (if rs = [] then some ((acquire s s.last).1, .bool (acquire s s.last).2) else none)
    else
      match rs with
      | [t] => some ((acquire s t).1, .bool (acquire s t).2)
      | _ => none
  | .capacity, rs, s => if rs = [] then some (s, .int (capacityOf s)) else none

theorem guarded_take {H : Nat → Option Mode} (hW : H 0 = some .W) (hl : ∀ l, l ≠ 0 → H l = none) :
    Guarded (fun _ => 0) Field.const H take := by
  have hn : H 0 ≠ none := by simp [hW]
  have hd : ∀ r, Guarded (ν := fun _ : Field => Int) (fun _ => 0) Field.const H (done r) := fun r => ⟨hW, fun l => by
    by_cases h : l = 0
    · subst h; simp [Atomic.upd]
    · simp [Atomic.upd, h, hl l h]⟩
  refine ⟨.inr hn, fun n => ?_⟩
  dsimp only; split
  · exact ⟨.inr hn, fun n => ⟨rfl, hW, hd _⟩⟩
  · exact hd _

theorem guarded (c : Call) : Guarded (fun _ => 0) Field.const (fun _ => none) (body c) := by
  have hW : Atomic.upd (fun _ => none) 0 (some Mode.W) 0 = some Mode.W := rfl
  have hn : Atomic.upd (fun _ => none) 0 (some Mode.W) 0 ≠ none := by simp [hW]
  have ha := guarded_take hW (fun l hl => by simp [Atomic.upd, hl])
  cases c with
  | acquire =>
    refine ⟨rfl, .inr hn, fun n => ⟨.inl rfl, fun c => ?_⟩⟩
    dsimp only; split
    · exact ha
    refine fun now => ⟨.inr hn, fun l => ⟨.inl rfl, fun r => ?_⟩⟩
    dsimp only; split
    · exact ha
    refine ⟨.inr hn, fun n => ⟨rfl, hW, .inr hn, fun n => ⟨.inl rfl, fun c => ?_⟩⟩⟩
    dsimp only; split
    · exact ⟨.inl rfl, fun c => ⟨rfl, hW, rfl, hW, ha⟩⟩
    · exact ⟨rfl, hW, ha⟩
  | capacity => exact ⟨.inl rfl, fun c => fun _ => rfl⟩

theorem twoPhase_take : TwoPhase false take := by
  refine ⟨rfl, fun n => ?_⟩
  dsimp only; split
  · exact ⟨rfl, fun n => ⟨rfl, trivial⟩⟩
  · exact trivial

theorem twoPhase (c : Call) : TwoPhase false (body c) := by
  cases c with
  | acquire =>
    refine ⟨rfl, rfl, fun n => ⟨rfl, fun c => ?_⟩⟩
    dsimp only; split
    · exact twoPhase_take
    refine ⟨rfl, fun now => ⟨rfl, fun l => ⟨rfl, fun r => ?_⟩⟩⟩
    dsimp only; split
    · exact twoPhase_take
    refine ⟨rfl, fun n => ⟨rfl, rfl, fun n => ⟨rfl, fun c => ?_⟩⟩⟩
    dsimp only; split
    · exact ⟨rfl, fun c => ⟨rfl, rfl, twoPhase_take⟩⟩
    · exact ⟨rfl, twoPhase_take⟩
  | capacity => exact ⟨rfl, fun c => trivial⟩

theorem put_tokens (s : State) (n : Int) : Atomic.put (memOf s) .tokens n = memOf { s with tokens := n } := by
  funext x; cases x <;> simp [Atomic.put, memOf]

theorem put_last (s : State) (t : Int) : Atomic.put (memOf s) .last t = memOf { s with last := t } := by
  funext x; cases x <;> simp [Atomic.put, memOf]

theorem seq_take (rs : List Int) (s : State) : Atomic.seq take rs (memOf s) =
    if rs = [] then (if s.tokens > 0 then some (memOf { s with tokens := s.tokens - 1 }, .bool true) else some (memOf s, .bool false))
    else none := by
  simp only [take, Atomic.seq]
  by_cases h : memOf s .tokens > 0
  · rw [if_pos h]
    have h' : s.tokens > 0 := h
    simp [done, Atomic.seq, put_tokens, h']
  · rw [if_neg h]
    have h' : ¬ s.tokens > 0 := h
    simp [done, Atomic.seq, h']

theorem seq_issue (t : Int) (rs : List Int) (s : State) (hf : ¬ s.tokens ≥ s.capacity) :
    Atomic.seq (body .acquire) (t :: rs) (memOf s) = Atomic.seq take rs (memOf (issueIfNecessary s t)) := by
  simp only [body, Atomic.seq]
  have hf' : ¬ memOf s .tokens ≥ memOf s .capacity := hf
  rw [if_neg hf']
  simp only [Atomic.seq, issueIfNecessary, if_neg hf]
  by_cases hd : Int.tdiv (t - s.last) second * s.rate = 0
  · have hd' : Int.tdiv (t - memOf s .last) second * memOf s .rate = 0 := hd
    rw [if_pos hd', if_pos hd]
  · have hd' : ¬ Int.tdiv (t - memOf s .last) second * memOf s .rate = 0 := hd
    rw [if_neg hd', if_neg hd]
    simp only [Atomic.seq, put_tokens]
    by_cases hc : s.tokens + Int.tdiv (t - s.last) second * s.rate > s.capacity
    · rw [if_pos (show memOf { s with tokens := _ } .tokens > memOf { s with tokens := _ } .capacity from hc), if_pos hc]
      simp only [Atomic.seq, put_tokens, put_last]
    · rw [if_neg (show ¬ memOf { s with tokens := _ } .tokens > memOf { s with tokens := _ } .capacity from hc), if_neg hc]
      simp only [Atomic.seq, put_last]

theorem refines : Refines body ref memOf := by
  intro call rs s
  cases call with
  | acquire =>
    by_cases hf : s.tokens ≥ s.capacity
    · have h1 : Atomic.seq (body .acquire) rs (memOf s) = Atomic.seq take rs (memOf s) := by
        simp only [body, Atomic.seq]
        rw [if_pos (show memOf s .tokens ≥ memOf s .capacity from hf)]
      rw [h1, seq_take]
      simp only [ref, if_pos hf, acquire, issueIfNecessary]
      cases rs with
      | nil => simp only [if_true]; split <;> rfl
      | cons t rs => simp
    · cases rs with
      | nil =>
        simp only [body, Atomic.seq, ref, if_neg hf]
        rfl
      | cons t rs =>
        rw [seq_issue t rs s hf, seq_take]
        simp only [ref, if_neg hf, acquire]
        cases rs with
        | nil => simp only [if_true]; split <;> rfl
        | cons t' rs => simp
  | capacity => cases rs <;> simp [body, Atomic.seq, ref, capacityOf]

/-- **C139.**  The token bucket at the level of instructions: any number of goroutines, any schedule. -/
theorem C139_bucket (s0 : State) (c0 : Int) (as : List (Action Call)) (s : Sys Field (fun _ => Int) Ret Call)
    (h : exec (Atomic.step body) (Atomic.start (memOf s0) c0) as = some s) : Linear ref memOf s0 s :=
  Atomic.linear guarded twoPhase refines s0 c0 as s h

/-- Non-vacuity: two goroutines and one token; the second waits for the lock in the middle of the first. -/
example : ∃ s, exec (Atomic.step body) (Atomic.start (memOf ⟨1, 1, 1, 5⟩) 5)
      [.call 0 .acquire, .call 1 .acquire, .step 0, .step 0, .tick 3, .step 0, .step 0, .step 0, .step 0, .step 0, .step 1, .step 1, .step 1,
       .step 1, .step 0, .step 1, .step 1, .step 1, .step 1, .step 1] = some s ∧
    s.hist = [.inv 0 .acquire 5, .inv 1 .acquire 5, .eff 0 .acquire [] 8, .res 0 (.bool true) 8, .eff 1 .acquire [8] 8,
      .res 1 (.bool false) 8] := ⟨_, rfl, rfl⟩

end Gears.TokenBucket
