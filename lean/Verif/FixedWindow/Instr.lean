import Verif.Common.Atomic
import Verif.FixedWindow.Model

/-
The methods of SyncFixedWindow (/repo/ratelimiter/fixedwindow.go:66-104) instruction by instruction: every access to a field is
a step of its own, and goroutines may be preempted between any two.  `Capacity` and `WindowSize` take no lock; the fields they
read are never assigned after construction.
-/

namespace Gears.FixedWindow

open Atomic (Prog Mem Mode Event Action Sys Guarded TwoPhase Refines Linear)

/-- The fields (fixedwindow.go:57-64). -/
inductive Field where
  | capacity | windowSize | till | count
deriving DecidableEq, Repr

/-- The fields that are never assigned. -/
def Field.const : Field → Bool
  | .capacity => true
  | .windowSize => true
  | _ => false

/-- The calls. -/
inductive Call where
  | acquire
  | capacity
  | windowSize
deriving DecidableEq, Repr

inductive Ret where
  | bool (b : Bool)
  | int (v : Int)
deriving DecidableEq, Repr

abbrev P := Prog Field (fun _ => Int) Ret

/-- `defer s.lock.Unlock()` and the return. -/
def done (r : Ret) : P := .rel 0 .W (.ret r)

/-- The end of `Acquire` (fixedwindow.go:76-80). -/
def grant : P :=
  .load .count fun n => .load .capacity fun c =>                              -- 76
  if n < c then .load .count fun n => .store .count (n + 1) <| done (.bool true)   -- 77
  else done (.bool false)

/-- The bodies (fixedwindow.go:66-90), with `contains` and `reset` (93-104) in place. -/
def body : Call → P
  | .acquire =>
    .now fun now =>                                                           -- 67
    .acq 0 .W <|                                                              -- 69
    .load .till fun u =>                                                      -- 72, 94
    if ¬ u ≥ now then
      .load .till fun u =>                                                    -- 99, 94
      if u ≥ now then grant
      else
        .load .till fun u => .load .till fun u' => .load .windowSize fun w => .load .windowSize fun w' =>
        .store .till (u + goCeilDiv (now - u') w * w') <|                     -- 102
        .store .count 0 grant                                                 -- 103
    else grant
  | .capacity => .load .capacity fun c => .ret (.int c)                       -- 84-86
  | .windowSize => .load .windowSize fun w => .ret (.int w)                   -- 88-90

@[reducible] def memOf (s : State) : Mem (fun _ : Field => Int)
  | .capacity => s.capacity
  | .windowSize => s.windowSize
  | .till => s.till
  | .count => s.count

/-- The model of Model.lean, as a reference. -/
def ref : Call → List Int → State → Option (State × Ret)
  | .acquire, [t], s => some ((acquire s t).1, .bool (acquire s t).2)
  | .capacity, [], s => some (s, .int (capacityOf s))
  | .windowSize, [], s => some (s, .int (windowSizeOf s))
  | _, _, _ => none

theorem guarded_grant {H : Nat → Option Mode} (hW : H 0 = some .W) (hl : ∀ l, l ≠ 0 → H l = none) :
    Guarded (fun _ => 0) Field.const H grant := by
  have hn : H 0 ≠ none := by simp [hW]
  have hd : ∀ r, Guarded (ν := fun _ : Field => Int) (fun _ => 0) Field.const H (done r) := fun r => ⟨hW, fun l => by
    by_cases h : l = 0
    · subst h; simp [Atomic.upd]
    · simp [Atomic.upd, h, hl l h]⟩
  refine ⟨.inr hn, fun n => ⟨.inl rfl, fun c => ?_⟩⟩
  beta_reduce; split
  · exact ⟨.inr hn, fun n => ⟨rfl, hW, hd _⟩⟩
  · exact hd _

theorem guarded (c : Call) : Guarded (fun _ => 0) Field.const (fun _ => none) (body c) := by
  have hW : Atomic.upd (fun _ => none) 0 (some Mode.W) 0 = some Mode.W := rfl
  have hn : Atomic.upd (fun _ => none) 0 (some Mode.W) 0 ≠ none := by simp [hW]
  have ha := guarded_grant hW (fun l hl => by simp [Atomic.upd, hl])
  cases c with
  | acquire =>
    refine fun now => ⟨rfl, .inr hn, fun u => ?_⟩
    beta_reduce; split
    · refine ⟨.inr hn, fun u => ?_⟩
      beta_reduce; split
      · exact ha
      · exact ⟨.inr hn, fun _ => ⟨.inr hn, fun _ => ⟨.inl rfl, fun _ => ⟨.inl rfl, fun _ => ⟨rfl, hW, rfl, hW, ha⟩⟩⟩⟩⟩
    · exact ha
  | capacity => exact ⟨.inl rfl, fun c => fun _ => rfl⟩
  | windowSize => exact ⟨.inl rfl, fun c => fun _ => rfl⟩

theorem twoPhase_grant : TwoPhase false grant := by
  refine ⟨rfl, fun n => ⟨rfl, fun c => ?_⟩⟩
  beta_reduce; split
  · exact ⟨rfl, fun n => ⟨rfl, trivial⟩⟩
  · exact trivial

theorem twoPhase (c : Call) : TwoPhase false (body c) := by
  cases c with
  | acquire =>
    refine ⟨rfl, fun now => ⟨rfl, rfl, fun u => ?_⟩⟩
    beta_reduce; split
    · refine ⟨rfl, fun u => ?_⟩
      beta_reduce; split
      · exact twoPhase_grant
      · exact ⟨rfl, fun _ => ⟨rfl, fun _ => ⟨rfl, fun _ => ⟨rfl, fun _ => ⟨rfl, rfl, twoPhase_grant⟩⟩⟩⟩⟩
    · exact twoPhase_grant
  | capacity => exact ⟨rfl, fun c => trivial⟩
  | windowSize => exact ⟨rfl, fun c => trivial⟩

theorem put_count (s : State) (n : Int) : Atomic.put (memOf s) .count n = memOf { s with count := n } := by
  funext x; cases x <;> simp [Atomic.put, memOf]

theorem put_till (s : State) (u : Int) : Atomic.put (memOf s) .till u = memOf { s with till := u } := by
  funext x; cases x <;> simp [Atomic.put, memOf]

theorem seq_grant (rs : List Int) (s : State) : Atomic.seq grant rs (memOf s) =
    if rs = [] then (if s.count < s.capacity then some (memOf { s with count := s.count + 1 }, .bool true) else some (memOf s, .bool false))
    else none := by
  simp only [grant, Atomic.seq]
  by_cases h : memOf s .count < memOf s .capacity
  · rw [if_pos h]
    have h' : s.count < s.capacity := h
    simp [done, Atomic.seq, put_count, h']
  · rw [if_neg h]
    have h' : ¬ s.count < s.capacity := h
    simp [done, Atomic.seq, h']

theorem refines : Refines body ref memOf := by
  intro call rs s
  cases call with
  | acquire =>
    cases rs with
    | nil => rfl
    | cons t rs =>
      have hseq : Atomic.seq (body .acquire) (t :: rs) (memOf s) =
          Atomic.seq grant rs (memOf (if ¬ contains s t then reset s t else s)) := by
        simp only [body, Atomic.seq]
        by_cases h : memOf s .till ≥ t
        · rw [if_neg (by simpa using h)]
          have h' : contains s t := h
          rw [if_neg (by simpa using h')]
        · have h' : ¬ contains s t := h
          rw [if_pos h, if_pos h']
          simp only [Atomic.seq]
          rw [if_neg h]
          simp only [Atomic.seq, put_till, put_count]
          simp only [reset, if_neg h']
      rw [hseq, seq_grant]
      cases rs with
      | cons t' rs => simp [ref]
      | nil =>
        simp only [if_true, ref, acquire, Option.map_some]
        generalize (if ¬ contains s t then reset s t else s) = s1
        split <;> rfl
  | capacity => cases rs <;> simp [body, Atomic.seq, ref, capacityOf]
  | windowSize => cases rs <;> simp [body, Atomic.seq, ref, windowSizeOf]

/-- **C139.**  The fixed window at the level of instructions: any number of goroutines, any schedule. -/
theorem C139_fixed (s0 : State) (c0 : Int) (as : List (Action Call)) (s : Sys Field (fun _ => Int) Ret Call)
    (h : exec (Atomic.step body) (Atomic.start (memOf s0) c0) as = some s) : Linear ref memOf s0 s :=
  Atomic.linear guarded twoPhase refines s0 c0 as s h

/-- Non-vacuity: two goroutines and room for one; the second reads the clock first and gets the lock last. -/
example : ∃ s, exec (Atomic.step body) (Atomic.start (memOf ⟨1, 10, 10, 0⟩) 5)
      [.call 0 .acquire, .call 1 .acquire, .step 1, .tick 3, .step 0, .step 0, .step 0, .step 0, .step 0, .step 0, .step 0, .step 0, .step 0,
       .step 1, .step 1, .step 1, .step 1, .step 1, .step 1] = some s ∧
    s.hist = [.inv 0 .acquire 5, .inv 1 .acquire 5, .eff 0 .acquire [8] 8, .res 0 (.bool true) 8, .eff 1 .acquire [5] 8,
      .res 1 (.bool false) 8] := ⟨_, rfl, rfl⟩

end Gears.FixedWindow
