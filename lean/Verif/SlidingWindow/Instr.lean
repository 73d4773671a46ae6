import Verif.Common.Atomic
import Verif.SlidingWindow.Lemmas

/-
The methods of SyncSlidingWindow (/repo/ratelimiter/slidingwindow.go:62-117) instruction by instruction: every access to a
field is a step of its own, and goroutines may be preempted between any two.

Simplifications: a method of `container/list` is one access to the list; the loop of `UpdateConfig` is unfolded as often as the
list had elements when it was first looked at (the lock is held, so it cannot run longer).
-/

namespace Gears.SlidingWindow

open Atomic (Prog Mem Mode Event Action Sys Guarded TwoPhase Refines Linear)

/-- The fields (slidingwindow.go:54-60). -/
inductive Field where
  | capacity | windowSize | records
deriving DecidableEq, Repr

abbrev Field.type : Field → Type
  | .capacity => Int
  | .windowSize => Int
  | .records => List Int

/-- The calls. -/
inductive Call where
  | acquire
  | capacity
  | windowSize
  | updateConfig (capacity windowSize : Int)
deriving DecidableEq, Repr

inductive Ret where
  | bool (b : Bool)
  | int (v : Int)
  | unit
  | panic
deriving DecidableEq, Repr

abbrev P := Prog Field Field.type Ret

/-- `defer s.lock.Unlock()` and the return. -/
def done (r : Ret) : P := .rel 0 .W (.ret r)

/-- The loop of `UpdateConfig` (slidingwindow.go:109-112), at most `n` times. -/
def trim (c : Int) (k : P) : Nat → P
  | 0 => k
  | n + 1 =>
    .load .records fun l =>                                                   -- 109
    if l.length > 0 ∧ (l.length : Int) > c then
      .load .records fun l' => .store .records l'.tail (trim c k n)           -- 111
    else k

/-- The bodies (slidingwindow.go:62-117). -/
def body : Call → P
  | .acquire =>
    .now fun now =>                                                           -- 63
    .acq 0 .W <|                                                              -- 65
    .load .capacity fun c =>                                                  -- 68
    if c = 0 then done (.bool true) else
    .load .records fun l => .load .capacity fun c =>                          -- 72
    if (l.length : Int) < c then
      .load .records fun l => .store .records (l ++ [now]) <|                 -- 74
      done (.bool true)
    else
      .load .records fun l =>                                                 -- 78
      match l with
      | [] => done .panic                                                     -- 79
      | oldest :: _ =>
        .load .windowSize fun w =>                                            -- 80
        if now - oldest > w then
          .load .records fun l => .store .records l.tail <|                   -- 82
          .load .records fun l => .store .records (l ++ [now]) <|             -- 83
          done (.bool true)
        else done (.bool false)
  | .capacity => .acq 0 .R <| .load .capacity fun c => .rel 0 .R <| .ret (.int c)       -- 89-93
  | .windowSize => .acq 0 .R <| .load .windowSize fun w => .rel 0 .R <| .ret (.int w)   -- 95-99
  | .updateConfig c w =>                                                      -- 101-117
    .acq 0 .W <|
    .load .records fun l =>
    let c := if c < 0 then 0 else c
    trim c (.store .capacity c <| .store .windowSize w <| done .unit) l.length

@[reducible] def memOf (s : State) : Mem Field.type
  | .capacity => s.capacity
  | .windowSize => s.windowSize
  | .records => s.records

/-- The model of Model.lean, as a reference. -/
def ref : Call → List Int → State → Option (State × Ret)
  | .acquire, [t], s =>
    match acquire s t with
    | some (s', b) => some (s', .bool b)
    | none => some (s, .panic)
  | .capacity, [], s => some (s, .int (capacityOf s))
  | .windowSize, [], s => some (s, .int (windowSizeOf s))
  | .updateConfig c w, [], s => some (updateConfig s c w, .unit)
  | _, _, _ => none

theorem guarded_trim {H : Nat → Option Mode} {c : Int} {k : P} (hH : H 0 = some .W) (hk : Guarded (fun _ => 0) (fun _ => false) H k) :
    ∀ n, Guarded (fun _ => 0) (fun _ => false) H (trim c k n)
  | 0 => hk
  | n + 1 => by
    refine ⟨.inr (by simp [hH]), fun l => ?_⟩
    beta_reduce
    by_cases h : l.length > 0 ∧ (l.length : Int) > c
    · rw [if_pos h]
      exact ⟨.inr (by simp [hH]), fun l' => ⟨rfl, hH, guarded_trim hH hk n⟩⟩
    · rw [if_neg h]; exact hk

theorem guarded_done {H : Nat → Option Mode} (h0 : H 0 = some .W) (h1 : ∀ l, l ≠ 0 → H l = none) (r : Ret) :
    Guarded (ν := Field.type) (fun _ => 0) (fun _ => false) H (done r) :=
  ⟨h0, fun l => by
    by_cases h : l = 0
    · subst h; simp [Atomic.upd]
    · simp [Atomic.upd, h, h1 l h]⟩

theorem guarded (c : Call) : Guarded (fun _ => 0) (fun _ => false) (fun _ => none) (body c) := by
  have hW : Atomic.upd (fun _ => none) 0 (some Mode.W) 0 = some Mode.W := rfl
  have hn : Atomic.upd (fun _ => none) 0 (some Mode.W) 0 ≠ none := by simp [hW]
  have hd : ∀ r, Guarded (ν := Field.type) (fun _ => 0) (fun _ => false) (Atomic.upd (fun _ => none) 0 (some Mode.W)) (done r) :=
    fun r => guarded_done hW (fun l hl => by simp [Atomic.upd, hl]) r
  cases c with
  | acquire =>
    refine fun now => ⟨rfl, .inr hn, fun c => ?_⟩
    beta_reduce; split
    · exact hd _
    refine ⟨.inr hn, fun l => ⟨.inr hn, fun c => ?_⟩⟩
    beta_reduce; split
    · exact ⟨.inr hn, fun l => ⟨rfl, hW, hd _⟩⟩
    refine ⟨.inr hn, fun l => ?_⟩
    cases l with
    | nil => exact hd _
    | cons o l =>
      refine ⟨.inr hn, fun w => ?_⟩
      beta_reduce; split
      · exact ⟨.inr hn, fun l => ⟨rfl, hW, .inr hn, fun l => ⟨rfl, hW, hd _⟩⟩⟩
      · exact hd _
  | capacity =>
    refine ⟨rfl, .inr (by simp [Atomic.upd]), fun c => ⟨rfl, fun l => ?_⟩⟩
    simp only [Atomic.upd]; split <;> rfl
  | windowSize =>
    refine ⟨rfl, .inr (by simp [Atomic.upd]), fun c => ⟨rfl, fun l => ?_⟩⟩
    simp only [Atomic.upd]; split <;> rfl
  | updateConfig c w => refine ⟨rfl, .inr hn, fun l => guarded_trim hW ?_ _⟩; exact ⟨rfl, hW, rfl, hW, hd _⟩

theorem twoPhase_trim {c : Int} {k : P} (hk : TwoPhase false k) : ∀ n, TwoPhase false (trim c k n)
  | 0 => hk
  | n + 1 => by
    refine ⟨rfl, fun l => ?_⟩
    beta_reduce; split
    · exact ⟨rfl, fun l' => ⟨rfl, twoPhase_trim hk n⟩⟩
    · exact hk

theorem twoPhase (c : Call) : TwoPhase false (body c) := by
  cases c with
  | acquire =>
    refine ⟨rfl, fun now => ⟨rfl, rfl, fun c => ?_⟩⟩
    beta_reduce; split
    · exact trivial
    refine ⟨rfl, fun l => ⟨rfl, fun c => ?_⟩⟩
    beta_reduce; split
    · exact ⟨rfl, fun l => ⟨rfl, trivial⟩⟩
    refine ⟨rfl, fun l => ?_⟩
    cases l with
    | nil => exact trivial
    | cons o l =>
      refine ⟨rfl, fun w => ?_⟩
      beta_reduce; split
      · exact ⟨rfl, fun l => ⟨rfl, rfl, fun l => ⟨rfl, trivial⟩⟩⟩
      · exact trivial
  | capacity => exact ⟨rfl, rfl, fun c => trivial⟩
  | windowSize => exact ⟨rfl, rfl, fun c => trivial⟩
  | updateConfig c w => refine ⟨rfl, rfl, fun l => twoPhase_trim ?_ _⟩; exact ⟨rfl, rfl, trivial⟩

theorem put_records (s : State) (l : List Int) : Atomic.put (memOf s) .records l = memOf { s with records := l } := by
  funext x; cases x <;> simp [Atomic.put, memOf]

theorem put_capacity (s : State) (c : Int) : Atomic.put (memOf s) .capacity c = memOf { s with capacity := c } := by
  funext x; cases x <;> simp [Atomic.put, memOf]

theorem put_windowSize (s : State) (w : Int) : Atomic.put (memOf s) .windowSize w = memOf { s with windowSize := w } := by
  funext x; cases x <;> simp [Atomic.put, memOf]

theorem seq_trim (c : Int) (k : P) (rs : List Int) : ∀ (n : Nat) (s : State), s.records.length ≤ n →
    Atomic.seq (trim c k n) rs (memOf s) = Atomic.seq k rs (memOf { s with records := shrink c s.records })
  | 0, s, h => by
    have : s.records = [] := by rw [← List.length_eq_zero_iff]; omega
    simp only [trim, this, shrink]
    rw [← this]
  | n + 1, s, h => by
    obtain ⟨cap, win, l⟩ := s
    simp only [trim, Atomic.seq, memOf]
    cases l with
    | nil =>
      simp only [List.length_nil, Nat.lt_irrefl, gt_iff_lt, false_and, if_false, shrink]
    | cons r l =>
      by_cases hc : ((r :: l).length : Int) > c
      · rw [if_pos ⟨by simp, hc⟩]
        simp only [Atomic.seq, memOf, List.tail_cons]
        rw [put_records, seq_trim c k rs n _ (by simp at h ⊢; omega)]
        simp only [shrink, if_pos hc]
      · rw [if_neg (by simp only [not_and]; exact fun _ => hc)]
        simp only [shrink, if_neg hc]

theorem refines : Refines body ref memOf := by
  intro call rs s
  cases call with
  | acquire =>
    cases rs with
    | nil => rfl
    | cons t rs =>
      simp only [body, Atomic.seq, memOf]
      by_cases hrs : rs = []
      · subst hrs
        simp only [ref, acquire]
        by_cases hc : s.capacity = 0
        · simp [hc, done, Atomic.seq]
        rw [if_neg hc, if_neg hc]
        simp only [Atomic.seq, memOf]
        by_cases hl : (s.records.length : Int) < s.capacity
        · rw [if_pos hl, if_pos hl]
          simp [done, Atomic.seq, memOf, put_records]
        rw [if_neg hl, if_neg hl]
        simp only [Atomic.seq, memOf]
        obtain ⟨cap, win, l⟩ := s
        cases l with
        | nil => simp [done, Atomic.seq]
        | cons o l =>
          simp only [Atomic.seq, memOf]
          by_cases hw : t - o > win
          · rw [if_pos hw, if_pos hw]
            simp [done, Atomic.seq, put_records, memOf]
          · rw [if_neg hw, if_neg hw]
            simp [done, Atomic.seq]
      · have hn : ref .acquire (t :: rs) s = none := by
          cases rs with
          | nil => exact absurd rfl hrs
          | cons t' rs => rfl
        rw [hn]
        simp only [Option.map_none]
        split
        · simp [done, Atomic.seq, hrs]
        simp only [Atomic.seq, memOf]
        split
        · simp [done, Atomic.seq, hrs]
        simp only [Atomic.seq, memOf]
        split
        · simp [done, Atomic.seq, hrs]
        simp only [Atomic.seq, memOf]
        split <;> simp [done, Atomic.seq, hrs]
  | capacity =>
    cases rs <;> simp [body, Atomic.seq, ref, memOf, capacityOf]
  | windowSize =>
    cases rs <;> simp [body, Atomic.seq, ref, memOf, windowSizeOf]
  | updateConfig c w =>
    simp only [body, Atomic.seq, memOf]
    rw [seq_trim _ _ _ _ _ (Nat.le_refl _)]
    simp only [Atomic.seq, put_capacity, put_windowSize, done]
    cases rs <;> simp [ref, updateConfig]

/-- **C139.**  The sliding window at the level of instructions: any number of goroutines, any schedule. -/
theorem C139_sliding (s0 : State) (c0 : Int) (as : List (Action Call)) (s : Sys Field Field.type Ret Call)
    (h : exec (Atomic.step body) (Atomic.start (memOf s0) c0) as = some s) : Linear ref memOf s0 s :=
  Atomic.linear guarded twoPhase refines s0 c0 as s h

/-- What passed: number and reading of the calls of `Acquire` that got true. -/
def passes : List (Nat × Call × List Int) → List (Nat × Ret) → List (Nat × Int)
  | (n, .acquire, [t]) :: L, (_, .bool true) :: R => (n, t) :: passes L R
  | _ :: L, _ :: R => passes L R
  | _, _ => []

theorem passes_inv {n : Nat} (hn : 0 < n) {W : Int} : ∀ (L : List (Nat × Call × List Int)) (A : List Int) (s st : State) (R : List (Nat × Ret)),
    Inv n W A s → (∀ x ∈ L, ∀ c w, x.2.1 ≠ .updateConfig c w) → Atomic.refAll ref s L = some (st, R) →
    Inv n W (A ++ (passes L R).map (·.2)) st
  | [], A, s, st, R, hi, _, h => by
    simp only [Atomic.refAll, Option.some.injEq, Prod.mk.injEq] at h
    obtain ⟨rfl, rfl⟩ := h
    simpa [passes] using hi
  | (k, c, rs) :: L, A, s, st, R, hi, hno, h => by
    simp only [Atomic.refAll] at h
    split at h
    · simp at h
    rename_i s1 r h1
    split at h
    · simp at h
    rename_i s2 R2 h2
    simp only [Option.some.injEq, Prod.mk.injEq] at h
    obtain ⟨rfl, rfl⟩ := h
    have hno' : ∀ x ∈ L, ∀ c w, x.2.1 ≠ .updateConfig c w := fun x hx => hno x (by simp [hx])
    unfold ref at h1
    split at h1
    · rename_i t
      obtain ⟨s', b, he, hi'⟩ := acquire_inv hn hi t
      rw [he] at h1
      simp only [Option.some.injEq, Prod.mk.injEq] at h1
      obtain ⟨rfl, rfl⟩ := h1
      have := passes_inv hn L _ _ _ _ hi' hno' h2
      cases b
      · simpa [passes] using this
      · simpa [passes] using this
    · simp only [Option.some.injEq, Prod.mk.injEq] at h1
      obtain ⟨rfl, rfl⟩ := h1
      simpa [passes] using passes_inv hn L _ _ _ _ hi hno' h2
    · simp only [Option.some.injEq, Prod.mk.injEq] at h1
      obtain ⟨rfl, rfl⟩ := h1
      simpa [passes] using passes_inv hn L _ _ _ _ hi hno' h2
    · rename_i c w
      exact absurd rfl (hno (k, Call.updateConfig c w, []) (by simp) c w)
    · simp at h1

theorem mem_passes {n : Nat} {t : Int} : ∀ (L : List (Nat × Call × List Int)) (R : List (Nat × Ret)), R.map (·.1) = L.map (·.1) →
    (L.map (·.1)).Nodup → (n, Call.acquire, [t]) ∈ L → (n, Ret.bool true) ∈ R → (n, t) ∈ passes L R
  | [], R, _, _, hm, _ => by simp at hm
  | (k, c, rs) :: L, [], h, _, _, hr => by simp at hr
  | (k, c, rs) :: L, (k', r) :: R, h, hnd, hm, hr => by
    simp only [List.map_cons, List.cons.injEq] at h
    obtain ⟨rfl, h⟩ := h
    rw [List.map_cons, List.nodup_cons] at hnd
    rw [List.mem_cons] at hm hr
    have sub : (n, t) ∈ passes L R → (n, t) ∈ passes ((k', c, rs) :: L) ((k', r) :: R) := by
      intro hh
      unfold passes
      split
      · rename_i h1 h2
        simp only [List.cons.injEq, Prod.mk.injEq] at h1 h2
        obtain ⟨⟨rfl, rfl, rfl⟩, rfl⟩ := h1
        obtain ⟨-, rfl⟩ := h2
        simp [hh]
      · rename_i h1 h2
        simp only [List.cons.injEq] at h1 h2
        rw [← h1.2, ← h2.2]; exact hh
      · rename_i hc; exact (hc _ _ _ _ rfl rfl).elim
    rcases hm with hm | hm
    · simp only [Prod.mk.injEq] at hm
      obtain ⟨rfl, rfl, rfl⟩ := hm
      rcases hr with hr | hr
      · simp only [Prod.mk.injEq, true_and] at hr
        subst hr
        simp [passes]
      · exact absurd (by rw [← h]; exact List.mem_map_of_mem hr) hnd.1
    · rcases hr with hr | hr
      · simp only [Prod.mk.injEq] at hr
        obtain ⟨rfl, rfl⟩ := hr
        exact absurd (List.mem_map_of_mem (f := (·.1)) hm) hnd.1
      · exact sub (mem_passes L R h hnd.2 hm hr)

/-- **C139.**  The bound of C08 for goroutines preempted anywhere: of the calls of `Acquire` whose clock readings lie in one
interval of length `W`, at most `c` return true. -/
theorem C139_sliding_bound (c W c0 : Int) (hc : 0 < c) (as : List (Action Call)) (s : Sys Field Field.type Ret Call)
    (h : exec (Atomic.step body) (Atomic.start (memOf (new c W)) c0) as = some s)
    (hno : ∀ n c' w t, Event.inv n (.updateConfig c' w) t ∉ s.hist) (lo : Int) (D : List Nat) (hD : D.Nodup)
    (hDp : ∀ n ∈ D, ∃ x t t', Event.eff n .acquire [x] t ∈ s.hist ∧ Event.res n (.bool true) t' ∈ s.hist ∧ lo ≤ x ∧ x ≤ lo + W) :
    (D.length : Int) ≤ c := by
  obtain ⟨k, rfl⟩ := Int.eq_ofNat_of_zero_le (Int.le_of_lt hc)
  have hk : 0 < k := by omega
  obtain ⟨-, hord, st, R, hall, hret, -⟩ := C139_sliding _ _ _ _ h
  have hup : ∀ x ∈ Atomic.effects s.hist, ∀ c w, x.2.1 ≠ .updateConfig c w := by
    rintro ⟨n, c, rs⟩ hx c' w rfl
    obtain ⟨t, ht⟩ := Atomic.effects_mem hx
    obtain ⟨pre, post, hp⟩ := List.append_of_mem ht
    obtain ⟨⟨t0, h0, -⟩, -⟩ := (hord pre _ post hp).1
    exact hno n c' w t0 (by rw [hp]; simp [h0])
  have inv := passes_inv hk _ [] _ _ _ (new_inv W) hup hall
  rw [List.nil_append] at inv
  have hcount := inv.hsp.count_le hk lo
  rw [List.countP_map] at hcount
  have hsub : ∀ n ∈ D, n ∈ ((passes (Atomic.effects s.hist) R).filter (fun x => decide (lo ≤ x.2) && decide (x.2 ≤ lo + W))).map (·.1) := by
    intro n hn
    obtain ⟨x, t, t', h1, h2, h3, h4⟩ := hDp n hn
    have := mem_passes _ R (Atomic.refAll_ids _ hall) hord.nodup (Atomic.mem_effects h1) (hret _ _ _ h2)
    rw [List.mem_map]
    exact ⟨(n, x), by rw [List.mem_filter]; exact ⟨this, by simp [h3, h4]⟩, rfl⟩
  have hlen := hD.length_le_of_subset hsub
  rw [List.length_map, ← List.countP_eq_length_filter] at hlen
  have : (passes (Atomic.effects s.hist) R).countP ((fun a => decide (lo ≤ a) && decide (a ≤ lo + W)) ∘ fun x => x.2) =
    (passes (Atomic.effects s.hist) R).countP (fun x => decide (lo ≤ x.2) && decide (x.2 ≤ lo + W)) := rfl
  omega

/-- Non-vacuity: two goroutines, the second preempted between its clock reading and the lock; both are admitted. -/
example : ∃ s, exec (Atomic.step body) (Atomic.start (memOf (new 2 10)) 5)
      [.call 0 .acquire, .call 1 .acquire, .step 1, .tick 3, .step 0, .step 0, .step 0, .step 0, .step 0, .step 0, .step 0, .step 0,
       .step 1, .step 1, .step 1, .step 1, .step 1, .step 1, .step 1, .step 0, .step 1] = some s ∧
    s.hist = [.inv 0 .acquire 5, .inv 1 .acquire 5, .eff 0 .acquire [8] 8, .eff 1 .acquire [5] 8, .res 0 (.bool true) 8,
      .res 1 (.bool true) 8] := ⟨_, rfl, rfl⟩

end Gears.SlidingWindow
