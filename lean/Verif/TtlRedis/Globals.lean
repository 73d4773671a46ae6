import Verif.Common.Atomic

/-
The package variables `scriptSha1` and `scriptSha2` (/repo/ratelimiter/ttl_ratelimiter_redis.go:127-130) under concurrent use:
they are assigned by `LoadScript` (259-266) and read by `IsBlockedContext` (168, 173) and `ShouldBlock2Context` (212, 222), with no
lock.  A call is reduced to its accesses to the two variables.  In Go such a race is undefined: a string is two words, which may
be read half old and half new.
-/

namespace Gears.TtlRedis.Globals

open Atomic (Prog Mem Event Action Sys Race)

/-- The variables (ttl_ratelimiter_redis.go:128, 129). -/
inductive Var where
  | sha1 | sha2
deriving DecidableEq, Repr

/-- The calls; `err` is whether the request to redis fails, in which case the variable is read again for the log. -/
inductive Call where
  /-- `LoadScript`, with the digests redis answers -/
  | load (d1 d2 : String)
  | shouldBlock (err : Bool)
  | isBlocked (err : Bool)
deriving DecidableEq, Repr

/-- A request names the script by `h` (nothing for `LoadScript`). -/
abbrev P := Prog Var (fun _ => String) (Option String)

/-- A call of a limiter. -/
def use (x : Var) (err : Bool) : P := .load x fun h => if err then .load x fun _ => .ret (some h) else .ret (some h)

def body : Call → P
  | .load d1 d2 => .store .sha1 d1 <| .store .sha2 d2 <| .ret none      -- 261, 264
  | .shouldBlock err => use .sha1 err                                   -- 212, 222
  | .isBlocked err => use .sha2 err                                     -- 168, 173

/-- The variables as they are before `LoadScript` (127-130), or after it. -/
def fresh : Mem (fun _ : Var => String) := fun _ => ""

def loaded (d1 d2 : String) : Mem (fun _ : Var => String)
  | .sha1 => d1
  | .sha2 => d2

/-- The full claim: whatever the goroutines do, no two of them access a variable at once with one writing. -/
def C139Claim : Prop :=
  ∀ (m0 : Mem (fun _ : Var => String)) (c0 : Int) (as : List (Action Call)) (s : Sys Var (fun _ => String) (Option String) Call),
    exec (Atomic.step body) (Atomic.start m0 c0) as = some s → ¬ Race s

/-- **C139, violated.**  `LoadScript` after a reconnection, while a limiter is in use. -/
theorem C139_scripts_violated : ¬ C139Claim := by
  intro h
  refine h (loaded "a" "b") 0 [.call 0 (.load "a" "b"), .call 1 (.shouldBlock false)] _ rfl ?_
  exact ⟨0, 1, _, _, .sha1, true, false, by decide, rfl, rfl, rfl, rfl, .inl rfl⟩

/-- The variable a call of a limiter reads. -/
def Reads (c : Call) (x : Var) : Prop := ∃ err, (c = .shouldBlock err ∧ x = .sha1) ∨ (c = .isBlocked err ∧ x = .sha2)

/-- What may be left of a call of a limiter. -/
inductive Left (m : Mem (fun _ : Var => String)) (c : Call) : P → Prop where
  | first (x : Var) (err : Bool) (h : Reads c x) : Left m c (use x err)
  | again (x : Var) (h : Reads c x) : Left m c (.load x fun _ => .ret (some (m x)))
  | done (x : Var) (h : Reads c x) : Left m c (.ret (some (m x)))

structure Inv (m0 : Mem (fun _ : Var => String)) (s : Sys Var (fun _ => String) (Option String) Call) : Prop where
  mem : s.mem = m0
  thr : ∀ i a, s.thr i = some a → Left m0 a.call a.prog ∧ ∃ t, Event.inv a.id a.call t ∈ s.hist
  res : ∀ n r t, Event.res n r t ∈ s.hist → ∃ c t0 x, Event.inv n c t0 ∈ s.hist ∧ Reads c x ∧ r = some (m0 x)

/-- Nobody calls `LoadScript`. -/
def Quiet : Action Call → Prop
  | .call _ (.load _ _) => False
  | _ => True

theorem inv_step {m0 : Mem (fun _ : Var => String)} {s s' : Sys Var (fun _ => String) (Option String) Call} {a : Action Call}
    (hq : Quiet a) (hi : Inv m0 s) (h : Atomic.step body s a = some s') : Inv m0 s' := by
  cases a with
  | tick d => simp only [Atomic.step, Option.some.injEq] at h; subst h; exact ⟨hi.mem, hi.thr, hi.res⟩
  | call i c =>
    simp only [Atomic.step] at h
    cases ht : s.thr i with
    | some a => simp [ht] at h
    | none =>
      simp only [ht, Option.some.injEq] at h
      subst h
      refine ⟨hi.mem, fun j b hb => ?_, fun n r t hr => ?_⟩
      · by_cases hj : j = i
        · subst hj
          simp only [Atomic.upd_same, Option.some.injEq] at hb
          subst hb
          refine ⟨?_, s.clock, by simp⟩
          cases c with
          | load d1 d2 => exact hq.elim
          | shouldBlock err => exact .first .sha1 err ⟨err, .inl ⟨rfl, rfl⟩⟩
          | isBlocked err => exact .first .sha2 err ⟨err, .inr ⟨rfl, rfl⟩⟩
        · simp only [Atomic.upd_ne _ hj] at hb
          obtain ⟨h1, t, h2⟩ := hi.thr j b hb
          exact ⟨h1, t, by simp [h2]⟩
      · simp only [List.mem_append, List.mem_singleton, reduceCtorEq, or_false] at hr
        obtain ⟨c', t0, x, h1, h2⟩ := hi.res n r t hr
        exact ⟨c', t0, x, by simp [h1], h2⟩
  | step i =>
    simp only [Atomic.step] at h
    cases ht : s.thr i with
    | none => simp [ht] at h
    | some a =>
      simp only [ht] at h
      obtain ⟨id, c, prog, rs, held, d⟩ := a
      obtain ⟨hl, t0, hin⟩ := hi.thr i _ ht
      have load : ∀ q : P, Left m0 c q → Inv m0 { s with thr := Atomic.upd s.thr i (some ⟨id, c, q, rs, held, d⟩) } := by
        intro q hq'
        refine ⟨hi.mem, fun j b hb => ?_, hi.res⟩
        by_cases hj : j = i
        · subst hj
          simp only [Atomic.upd_same, Option.some.injEq] at hb
          subst hb
          exact ⟨hq', t0, hin⟩
        · simp only [Atomic.upd_ne _ hj] at hb
          exact hi.thr j b hb
      cases hl with
      | first x err hr =>
        simp only [Option.some.injEq] at h
        subst h
        apply load
        rw [hi.mem]
        cases err
        · exact .done x hr
        · exact .again x hr
      | again x hr =>
        simp only [Option.some.injEq] at h
        subst h
        exact load _ (.done x hr)
      | done x hr =>
        simp only [Option.some.injEq] at h
        subst h
        refine ⟨hi.mem, fun j b hb => ?_, fun n r t hm => ?_⟩
        · by_cases hj : j = i
          · subst hj; simp [Atomic.upd_same] at hb
          · simp only [Atomic.upd_ne _ hj] at hb
            obtain ⟨h1, t, h2⟩ := hi.thr j b hb
            exact ⟨h1, t, by simp [h2]⟩
        · simp only [List.mem_append, List.mem_singleton] at hm
          rcases hm with (hm | hm) | hm
          · obtain ⟨c', t1, x', h1, h2⟩ := hi.res n r t hm
            exact ⟨c', t1, x', by simp [h1], h2⟩
          · simp only [Atomic.Run.effect] at hm
            split at hm <;> simp at hm
          · simp only [Event.res.injEq] at hm
            obtain ⟨rfl, rfl, rfl⟩ := hm
            exact ⟨c, t0, x, by simp [hin], hr, rfl⟩

theorem inv_exec {m0 : Mem (fun _ : Var => String)} : ∀ (as : List (Action Call)) (s s' : Sys Var (fun _ => String) (Option String) Call),
    (∀ a ∈ as, Quiet a) → Inv m0 s → exec (Atomic.step body) s as = some s' → Inv m0 s' := by
  intro as
  induction as with
  | nil => intro s s' _ hi h; simp only [exec, Option.some.injEq] at h; subst h; exact hi
  | cons a as ih =>
    intro s s' hq hi h
    simp only [exec] at h
    cases h1 : Atomic.step body s a with
    | none => simp [h1] at h
    | some s1 =>
      simp only [h1] at h
      exact ih s1 s' (fun b hb => hq b (by simp [hb])) (inv_step (hq a (by simp)) hi h1) h

/-- **C139, partial.**  If nobody calls `LoadScript` any more (missing: calls of it while limiters are in use), there is no race,
and every request names the script by the digest that `LoadScript` stored. -/
theorem C139_scripts_partial (m0 : Mem (fun _ : Var => String)) (c0 : Int) (as : List (Action Call))
    (s : Sys Var (fun _ => String) (Option String) Call) (hq : ∀ a ∈ as, Quiet a)
    (h : exec (Atomic.step body) (Atomic.start m0 c0) as = some s) :
    ¬ Race s ∧ ∀ n r t, Event.res n r t ∈ s.hist → ∃ c t0 x, Event.inv n c t0 ∈ s.hist ∧ Reads c x ∧ r = some (m0 x) := by
  have hi : Inv m0 s := inv_exec as _ _ hq ⟨rfl, by simp [Atomic.start], by simp [Atomic.start]⟩ h
  refine ⟨?_, hi.res⟩
  rintro ⟨i, j, a, b, x, w, w', -, ha, hb, hx, hy, hw⟩
  have no : ∀ k c x w, s.thr k = some c → Atomic.access c.prog = some (x, w) → w = false := by
    intro k c x w hc hacc
    obtain ⟨id, call, prog, rs, held, d⟩ := c
    have hl := (hi.thr k _ hc).1
    cases hl <;> simp [Atomic.access] at hacc <;> exact hacc.2
  rcases hw with hw | hw
  · have := no i a x w ha hx; simp [hw] at this
  · have := no j b x w' hb hy; simp [hw] at this

/-- Non-vacuity: two limiters at once, one of them with a request that fails. -/
example : ∃ s, exec (Atomic.step body) (Atomic.start (loaded "a" "b") 0)
      [.call 0 (.shouldBlock true), .call 1 (.isBlocked false), .step 0, .step 1, .step 0, .step 1, .step 0] = some s ∧
    Event.res 0 (some "a") 0 ∈ s.hist ∧ Event.res 1 (some "b") 0 ∈ s.hist := ⟨_, rfl, by simp [Atomic.Run.effect, loaded, Atomic.start], by
      simp [Atomic.Run.effect, loaded, Atomic.start]⟩

/-- The other half of the trouble: a limiter used before `LoadScript` names no script (`EVALSHA` then fails, see C106). -/
example : ∃ s, exec (Atomic.step body) (Atomic.start fresh 0) [.call 0 (.shouldBlock false), .step 0, .step 0] = some s ∧
    Event.res 0 (some "") 0 ∈ s.hist := ⟨_, rfl, by simp [Atomic.Run.effect, fresh, Atomic.start]⟩

end Gears.TtlRedis.Globals
