import Verif.Common.Atomic
import Verif.Confstore.Conc

/-
The configuration store (/repo/confstore/store.go, persister.go, loader.go) instruction by instruction.  A Go map is one variable
(the runtime does not allow a write of any key together with another access); reading and writing it are steps of their own.  Locks
are kvProcessorLock (0) and kvLock (1).  Redis executes one command at a time: that is lock 2, taken by every command.  A load policy
(strategy.go) has a lock of its own and touches none of the maps; whether it loads, and which keys, is left open.

`Sec` are the parts of the methods from taking a lock to having given back all; Methods.lean makes the methods of them.
-/

namespace Gears.Confstore

open Atomic (Prog Mem Mode Event Action Guarded TwoPhase Refines Linear)

/-- The maps (store.go:12-22) and the redis hash. -/
inductive Field where
  | proc | dflt | dfltStr | kv | kvStr | hash
deriving DecidableEq, Repr

@[reducible] def Field.Val (V : Type) : Field → Type
  | .proc => String → Option (Proc V)
  | .dflt => String → Option V
  | .dfltStr => String → Option String
  | .kv => String → Option V
  | .kvStr => String → Option String
  | .hash => String → Option String

/-- The lock of a map. -/
def Field.lock : Field → Nat
  | .proc => 0
  | .hash => 2
  | _ => 1

/-- The critical sections. -/
inductive Sec (V : Type) where
  | register (k d : String) (vp : Option (Proc V))
  | deregister (k : String) (r : PRes)
  | reset (k : String) (r : PRes)
  /-- store.go:143-145; `v` is what `Validate` is called with afterwards -/
  | lookup (k v : String)
  /-- store.go:163-166 -/
  | write (k v : String) (p : Proc V)
  /-- store.go:227-235 -/
  | get (k : String)
  /-- store.go:242-251 -/
  | getString (k : String)
  /-- persister.go:64-78 -/
  | save (l : List KVStr) (r : PRes)
  /-- persister.go:45 -/
  | hgetall

inductive SRet (V : Type) where
  | reg (r : RegRes)
  | unit
  | proc (p : Option (Proc V))
  | val (v : Option V)
  | str (v : Option String)
  | saved (ok : Bool)
  | hash (h : String → Option String)

variable {V : Type}

abbrev P (V : Type) := Prog Field (Field.Val V) (SRet V)

/-- The deferred unlocks of RegisterKey and DeregisterKey (store.go:48, 51, 79, 82), last first. -/
def unlock2 (r : SRet V) : P V := .rel 1 .W <| .rel 0 .W <| .ret r

/-- `m[k] = v` or `delete(m, k)`. -/
def assign (x : Field) (f : Field.Val V x → Field.Val V x) (q : P V) : P V := .load x fun m => .store x (f m) q

/-- HDEL (persister.go:80-83). -/
def hdel (k : String) (r : PRes) (q : P V) : P V :=
  .acq 2 .W <| assign .hash (fun h => hashDelete h k r) <| .rel 2 .W q

def body : Sec V → P V
  | .register k d vp =>
    if k = "" then .ret (.reg .emptyKey)                                      -- 40
    else match vp with
      | none => .ret (.reg .nilProcessor)                                     -- 43
      | some p =>
        .acq 0 .W <| .acq 1 .W <|                                             -- 47, 50
        .load .proc fun m => if (m k).isSome then unlock2 (.reg .duplicate) else    -- 53
        .load .dflt fun m => if (m k).isSome then unlock2 (.reg .duplicate) else    -- 57
        match p.validate d with                                               -- 61
        | some e => unlock2 (.reg (.invalid e))
        | none =>
          assign .dflt (fun m => setKey m k (some (p.convert d))) <|          -- 65
          assign .dfltStr (fun m => setKey m k (some d)) <|                   -- 66
          assign .proc (fun m => setKey m k (some p)) <|                      -- 68
          unlock2 (.reg .ok)
  | .deregister k r =>
    if k = "" then .ret .unit                                                 -- 74
    else
      .acq 0 .W <| .acq 1 .W <|                                               -- 78, 81
      assign .proc (fun m => setKey m k none) <|                              -- 84
      assign .kv (fun m => setKey m k none) <|                                -- 85
      assign .kvStr (fun m => setKey m k none) <|                             -- 86
      assign .dflt (fun m => setKey m k none) <|                              -- 87
      assign .dfltStr (fun m => setKey m k none) <|                           -- 88
      hdel k r <|                                                             -- 90
      unlock2 .unit
  | .reset k r =>
    .acq 1 .W <|                                                              -- 256
    assign .kv (fun m => setKey m k none) <|                                  -- 259
    assign .kvStr (fun m => setKey m k none) <|                               -- 260
    hdel k r <|                                                               -- 261
    .rel 1 .W <| .ret .unit
  | .lookup k _ => .acq 0 .R <| .load .proc fun m => .rel 0 .R <| .ret (.proc (m k))      -- 143-145
  | .write k v p =>
    .acq 1 .W <|                                                              -- 163
    assign .kv (fun m => setKey m k (some (p.convert v))) <|                  -- 164
    assign .kvStr (fun m => setKey m k (some v)) <|                           -- 165
    .rel 1 .W <| .ret .unit                                                   -- 166
  | .get k =>
    .acq 1 .R <|                                                              -- 227
    .load .kv fun m =>                                                        -- 230
    match m k with
    | none => .load .dflt fun m => .rel 1 .R <| .ret (.val (m k))             -- 232
    | some v => .rel 1 .R <| .ret (.val (some v))
  | .getString k =>
    .acq 1 .R <|                                                              -- 242
    .load .kvStr fun m =>                                                     -- 245
    match m k with
    | none => .load .dfltStr fun m => .rel 1 .R <| .ret (.str (m k))          -- 247
    | some v => .rel 1 .R <| .ret (.str (some v))
  | .save l r =>
    if l = [] then .ret (.saved true)                                         -- persister.go:70
    else
      .acq 2 .W <| .load .hash fun h => .store .hash (batchSave h l r).1 <| .rel 2 .W <| .ret (.saved (batchSave h l r).2)   -- 73
  | .hgetall => .acq 2 .R <| .load .hash fun h => .rel 2 .R <| .ret (.hash h)

@[reducible] def memOf (s : State V) : Mem (Field.Val V)
  | .proc => s.proc
  | .dflt => s.dflt
  | .dfltStr => s.dfltStr
  | .kv => s.kv
  | .kvStr => s.kvStr
  | .hash => s.hash

/-- The steps of Model.lean and Conc.lean, as a reference. -/
def ref (c : Sec V) (rs : List Int) (s : State V) : Option (State V × SRet V) :=
  if rs = [] then
    match c with
    | .register k d vp => some ((register s k d vp).1, .reg (register s k d vp).2)
    | .deregister k r => some (deregister s k r, .unit)
    | .reset k r => some (reset s k r, .unit)
    | .lookup k _ => some (s, .proc (s.proc k))
    | .write k v p => some ({ s with kv := setKey s.kv k (some (p.convert v)), kvStr := setKey s.kvStr k (some v) }, .unit)
    | .get k => some (s, .val (getValue s k))
    | .getString k => some (s, .str (getValueString s k))
    | .save l r => some ({ s with hash := (batchSave s.hash l r).1 }, .saved (batchSave s.hash l r).2)
    | .hgetall => some (s, .hash s.hash)
  else none

/-! ### The sections -/

theorem guarded_assign {H : Nat → Option Mode} {x : Field} {f : Field.Val V x → Field.Val V x} {q : P V}
    (hx : H x.lock = some .W) (hq : Guarded Field.lock (fun _ => false) H q) : Guarded Field.lock (fun _ => false) H (assign x f q) :=
  ⟨.inr (by simp [hx]), fun _ => ⟨rfl, hx, hq⟩⟩

theorem twoPhase_assign {x : Field} {f : Field.Val V x → Field.Val V x} {q : P V} (hq : TwoPhase false q) : TwoPhase false (assign x f q) :=
  ⟨rfl, fun _ => ⟨rfl, hq⟩⟩

theorem guarded_unlock2 (r : SRet V) : Guarded Field.lock (fun _ => false) (Atomic.upd (Atomic.upd (fun _ => none) 0 (some .W)) 1 (some .W))
    (unlock2 r) := by
  refine ⟨rfl, rfl, fun l => ?_⟩
  simp only [Atomic.upd]
  (repeat' split) <;> rfl

theorem guarded_hdel {H : Nat → Option Mode} {k : String} {r : PRes} {q : P V} (h2 : H 2 = none)
    (hq : Guarded Field.lock (fun _ => false) H q) : Guarded Field.lock (fun _ => false) H (hdel k r q) := by
  have he : Atomic.upd (Atomic.upd H 2 (some Mode.W)) 2 none = H := by
    funext l; simp only [Atomic.upd]; split
    · rename_i e; rw [e, h2]
    · rfl
  refine ⟨h2, guarded_assign rfl ⟨rfl, ?_⟩⟩
  rw [he]; exact hq

theorem guarded (c : Sec V) : Guarded Field.lock (fun _ => false) (fun _ => none) (body c) := by
  have h1 : ∀ (l : Nat) (m : Mode) (l' : Nat), Atomic.upd (Atomic.upd (fun _ => none) l (some m)) l none l' = none := by
    intro l m l'; simp only [Atomic.upd]; (repeat' split) <;> rfl
  cases c with
  | register k d vp =>
    simp only [body]
    split
    · exact fun _ => rfl
    cases vp with
    | none => exact fun _ => rfl
    | some p =>
      refine ⟨rfl, rfl, .inr (by simp [Atomic.upd, Field.lock]), fun m => ?_⟩
      dsimp only; split
      · exact guarded_unlock2 _
      refine ⟨.inr (by simp [Atomic.upd, Field.lock]), fun m => ?_⟩
      dsimp only; split
      · exact guarded_unlock2 _
      split
      · exact guarded_unlock2 _
      · exact guarded_assign rfl (guarded_assign rfl (guarded_assign rfl (guarded_unlock2 _)))
  | deregister k r =>
    simp only [body]
    split
    · exact fun _ => rfl
    · exact ⟨rfl, rfl, guarded_assign rfl (guarded_assign rfl (guarded_assign rfl (guarded_assign rfl (guarded_assign rfl
        (guarded_hdel rfl (guarded_unlock2 _))))))⟩
  | reset k r => exact ⟨rfl, guarded_assign rfl (guarded_assign rfl (guarded_hdel rfl ⟨rfl, h1 1 .W⟩))⟩
  | lookup k v => exact ⟨rfl, .inr (by simp [Atomic.upd, Field.lock]), fun m => ⟨rfl, h1 0 .R⟩⟩
  | write k v p => exact ⟨rfl, guarded_assign rfl (guarded_assign rfl ⟨rfl, h1 1 .W⟩)⟩
  | get k =>
    refine ⟨rfl, .inr (by simp [Atomic.upd, Field.lock]), fun m => ?_⟩
    dsimp only; split
    · exact ⟨.inr (by simp [Atomic.upd, Field.lock]), fun m => ⟨rfl, h1 1 .R⟩⟩
    · exact ⟨rfl, h1 1 .R⟩
  | getString k =>
    refine ⟨rfl, .inr (by simp [Atomic.upd, Field.lock]), fun m => ?_⟩
    dsimp only; split
    · exact ⟨.inr (by simp [Atomic.upd, Field.lock]), fun m => ⟨rfl, h1 1 .R⟩⟩
    · exact ⟨rfl, h1 1 .R⟩
  | save l r =>
    simp only [body]
    split
    · exact fun _ => rfl
    · exact ⟨rfl, .inr (by simp [Atomic.upd, Field.lock]), fun m => ⟨rfl, rfl, rfl, h1 2 .W⟩⟩
  | hgetall => exact ⟨rfl, .inr (by simp [Atomic.upd, Field.lock]), fun m => ⟨rfl, h1 2 .R⟩⟩

theorem twoPhase (c : Sec V) : TwoPhase false (body c) := by
  cases c with
  | register k d vp =>
    simp only [body]
    split
    · trivial
    cases vp with
    | none => trivial
    | some p =>
      refine ⟨rfl, rfl, rfl, fun m => ?_⟩
      dsimp only; split
      · trivial
      refine ⟨rfl, fun m => ?_⟩
      dsimp only; split
      · trivial
      split
      · trivial
      · exact twoPhase_assign (twoPhase_assign (twoPhase_assign trivial))
  | deregister k r =>
    simp only [body]
    split
    · trivial
    · exact ⟨rfl, rfl, twoPhase_assign (twoPhase_assign (twoPhase_assign (twoPhase_assign (twoPhase_assign
        ⟨rfl, twoPhase_assign trivial⟩))))⟩
  | reset k r => exact ⟨rfl, twoPhase_assign (twoPhase_assign ⟨rfl, twoPhase_assign trivial⟩)⟩
  | lookup k v => exact ⟨rfl, rfl, fun m => trivial⟩
  | write k v p => exact ⟨rfl, twoPhase_assign (twoPhase_assign trivial)⟩
  | get k =>
    refine ⟨rfl, rfl, fun m => ?_⟩
    dsimp only; split
    · exact ⟨rfl, fun m => trivial⟩
    · trivial
  | getString k =>
    refine ⟨rfl, rfl, fun m => ?_⟩
    dsimp only; split
    · exact ⟨rfl, fun m => trivial⟩
    · trivial
  | save l r =>
    simp only [body]
    split
    · trivial
    · exact ⟨rfl, rfl, fun m => ⟨rfl, trivial⟩⟩
  | hgetall => exact ⟨rfl, rfl, fun m => trivial⟩

theorem put_proc (s : State V) (x) : Atomic.put (memOf s) .proc x = memOf ⟨x, s.dflt, s.dfltStr, s.kv, s.kvStr, s.hash⟩ := by
  funext y; cases y <;> simp [Atomic.put]
theorem put_dflt (s : State V) (x) : Atomic.put (memOf s) .dflt x = memOf ⟨s.proc, x, s.dfltStr, s.kv, s.kvStr, s.hash⟩ := by
  funext y; cases y <;> simp [Atomic.put]
theorem put_dfltStr (s : State V) (x) : Atomic.put (memOf s) .dfltStr x = memOf ⟨s.proc, s.dflt, x, s.kv, s.kvStr, s.hash⟩ := by
  funext y; cases y <;> simp [Atomic.put]
theorem put_kv (s : State V) (x) : Atomic.put (memOf s) .kv x = memOf ⟨s.proc, s.dflt, s.dfltStr, x, s.kvStr, s.hash⟩ := by
  funext y; cases y <;> simp [Atomic.put]
theorem put_kvStr (s : State V) (x) : Atomic.put (memOf s) .kvStr x = memOf ⟨s.proc, s.dflt, s.dfltStr, s.kv, x, s.hash⟩ := by
  funext y; cases y <;> simp [Atomic.put]
theorem put_hash (s : State V) (x) : Atomic.put (memOf s) .hash x = memOf ⟨s.proc, s.dflt, s.dfltStr, s.kv, s.kvStr, x⟩ := by
  funext y; cases y <;> simp [Atomic.put]

/-- No section reads the clock. -/
def NoClock : P V → Prop
  | .ret _ => True
  | .load _ k => ∀ v, NoClock (k v)
  | .store _ _ k => NoClock k
  | .now _ => False
  | .acq _ _ k => NoClock k
  | .rel _ _ k => NoClock k

theorem seq_noClock : ∀ (p : P V) (rs : List Int) (m : Mem (Field.Val V)), NoClock p → rs ≠ [] → Atomic.seq p rs m = none
  | .ret r, rs, m, _, h => by simp [Atomic.seq, h]
  | .load x k, rs, m, hp, h => seq_noClock (k (m x)) rs m (hp _) h
  | .store _ _ k, rs, m, hp, h => seq_noClock k rs _ hp h
  | .now _, _, _, hp, _ => hp.elim
  | .acq _ _ k, rs, m, hp, h => seq_noClock k rs m hp h
  | .rel _ _ k, rs, m, hp, h => seq_noClock k rs m hp h

theorem noClock (c : Sec V) : NoClock (body c) := by
  cases c with
  | register k d vp =>
    simp only [body]
    split
    · trivial
    cases vp with
    | none => trivial
    | some p =>
      intro m
      dsimp only; split
      · trivial
      intro m
      dsimp only; split
      · trivial
      split
      · trivial
      · exact fun _ _ _ => trivial
  | deregister k r =>
    simp only [body]
    split
    · trivial
    · exact fun _ _ _ _ _ _ => trivial
  | reset k r => exact fun _ _ _ => trivial
  | lookup k v => exact fun _ => trivial
  | write k v p => exact fun _ _ => trivial
  | get k =>
    intro m
    dsimp only; split
    · exact fun _ => trivial
    · trivial
  | getString k =>
    intro m
    dsimp only; split
    · exact fun _ => trivial
    · trivial
  | save l r =>
    simp only [body]
    split
    · trivial
    · exact fun _ => trivial
  | hgetall => exact fun _ => trivial

theorem refines : Refines (body (V := V)) ref memOf := by
  intro c rs s
  by_cases hrs : rs = []
  case neg => rw [seq_noClock _ _ _ (noClock c) hrs]; simp [ref, hrs]
  subst hrs
  cases c with
  | register k d vp =>
    simp only [body, ref, register, if_true]
    by_cases hk : k = ""
    · simp [hk, Atomic.seq]
    simp only [hk, if_false]
    cases vp with
    | none => simp [Atomic.seq]
    | some p =>
      simp only [Atomic.seq]
      by_cases h1 : (s.proc k).isSome = true
      · rw [if_pos h1]; simp [h1, unlock2, Atomic.seq]
      rw [if_neg h1]
      simp only [Atomic.seq]
      by_cases h2 : (s.dflt k).isSome = true
      · rw [if_pos h2]; simp [h1, h2, unlock2, Atomic.seq]
      rw [if_neg h2]
      simp only [h1, h2]
      cases p.validate d with
      | some e => simp [unlock2, Atomic.seq]
      | none => simp [unlock2, assign, Atomic.seq, put_dflt, put_dfltStr, put_proc]
  | deregister k r =>
    simp only [body, ref, deregister, if_true]
    by_cases hk : k = ""
    · simp [hk, Atomic.seq]
    · simp [hk, Atomic.seq, assign, hdel, unlock2, put_proc, put_kv, put_kvStr, put_dflt, put_dfltStr, put_hash]
  | reset k r => simp [body, ref, reset, Atomic.seq, assign, hdel, put_kv, put_kvStr, put_hash]
  | lookup k v => simp [body, ref, Atomic.seq]
  | write k v p => simp [body, ref, Atomic.seq, assign, put_kv, put_kvStr]
  | get k =>
    simp only [body, ref, getValue, Atomic.seq, if_true]
    cases hk : s.kv k with
    | none => rw [show memOf s .kv k = none from hk]; rfl
    | some v => rw [show memOf s .kv k = some v from hk]; rfl
  | getString k =>
    simp only [body, ref, getValueString, Atomic.seq, if_true]
    cases hk : s.kvStr k with
    | none => rw [show memOf s .kvStr k = none from hk]; rfl
    | some v => rw [show memOf s .kvStr k = some v from hk]; rfl
  | save l r =>
    simp only [body, ref, if_true]
    by_cases hl : l = []
    · simp [hl, Atomic.seq, batchSave]
    · simp [hl, Atomic.seq, put_hash]
  | hgetall => simp [body, ref, Atomic.seq]

/-- **C140.**  The critical sections of the store and the commands to redis at the level of instructions: any number of
goroutines, any schedule. -/
theorem C140_sections (s0 : State V) (c0 : Int) (as : List (Action (Sec V))) (s : Atomic.Sys Field (Field.Val V) (SRet V) (Sec V))
    (h : exec (Atomic.step body) (Atomic.start (memOf s0) c0) as = some s) : Linear ref memOf s0 s :=
  Atomic.linear guarded twoPhase refines s0 c0 as s h

end Gears.Confstore
