import Verif.Confstore.Instr

/-
The methods of the store (/repo/confstore/store.go), as sequences of critical sections (Instr.lean) in any number of goroutines.
What a goroutine does between two sections concerns nobody else.
-/

namespace Gears.Confstore

open Atomic (Prog Mem Mode Event Action Linear)

variable {V : Type}

/-! ### The methods -/

/-- What the methods return. -/
inductive MRet (V : Type) where
  | reg (r : RegRes)
  | unit
  | err (e : Option KVError)
  | errs (l : List KVError)
  | val (v : Option V)
  | str (v : Option String)
  | vals (l : List (String × V))
  | strs (l : List KVStr)

/-- A method: sections, and what it does with their results. -/
inductive Meth (V : Type) where
  | ret (a : MRet V)
  | sec (c : Sec V) (k : SRet V → Meth V)

/-- `UpdateNoPersist` (store.go:138-168), and then `q`. -/
def updateThen (k v : String) (q : Option KVError → Meth V) : Meth V :=
  if k = "" then q none                                                       -- 139
  else .sec (.lookup k v) fun                                                 -- 143-145
    | .proc (some p) =>
      match p.validate v with                                                 -- 155
      | some e => q (some ⟨k, v, e⟩)
      | none => .sec (.write k v p) fun _ => q none                           -- 163-166
    | _ => q (some ⟨k, v, notRegistered k⟩)                                   -- 147-153

/-- The first loop of `BatchUpdate` (103-108), and then `q`. -/
def updatesThen (l : List KVStr) (errors : List KVError) (q : List KVError → Meth V) : Meth V :=
  match l with
  | [] => q errors
  | x :: l => updateThen x.key x.value fun e => updatesThen l (errors ++ e.toList) q

/-- The loop of `redisPersister.Load` (persister.go:50-55), and then `q`. -/
def pairsThen (l : List KVStr) (q : Meth V) : Meth V :=
  match l with
  | [] => q
  | x :: l => updateThen x.key x.value fun _ => pairsThen l q

/-- What a load policy does in one call: nothing, a load that fails, or a load with the keys in the order of the map iteration.
(A policy with a lock and a clock, loader.go:37-56, only restricts which loads are made and when.) -/
inductive Load where
  | skip
  | fail
  | keys (ks : List String)
deriving Repr, DecidableEq

/-- `DoLoad` (loader.go:37-56) with `redisPersister.Load` (persister.go:44-58), and then `q`. -/
def loadThen (d : Load) (q : Meth V) : Meth V :=
  match d with
  | .skip => q
  | .fail => .sec .hgetall fun _ => q
  | .keys ks => .sec .hgetall fun
    | .hash h => pairsThen (ks.filterMap fun k => (h k).map fun v => ⟨k, v⟩) q
    | _ => q

/-- `GetValue` (store.go:224-237), and then `q`. -/
def getThen (d : Load) (k : String) (q : Option V → Meth V) : Meth V :=
  loadThen d <| .sec (.get k) fun
    | .val v => q v
    | _ => q none

/-- `GetValueString` (store.go:239-253), and then `q`. -/
def getStringThen (d : Load) (k : String) (q : Option String → Meth V) : Meth V :=
  loadThen d <| .sec (.getString k) fun
    | .str v => q v
    | _ => q none

/-- The loop of `BatchGetValues` (store.go:174-183). -/
def getsLoop (l : List (Load × String)) (acc : List (String × V)) : Meth V :=
  match l with
  | [] => .ret (.vals acc)
  | (d, k) :: l => if k = "" then getsLoop l acc else getThen d k fun v => getsLoop l (acc ++ (v.map fun v => (k, v)).toList)

/-- The loop of `BatchGetValueString` (store.go:191-200). -/
def getStringsLoop (l : List (Load × String)) (acc : List KVStr) : Meth V :=
  match l with
  | [] => .ret (.strs acc)
  | (d, k) :: l => if k = "" then getStringsLoop l acc else getStringThen d k fun v => getStringsLoop l (acc ++ (v.map fun v => ⟨k, v⟩).toList)

/-- The calls, with what the persister and the load policy do in them. -/
inductive MCall (V : Type) where
  | register (k d : String) (vp : Option (Proc V))
  | deregister (k : String) (r : PRes)
  | reset (k : String) (r : PRes)
  | updateNoPersist (k v : String)
  | update (k v : String) (r : PRes)
  | batchUpdate (l : List KVStr) (r : PRes)
  | getValue (d : Load) (k : String)
  | getValueString (d : Load) (k : String)
  | mustGetValue (d d' : Load) (k : String)
  | mustGetValueString (d d' : Load) (k : String)
  | batchGetValues (d : Load) (l : List (Load × String))
  | batchGetValueString (d : Load) (l : List (Load × String))
  /-- a program that uses the hash itself -/
  | save (l : List KVStr) (r : PRes)

def meth : MCall V → Meth V
  | .register k d vp => .sec (.register k d vp) fun
    | .reg r => .ret (.reg r)
    | _ => .ret .unit
  | .deregister k r => .sec (.deregister k r) fun _ => .ret .unit
  | .reset k r => .sec (.reset k r) fun _ => .ret .unit
  | .updateNoPersist k v => updateThen k v fun e => .ret (.err e)
  | .update k v r => updateThen k v fun                                       -- 126-136
    | none => .ret (.err none)
    | some e => .sec (.save [⟨k, v⟩] r) fun
      | .saved true => .ret (.err (some e))
      | _ => .ret (.err none)
  | .batchUpdate l r =>                                                       -- 97-124
    if l = [] then .ret (.errs [])
    else updatesThen l [] fun errors =>
      .sec (.save (l.filter fun x => !errors.any (fun e => e.key = x.key)) r) fun _ => .ret (.errs errors)
  | .getValue d k => getThen d k fun v => .ret (.val v)
  | .getValueString d k => getStringThen d k fun v => .ret (.str v)
  | .mustGetValue d d' k => loadThen d <| getThen d' k fun v => .ret (.val v)
  | .mustGetValueString d d' k => loadThen d <| getStringThen d' k fun v => .ret (.str v)
  | .batchGetValues d l => loadThen d <| getsLoop l []
  | .batchGetValueString d l => loadThen d <| getStringsLoop l []
  | .save l r => .sec (.save l r) fun _ => .ret .unit

abbrev Base (V : Type) := Atomic.Sys Field (Field.Val V) (SRet V) (Sec V)

/-- A call that has not returned: how many sections were begun before it, the call, what is left of the method. -/
structure Own (V : Type) where
  since : Nat
  call  : MCall V
  left  : Meth V

/-- Goroutines in methods.  `base` has the sections under way; `log` the calls that returned: how many sections were begun before
the call and before the return. -/
structure MSys (V : Type) where
  base : Base V
  own  : Nat → Option (Own V)
  log  : List (Nat × MCall V × MRet V × Nat)

inductive MAction (V : Type) where
  | tick (d : Nat)
  | call (i : Nat) (c : MCall V)
  | step (i : Nat)

def mStep (s : MSys V) : MAction V → Option (MSys V)
  | .tick d => (Atomic.step body s.base (.tick d)).map fun b => { s with base := b }
  | .call i c =>
    match s.own i with
    | some _ => none
    | none => some { s with own := Atomic.upd s.own i (some ⟨s.base.next, c, meth c⟩) }
  | .step i =>
    match s.own i with
    | none => none
    | some ⟨n, c, .ret a⟩ => some { s with own := Atomic.upd s.own i none, log := s.log ++ [(n, c, a, s.base.next)] }
    | some ⟨n, c, .sec x f⟩ =>
      match s.base.thr i with
      | none => (Atomic.step body s.base (.call i x)).map fun b => { s with base := b }
      | some a =>
        match Atomic.step body s.base (.step i) with
        | none => none
        | some b =>
          match a.prog with
          | .ret r => some { s with base := b, own := Atomic.upd s.own i (some ⟨n, c, f r⟩) }
          | _ => some { s with base := b }

def mStart (V : Type) (hash : String → Option String) (c0 : Int) : MSys V := ⟨Atomic.start (memOf (new V hash)) c0, fun _ => none, []⟩

/-! ### What is said of the methods -/

/-- `a` is what is left of a method returns, if its sections (numbers from `n` on, below `n'`, in increasing order) return what
the history says. -/
def Explained (h : List (Event (SRet V) (Sec V))) (n' : Nat) : Nat → Meth V → MRet V → Prop
  | n, .ret a, b => n ≤ n' ∧ a = b
  | n, .sec c f, b => ∃ m r, n ≤ m ∧ (∃ t, .inv m c t ∈ h) ∧ (∃ t, .res m r t ∈ h) ∧ Explained h n' (m + 1) (f r) b

/-- A write is begun only after a lookup of its key returned its processor, which accepts the value. -/
def Disc (h : List (Event (SRet V) (Sec V))) : Prop :=
  ∀ pre n k v p t post, h = pre ++ .inv n (.write k v p) t :: post →
    k ≠ "" ∧ p.validate v = none ∧ ∃ m, (∃ t0, .inv m (.lookup k v) t0 ∈ pre) ∧ ∃ t1, .res m (.proc (some p)) t1 ∈ pre

/-! ### Steps of the sections -/

theorem base_step {s b : Base V} {i : Nat} {a : Atomic.Run Field (Field.Val V) (SRet V) (Sec V)} (ha : s.thr i = some a)
    (h : Atomic.step body s (.step i) = some b) :
    b.next = s.next ∧ (∃ ext, b.hist = s.hist ++ ext ∧ ∀ n c t, Event.inv n c t ∉ ext) ∧ (∀ j, j ≠ i → b.thr j = s.thr j) ∧
    (∀ r, a.prog = .ret r → b.thr i = none ∧ ∃ t, Event.res a.id r t ∈ b.hist) ∧
    ((∀ r, a.prog ≠ .ret r) → ∃ a', b.thr i = some a' ∧ a'.id = a.id ∧ a'.call = a.call) := by
  obtain ⟨id, c, prog, rs, held, d⟩ := a
  have he : ∀ n c' t', Event.inv n c' t' ∉ Atomic.Run.effect ⟨id, c, prog, rs, held, d⟩ s.clock := by
    intro n c' t'; simp only [Atomic.Run.effect]; split <;> simp
  simp only [Atomic.step, ha] at h
  cases prog with
  | ret r =>
    simp only [Option.some.injEq] at h; subst h
    refine ⟨rfl, ⟨_, List.append_assoc _ _ _, ?_⟩, fun j hj => Atomic.upd_ne _ hj _, ?_, fun hr => absurd rfl (hr r)⟩
    · intro n c' t' hm
      rcases List.mem_append.1 hm with hm | hm
      · exact he _ _ _ hm
      · simp at hm
    · intro r' hr
      simp only [Prog.ret.injEq] at hr; subst hr
      exact ⟨Atomic.upd_same _ _ _, s.clock, by simp⟩
  | load x k =>
    simp only [Option.some.injEq] at h; subst h
    exact ⟨rfl, ⟨[], by simp, by simp⟩, fun j hj => Atomic.upd_ne _ hj _, by simp, fun _ => ⟨_, Atomic.upd_same _ _ _, rfl, rfl⟩⟩
  | store x v k =>
    simp only [Option.some.injEq] at h; subst h
    exact ⟨rfl, ⟨[], by simp, by simp⟩, fun j hj => Atomic.upd_ne _ hj _, by simp, fun _ => ⟨_, Atomic.upd_same _ _ _, rfl, rfl⟩⟩
  | now k =>
    simp only [Option.some.injEq] at h; subst h
    exact ⟨rfl, ⟨[], by simp, by simp⟩, fun j hj => Atomic.upd_ne _ hj _, by simp, fun _ => ⟨_, Atomic.upd_same _ _ _, rfl, rfl⟩⟩
  | acq l m k =>
    dsimp only at h
    split at h
    · simp only [Option.some.injEq] at h; subst h
      exact ⟨rfl, ⟨[], by simp, by simp⟩, fun j hj => Atomic.upd_ne _ hj _, by simp, fun _ => ⟨_, Atomic.upd_same _ _ _, rfl, rfl⟩⟩
    · simp at h
  | rel l m k =>
    dsimp only at h
    split at h
    · simp only [Option.some.injEq] at h; subst h
      exact ⟨rfl, ⟨_, rfl, he⟩, fun j hj => Atomic.upd_ne _ hj _, by simp, fun _ => ⟨_, Atomic.upd_same _ _ _, rfl, rfl⟩⟩
    · simp at h

theorem explained_mono {h h' : List (Event (SRet V) (Sec V))} {n' : Nat} (hh : ∀ e ∈ h, e ∈ h') :
    ∀ (m : Meth V) (n : Nat) (b : MRet V), Explained h n' n m b → Explained h' n' n m b
  | .ret _, _, _, hx => hx
  | .sec _ f, _, b, ⟨m, r, h1, ⟨t, h2⟩, ⟨t', h3⟩, h4⟩ => ⟨m, r, h1, ⟨t, hh _ h2⟩, ⟨t', hh _ h3⟩, explained_mono hh (f r) _ b h4⟩

/-- What is left of a method writes only what was looked up; `K` are the lookups so far. -/
def Meth.Ok : (String → String → Proc V → Prop) → Meth V → Prop
  | _, .ret _ => True
  | K, .sec c f => (∀ k v p, c = .write k v p → k ≠ "" ∧ p.validate v = none ∧ K k v p) ∧
    ∀ r, (f r).Ok (fun k v p => K k v p ∨ (c = .lookup k v ∧ r = .proc (some p)))

theorem Meth.Ok.mono : ∀ (m : Meth V) {K K' : String → String → Proc V → Prop}, (∀ k v p, K k v p → K' k v p) → m.Ok K → m.Ok K'
  | .ret _, _, _, _, _ => trivial
  | .sec _ f, _, _, h, ⟨h1, h2⟩ => ⟨fun k v p e => ⟨(h1 k v p e).1, (h1 k v p e).2.1, h _ _ _ (h1 k v p e).2.2⟩,
      fun r => (h2 r).mono (f r) (fun k v p hk => hk.imp (h k v p) id)⟩

theorem ok_update {k v : String} {q : Option KVError → Meth V} (hq : ∀ e K, (q e).Ok K) (K) : (updateThen k v q).Ok K := by
  simp only [updateThen]
  split
  · exact hq _ _
  rename_i hk
  refine ⟨by simp, fun r => ?_⟩
  cases r with
  | proc p =>
    cases p with
    | none => exact hq _ _
    | some p =>
      dsimp only
      split
      · exact hq _ _
      · rename_i hv
        refine ⟨?_, fun r => hq _ _⟩
        rintro k' v' p' ⟨rfl, rfl, rfl⟩
        exact ⟨hk, hv, .inr ⟨rfl, rfl⟩⟩
  | _ => exact hq _ _

theorem ok_sec {c : Sec V} {f : SRet V → Meth V} {K} (hc : ∀ k v p, c ≠ .write k v p) (hf : ∀ r K, (f r).Ok K) : (Meth.sec c f).Ok K :=
  ⟨fun k v p e => absurd e (hc k v p), fun r => hf r _⟩

theorem ok_updates : ∀ (l : List KVStr) (es : List KVError) (q : List KVError → Meth V), (∀ e K, (q e).Ok K) → ∀ K, (updatesThen l es q).Ok K
  | [], _, _, hq, K => hq _ K
  | _ :: l, _, q, hq, K => ok_update (fun _ K => ok_updates l _ q hq K) K

theorem ok_pairs : ∀ (l : List KVStr) (q : Meth V), (∀ K, q.Ok K) → ∀ K, (pairsThen l q).Ok K
  | [], _, hq, K => hq K
  | _ :: l, q, hq, K => ok_update (fun _ K => ok_pairs l q hq K) K

theorem ok_load (d : Load) {q : Meth V} (hq : ∀ K, q.Ok K) (K) : (loadThen d q).Ok K := by
  cases d with
  | skip => exact hq K
  | fail => exact ok_sec (by simp) (fun _ K => hq K)
  | keys ks =>
    refine ok_sec (by simp) (fun r K => ?_)
    cases r with
    | hash h => exact ok_pairs _ _ hq K
    | _ => exact hq K

theorem ok_get (d : Load) (k : String) {q : Option V → Meth V} (hq : ∀ v K, (q v).Ok K) (K) : (getThen d k q).Ok K := by
  refine ok_load d (fun K => ok_sec (by simp) (fun r K => ?_)) K
  cases r <;> exact hq _ K

theorem ok_getString (d : Load) (k : String) {q : Option String → Meth V} (hq : ∀ v K, (q v).Ok K) (K) : (getStringThen d k q).Ok K := by
  refine ok_load d (fun K => ok_sec (by simp) (fun r K => ?_)) K
  cases r <;> exact hq _ K

theorem ok_gets : ∀ (l : List (Load × String)) (acc : List (String × V)) (K), (getsLoop l acc).Ok K
  | [], _, _ => trivial
  | (d, k) :: l, acc, K => by
    simp only [getsLoop]
    split
    · exact ok_gets l acc K
    · exact ok_get d k (fun v K => ok_gets l _ K) K

theorem ok_getStrings : ∀ (l : List (Load × String)) (acc : List KVStr) (K), (getStringsLoop (V := V) l acc).Ok K
  | [], _, _ => trivial
  | (d, k) :: l, acc, K => by
    simp only [getStringsLoop]
    split
    · exact ok_getStrings l acc K
    · exact ok_getString d k (fun v K => ok_getStrings l _ K) K

theorem ok_meth (c : MCall V) (K) : (meth c).Ok K := by
  cases c with
  | register k d vp => exact ok_sec (by simp) (fun r K => by cases r <;> trivial)
  | deregister k r => exact ok_sec (by simp) (fun r K => trivial)
  | reset k r => exact ok_sec (by simp) (fun r K => trivial)
  | updateNoPersist k v => simp only [meth]; exact ok_update (q := fun e => .ret (.err e)) (fun _ _ => trivial) K
  | update k v r =>
    simp only [meth]
    refine ok_update ?_ K
    intro e K
    cases e with
    | none => trivial
    | some e =>
      refine ok_sec (by simp) ?_
      intro r K
      cases r with
      | saved b => cases b <;> trivial
      | _ => trivial
  | batchUpdate l r =>
    simp only [meth]
    split
    · trivial
    · refine ok_updates l [] _ ?_ K
      intro e K
      refine ok_sec (by simp) ?_
      intro r K
      trivial
  | getValue d k => exact ok_get d k (q := fun v => .ret (.val v)) (fun _ _ => trivial) K
  | getValueString d k => exact ok_getString d k (q := fun v => .ret (.str v)) (fun _ _ => trivial) K
  | mustGetValue d d' k => exact ok_load d (ok_get d' k (q := fun v => .ret (.val v)) (fun _ _ => trivial)) K
  | mustGetValueString d d' k => exact ok_load d (ok_getString d' k (q := fun v => .ret (.str v)) (fun _ _ => trivial)) K
  | batchGetValues d l => exact ok_load d (ok_gets l []) K
  | batchGetValueString d l => exact ok_load d (ok_getStrings l []) K
  | save l r => exact ok_sec (by simp) (fun r K => trivial)

/-! ### The invariant -/

/-- Of a call under way. -/
structure OwnInv (s : MSys V) (i : Nat) (o : Own V) (n : Nat) (K : String → String → Proc V → Prop) : Prop where
  low : n ≤ s.base.next
  ok : o.left.Ok K
  seen : ∀ k v p, K k v p → ∃ m, (∃ t, Event.inv m (.lookup k v) t ∈ s.base.hist) ∧ ∃ t, Event.res m (.proc (some p)) t ∈ s.base.hist
  expl : ∀ h n' b, (∀ e ∈ s.base.hist, e ∈ h) → Explained h n' n o.left b → Explained h n' o.since (meth o.call) b
  run : ∀ a, s.base.thr i = some a → n ≤ a.id ∧ a.id < s.base.next ∧ (∃ t, Event.inv a.id a.call t ∈ s.base.hist) ∧ ∃ f, o.left = .sec a.call f

structure MInv (s : MSys V) : Prop where
  disc : Disc s.base.hist
  free : ∀ i, s.own i = none → s.base.thr i = none
  own : ∀ i o, s.own i = some o → ∃ n K, OwnInv s i o n K
  log : ∀ n c a n', (n, c, a, n') ∈ s.log → Explained s.base.hist n' n (meth c) a

/-- The history grows by events that are no invocations. -/
theorem disc_ext {h ext : List (Event (SRet V) (Sec V))} (hd : Disc h) (he : ∀ n c t, Event.inv n c t ∉ ext) : Disc (h ++ ext) := by
  intro pre n k v p t post heq
  rcases List.append_eq_append_iff.1 heq with ⟨as, rfl, h2⟩ | ⟨bs, rfl, h2⟩
  · exact absurd (by rw [h2]; simp) (he n (.write k v p) t)
  · cases bs with
    | nil => exact absurd (by rw [← show Event.inv n (.write k v p) t :: post = ext by simpa using h2]; simp) (he n (.write k v p) t)
    | cons e bs =>
      simp only [List.cons_append, List.cons.injEq] at h2
      obtain ⟨rfl, -⟩ := h2
      exact hd pre n k v p t bs rfl

theorem disc_inv {h : List (Event (SRet V) (Sec V))} (hd : Disc h) {n : Nat} {c : Sec V} {t : Int}
    (hc : ∀ k v p, c = .write k v p → k ≠ "" ∧ p.validate v = none ∧
      ∃ m, (∃ t0, Event.inv m (.lookup k v) t0 ∈ h) ∧ ∃ t1, Event.res m (.proc (some p)) t1 ∈ h) : Disc (h ++ [.inv n c t]) := by
  intro pre n' k v p t' post heq
  rcases List.eq_nil_or_concat post with rfl | ⟨post', e, rfl⟩
  · obtain ⟨rfl, h2⟩ := List.append_inj' heq (by simp)
    simp only [List.cons.injEq, Event.inv.injEq, and_true] at h2
    exact hc k v p h2.2.1
  · rw [List.concat_eq_append, ← List.cons_append, ← List.append_assoc] at heq
    exact hd pre n' k v p t' post' (List.append_inj' heq (by simp)).1

/-- Others do not notice. -/
theorem ownInv_other {s s' : MSys V} {i : Nat} {o : Own V} {n : Nat} {K : String → String → Proc V → Prop} (h : OwnInv s i o n K)
    (hn : s.base.next ≤ s'.base.next) (hh : ∀ e ∈ s.base.hist, e ∈ s'.base.hist) (ht : s'.base.thr i = s.base.thr i) : OwnInv s' i o n K where
  low := Nat.le_trans h.low hn
  ok := h.ok
  seen k v p hk := by
    obtain ⟨m, ⟨t, h1⟩, t', h2⟩ := h.seen k v p hk
    exact ⟨m, ⟨t, hh _ h1⟩, t', hh _ h2⟩
  expl g n' b hg := h.expl g n' b (fun e he => hg e (hh e he))
  run a ha := by
    rw [ht] at ha
    obtain ⟨h1, h2, ⟨t, h3⟩, h4⟩ := h.run a ha
    exact ⟨h1, by omega, ⟨t, hh _ h3⟩, h4⟩

theorem mInv_step {s s' : MSys V} {a : MAction V} (hi : MInv s) (h : mStep s a = some s') : MInv s' := by
  cases a with
  | tick d =>
    simp only [mStep, Atomic.step, Option.map_some, Option.some.injEq] at h
    subst h
    refine ⟨hi.disc, hi.free, fun i o ho => ?_, hi.log⟩
    obtain ⟨n, K, hk⟩ := hi.own i o ho
    exact ⟨n, K, ownInv_other hk (Nat.le_refl _) (fun _ h => h) rfl⟩
  | call i c =>
    simp only [mStep] at h
    cases hoi : s.own i with
    | some o => simp [hoi] at h
    | none =>
      simp only [hoi, Option.some.injEq] at h
      subst h
      have hfi := hi.free i hoi
      refine ⟨hi.disc, fun j hj => ?_, fun j o ho => ?_, hi.log⟩
      · by_cases e : j = i
        · subst e; simp [Atomic.upd_same] at hj
        · exact hi.free j (by simpa only [Atomic.upd_ne _ e] using hj)
      · by_cases e : j = i
        · subst e
          simp only [Atomic.upd_same, Option.some.injEq] at ho
          subst ho
          exact ⟨s.base.next, fun _ _ _ => False, Nat.le_refl _, ok_meth c _, fun _ _ _ h => h.elim, fun _ _ _ _ h => h, fun a ha => by
            simp only [hfi] at ha; cases ha⟩
        · simp only [Atomic.upd_ne _ e] at ho
          obtain ⟨n, K, hk⟩ := hi.own j o ho
          exact ⟨n, K, ownInv_other hk (Nat.le_refl _) (fun _ h => h) rfl⟩
  | step i =>
    simp only [mStep] at h
    cases hoi : s.own i with
    | none => simp [hoi] at h
    | some o =>
      obtain ⟨n0, c, left⟩ := o
      obtain ⟨n, K, hk⟩ := hi.own i _ hoi
      cases left with
      | ret a =>
        simp only [hoi, Option.some.injEq] at h
        subst h
        have hfi : s.base.thr i = none := by
          cases ht : s.base.thr i with
          | none => rfl
          | some b => obtain ⟨-, -, -, f, hf⟩ := hk.run b ht; cases hf
        refine ⟨hi.disc, fun j hj => ?_, fun j o ho => ?_, fun m c' b n' hm => ?_⟩
        · by_cases e : j = i
          · subst e; exact hfi
          · exact hi.free j (by simpa only [Atomic.upd_ne _ e] using hj)
        · by_cases e : j = i
          · subst e; simp [Atomic.upd_same] at ho
          · simp only [Atomic.upd_ne _ e] at ho
            obtain ⟨n, K, hk⟩ := hi.own j o ho
            exact ⟨n, K, ownInv_other hk (Nat.le_refl _) (fun _ h => h) rfl⟩
        · simp only [List.mem_append, List.mem_singleton, Prod.mk.injEq] at hm
          rcases hm with hm | ⟨rfl, rfl, rfl, rfl⟩
          · exact hi.log m c' b n' hm
          · exact hk.expl _ _ _ (fun _ h => h) ⟨hk.low, rfl⟩
      | sec x f =>
        cases ht : s.base.thr i with
        | none =>
          simp only [hoi, ht, Atomic.step, Option.map_some, Option.some.injEq] at h
          subst h
          have hh : ∀ e ∈ s.base.hist, e ∈ s.base.hist ++ [Event.inv s.base.next x s.base.clock] := fun e he => by simp [he]
          refine ⟨?_, fun j hj => ?_, fun j o ho => ?_, fun m c' b n' hm => explained_mono hh _ _ _ (hi.log m c' b n' hm)⟩
          · exact disc_inv hi.disc (fun k v p e => ⟨(hk.ok.1 k v p e).1, (hk.ok.1 k v p e).2.1, hk.seen k v p (hk.ok.1 k v p e).2.2⟩)
          · have e : j ≠ i := by rintro rfl; simp [hoi] at hj
            simp only [Atomic.upd_ne _ e]
            exact hi.free j hj
          · by_cases e : j = i
            · subst e
              rw [hoi] at ho
              simp only [Option.some.injEq] at ho
              subst ho
              refine ⟨n, K, Nat.le_succ_of_le hk.low, hk.ok, ?_, ?_, ?_⟩
              · intro k v p hkv
                obtain ⟨m, ⟨t, h1⟩, t', h2⟩ := hk.seen k v p hkv
                exact ⟨m, ⟨t, hh _ h1⟩, t', hh _ h2⟩
              · intro g n' b hg
                exact hk.expl g n' b (fun e he => hg e (hh e he))
              · intro a ha
                simp only [Atomic.upd_same, Option.some.injEq] at ha
                subst ha
                exact ⟨hk.low, Nat.lt_succ_self _, ⟨s.base.clock, by simp⟩, f, rfl⟩
            · obtain ⟨n, K, hk⟩ := hi.own j o ho
              exact ⟨n, K, ownInv_other hk (Nat.le_succ _) hh (Atomic.upd_ne _ e _)⟩
        | some a =>
          simp only [hoi, ht] at h
          cases hb : Atomic.step body s.base (.step i) with
          | none => simp [hb] at h
          | some b =>
            obtain ⟨hn, ⟨ext, he, hei⟩, hoth, hret, hrun⟩ := base_step ht hb
            have hh : ∀ e ∈ s.base.hist, e ∈ b.hist := fun e h => by rw [he]; simp [h]
            have hd : Disc b.hist := by rw [he]; exact disc_ext hi.disc hei
            obtain ⟨r1, r2, ⟨t, r3⟩, f', r4⟩ := hk.run a ht
            simp only [Meth.sec.injEq] at r4
            obtain ⟨rfl, rfl⟩ := r4
            have hoth' : ∀ (s1 : MSys V), s1.base = b → ∀ j o, j ≠ i → s.own j = some o → ∃ n K, OwnInv s1 j o n K := by
              rintro s1 rfl j o e ho
              obtain ⟨n, K, hk⟩ := hi.own j o ho
              exact ⟨n, K, ownInv_other hk (Nat.le_of_eq hn.symm) hh (hoth j e)⟩
            have hlog : ∀ m c' x n', (m, c', x, n') ∈ s.log → Explained b.hist n' m (meth c') x :=
              fun m c' x n' hm => explained_mono hh _ _ _ (hi.log m c' x n' hm)
            simp only [hb] at h
            by_cases hr : ∃ r, a.prog = .ret r
            · obtain ⟨r, hr⟩ := hr
              simp only [hr, Option.some.injEq] at h
              subst h
              obtain ⟨q1, t1, q2⟩ := hret r hr
              refine ⟨hd, fun j hj => ?_, fun j o ho => ?_, hlog⟩
              · by_cases e : j = i
                · subst e; exact q1
                · simp only [Atomic.upd_ne _ e] at hj
                  exact (hoth j e).trans (hi.free j hj)
              · by_cases e : j = i
                · subst e
                  simp only [Atomic.upd_same, Option.some.injEq] at ho
                  subst ho
                  refine ⟨a.id + 1, _, by simp only [hn]; omega, hk.ok.2 r, ?_, ?_, fun a' ha' => by simp only [q1] at ha'; cases ha'⟩
                  · rintro k v p (hkv | ⟨h1, h2⟩)
                    · obtain ⟨m, ⟨t, h1⟩, t', h2⟩ := hk.seen k v p hkv
                      exact ⟨m, ⟨t, hh _ h1⟩, t', hh _ h2⟩
                    · refine ⟨a.id, ⟨t, ?_⟩, t1, ?_⟩
                      · rw [← h1]; exact hh _ r3
                      · rw [← h2]; exact q2
                  · intro g n' y hg hx
                    exact hk.expl g n' y (fun e h => hg e (hh e h)) ⟨a.id, r, r1, ⟨t, hg _ (hh _ r3)⟩, ⟨t1, hg _ q2⟩, hx⟩
                · simp only [Atomic.upd_ne _ e] at ho
                  exact hoth' _ rfl j o e ho
            · have hr' : ∀ r, a.prog ≠ .ret r := fun r h => hr ⟨r, h⟩
              have hs' : s' = { s with base := b } := by
                revert h
                cases hp : a.prog with
                | ret r => exact absurd hp (hr' r)
                | _ => intro h; simp only [Option.some.injEq] at h; exact h.symm
              subst hs'
              obtain ⟨a', q1, q2, q3⟩ := hrun hr'
              refine ⟨hd, fun j hj => ?_, fun j o ho => ?_, hlog⟩
              · have e : j ≠ i := by rintro rfl; simp [hoi] at hj
                exact (hoth j e).trans (hi.free j hj)
              · by_cases e : j = i
                · subst e
                  rw [hoi] at ho
                  simp only [Option.some.injEq] at ho
                  subst ho
                  refine ⟨n, K, by simp only [hn]; exact hk.low, hk.ok, ?_, ?_, ?_⟩
                  · intro k v p hkv
                    obtain ⟨m, ⟨t, h1⟩, t', h2⟩ := hk.seen k v p hkv
                    exact ⟨m, ⟨t, hh _ h1⟩, t', hh _ h2⟩
                  · intro g n' y hg
                    exact hk.expl g n' y (fun e h => hg e (hh e h))
                  · intro a1 ha1
                    simp only [q1, Option.some.injEq] at ha1
                    subst ha1
                    rw [q2, q3]
                    exact ⟨r1, by simp only [hn]; exact r2, ⟨t, hh _ r3⟩, f, rfl⟩
                · exact hoth' _ rfl j o e ho

theorem mInv_start (hash : String → Option String) (c0 : Int) : MInv (mStart V hash c0) := by
  refine ⟨?_, fun i _ => rfl, fun i o ho => by simp [mStart] at ho, fun n c a n' hm => by simp [mStart] at hm⟩
  intro pre n k v p t post h
  simp [mStart, Atomic.start] at h

end Gears.Confstore
