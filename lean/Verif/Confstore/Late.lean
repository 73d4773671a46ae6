import Verif.Confstore.Cluster

/-
Stores that share a redis hash over a network that delays and loses commands (/repo/confstore/persister.go on top of go-redis
v7.2.0, `baseClient._process`).

A command is sent up to `MaxRetries + 1` times, again whenever no answer has arrived.  Redis may execute a transmission at any later
time or never, also when the call has returned.  The client takes the answer to the transmission it sent last.

Simplification: the loops of `BatchUpdate` and `Load` over the pairs are one step (`Cluster` has them in single steps), and a call
that waits for redis does not keep others from the store (`ResetKey` and `DeregisterKey` do): more can happen here, not less.
-/

namespace Gears.Confstore.Late

open Gears.Confstore

variable {V : Type}

/-- The commands that change the hash: HMSET (persister.go:73) and HDEL (persister.go:81). -/
inductive Cmd where
  | set (l : List KVStr)
  | del (k : String)
deriving Repr, DecidableEq

def Cmd.apply (h : String → Option String) : Cmd → (String → Option String)
  | .set l => hashSet h l
  | .del k => setKey h k none

/-- The last value a list of pairs gives to a key. -/
def lastOf (k : String) : List KVStr → Option String
  | [] => none
  | x :: l =>
    match lastOf k l with
    | some v => some v
    | none => if x.key = k then some x.value else none

/-- What the command makes of field `k`; `none`: nothing. -/
def Cmd.val (k : String) : Cmd → Option (Option String)
  | .set l => (lastOf k l).map some
  | .del k' => if k' = k then some none else none

/-- Redis executed the `n`-th transmission of call `id`. -/
structure Ex where
  id  : Nat
  n   : Nat
  cmd : Cmd
deriving Repr, DecidableEq

structure LNet (V : Type) where
  hash  : String → Option String
  node  : Nat → State V
  log   : List Ex
  /-- the command of a call that has begun -/
  cmd   : Nat → Option Cmd
  tries : Nat → Nat
  /-- the call has returned; `true`: redis has answered, or there was nothing to send -/
  out   : Nat → Option Bool

def lnInit (V : Type) (hash : String → Option String) : LNet V := ⟨hash, fun _ => new V hash, [], fun _ => none, fun _ => 0, fun _ => none⟩

def upd {β : Type} (f : Nat → β) (i : Nat) (x : β) : Nat → β := fun j => if j = i then x else f j

inductive Act (V : Type) where
  | register (i : Nat) (k d : String) (vp : Option (Proc V))
  | batch (id i : Nat) (l : List KVStr)
  | update (id i : Nat) (k v : String)
  | reset (id i : Nat) (k : String)
  | deregister (id i : Nat) (k : String)
  | send (id : Nat)
  | run (id n : Nat)
  | ack (id : Nat)
  | fail (id : Nat)
  /-- HGETALL and the loop over the result, `ks` is the order of the map iteration -/
  | load (i : Nat) (ks : List String)

/-- The call has done its work on the store `s` and is about to send `c`, if anything. -/
def LNet.begin (c : LNet V) (id i : Nat) (s : State V) (cmd : Option Cmd) : Option (LNet V) :=
  if c.cmd id = none ∧ c.out id = none then
    some { c with
      node := upd c.node i s
      cmd := upd c.cmd id cmd
      out := upd c.out id (if cmd = none then some true else none) }
  else none

/-- The command of `BatchSave` (persister.go:64-78). -/
def save : List KVStr → Option Cmd
  | [] => none
  | l => some (.set l)

def step (R : Nat) (c : LNet V) : Act V → Option (LNet V)
  | .register i k d vp => some { c with node := upd c.node i (register (c.node i) k d vp).1 }
  | .batch id i l => c.begin id i (batchApply (c.node i) l).1 (save (okPairs l (batchApply (c.node i) l).2))          -- store.go:97-124
  | .update id i k v =>                                                                                             -- store.go:126-136
    match updateNoPersist (c.node i) k v with
    | (s, none) => c.begin id i s none
    | (s, some _) => c.begin id i s (save [⟨k, v⟩])
  | .reset id i k => c.begin id i (reset (c.node i) k .err) (some (.del k))                                           -- store.go:255-265
  | .deregister id i k => c.begin id i (deregister (c.node i) k .err) (if k = "" then none else some (.del k))        -- store.go:73-95
  | .send id =>
    if c.cmd id ≠ none ∧ c.out id = none ∧ c.tries id ≤ R then some { c with tries := upd c.tries id (c.tries id + 1) } else none
  | .run id n =>
    match c.cmd id with
    | none => none
    | some m =>
      if n < c.tries id ∧ (c.log.all fun e => !(e.id == id && e.n == n)) = true then
        some { c with hash := m.apply c.hash, log := c.log ++ [⟨id, n, m⟩] }
      else none
  | .ack id =>
    if c.out id = none ∧ (c.log.any fun e => e.id == id && e.n + 1 == c.tries id) = true then
      some { c with out := upd c.out id (some true) }
    else none
  | .fail id => if c.cmd id ≠ none ∧ c.out id = none then some { c with out := upd c.out id (some false) } else none
  | .load i ks =>
    some { c with node := upd c.node i (loadPairs (c.node i) (ks.filterMap fun k => (c.hash k).map fun v => ⟨k, v⟩)) }

/-! ### Effect of a command -/

theorem hashSet_lastOf (l : List KVStr) : ∀ (h : String → Option String) (k : String), hashSet h l k = (match lastOf k l with | some v => some v | none => h k) := by
  induction l with
  | nil => intro h k; rfl
  | cons x l ih =>
    intro h k
    rw [hashSet, ih]
    simp only [lastOf]
    cases lastOf k l with
    | some v => rfl
    | none =>
      by_cases hk : x.key = k
      · simp [setKey, hk]
      · have : k ≠ x.key := fun h => hk h.symm
        simp [setKey, hk, this]

theorem apply_val (h : String → Option String) (c : Cmd) (k : String) : c.apply h k = (c.val k).getD (h k) := by
  cases c with
  | set l =>
    simp only [Cmd.apply, Cmd.val, hashSet_lastOf]
    cases lastOf k l <;> rfl
  | del k' =>
    by_cases hk : k' = k
    · simp [Cmd.apply, Cmd.val, setKey, hk]
    · have : k ≠ k' := fun h => hk h.symm
      simp [Cmd.apply, Cmd.val, setKey, hk, this]

theorem lastOf_mem {k v : String} : ∀ {l : List KVStr}, lastOf k l = some v → (⟨k, v⟩ : KVStr) ∈ l
  | x :: l, h => by
    simp only [lastOf] at h
    split at h
    · rename_i v' hv
      cases h
      exact List.mem_cons_of_mem _ (lastOf_mem hv)
    · split at h
      · rename_i hk
        cases h
        subst hk
        exact List.mem_cons_self
      · simp at h

/-! ### Invariant -/

structure Inv (R : Nat) (c : LNet V) : Prop where
  calls : ∀ e ∈ c.log, c.cmd e.id = some e.cmd ∧ e.n < c.tries e.id
  few   : ∀ id, c.tries id ≤ R + 1
  none_ : ∀ id, c.cmd id = none → c.tries id = 0
  acked : ∀ id m, c.cmd id = some m → c.out id = some true → ∃ e ∈ c.log, e.id = id ∧ e.n + 1 = c.tries id

theorem inv_init (R : Nat) (hash : String → Option String) : Inv R (lnInit V hash) := by
  constructor <;> simp [lnInit]

/-- What a step can do, for the proofs. -/
inductive Kind (R : Nat) (c c' : LNet V) : Prop where
  | quiet (hh : c'.hash = c.hash) (hl : c'.log = c.log) (hc : c'.cmd = c.cmd) (ht : c'.tries = c.tries) (ho : c'.out = c.out)
  | begin (id : Nat) (m : Option Cmd) (hn : c.cmd id = none) (hno : c.out id = none) (hh : c'.hash = c.hash) (hl : c'.log = c.log) (hc : c'.cmd = upd c.cmd id m)
      (ht : c'.tries = c.tries) (ho : c'.out = upd c.out id (if m = none then some true else none))
  | send (id : Nat) (hn : c.cmd id ≠ none) (hno : c.out id = none) (hR : c.tries id ≤ R) (hh : c'.hash = c.hash) (hl : c'.log = c.log) (hc : c'.cmd = c.cmd)
      (ht : c'.tries = upd c.tries id (c.tries id + 1)) (ho : c'.out = c.out)
  | run (id n : Nat) (m : Cmd) (hm : c.cmd id = some m) (hn : n < c.tries id) (hnew : ∀ e ∈ c.log, ¬ (e.id = id ∧ e.n = n)) (hh : c'.hash = m.apply c.hash)
      (hl : c'.log = c.log ++ [⟨id, n, m⟩]) (hc : c'.cmd = c.cmd) (ht : c'.tries = c.tries) (ho : c'.out = c.out)
  | done (id : Nat) (b : Bool) (hno : c.out id = none) (hb : b = true → ∃ e ∈ c.log, e.id = id ∧ e.n + 1 = c.tries id) (hh : c'.hash = c.hash) (hl : c'.log = c.log)
      (hc : c'.cmd = c.cmd) (ht : c'.tries = c.tries) (ho : c'.out = upd c.out id (some b))

theorem kind_begin {R : Nat} {c c' : LNet V} {id i : Nat} {s : State V} {m : Option Cmd} (hb : c.begin id i s m = some c') : Kind R c c' := by
  simp only [LNet.begin, Option.ite_none_right_eq_some, Option.some.injEq] at hb
  obtain ⟨⟨hc, ho⟩, rfl⟩ := hb
  exact .begin id m hc ho rfl rfl rfl rfl rfl

theorem kind {R : Nat} {c c' : LNet V} {a : Act V} (h : step R c a = some c') : Kind R c c' := by
  cases a with
  | register i k d vp =>
    simp only [step, Option.some.injEq] at h
    subst h
    exact .quiet rfl rfl rfl rfl rfl
  | load i ks =>
    simp only [step, Option.some.injEq] at h
    subst h
    exact .quiet rfl rfl rfl rfl rfl
  | batch id i l => exact kind_begin h
  | update id i k v =>
    simp only [step] at h
    split at h <;> exact kind_begin h
  | reset id i k => exact kind_begin h
  | deregister id i k => exact kind_begin h
  | send id =>
    simp only [step, Option.ite_none_right_eq_some, Option.some.injEq] at h
    obtain ⟨⟨h1, h2, h3⟩, rfl⟩ := h
    exact .send id h1 h2 h3 rfl rfl rfl rfl rfl
  | run id n =>
    simp only [step] at h
    split at h
    · simp at h
    · rename_i m hm
      simp only [Option.ite_none_right_eq_some, Option.some.injEq, List.all_eq_true] at h
      obtain ⟨⟨h1, h2⟩, rfl⟩ := h
      refine .run id n m hm h1 (fun e he => ?_) rfl rfl rfl rfl rfl
      have := h2 e he
      simp only [Bool.not_eq_true', Bool.and_eq_false_iff, beq_eq_false_iff_ne] at this
      rintro ⟨h3, h4⟩
      rcases this with h | h
      · exact h h3
      · exact h h4
  | ack id =>
    simp only [step, Option.ite_none_right_eq_some, Option.some.injEq, List.any_eq_true, Bool.and_eq_true, beq_iff_eq] at h
    obtain ⟨⟨h1, h2⟩, rfl⟩ := h
    exact .done id true h1 (fun _ => h2) rfl rfl rfl rfl rfl
  | fail id =>
    simp only [step, Option.ite_none_right_eq_some, Option.some.injEq] at h
    obtain ⟨⟨h1, h2⟩, rfl⟩ := h
    exact .done id false h2 (by simp) rfl rfl rfl rfl rfl

theorem inv_step (R : Nat) (c : LNet V) (a : Act V) (c' : LNet V) (h : Inv R c) (hs : step R c a = some c') : Inv R c' := by
  obtain ⟨h1, h2, h3, h4⟩ := h
  cases kind hs with
  | quiet hh hl hc ht ho => exact ⟨by rw [hl, hc, ht]; exact h1, by rw [ht]; exact h2, by rw [hc, ht]; exact h3, by rw [hc, ho, hl, ht]; exact h4⟩
  | begin id m hn hno hh hl hc ht ho =>
    constructor
    · rw [hl, hc, ht]; simp only [upd]; grind
    · rw [ht]; exact h2
    · rw [hc, ht]; simp only [upd]; grind
    · rw [hc, ho, hl, ht]; simp only [upd]; grind
  | send id hn hno hR hh hl hc ht ho =>
    constructor
    · rw [hl, hc, ht]; simp only [upd]; grind
    · rw [ht]; simp only [upd]; grind
    · rw [hc, ht]; simp only [upd]; grind
    · rw [hc, ho, hl, ht]; simp only [upd]; grind
  | run id n m hm hn hnew hh hl hc ht ho =>
    constructor
    · rw [hl, hc, ht]; simp only [List.mem_append, List.mem_singleton]; grind
    · rw [ht]; exact h2
    · rw [hc, ht]; exact h3
    · rw [hc, ho, hl, ht]
      intro id' m' hc' ho'
      obtain ⟨e, he, h⟩ := h4 id' m' hc' ho'
      exact ⟨e, by simp [he], h⟩
  | done id b hno hb hh hl hc ht ho =>
    constructor
    · rw [hl, hc, ht]; exact h1
    · rw [ht]; exact h2
    · rw [hc, ht]; exact h3
    · rw [hc, ho, hl, ht]
      intro id' m' hc' ho'
      simp only [upd] at ho'
      split at ho'
      · rename_i h
        subst h
        cases ho'
        exact hb rfl
      · exact h4 id' m' hc' ho'

theorem inv {R : Nat} {hash : String → Option String} {as : List (Act V)} {c : LNet V} (h : exec (step R) (lnInit V hash) as = some c) : Inv R c :=
  exec_inv (inv_step R) as _ _ (inv_init R hash) h

/-- Commands do not change. -/
theorem cmd_keep {R : Nat} {c c' : LNet V} {a : Act V} (hs : step R c a = some c') {id : Nat} {m : Cmd} (h : c.cmd id = some m) : c'.cmd id = some m := by
  cases kind hs with
  | quiet hh hl hc ht ho => rw [hc]; exact h
  | begin id' m' hn hno hh hl hc ht ho =>
    rw [hc]
    have : id ≠ id' := by rintro rfl; rw [hn] at h; simp at h
    simp [upd, this, h]
  | send id' hn hno hR hh hl hc ht ho => rw [hc]; exact h
  | run id' n m' hm hn hnew hh hl hc ht ho => rw [hc]; exact h
  | done id' b hno hb hh hl hc ht ho => rw [hc]; exact h

end Gears.Confstore.Late
