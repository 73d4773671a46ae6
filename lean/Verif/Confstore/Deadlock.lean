import Verif.Common.Locks

/-
The locks that the calls of the store take, in all their courses.  What else the calls do (validating and converting
values, talking to redis, logging) is `other`: it returns, or it panics where the course says so.  After a panic the deferred
functions run; the goroutine is assumed to recover and to go on with its next call.
-/

namespace Gears.Confstore.Deadlock

open Gears.Locks

/-- confstore/loader.go:33 loadLock -/
def L : Nat := 0
/-- confstore/store.go:12 kvProcessorLock -/
def P : Nat := 1
/-- confstore/store.go:15 kvLock -/
def K : Nat := 2

/-- Instructions, and whether they end in a panic. -/
structure Code where
  code : List Instr
  panics : Bool := false

def Code.andThen (a b : Code) : Code := if a.panics then a else ⟨a.code ++ b.code, b.panics⟩

def Code.all : List Code → Code
  | [] => ⟨[], false⟩
  | a :: t => a.andThen (Code.all t)

/-- `defer`: runs also after a panic -/
def Code.deferred (a : Code) (d : List Instr) : Code := ⟨a.code ++ d, a.panics⟩

/-- The courses of UpdateNoPersist. -/
inductive Upd where
  /-- store.go:139-141 -/
  | emptyKey
  /-- store.go:147-153, not registered -/
  | unknown
  /-- store.go:155, Validate panics -/
  | validatePanics
  /-- store.go:155-161 -/
  | rejected
  /-- store.go:163-167 -/
  | accepted
  /-- store.go:164, Convert panics; kvLock.Unlock at line 166 is not deferred -/
  | convertPanics
deriving DecidableEq

/-- confstore/store.go:138-168 UpdateNoPersist -/
def update : Upd → Code
  | .emptyKey => ⟨[], false⟩
  | .unknown => ⟨[.rlock P, .runlock P], false⟩
  | .validatePanics => ⟨[.rlock P, .runlock P, .other], true⟩
  | .rejected => ⟨[.rlock P, .runlock P, .other], false⟩
  | .accepted => ⟨[.rlock P, .runlock P, .other, .lock K, .other, .unlock K], false⟩
  | .convertPanics => ⟨[.rlock P, .runlock P, .other, .lock K, .other], true⟩

inductive Policy where
  | noop | simple | spaced
deriving DecidableEq

/-- The courses of DoLoad: nothing is loaded (too early, loader.go:45-48, or redis returns an error, persister.go:46-49), or
    the pairs found in redis are put into the store (persister.go:50-56). -/
inductive Load where
  | nothing
  | pairs (us : List Upd)

/-- confstore/persister.go:44-58 Load -/
def load : Load → Code
  | .nothing => ⟨[.other], false⟩
  | .pairs us => (⟨[.other], false⟩ : Code).andThen (Code.all (us.map update))

/-- confstore/loader.go:16-18, 37-56, 66-68 DoLoad -/
def doLoad (p : Policy) (l : Load) : Code :=
  match p with
  | .noop => ⟨[], false⟩
  | .simple => load l
  | .spaced => (⟨[.lock Deadlock.L], false⟩ : Code).andThen ((load l).deferred [.unlock Deadlock.L])

/-- The calls of the store and their courses. -/
inductive Call where
  /-- RegisterKey without key or processor, DeregisterKey without key -/
  | nothing
  /-- RegisterKey and DeregisterKey; whether something inside panics -/
  | registration (panics : Bool)
  | resetKey (panics : Bool)
  | update (u : Upd)
  | batchUpdate (us : List Upd)
  | getValue (l : Load)
  | mustGetValue (l1 l2 : Load)
  | batchGet (l : Load) (ls : List Load)

/-- confstore/store.go:224-237 GetValue, 239-253 GetValueString -/
def getValue (p : Policy) (l : Load) : Code :=
  (doLoad p l).andThen ⟨[.rlock K, .other, .runlock K], false⟩

def Call.code (p : Policy) : Call → Code
  | .nothing => ⟨[], false⟩
  -- store.go:47-71, 78-93
  | .registration b => ⟨[.lock P, .lock K, .other, .unlock K, .unlock P], b⟩
  -- store.go:255-265
  | .resetKey b => ⟨[.lock K, .other, .unlock K], b⟩
  -- store.go:126-136
  | .update u => (Deadlock.update u).andThen ⟨[.other], false⟩
  -- store.go:97-124
  | .batchUpdate us => (Code.all (us.map Deadlock.update)).andThen ⟨[.other], false⟩
  | .getValue l => Deadlock.getValue p l
  -- store.go:204-222
  | .mustGetValue l1 l2 => (doLoad p l1).andThen (Deadlock.getValue p l2)
  -- store.go:170-202
  | .batchGet l ls => (doLoad p l).andThen (Code.all (ls.map (Deadlock.getValue p)))

/-- A goroutine that makes calls one after the other. -/
def goroutine (p : Policy) (cs : List Call) : List Instr := cs.flatMap (fun c => (c.code p).code)

/-! ## C93 -/

def Upd.Fine (u : Upd) : Prop := u ≠ .convertPanics

def Load.Fine : Load → Prop
  | .nothing => True
  | .pairs us => ∀ u ∈ us, u.Fine

/-- No Convert panics in the call. -/
def Call.Fine : Call → Prop
  | .nothing | .registration _ | .resetKey _ => True
  | .update u => u.Fine
  | .batchUpdate us => ∀ u ∈ us, u.Fine
  | .getValue l => l.Fine
  | .mustGetValue l1 l2 => l1.Fine ∧ l2.Fine
  | .batchGet l ls => l.Fine ∧ ∀ l ∈ ls, l.Fine

/-- The code can run when `held` is held, and gives back what it takes. -/
def Neutral (held : List (Nat × Mode)) (c : List Instr) : Prop := ∀ q, Ordered held q → Ordered held (c ++ q)

theorem neutral_append {held : List (Nat × Mode)} {a b : List Instr} (ha : Neutral held a) (hb : Neutral held b) : Neutral held (a ++ b) := by
  intro q hq
  rw [List.append_assoc]
  exact ha _ (hb _ hq)

theorem neutral_nil (held : List (Nat × Mode)) : Neutral held [] := fun _ h => h

theorem neutral_andThen {held : List (Nat × Mode)} {a b : Code} (ha : Neutral held a.code) (hb : Neutral held b.code) :
    Neutral held (a.andThen b).code := by
  simp only [Code.andThen]
  split
  · exact ha
  · exact neutral_append ha hb

theorem neutral_all {held : List (Nat × Mode)} {l : List Code} (h : ∀ a ∈ l, Neutral held a.code) : Neutral held (Code.all l).code := by
  induction l with
  | nil => exact neutral_nil _
  | cons a t ih => exact neutral_andThen (h a (by simp)) (ih (fun b hb => h b (by simp [hb])))

theorem neutral_update {held : List (Nat × Mode)} (hh : ∀ x ∈ held, x.1 < P) {u : Upd} (hu : u.Fine) : Neutral held (update u).code := by
  have hk : ∀ x ∈ held, x.1 < K := fun x hx => Nat.lt_trans (hh x hx) (by decide)
  intro q hq
  cases u with
  | convertPanics => exact absurd rfl hu
  | emptyKey => exact hq
  | unknown | validatePanics | rejected => exact ⟨hh, by simp, by simpa [Ordered] using hq⟩
  | accepted => exact ⟨hh, by simp, by simpa [Ordered] using ⟨fun a b h => hk (a, b) h, hq⟩⟩

theorem neutral_load {held : List (Nat × Mode)} (hh : ∀ x ∈ held, x.1 < P) {l : Load} (hl : l.Fine) : Neutral held (load l).code := by
  cases l with
  | nothing => exact fun q hq => hq
  | pairs us =>
    refine neutral_andThen (fun q hq => hq) (neutral_all ?_)
    simp only [List.mem_map]
    rintro a ⟨u, hu, rfl⟩
    exact neutral_update hh (hl u hu)

theorem neutral_doLoad {p : Policy} {l : Load} (hl : l.Fine) : Neutral [] (doLoad p l).code := by
  cases p with
  | noop => exact neutral_nil _
  | simple => exact neutral_load (by simp) hl
  | spaced =>
    intro q hq
    simp only [doLoad, Code.andThen, Code.deferred, List.append_assoc, List.singleton_append, Bool.false_eq_true, if_false, List.cons_append]
    refine ⟨by simp, ?_⟩
    refine neutral_load (held := [(Deadlock.L, .W)]) (by simp [P, Deadlock.L]) hl _ ?_
    exact ⟨by simp, by simpa using hq⟩

theorem neutral_getValue {p : Policy} {l : Load} (hl : l.Fine) : Neutral [] (getValue p l).code :=
  neutral_andThen (neutral_doLoad hl) (fun q hq => by simpa [Ordered] using hq)

theorem neutral_call {p : Policy} {c : Call} (hc : c.Fine) : Neutral [] (c.code p).code := by
  cases c with
  | nothing => exact neutral_nil _
  | registration b => exact fun q hq => by simpa [Call.code, Ordered, P, K] using hq
  | resetKey b => exact fun q hq => by simpa [Call.code, Ordered] using hq
  | update u => exact neutral_andThen (neutral_update (by simp) hc) (fun q hq => hq)
  | batchUpdate us =>
    refine neutral_andThen (neutral_all ?_) (fun q hq => hq)
    simp only [List.mem_map]
    rintro a ⟨u, hu, rfl⟩
    exact neutral_update (by simp) (hc u hu)
  | getValue l => exact neutral_getValue hc
  | mustGetValue l1 l2 => exact neutral_andThen (neutral_doLoad hc.1) (neutral_getValue hc.2)
  | batchGet l ls =>
    refine neutral_andThen (neutral_doLoad hc.1) (neutral_all ?_)
    simp only [List.mem_map]
    rintro a ⟨u, hu, rfl⟩
    exact neutral_getValue (hc.2 u hu)

theorem ordered_goroutine {p : Policy} {cs : List Call} (h : ∀ c ∈ cs, c.Fine) : Ordered [] (goroutine p cs) := by
  induction cs with
  | nil => rfl
  | cons c t ih =>
    simp only [goroutine, List.flatMap_cons]
    exact neutral_call (h c (by simp)) _ (ih (fun c hc => h c (by simp [hc])))

/-- The state in which `n` goroutines begin to make calls. -/
def begin (p : Policy) (calls : Nat → List Call) : State := start (fun i => goroutine p (calls i))

/-- C93 in full: in every state that the goroutines can get to, all their calls can still be completed. -/
def C93Claim : Prop := ∀ (p : Policy) (n : Nat) (calls : Nat → List Call) (s : State), (∀ i, n ≤ i → calls i = []) →
  Reachable step (begin p calls) s → ∃ sched s', exec step s sched = some s' ∧ ∀ i, (s'.gor i).rest = []

/-- One goroutine's Convert panics, the other one reads. -/
def exCalls : Nat → List Call
  | 0 => [.update .convertPanics]
  | 1 => [.getValue .nothing]
  | _ => []

/-- **C93** (violated): once a goroutine has ended in a panic of Convert, and so keeps kvLock (store.go:163-166), a goroutine
    that is about to take kvLock never gets any further, whatever the others do. -/
theorem C93_stuck_violated {s s' : State} {i j : Nat} (hk : (s.lock K).writer = some i) (he : (s.gor i).rest = [])
    (hj : (s.gor j).rest.head? = some (.rlock K) ∨ (s.gor j).rest.head? = some (.lock K)) (hw : (s.gor j).wait = .no)
    (hn : ∀ l, j ∉ (s.lock l).waiting) {sched : List Nat} (h : exec step s sched = some s') :
    ((s'.gor j).rest.head? = some (.rlock K) ∨ (s'.gor j).rest.head? = some (.lock K)) :=
  (exec_inv (I := Stuck K i j) (fun _ _ _ a b => stuck_step a b) _ _ _
    ⟨hk, he, hj, by simp [hw], fun l hl => absurd hl (hn l)⟩ h).wants

/-- **C93** (violated): if Convert panics in an update, then a read afterwards cannot be completed. -/
theorem C93_violated : ¬ C93Claim := by
  intro h
  obtain ⟨sched, s', hs, hd⟩ := h .noop 2 exCalls _ (fun i hi => by
    match i, hi with
    | i + 2, _ => rfl) ⟨[0, 0, 0, 0, 0, 0], rfl⟩
  have hk := C93_stuck_violated (i := 0) (j := 1) rfl rfl (.inl rfl) rfl (by
    intro l
    by_cases h1 : l = K
    · subst h1; simp [Locks.set, begin, start, P, K]
    · by_cases h2 : l = P
      · subst h2; simp [Locks.set, begin, start, P, K]
      · simp [Locks.set, begin, start, h1, h2]) hs
  rcases hk with h1 | h1 <;> simp [hd 1] at h1

/-- **C93** (partial): if no Convert panics, then however many goroutines make whatever calls, at any time all are done or one
    of them can go on, there is an end to it, and all calls can be completed.  Missing: processors whose Convert
    panics. -/
theorem C93_partial (p : Policy) (n : Nat) (calls : Nat → List Call) (hf : ∀ i, ∀ c ∈ calls i, c.Fine)
    (hn : ∀ i, n ≤ i → calls i = []) {sched : List Nat} {s : State} (h : exec step (begin p calls) sched = some s) :
    ((∀ i, i < n → (s.gor i).rest = []) ∨ ∃ i, i < n ∧ (step s i).isSome) ∧
    sched.length ≤ 2 * size (fun i => goroutine p (calls i)) n ∧
    ∃ more s', exec step s more = some s' ∧ ∀ i, (s'.gor i).rest = [] := by
  have hp : ∀ i, Ordered [] (goroutine p (calls i)) := fun i => ordered_goroutine (hf i)
  have hout : ∀ i, n ≤ i → goroutine p (calls i) = [] := fun i hi => by rw [hn i hi]; rfl
  obtain ⟨h1, h2⟩ := no_deadlock hp hout h
  refine ⟨h1, h2, ?_⟩
  obtain ⟨h3, h4, _⟩ := run (n := n) (inv_start hp) (by simpa [start] using hout) h
  obtain ⟨more, s', h5, h6⟩ := completes h3 h4
  obtain ⟨_, h8, _⟩ := run (n := n) h3 h4 h5
  refine ⟨more, s', h5, fun i => ?_⟩
  by_cases hi : i < n
  · exact h6 i hi
  · exact h8 i (by omega)

/-- The theorem is about something: two goroutines, one of which loads while the other one registers a key. -/
example : ∃ s, exec step (begin .spaced (fun i => if i = 0 then [.getValue (.pairs [.accepted])] else if i = 1 then
      [.registration false] else [])) [0, 0, 0, 1, 0] = some s ∧ (s.gor 0).wait = .reader ∧ (s.gor 1).wait = .writer ∧
    step s 0 = none ∧ (step s 1).isSome :=
  ⟨_, rfl, rfl, rfl, rfl, rfl⟩

end Gears.Confstore.Deadlock
