import Verif.Confstore.Reads

/-
Several processes with a store each, all with a redis persister on the same hash (persister.go:32-37 with one configKeyRoot).

* The steps of `BatchUpdate` and of `Load` are those between which others can intervene: every `UpdateNoPersist` (store.go:104, persister.go:51), the
  HMSET (store.go:122), the HGETALL (persister.go:45).
* `Update` is one step: its local effect and its HMSET never concern the same value (C60).  `ResetKey` and `DeregisterKey` are one step: between their
  effect on the store and the HDEL they hold the lock of the store, and other processes see the hash only.
-/

namespace Gears.Confstore

variable {V : Type}

/-- A call in progress. -/
inductive Job where
  /-- `BatchUpdate` (store.go:97-124): all pairs, those of the loop still to do, and the errors so far -/
  | batch (all todo : List KVStr) (errs : List KVError)
  /-- `Load` (persister.go:44-58): the pairs still to do -/
  | load (todo : List KVStr)
deriving DecidableEq

structure Net (V : Type) where
  /-- the redis hash -/
  hash : String → Option String
  /-- the stores of the processes; their field `hash` is not used -/
  node : Nat → State V
  /-- calls in progress, with the number of their process -/
  jobs : List (Nat × Job)
  /-- for the statements: the pairs written by successful batches, in the order in which redis wrote them -/
  log  : List KVStr

/-- The store of a process and what redis has. -/
def Net.view (c : Net V) (i : Nat) : State V := { c.node i with hash := c.hash }

def Net.put (c : Net V) (i : Nat) (s : State V) : Net V := { c with hash := s.hash, node := fun j => if j = i then s else c.node j }

inductive NAct (V : Type) where
  | register (i : Nat) (k d : String) (vp : Option (Proc V))
  | deregister (i : Nat) (k : String) (r : PRes)
  | updateNoPersist (i : Nat) (k v : String)
  | update (i : Nat) (k v : String) (r : PRes)
  | reset (i : Nat) (k : String) (r : PRes)
  /-- a call of `BatchUpdate` -/
  | startBatch (i : Nat) (l : List KVStr)
  /-- a load begins: HGETALL; `ks` is the order of the map iteration -/
  | startLoad (i : Nat) (ks : List String)
  /-- the `n`th call in progress does its next `UpdateNoPersist` -/
  | step (n : Nat)
  /-- the `n`th call in progress has done its loop: it ends, a batch with HMSET -/
  | finish (n : Nat) (r : PRes)

/-- The pairs without an error for their key (store.go:111-121). -/
def okPairs (all : List KVStr) (errs : List KVError) : List KVStr := all.filter fun x => !errs.any (fun e => e.key = x.key)

def nStep (c : Net V) : NAct V → Option (Net V)
  | .register i k d vp => some (c.put i (register (c.view i) k d vp).1)
  | .deregister i k r => some (c.put i (deregister (c.view i) k r))
  | .updateNoPersist i k v => some (c.put i (updateNoPersist (c.view i) k v).1)
  | .update i k v r => some (c.put i (update (c.view i) k v r).1)
  | .reset i k r => some (c.put i (reset (c.view i) k r))
  | .startBatch i l => some { c with jobs := c.jobs ++ [(i, .batch l l [])] }
  | .startLoad i ks => some { c with jobs := c.jobs ++ [(i, .load (ks.filterMap fun k => (c.hash k).map fun v => ⟨k, v⟩))] }
  | .step n =>
    match c.jobs[n]? with
    | some (i, .batch all (x :: todo) errs) =>
      let r := updateNoPersist (c.view i) x.key x.value
      some { c.put i r.1 with jobs := c.jobs.set n (i, .batch all todo (errs ++ r.2.toList)) }
    | some (i, .load (x :: todo)) =>
      some { c.put i (updateNoPersist (c.view i) x.key x.value).1 with jobs := c.jobs.set n (i, .load todo) }
    | _ => none
  | .finish n r =>
    match c.jobs[n]? with
    | some (_, .batch all [] errs) =>
      some { c with
        hash := (batchSave c.hash (okPairs all errs) r).1
        jobs := c.jobs.eraseIdx n
        log := if r.done then c.log ++ okPairs all errs else c.log }
    | some (_, .load []) => some { c with jobs := c.jobs.eraseIdx n }
    | _ => none

/-- New stores; redis may have values already. -/
def nInit (V : Type) (hash : String → Option String) : Net V := ⟨hash, fun _ => new V hash, [], []⟩

/-- One batch alone does what `BatchUpdate` does. -/
theorem batch_alone (all : List KVStr) (i : Nat) (r : PRes) : ∀ (todo : List KVStr) (errs : List KVError) (c : Net V), c.jobs = [(i, .batch all todo errs)] →
    ∃ c', exec nStep c (List.replicate todo.length (.step 0) ++ [.finish 0 r]) = some c' ∧ c'.jobs = [] ∧
      c'.hash = (batchSave c.hash (okPairs all (errs ++ (batchApply (c.view i) todo).2)) r).1 ∧
      c'.view i = { (batchApply (c.view i) todo).1 with hash := c'.hash }
  | [], errs, c, h => by
    refine ⟨{ c with hash := (batchSave c.hash (okPairs all errs) r).1, jobs := [], log := if r.done then c.log ++ okPairs all errs else c.log }, ?_, rfl, ?_, ?_⟩
    · simp [exec, nStep, h]
    · simp [batchApply]
    · simp [batchApply, Net.view]
  | x :: todo, errs, c, h => by
    have hs : nStep c (.step 0) = some { c.put i (updateNoPersist (c.view i) x.key x.value).1 with
        jobs := [(i, .batch all todo (errs ++ (updateNoPersist (c.view i) x.key x.value).2.toList))] } := by
      simp [nStep, h]
    have hh : (updateNoPersist (c.view i) x.key x.value).1.hash = c.hash := by
      unfold updateNoPersist
      split
      · rfl
      split
      · rfl
      · split <;> rfl
    obtain ⟨c', h1, h2, h3, h4⟩ := batch_alone all i r todo (errs ++ (updateNoPersist (c.view i) x.key x.value).2.toList)
      { c.put i (updateNoPersist (c.view i) x.key x.value).1 with
        jobs := [(i, .batch all todo (errs ++ (updateNoPersist (c.view i) x.key x.value).2.toList))] } rfl
    refine ⟨c', ?_, h2, ?_, ?_⟩
    · simp only [List.length_cons, List.replicate_succ, List.cons_append, exec, hs]
      exact h1
    all_goals
      have hv : Net.view { c.put i (updateNoPersist (c.view i) x.key x.value).1 with
        jobs := [(i, .batch all todo (errs ++ (updateNoPersist (c.view i) x.key x.value).2.toList))] } i = (updateNoPersist (c.view i) x.key x.value).1 := by
        simp [Net.view, Net.put]
      rw [hv] at h3 h4
      simp only [Net.put, hh] at h3
      rcases hu : updateNoPersist (c.view i) x.key x.value with ⟨s1, _ | e⟩
      all_goals
        rw [hu] at h3 h4
        simp only [batchApply, hu]
        first
        | exact h4
        | (rw [h3]; simp)

/-! ## C129 -/

/-- The redis commands of the action succeed. -/
def NAct.fine : NAct V → Prop
  | .deregister _ _ r | .update _ _ _ r | .reset _ _ r | .finish _ r => r = .ok
  | _ => True

/-- The claim: when all calls have returned and no redis command has failed, processes that have registered a key alike read the same value. -/
def C129Claim (V : Type) : Prop := ∀ (hash : String → Option String) (as : List (NAct V)) (c : Net V) (i j : Nat) (k : String) (oi oj : List KVStr),
  exec nStep (nInit V hash) as = some c → (∀ a ∈ as, a.fine) → c.jobs = [] → (c.node i).proc k = (c.node j).proc k →
  (c.node i).dfltStr k = (c.node j).dfltStr k → Enumerates oi c.hash → Enumerates oj c.hash →
  getValueString (loadPairs (c.view i) oi) k = getValueString (loadPairs (c.view j) oj) k

/-- Nobody touches the key. -/
def Away (k : String) : NAct V → Prop
  | .register _ k' _ _ | .deregister _ k' _ | .updateNoPersist _ k' _ | .update _ k' _ _ | .reset _ k' _ => k' ≠ k
  | .startBatch _ l => ∀ x ∈ l, x.key ≠ k
  | _ => True

/-- The pairs a call has still to deal with. -/
def Job.pairs : Job → List KVStr
  | .batch all todo _ => all ++ todo
  | .load todo => todo

theorem unp_ne (s : State V) (k' v k : String) (h : k' ≠ k) : (updateNoPersist s k' v).1.kvStr k = s.kvStr k ∧ (updateNoPersist s k' v).1.kv k = s.kv k := by
  unfold updateNoPersist
  split
  · simp
  split
  · simp
  split
  · simp
  · simp [setKey, h.symm]

theorem unp_frame (s : State V) (k' v : String) : (updateNoPersist s k' v).1.hash = s.hash ∧ (updateNoPersist s k' v).1.proc = s.proc ∧
    (updateNoPersist s k' v).1.dflt = s.dflt ∧ (updateNoPersist s k' v).1.dfltStr = s.dfltStr := by
  unfold updateNoPersist
  split
  · simp
  split
  · simp
  split <;> simp

/-- What stays as it is while nobody touches a key that redis does not have. -/
def Still (k : String) (c : Net V) (st : Nat → Option String) (d : Nat → Option String) : Prop :=
  c.hash k = none ∧ (∀ x ∈ c.jobs, ∀ p ∈ x.2.pairs, p.key ≠ k) ∧ ∀ i, (c.node i).kvStr k = st i ∧ (c.node i).dfltStr k = d i

theorem still_put {k : String} {c : Net V} {st d : Nat → Option String} (h : Still k c st d) (i : Nat) (s : State V) (h1 : s.hash k = none)
    (h2 : s.kvStr k = (c.node i).kvStr k) (h3 : s.dfltStr k = (c.node i).dfltStr k) : Still k (c.put i s) st d := by
  refine ⟨h1, h.2.1, fun j => ?_⟩
  simp only [Net.put]
  split
  · rename_i e; subst e; rw [h2, h3]; exact h.2.2 _
  · exact h.2.2 j

theorem lastValue_none {l : List KVStr} {k : String} (h : ∀ x ∈ l, x.key ≠ k) : lastValue l k = none := by
  have : l.filter (fun x => x.key = k) = [] := by
    rw [List.filter_eq_nil_iff]
    intro x hx
    simpa using h x hx
  simp [lastValue, this]

theorem still_step {k : String} {st d : Nat → Option String} (c : Net V) (a : NAct V) (c' : Net V) (ha : Away k a) (h : Still k c st d)
    (hs : nStep c a = some c') : Still k c' st d := by
  have hj := h.2.1
  cases a with
  | register i k' dv vp =>
    simp only [nStep, Option.some.injEq] at hs
    subst hs
    have : k ≠ k' := fun e => ha e.symm
    have h1 := h.1
    refine still_put h _ _ ?_ ?_ ?_ <;> unfold register <;> (repeat' split) <;> simp [Net.view, setKey, this, h1]
  | deregister i k' r =>
    simp only [nStep, Option.some.injEq] at hs
    subst hs
    have : k ≠ k' := fun e => ha e.symm
    have h1 := h.1
    refine still_put h _ _ ?_ ?_ ?_ <;> unfold deregister hashDelete <;> (repeat' split) <;> simp [Net.view, setKey, this, h1]
  | updateNoPersist i k' v =>
    simp only [nStep, Option.some.injEq] at hs
    subst hs
    have hf := unp_frame (c.view i) k' v
    exact still_put h _ _ (by rw [hf.1]; exact h.1) (unp_ne (c.view i) k' v k ha).1 (by rw [hf.2.2.2]; rfl)
  | update i k' v r =>
    simp only [nStep, Option.some.injEq] at hs
    subst hs
    have hf := unp_frame (c.view i) k' v
    have hn := unp_ne (c.view i) k' v k ha
    have hh : ∀ (hash : String → Option String), hash k = none → (batchSave hash [⟨k', v⟩] r).1 k = none := by
      intro hash h0
      have : k ≠ k' := fun e => ha e.symm
      simp only [batchSave, reduceCtorEq, if_false]
      split
      · simp [hashSet, setKey, this, h0]
      · exact h0
    unfold update
    rcases hu : updateNoPersist (c.view i) k' v with ⟨s1, _ | e⟩
    · rw [hu] at hf hn
      exact still_put h _ _ (by rw [hf.1]; exact h.1) hn.1 (by rw [hf.2.2.2]; rfl)
    · rw [hu] at hf hn
      have h0 : s1.hash k = none := by rw [hf.1]; exact h.1
      rcases hb : batchSave s1.hash [⟨k', v⟩] r with ⟨hh', b⟩
      have := hh s1.hash h0
      rw [hb] at this
      cases b
      all_goals
        simp only [hb]
        refine still_put h _ _ this hn.1 ?_
        show s1.dfltStr k = _
        rw [hf.2.2.2]; rfl
  | reset i k' r =>
    simp only [nStep, Option.some.injEq] at hs
    subst hs
    have : k ≠ k' := fun e => ha e.symm
    have h1 := h.1
    refine still_put h _ _ ?_ ?_ ?_ <;> unfold reset hashDelete <;> (repeat' split) <;> simp [Net.view, setKey, this, h1]
  | startBatch i l =>
    simp only [nStep, Option.some.injEq] at hs
    subst hs
    refine ⟨h.1, ?_, h.2.2⟩
    intro x hx p hp
    rcases List.mem_append.1 hx with hx | hx
    · exact hj x hx p hp
    · simp at hx
      subst hx
      simp [Job.pairs] at hp
      exact ha p hp
  | startLoad i ks =>
    simp only [nStep, Option.some.injEq] at hs
    subst hs
    refine ⟨h.1, ?_, h.2.2⟩
    intro x hx p hp
    rcases List.mem_append.1 hx with hx | hx
    · exact hj x hx p hp
    · simp at hx
      subst hx
      simp only [Job.pairs, List.mem_filterMap, Option.map_eq_some_iff] at hp
      obtain ⟨q, -, v, hv, rfl⟩ := hp
      rintro rfl
      rw [h.1] at hv
      simp at hv
  | step n =>
    simp only [nStep] at hs
    split at hs
    · rename_i i all x todo errs hx
      simp only [Option.some.injEq] at hs
      subst hs
      have hm := List.mem_of_getElem? hx
      have hk := hj _ hm x (by simp [Job.pairs])
      have hf := unp_frame (c.view i) x.key x.value
      have := still_put h i (updateNoPersist (c.view i) x.key x.value).1 (by rw [hf.1]; exact h.1) (unp_ne (c.view i) x.key x.value k hk).1
        (by rw [hf.2.2.2]; rfl)
      refine ⟨this.1, ?_, this.2.2⟩
      intro y hy p hp
      rcases List.mem_or_eq_of_mem_set hy with hy | rfl
      · exact hj y hy p hp
      · exact hj _ hm p (by simp [Job.pairs] at hp ⊢; rcases hp with hp | hp <;> simp [hp])
    · rename_i i x todo hx
      simp only [Option.some.injEq] at hs
      subst hs
      have hm := List.mem_of_getElem? hx
      have hk := hj _ hm x (by simp [Job.pairs])
      have hf := unp_frame (c.view i) x.key x.value
      have := still_put h i (updateNoPersist (c.view i) x.key x.value).1 (by rw [hf.1]; exact h.1) (unp_ne (c.view i) x.key x.value k hk).1
        (by rw [hf.2.2.2]; rfl)
      refine ⟨this.1, ?_, this.2.2⟩
      intro y hy p hp
      rcases List.mem_or_eq_of_mem_set hy with hy | rfl
      · exact hj y hy p hp
      · exact hj _ hm p (by simp [Job.pairs] at hp ⊢; simp [hp])
    · simp at hs
  | finish n r =>
    simp only [nStep] at hs
    split at hs
    · rename_i i all errs hx
      simp only [Option.some.injEq] at hs
      subst hs
      have hm := List.mem_of_getElem? hx
      refine ⟨?_, fun y hy => hj y (List.mem_of_mem_eraseIdx hy), h.2.2⟩
      show (batchSave c.hash (okPairs all errs) r).1 k = none
      unfold batchSave
      split
      · exact h.1
      · simp only
        split
        · rw [hashSet_apply, lastValue_none]
          · exact h.1
          · intro p hp
            exact hj _ hm p (by simp [Job.pairs, (List.mem_filter.1 hp).1])
        · exact h.1
    · simp only [Option.some.injEq] at hs
      subst hs
      exact ⟨h.1, fun y hy => hj y (List.mem_of_mem_eraseIdx hy), h.2.2⟩
    · simp at hs

/-- What a process reads (with a load) of a key that redis does not have: what it has itself. -/
theorem reads_own {k : String} {c : Net V} {st d : Nat → Option String} (h : Still k c st d) (i : Nat) (o : List KVStr) (ho : Enumerates o c.hash) :
    getValueString (loadPairs (c.view i) o) k = (match st i with | some v => some v | none => d i) := by
  obtain ⟨h1, h2⟩ := (C64_load (c.view i) o ho).2.1 k (fun v hv => by
    have : c.hash k = some v := hv
    rw [h.1] at this; simp at this)
  have h3 := (C64_load (c.view i) o ho).2.2.2.2.1
  unfold getValueString
  rw [h2, h3]
  show (match (c.node i).kvStr k with | some v => some v | none => (c.node i).dfltStr k) = _
  rw [(h.2.2 i).1, (h.2.2 i).2]

/-- `ResetKey` in one process does not reach the others: as long as nobody sets the key again, a process that has a value keeps reading it, with every load,
while the one that reset the key reads its default. -/
theorem C129_reset_violated (c c1 c' : Net V) (i j : Nat) (hij : i ≠ j) (k v : String) (hv : (c.node j).kvStr k = some v)
    (hj : ∀ x ∈ c.jobs, ∀ p ∈ x.2.pairs, p.key ≠ k) (hr : nStep c (.reset i k .ok) = some c1) (as : List (NAct V)) (ha : ∀ a ∈ as, Away k a)
    (he : exec nStep c1 as = some c') (oi oj : List KVStr) (hoi : Enumerates oi c'.hash) (hoj : Enumerates oj c'.hash) :
    getValueString (loadPairs (c'.view i) oi) k = (c.node i).dfltStr k ∧ getValueString (loadPairs (c'.view j) oj) k = some v := by
  simp only [nStep, Option.some.injEq] at hr
  have h1 : Still k c1 (fun n => (c1.node n).kvStr k) (fun n => (c1.node n).dfltStr k) := by
    subst hr
    exact ⟨by simp [Net.put, reset, hashDelete, PRes.done, setKey], hj, fun n => ⟨rfl, rfl⟩⟩
  have h2 := exec_inv_on (I := fun c => Still k c _ _) (fun s a s' hp hi hs => still_step s a s' hp hi hs) as c1 c' ha h1 he
  rw [reads_own h2 i oi hoi, reads_own h2 j oj hoj]
  subst hr
  simp [Net.put, reset, setKey, Net.view, hij.symm, hv]

/-- An accepted `Update` in one process does not reach the others (it is not persisted, C60): if redis does not have the key and another process has no value,
that process keeps reading its default. -/
theorem C129_update_violated (c c1 c' : Net V) (i j : Nat) (hij : i ≠ j) (k v : String) (hk : k ≠ "") (hacc : Accepts (c.node i) k v)
    (hh : c.hash k = none) (hn : (c.node j).kvStr k = none) (hj : ∀ x ∈ c.jobs, ∀ p ∈ x.2.pairs, p.key ≠ k) (r : PRes)
    (hr : nStep c (.update i k v r) = some c1) (as : List (NAct V)) (ha : ∀ a ∈ as, Away k a)
    (he : exec nStep c1 as = some c') (oi oj : List KVStr) (hoi : Enumerates oi c'.hash) (hoj : Enumerates oj c'.hash) :
    getValueString (loadPairs (c'.view i) oi) k = some v ∧ getValueString (loadPairs (c'.view j) oj) k = (c.node j).dfltStr k := by
  obtain ⟨p, hp, hval⟩ := hacc
  have hu : update (c.view i) k v r = ({ c.view i with kv := setKey (c.view i).kv k (some (p.convert v)), kvStr := setKey (c.view i).kvStr k (some v) }, none) := by
    have : (c.view i).proc k = some p := hp
    simp [update, updateNoPersist, hk, this, hval]
  simp only [nStep, hu, Option.some.injEq] at hr
  have h1 : Still k c1 (fun n => (c1.node n).kvStr k) (fun n => (c1.node n).dfltStr k) := by
    subst hr
    exact ⟨hh, hj, fun n => ⟨rfl, rfl⟩⟩
  have h2 := exec_inv_on (I := fun c => Still k c _ _) (fun s a s' hp hi hs => still_step s a s' hp hi hs) as c1 c' ha h1 he
  rw [reads_own h2 i oi hoi, reads_own h2 j oj hoj]
  subst hr
  simp [Net.put, setKey, Net.view, hij.symm, hn]

/-- A processor that accepts everything. -/
def lenProc : Proc Nat := ⟨fun _ => none, String.length⟩

/-- So the claim is false: process 0 sets a key, process 1 loads it, process 0 resets it. -/
theorem C129_violated : ¬ C129Claim Nat := by
  intro h
  have h1 := h (fun _ => none) [.register 0 "a" "0" (some lenProc), .register 1 "a" "0" (some lenProc), .startBatch 0 [⟨"a", "xyz"⟩], .step 0, .finish 0 .ok,
    .startLoad 1 ["a"], .step 0, .finish 0 .ok, .reset 0 "a" .ok] _ 0 1 "a" [] [] rfl
    (by simp [NAct.fine]) rfl rfl rfl ⟨by simp, fun x => by
      simp [Net.put, Net.view, reset, hashDelete, PRes.done, setKey, batchSave, okPairs, hashSet, updateNoPersist, register, nInit, new, lenProc]
      intro h1 h2
      exact absurd h2 h1⟩
    ⟨by simp, fun x => by
      simp [Net.put, Net.view, reset, hashDelete, PRes.done, setKey, batchSave, okPairs, hashSet, updateNoPersist, register, nInit, new, lenProc]
      intro h1 h2
      exact absurd h2 h1⟩
  exact absurd h1 (by decide)

/-- The hypotheses of C129_update_violated hold after two registrations; the processes then disagree. -/
example : ∃ c c1, exec nStep (nInit Nat fun _ => none) [.register 0 "a" "0" (some lenProc), .register 1 "a" "0" (some lenProc)] = some c ∧
    nStep c (.update 0 "a" "x" .ok) = some c1 ∧ Accepts (c.node 0) "a" "x" ∧ c.hash "a" = none ∧ (c.node 1).kvStr "a" = none ∧
    getValueString (c1.view 0) "a" = some "x" ∧ getValueString (c1.view 1) "a" = some "0" :=
  ⟨_, _, rfl, rfl, ⟨lenProc, rfl, rfl⟩, rfl, rfl, by decide, by decide⟩

/-! ### Batches only -/

/-- What is done with the key `k`: it is registered with the processor `p`, and set by batches that name it at most once and whose HMSET succeeds. -/
def Batched (k : String) (p : Proc V) : NAct V → Prop
  | .register _ k' _ vp => k' = k → ∀ q, vp = some q → q = p
  | .deregister _ k' _ | .updateNoPersist _ k' _ | .update _ k' _ _ | .reset _ k' _ => k' ≠ k
  | .startBatch _ l => (l.filter (·.key = k)).length ≤ 1
  | .finish _ r => r.done = true
  | _ => True

/-- Redis has an acceptable value. -/
def Kept (k : String) (p : Proc V) (c : Net V) : Prop := ∃ w, c.hash k = some w ∧ p.validate w = none

/-- A batch has put the key into its store and will write it to redis. -/
def Coming (k : String) (c : Net V) : Prop :=
  ∃ i all todo errs, (i, Job.batch all todo errs) ∈ c.jobs ∧ (∃ x ∈ all, x.key = k) ∧ (∀ x ∈ todo, x.key ≠ k) ∧ ∀ e ∈ errs, e.key ≠ k

structure JobInv (k : String) (p : Proc V) (kept : Prop) (j : Job) : Prop where
  load  : ∀ todo, j = .load todo → ∀ v, ⟨k, v⟩ ∈ todo → p.validate v = none → kept
  once  : ∀ all todo errs, j = .batch all todo errs → (all.filter (·.key = k)).length ≤ 1
  split : ∀ all todo errs, j = .batch all todo errs → ∃ done, all = done ++ todo ∧
    (∀ x ∈ done, x.key = k → p.validate x.value = none ∨ ∃ e ∈ errs, e.key = k) ∧ ((∃ e ∈ errs, e.key = k) → ∃ x ∈ done, x.key = k)

structure NInv (k : String) (p : Proc V) (h0 : String → Option String) (c : Net V) : Prop where
  proc : ∀ i q, (c.node i).proc k = some q → q = p
  hash : c.hash k = hashSet h0 c.log k
  log  : ∀ x ∈ c.log, x.key = k → p.validate x.value = none
  jobs : ∀ x ∈ c.jobs, JobInv k p (Kept k p c) x.2
  have_ : ∀ i, (c.node i).kvStr k ≠ none → Kept k p c ∨ Coming k c
  conv : ∀ i, (c.node i).kv k = ((c.node i).kvStr k).map p.convert

theorem JobInv.mono {k : String} {p : Proc V} {a b : Prop} (hab : a → b) {j : Job} (h : JobInv k p a j) : JobInv k p b j :=
  ⟨fun t e v h1 h2 => hab (h.load t e v h1 h2), h.once, h.split⟩

/-- A step that changes neither redis nor the calls, and no value of the key. -/
theorem ninv_put {k : String} {p : Proc V} {h0 : String → Option String} {c : Net V} (h : NInv k p h0 c) (i : Nat) (s : State V) (h1 : s.hash k = c.hash k)
    (h2 : s.kvStr k = (c.node i).kvStr k) (h3 : s.kv k = (c.node i).kv k) (h4 : ∀ q, s.proc k = some q → q = p) : NInv k p h0 (c.put i s) := by
  have hk : Kept k p (c.put i s) ↔ Kept k p c := by unfold Kept; rw [show (c.put i s).hash k = c.hash k from h1]
  refine ⟨?_, h1.trans h.hash, h.log, fun x hx => (h.jobs x hx).mono hk.2, ?_, ?_⟩
  · intro j q hq
    simp only [Net.put] at hq
    split at hq
    · exact h4 q hq
    · exact h.proc j q hq
  · intro j hj
    simp only [Net.put] at hj
    rw [hk]
    split at hj
    · exact h.have_ i (by rw [← h2]; exact hj)
    · exact h.have_ j hj
  · intro j
    simp only [Net.put]
    split
    · rw [h2, h3]; exact h.conv i
    · exact h.conv j

theorem kv_unp {k : String} {p : Proc V} (s : State V) (v : String) (h1 : ∀ q, s.proc k = some q → q = p) (h2 : s.kv k = (s.kvStr k).map p.convert) :
    (updateNoPersist s k v).1.kv k = ((updateNoPersist s k v).1.kvStr k).map p.convert ∧
    ((updateNoPersist s k v).1.kvStr k = s.kvStr k ∨ ((updateNoPersist s k v).2 = none ∧ p.validate v = none)) := by
  unfold updateNoPersist
  split
  · exact ⟨h2, .inl rfl⟩
  split
  · exact ⟨h2, .inl rfl⟩
  · rename_i q hq
    have := h1 q hq
    subst this
    split
    · exact ⟨h2, .inl rfl⟩
    · rename_i hv
      exact ⟨by simp [setKey], .inr ⟨rfl, hv⟩⟩

theorem unp_err (s : State V) (k v : String) : (∀ e ∈ (updateNoPersist s k v).2.toList, e.key = k) ∧
    ((updateNoPersist s k v).2 = none → k ≠ "" → ∃ q, s.proc k = some q ∧ q.validate v = none) := by
  unfold updateNoPersist
  split
  · rename_i hk; simp [hk]
  split
  · simp
  · rename_i q hq
    split
    · simp
    · rename_i hv
      exact ⟨by simp, fun _ _ => ⟨q, hq, hv⟩⟩

theorem coming_mono {k : String} {c c' : Net V} (h : ∀ x ∈ c.jobs, x ∈ c'.jobs) (hc : Coming k c) : Coming k c' := by
  obtain ⟨i, all, todo, errs, h1, h2⟩ := hc
  exact ⟨i, all, todo, errs, h _ h1, h2⟩

theorem filter_done {l done todo : List KVStr} {k : String} (h : l = done ++ todo) (h1 : (l.filter (·.key = k)).length ≤ 1) {x : KVStr} (hx : x ∈ done)
    (hk : x.key = k) : ∀ y ∈ todo, y.key ≠ k := by
  intro y hy e
  subst h
  rw [List.filter_append, List.length_append] at h1
  have h2 : 0 < (done.filter (·.key = k)).length := List.length_pos_of_mem (List.mem_filter.2 ⟨hx, by simpa using hk⟩)
  have h3 : 0 < (todo.filter (·.key = k)).length := List.length_pos_of_mem (List.mem_filter.2 ⟨hy, by simpa using e⟩)
  omega

theorem ninv_step {k : String} (hk : k ≠ "") {p : Proc V} {h0 : String → Option String} (c : Net V) (a : NAct V) (c' : Net V) (ha : Batched k p a)
    (h : NInv k p h0 c) (hs : nStep c a = some c') : NInv k p h0 c' := by
  cases a with
  | register i k' dv vp =>
    simp only [nStep, Option.some.injEq] at hs
    subst hs
    have hp := h.proc i
    have key : ((register (c.view i) k' dv vp).1.hash = c.hash ∧ (register (c.view i) k' dv vp).1.kvStr = (c.node i).kvStr ∧
        (register (c.view i) k' dv vp).1.kv = (c.node i).kv) ∧ ∀ q, (register (c.view i) k' dv vp).1.proc k = some q → q = p := by
      unfold register
      split
      · exact ⟨⟨rfl, rfl, rfl⟩, hp⟩
      split
      · exact ⟨⟨rfl, rfl, rfl⟩, hp⟩
      rename_i q
      split
      · exact ⟨⟨rfl, rfl, rfl⟩, hp⟩
      split
      · exact ⟨⟨rfl, rfl, rfl⟩, hp⟩
      split
      · exact ⟨⟨rfl, rfl, rfl⟩, hp⟩
      · refine ⟨⟨rfl, rfl, rfl⟩, ?_⟩
        intro q' hq'
        simp only [setKey] at hq'
        split at hq'
        · rename_i e
          simp only [Option.some.injEq] at hq'
          subst hq'
          exact ha e.symm q rfl
        · exact hp q' hq'
    exact ninv_put h _ _ (by rw [key.1.1]) (by rw [key.1.2.1]) (by rw [key.1.2.2]) key.2
  | deregister i k' r =>
    simp only [nStep, Option.some.injEq] at hs
    subst hs
    have : k ≠ k' := fun e => ha e.symm
    have hp := h.proc i
    refine ninv_put h _ _ ?_ ?_ ?_ ?_ <;> unfold deregister hashDelete <;> (repeat' split) <;> first | exact hp | simp [Net.view, setKey, this]
    all_goals exact hp
  | updateNoPersist i k' v =>
    simp only [nStep, Option.some.injEq] at hs
    subst hs
    have hf := unp_frame (c.view i) k' v
    have hn := unp_ne (c.view i) k' v k ha
    exact ninv_put h _ _ (by rw [hf.1]; rfl) hn.1 hn.2 (by rw [hf.2.1]; exact h.proc i)
  | update i k' v r =>
    simp only [nStep, Option.some.injEq] at hs
    subst hs
    have hf := unp_frame (c.view i) k' v
    have hn := unp_ne (c.view i) k' v k ha
    have hh : ∀ (hash : String → Option String), (batchSave hash [⟨k', v⟩] r).1 k = hash k := by
      intro hash
      have : k ≠ k' := fun e => ha e.symm
      simp only [batchSave, reduceCtorEq, if_false]
      split
      · simp [hashSet, setKey, this]
      · rfl
    unfold update
    rcases hu : updateNoPersist (c.view i) k' v with ⟨s1, _ | e⟩
    · rw [hu] at hf hn
      exact ninv_put h _ _ (by rw [hf.1]; rfl) hn.1 hn.2 (by rw [hf.2.1]; exact h.proc i)
    · rw [hu] at hf hn
      have := hh s1.hash
      rcases hb : batchSave s1.hash [⟨k', v⟩] r with ⟨hh', b⟩
      rw [hb] at this
      cases b
      all_goals
        simp only [hb]
        refine ninv_put h _ _ (this.trans (by rw [hf.1]; rfl)) hn.1 hn.2 ?_
        show ∀ q, s1.proc k = some q → q = p
        rw [hf.2.1]; exact h.proc i
  | reset i k' r =>
    simp only [nStep, Option.some.injEq] at hs
    subst hs
    have : k ≠ k' := fun e => ha e.symm
    have hp := h.proc i
    refine ninv_put h _ _ ?_ ?_ ?_ ?_ <;> unfold reset hashDelete <;> (repeat' split) <;> first | exact hp | simp [Net.view, setKey, this]
  | startBatch i l =>
    simp only [nStep, Option.some.injEq] at hs
    subst hs
    refine ⟨h.proc, h.hash, h.log, ?_, ?_, h.conv⟩
    · intro x hx
      rcases List.mem_append.1 hx with hx | hx
      · exact h.jobs x hx
      · simp at hx
        subst hx
        refine ⟨by simp, ?_, ?_⟩
        · intro all todo errs e
          cases e
          exact ha
        · intro all todo errs e
          cases e
          exact ⟨[], by simp, by simp, by simp⟩
    · intro j hj
      exact (h.have_ j hj).imp_right (coming_mono (fun x hx => List.mem_append_left _ hx))
  | startLoad i ks =>
    simp only [nStep, Option.some.injEq] at hs
    subst hs
    refine ⟨h.proc, h.hash, h.log, ?_, ?_, h.conv⟩
    · intro x hx
      rcases List.mem_append.1 hx with hx | hx
      · exact h.jobs x hx
      · simp at hx
        subst hx
        refine ⟨?_, by simp, by simp⟩
        intro todo e v hv hval
        cases e
        simp only [List.mem_filterMap, Option.map_eq_some_iff] at hv
        obtain ⟨q, -, w, hw, e⟩ := hv
        simp only [KVStr.mk.injEq] at e
        obtain ⟨rfl, rfl⟩ := e
        exact ⟨w, hw, hval⟩
    · intro j hj
      exact (h.have_ j hj).imp_right (coming_mono (fun x hx => List.mem_append_left _ hx))
  | step n =>
    simp only [nStep] at hs
    split at hs
    · rename_i i all x todo errs hx
      simp only [Option.some.injEq] at hs
      subst hs
      have hm := List.mem_of_getElem? hx
      have hlt : n < c.jobs.length := (List.getElem?_eq_some_iff.1 hx).1
      have hf := unp_frame (c.view i) x.key x.value
      have he := unp_err (c.view i) x.key x.value
      obtain ⟨done, hd, hd1, hd2⟩ := (h.jobs _ hm).split _ _ _ rfl
      have honce := (h.jobs _ hm).once _ _ _ rfl
      have hj : JobInv k p (Kept k p c) (.batch all todo (errs ++ (updateNoPersist (c.view i) x.key x.value).2.toList)) := by
        refine ⟨by simp, fun _ _ _ e => by cases e; exact honce, ?_⟩
        intro _ _ _ e
        cases e
        refine ⟨done ++ [x], by simp [hd], ?_, ?_⟩
        · intro y hy hyk
          rcases List.mem_append.1 hy with hy | hy
          · rcases hd1 y hy hyk with h1 | ⟨e, h1, h2⟩
            · exact .inl h1
            · exact .inr ⟨e, List.mem_append_left _ h1, h2⟩
          · simp at hy
            subst hy
            rcases hu : (updateNoPersist (c.view i) y.key y.value).2 with _ | e
            · obtain ⟨q, hq, hv⟩ := he.2 hu (by rw [hyk]; exact hk)
              rw [hyk] at hq
              have := h.proc i q hq
              subst this
              exact .inl hv
            · refine .inr ⟨e, by simp, ?_⟩
              rw [hu] at he
              rw [← hyk]
              exact he.1 e (by simp)
        · rintro ⟨e, h1, h2⟩
          rcases List.mem_append.1 h1 with h1 | h1
          · obtain ⟨y, hy, hyk⟩ := hd2 ⟨e, h1, h2⟩
            exact ⟨y, List.mem_append_left _ hy, hyk⟩
          · refine ⟨x, by simp, ?_⟩
            rw [← he.1 e h1]; exact h2
      have hcoming : Coming k c → Coming k { c.put i (updateNoPersist (c.view i) x.key x.value).1 with
          jobs := c.jobs.set n (i, .batch all todo (errs ++ (updateNoPersist (c.view i) x.key x.value).2.toList)) } := by
        rintro ⟨i', all', todo', errs', h1, h2, h3, h4⟩
        by_cases e : (i', Job.batch all' todo' errs') = (i, Job.batch all (x :: todo) errs)
        · simp only [Prod.mk.injEq, Job.batch.injEq] at e
          obtain ⟨rfl, rfl, rfl, rfl⟩ := e
          refine ⟨i', all', todo, errs' ++ (updateNoPersist (c.view i') x.key x.value).2.toList, List.mem_set hlt _, h2, fun y hy => h3 y (by simp [hy]), ?_⟩
          intro e he'
          rcases List.mem_append.1 he' with he' | he'
          · exact h4 e he'
          · rw [he.1 e he']
            exact h3 x (by simp)
        · refine ⟨i', all', todo', errs', ?_, h2, h3, h4⟩
          obtain ⟨m, hm', hme⟩ := List.getElem_of_mem h1
          have hmn : n ≠ m := by
            rintro rfl
            rw [List.getElem?_eq_getElem hlt, hme] at hx
            exact e (by simpa using hx)
          refine List.mem_of_getElem? (i := m) ?_
          show (c.jobs.set n _)[m]? = _
          rw [List.getElem?_set_ne hmn, List.getElem?_eq_getElem hm', hme]
      have hkeep : Kept k p { c.put i (updateNoPersist (c.view i) x.key x.value).1 with
          jobs := c.jobs.set n (i, .batch all todo (errs ++ (updateNoPersist (c.view i) x.key x.value).2.toList)) } ↔ Kept k p c := by
        unfold Kept
        simp only [Net.put, hf.1]
        rfl
      by_cases hxk : x.key = k
      · have hkv := kv_unp (c.view i) x.value (h.proc i) (h.conv i)
        rw [← hxk] at hkv
        refine ⟨?_, ?_, h.log, ?_, ?_, ?_⟩
        · intro j q hq
          simp only [Net.put] at hq
          split at hq
          · rw [hf.2.1] at hq; exact h.proc i q hq
          · exact h.proc j q hq
        · show (updateNoPersist (c.view i) x.key x.value).1.hash k = _
          rw [hf.1]; exact h.hash
        · intro y hy
          rcases List.mem_or_eq_of_mem_set hy with hy | rfl
          · exact (h.jobs y hy).mono hkeep.2
          · exact hj.mono hkeep.2
        · intro j hj'
          rw [hkeep]
          simp only [Net.put] at hj'
          split at hj'
          · rcases hkv.2 with h1 | ⟨h1, h2⟩
            · rw [hxk] at h1 hj'
              rw [h1] at hj'
              exact (h.have_ i hj').imp_right hcoming
            · refine .inr ⟨i, all, todo, _, List.mem_set hlt _, ⟨x, by simp [hd], hxk⟩, ?_, ?_⟩
              · exact filter_done (done := done ++ [x]) (by simp [hd]) honce (by simp) hxk
              · intro e he'
                rw [h1] at he'
                simp only [Option.toList_none, List.append_nil] at he'
                intro ek
                obtain ⟨y, hy, hyk⟩ := hd2 ⟨e, he', ek⟩
                exact filter_done hd honce hy hyk x (by simp) hxk
          · exact (h.have_ j hj').imp_right hcoming
        · intro j
          simp only [Net.put]
          split
          · rw [hxk] at hkv ⊢; exact hkv.1
          · exact h.conv j
      · have hn := unp_ne (c.view i) x.key x.value k hxk
        have hp := ninv_put h i (updateNoPersist (c.view i) x.key x.value).1 (by rw [hf.1]; rfl) hn.1 hn.2 (by rw [hf.2.1]; exact h.proc i)
        refine ⟨hp.proc, hp.hash, hp.log, ?_, ?_, hp.conv⟩
        · intro y hy
          rcases List.mem_or_eq_of_mem_set hy with hy | rfl
          · exact (h.jobs y hy).mono hkeep.2
          · exact hj.mono hkeep.2
        · intro j hj'
          rw [hkeep]
          simp only [Net.put] at hj'
          split at hj'
          · exact (h.have_ i (by rw [hn.1] at hj'; exact hj')).imp_right hcoming
          · exact (h.have_ j hj').imp_right hcoming
    · rename_i i x todo hx
      simp only [Option.some.injEq] at hs
      subst hs
      have hm := List.mem_of_getElem? hx
      have hlt : n < c.jobs.length := (List.getElem?_eq_some_iff.1 hx).1
      have hf := unp_frame (c.view i) x.key x.value
      have hl := (h.jobs _ hm).load _ rfl
      have hcoming : Coming k c → Coming k { c.put i (updateNoPersist (c.view i) x.key x.value).1 with jobs := c.jobs.set n (i, .load todo) } := by
        rintro ⟨i', all', todo', errs', h1, h2⟩
        refine ⟨i', all', todo', errs', ?_, h2⟩
        obtain ⟨m, hm', hme⟩ := List.getElem_of_mem h1
        have hmn : n ≠ m := by
          rintro rfl
          rw [List.getElem?_eq_getElem hlt, hme] at hx
          simp at hx
        refine List.mem_of_getElem? (i := m) ?_
        show (c.jobs.set n _)[m]? = _
        rw [List.getElem?_set_ne hmn, List.getElem?_eq_getElem hm', hme]
      have hkeep : Kept k p { c.put i (updateNoPersist (c.view i) x.key x.value).1 with jobs := c.jobs.set n (i, .load todo) } ↔ Kept k p c := by
        unfold Kept
        simp only [Net.put, hf.1]
        rfl
      have hjobs : ∀ y ∈ c.jobs.set n (i, Job.load todo), JobInv k p (Kept k p { c.put i (updateNoPersist (c.view i) x.key x.value).1 with
          jobs := c.jobs.set n (i, .load todo) }) y.2 := by
        intro y hy
        rcases List.mem_or_eq_of_mem_set hy with hy | rfl
        · exact (h.jobs y hy).mono hkeep.2
        · refine ⟨?_, by simp, by simp⟩
          intro _ e v hv hval
          cases e
          exact hkeep.2 (hl v (by simp [hv]) hval)
      by_cases hxk : x.key = k
      · have hkv := kv_unp (c.view i) x.value (h.proc i) (h.conv i)
        rw [← hxk] at hkv
        refine ⟨?_, ?_, h.log, hjobs, ?_, ?_⟩
        · intro j q hq
          simp only [Net.put] at hq
          split at hq
          · rw [hf.2.1] at hq; exact h.proc i q hq
          · exact h.proc j q hq
        · show (updateNoPersist (c.view i) x.key x.value).1.hash k = _
          rw [hf.1]; exact h.hash
        · intro j hj'
          rw [hkeep]
          simp only [Net.put] at hj'
          split at hj'
          · rcases hkv.2 with h1 | ⟨h1, h2⟩
            · rw [hxk] at h1 hj'
              rw [h1] at hj'
              exact (h.have_ i hj').imp_right hcoming
            · exact .inl (hl x.value (by rw [← hxk]; simp) h2)
          · exact (h.have_ j hj').imp_right hcoming
        · intro j
          simp only [Net.put]
          split
          · rw [hxk] at hkv ⊢; exact hkv.1
          · exact h.conv j
      · have hn := unp_ne (c.view i) x.key x.value k hxk
        have hp := ninv_put h i (updateNoPersist (c.view i) x.key x.value).1 (by rw [hf.1]; rfl) hn.1 hn.2 (by rw [hf.2.1]; exact h.proc i)
        refine ⟨hp.proc, hp.hash, hp.log, hjobs, ?_, hp.conv⟩
        intro j hj'
        rw [hkeep]
        simp only [Net.put] at hj'
        split at hj'
        · exact (h.have_ i (by rw [hn.1] at hj'; exact hj')).imp_right hcoming
        · exact (h.have_ j hj').imp_right hcoming
    · simp at hs
  | finish n r =>
    have ha : r.done = true := ha
    simp only [nStep] at hs
    split at hs
    · rename_i i all errs hx
      simp only [Option.some.injEq, ha, if_true] at hs
      subst hs
      have hm := List.mem_of_getElem? hx
      have hlt : n < c.jobs.length := (List.getElem?_eq_some_iff.1 hx).1
      have hsave : (batchSave c.hash (okPairs all errs) r).1 = hashSet c.hash (okPairs all errs) := by
        unfold batchSave
        split
        · rename_i e; rw [e]; rfl
        · simp
      obtain ⟨done, hd, hd1, -⟩ := (h.jobs _ hm).split _ _ _ rfl
      simp only [List.append_nil] at hd
      subst hd
      have hok : ∀ x ∈ okPairs all errs, x.key = k → p.validate x.value = none := by
        intro x hx' hxk
        obtain ⟨h1, h2⟩ := List.mem_filter.1 hx'
        rcases hd1 x h1 hxk with h3 | ⟨e, h3, h4⟩
        · exact h3
        · simp only [Bool.not_eq_true', List.any_eq_false, decide_eq_true_eq] at h2
          exact absurd (h4.trans hxk.symm) (h2 e h3)
      have hkeep : Kept k p c ∨ (∃ x ∈ okPairs all errs, x.key = k) → Kept k p { c with
          hash := hashSet c.hash (okPairs all errs), jobs := c.jobs.eraseIdx n, log := c.log ++ okPairs all errs } := by
        intro hc
        unfold Kept
        simp only [hashSet_apply]
        rcases hl : lastValue (okPairs all errs) k with _ | v
        · rcases hc with hc | ⟨x, hx', hxk⟩
          · exact hc
          · exfalso
            unfold lastValue at hl
            simp only [List.getLast?_eq_none_iff, List.map_eq_nil_iff, List.filter_eq_nil_iff, decide_eq_true_eq] at hl
            exact hl x hx' hxk
        · refine ⟨v, rfl, ?_⟩
          unfold lastValue at hl
          have := List.mem_of_getLast? hl
          obtain ⟨y, hy, rfl⟩ := List.mem_map.1 this
          obtain ⟨h1, h2⟩ := List.mem_filter.1 hy
          exact hok y h1 (by simpa using h2)
      simp only [hsave]
      refine ⟨h.proc, ?_, ?_, ?_, ?_, h.conv⟩
      · show hashSet c.hash (okPairs all errs) k = hashSet h0 (c.log ++ okPairs all errs) k
        have happ : ∀ (a b : List KVStr) (g : String → Option String), hashSet g (a ++ b) = hashSet (hashSet g a) b := by
          intro a b
          induction a with
          | nil => intro g; rfl
          | cons x a ih => intro g; exact ih _
        rw [happ, hashSet_apply, hashSet_apply _ (hashSet h0 c.log), h.hash]
      · intro x hx' hxk
        rcases List.mem_append.1 hx' with hx' | hx'
        · exact h.log x hx' hxk
        · exact hok x hx' hxk
      · intro y hy
        exact (h.jobs y (List.mem_of_mem_eraseIdx hy)).mono (fun hc => hkeep (.inl hc))
      · intro j hj'
        rcases h.have_ j hj' with hc | ⟨i', all', todo', errs', h1, h2, h3, h4⟩
        · exact .inl (hkeep (.inl hc))
        · by_cases e : (i', Job.batch all' todo' errs') = (i, Job.batch all [] errs)
          · simp only [Prod.mk.injEq, Job.batch.injEq] at e
            obtain ⟨rfl, rfl, rfl, rfl⟩ := e
            obtain ⟨x, hx', hxk⟩ := h2
            refine .inl (hkeep (.inr ⟨x, List.mem_filter.2 ⟨hx', ?_⟩, hxk⟩))
            simp only [Bool.not_eq_true', List.any_eq_false, decide_eq_true_eq]
            intro e he'
            rw [hxk]; exact h4 e he'
          · refine .inr ⟨i', all', todo', errs', ?_, h2, h3, h4⟩
            obtain ⟨m, hm', hme⟩ := List.getElem_of_mem h1
            have hmn : m ≠ n := by
              rintro rfl
              rw [List.getElem?_eq_getElem hlt, hme] at hx
              exact e (by simpa using hx)
            exact List.mem_eraseIdx_iff_getElem.2 ⟨m, hm', hmn, hme⟩
    · rename_i i hx
      simp only [Option.some.injEq] at hs
      subst hs
      refine ⟨h.proc, h.hash, h.log, fun y hy => h.jobs y (List.mem_of_mem_eraseIdx hy), ?_, h.conv⟩
      intro j hj'
      refine (h.have_ j hj').imp_right ?_
      rintro ⟨i', all', todo', errs', h1, h2⟩
      refine ⟨i', all', todo', errs', ?_, h2⟩
      have hlt : n < c.jobs.length := (List.getElem?_eq_some_iff.1 hx).1
      obtain ⟨m, hm', hme⟩ := List.getElem_of_mem h1
      have hmn : m ≠ n := by
        rintro rfl
        rw [List.getElem?_eq_getElem hlt, hme] at hx
        simp at hx
      exact List.mem_eraseIdx_iff_getElem.2 ⟨m, hm', hmn, hme⟩
    · simp at hs

/-- What redis has for a key after the batches: the value written last, else what was there in the beginning. -/
def written (hash : String → Option String) (log : List KVStr) (k : String) : Option String :=
  match lastValue log k with
  | some v => some v
  | none => hash k

/-- If a key is set by batches only (each naming it at most once, with successful commands), then whenever no batch that names it is in progress, all
processes that have registered it read the value that redis wrote last, or the one redis had, or else their default. -/
theorem C129_partial (hash : String → Option String) (k : String) (hk : k ≠ "") (p : Proc V) (as : List (NAct V)) (ha : ∀ a ∈ as, Batched k p a) (c : Net V)
    (he : exec nStep (nInit V hash) as = some c) (hq : ∀ i all todo errs, (i, Job.batch all todo errs) ∈ c.jobs → ∀ x ∈ all, x.key ≠ k)
    (i : Nat) (hi : (c.node i).proc k = some p) (o : List KVStr) (ho : Enumerates o c.hash) :
    (∀ v, written hash c.log k = some v → p.validate v = none →
      getValueString (loadPairs (c.view i) o) k = some v ∧ getValue (loadPairs (c.view i) o) k = some (p.convert v)) ∧
    ((∀ v, written hash c.log k = some v → p.validate v ≠ none) →
      getValueString (loadPairs (c.view i) o) k = (c.node i).dfltStr k ∧ getValue (loadPairs (c.view i) o) k = (c.node i).dflt k) := by
  have h : NInv k p hash c := by
    refine exec_inv_on (I := NInv k p hash) (fun s a s' hp hi hs => ninv_step hk s a s' hp hi hs) as (nInit V hash) c ha ?_ he
    exact ⟨by simp [nInit, new], rfl, by simp [nInit], by simp [nInit], by simp [nInit, new], by simp [nInit, new]⟩
  have hw : c.hash k = written hash c.log k := by rw [h.hash, hashSet_apply]; rfl
  obtain ⟨h1, h2, -, h4, h5, -⟩ := C64_load (c.view i) o ho
  constructor
  · intro v hv hval
    exact h1 k v p hk (hw.trans hv) hi hval
  · intro hv
    obtain ⟨h6, h7⟩ := h2 k (fun v hv' => .inr (by
      rintro ⟨q, hq', hval⟩
      have : q = p := Option.some.inj (hq'.symm.trans hi)
      subst this
      exact hv v (hw.symm.trans hv') hval))
    have hnone : (c.node i).kvStr k = none := by
      apply Classical.byContradiction
      intro hc
      rcases h.have_ i hc with ⟨w, h8, h9⟩ | ⟨i', all, todo, errs, h8, ⟨x, hx, hxk⟩, -⟩
      · exact hv w (hw.symm.trans h8) h9
      · exact hq i' all todo errs h8 x hx hxk
    have hkv : (c.node i).kv k = none := by rw [h.conv i, hnone]; rfl
    constructor
    · show (match (loadPairs (c.view i) o).kvStr k with | some v => some v | none => (loadPairs (c.view i) o).dfltStr k) = _
      rw [h7, h5]
      show (match (c.node i).kvStr k with | some v => some v | none => (c.node i).dfltStr k) = _
      rw [hnone]
    · show (match (loadPairs (c.view i) o).kv k with | some v => some v | none => (loadPairs (c.view i) o).dflt k) = _
      rw [h6, h4]
      show (match (c.node i).kv k with | some v => some v | none => (c.node i).dflt k) = _
      rw [hkv]

/-- So those with the same default agree. -/
theorem C129_agree_partial (hash : String → Option String) (k : String) (hk : k ≠ "") (p : Proc V) (as : List (NAct V)) (ha : ∀ a ∈ as, Batched k p a) (c : Net V)
    (he : exec nStep (nInit V hash) as = some c) (hq : ∀ i all todo errs, (i, Job.batch all todo errs) ∈ c.jobs → ∀ x ∈ all, x.key ≠ k)
    (i j : Nat) (hi : (c.node i).proc k = some p) (hj : (c.node j).proc k = some p) (hd : (c.node i).dfltStr k = (c.node j).dfltStr k)
    (oi oj : List KVStr) (hoi : Enumerates oi c.hash) (hoj : Enumerates oj c.hash) :
    getValueString (loadPairs (c.view i) oi) k = getValueString (loadPairs (c.view j) oj) k := by
  obtain ⟨h1, h2⟩ := C129_partial hash k hk p as ha c he hq i hi oi hoi
  obtain ⟨h3, h4⟩ := C129_partial hash k hk p as ha c he hq j hj oj hoj
  by_cases hv : ∃ v, written hash c.log k = some v ∧ p.validate v = none
  · obtain ⟨v, hv, hval⟩ := hv
    rw [(h1 v hv hval).1, (h3 v hv hval).1]
  · have hv : ∀ v, written hash c.log k = some v → p.validate v ≠ none := fun v h e => hv ⟨v, h, e⟩
    rw [(h2 hv).1, (h4 hv).1, hd]

/-! ### Examples -/

/-- Two processes set the key at the same time; process 1 writes last, so both read its value, though process 0 was the last to put its own into its store. -/
example : ∃ c, exec nStep (nInit Nat fun _ => none) [.register 0 "a" "0" (some lenProc), .register 1 "a" "0" (some lenProc), .startBatch 1 [⟨"a", "y"⟩], .step 0,
      .startBatch 0 [⟨"a", "xx"⟩], .step 1, .finish 1 .ok, .finish 0 .ok] = some c ∧
    getValueString (loadPairs (c.view 0) [⟨"a", "y"⟩]) "a" = some "y" ∧ getValueString (loadPairs (c.view 1) [⟨"a", "y"⟩]) "a" = some "y" ∧
    getValueString (c.view 0) "a" = some "xx" := ⟨_, rfl, by decide, by decide, by decide⟩

/-- The hypotheses of C129_partial hold for it. -/
example : ∀ a ∈ ([.register 0 "a" "0" (some lenProc), .register 1 "a" "0" (some lenProc), .startBatch 1 [⟨"a", "y"⟩], .step 0,
      .startBatch 0 [⟨"a", "xx"⟩], .step 1, .finish 1 .ok, .finish 0 .ok] : List (NAct Nat)), Batched "a" lenProc a := by
  simp [Batched, PRes.done]

end Gears.Confstore
