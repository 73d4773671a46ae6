import Verif.Confstore.Model

/-
The keys of a store are independent (C178): /repo/confstore/store.go:38-265, persister.go:43-83 and loader.go:24-68, the functions
of Model.lean, for one goroutine.  New here: sequences of calls of all kinds, with what other processes write to the hash in
between, and their restriction to one key.
-/

namespace Gears.Confstore.Keys

variable {V : Type}

/-! ### Calls -/

inductive Op (V : Type) where
  | register (k d : String) (vp : Option (Proc V))
  | deregister (k : String) (r : PRes)
  | update (k v : String) (r : PRes)
  | updateNoPersist (k v : String)
  | batch (l : List KVStr) (r : PRes)
  | reset (k : String) (r : PRes)
  /-- the load of a read (loader.go:37-56), with the pairs that the persister found -/
  | load (order : List KVStr)
  /-- another process writes or deletes a field of the hash -/
  | outside (k : String) (v : Option String)

inductive Res where
  | reg (r : RegRes)
  | err (e : Option KVError)
  | errs (l : List KVError)
  | unit
deriving DecidableEq

def exec (s : State V) : Op V → State V × Res
  | .register k d vp => ((register s k d vp).1, .reg (register s k d vp).2)
  | .deregister k r => (deregister s k r, .unit)
  | .update k v r => ((update s k v r).1, .err (update s k v r).2)
  | .updateNoPersist k v => ((updateNoPersist s k v).1, .err (updateNoPersist s k v).2)
  | .batch l r => ((batchUpdate s l r).1, .errs (batchUpdate s l r).2)
  | .reset k r => (reset s k r, .unit)
  | .load order => (loadPairs s order, .unit)
  | .outside k v => ({ s with hash := setKey s.hash k v }, .unit)

def run (s : State V) : List (Op V) → State V × List Res
  | [] => (s, [])
  | o :: os => ((run (exec s o).1 os).1, (exec s o).2 :: (run (exec s o).1 os).2)

/-! ### Specification -/

/-- The part of a call that is about `k`. -/
def Op.only (k : String) : Op V → Option (Op V)
  | .register k' d vp => if k' = k then some (.register k' d vp) else none
  | .deregister k' r => if k' = k then some (.deregister k' r) else none
  | .update k' v r => if k' = k then some (.update k' v r) else none
  | .updateNoPersist k' v => if k' = k then some (.updateNoPersist k' v) else none
  | .batch l r => some (.batch (l.filter (·.key = k)) r)
  | .reset k' r => if k' = k then some (.reset k' r) else none
  | .load order => some (.load (order.filter (·.key = k)))
  | .outside k' v => if k' = k then some (.outside k' v) else none

/-- The part of a result that is about `k`. -/
def Res.only (k : String) : Res → Res
  | .errs l => .errs (l.filter (·.key = k))
  | r => r

/-- What the calls answer about `k`. -/
def answers (k : String) (s : State V) : List (Op V) → List Res
  | [] => []
  | o :: os =>
    match o.only k with
    | some _ => (exec s o).2.only k :: answers k (exec s o).1 os
    | none => answers k (exec s o).1 os

/-- Two stores that agree about `k`, in memory and in the hash. -/
def Same (k : String) (s s' : State V) : Prop :=
  s.proc k = s'.proc k ∧ s.dflt k = s'.dflt k ∧ s.dfltStr k = s'.dfltStr k ∧ s.kv k = s'.kv k ∧ s.kvStr k = s'.kvStr k ∧
    s.hash k = s'.hash k

/-! ### One key at a time -/

theorem Same.rfl' (k : String) (s : State V) : Same k s s := ⟨rfl, rfl, rfl, rfl, rfl, rfl⟩

theorem Same.trans {k : String} {a b c : State V} (h : Same k a b) (h' : Same k b c) : Same k a c :=
  ⟨h.1.trans h'.1, h.2.1.trans h'.2.1, h.2.2.1.trans h'.2.2.1, h.2.2.2.1.trans h'.2.2.2.1, h.2.2.2.2.1.trans h'.2.2.2.2.1,
    h.2.2.2.2.2.trans h'.2.2.2.2.2⟩

theorem Same.value {k : String} {s s' : State V} (h : Same k s s') :
    getValue s k = getValue s' k ∧ getValueString s k = getValueString s' k := by
  obtain ⟨_, h2, h3, h4, h5, _⟩ := h
  simp only [getValue, getValueString, h2, h3, h4, h5, and_self]

theorem upd_same {k : String} {s s' : State V} (h : Same k s s') (v : String) :
    Same k (updateNoPersist s k v).1 (updateNoPersist s' k v).1 ∧ (updateNoPersist s k v).2 = (updateNoPersist s' k v).2 := by
  obtain ⟨h1, h2, h3, h4, h5, h6⟩ := h
  simp only [updateNoPersist, h1]
  split
  · exact ⟨⟨h1, h2, h3, h4, h5, h6⟩, rfl⟩
  · split
    · exact ⟨⟨h1, h2, h3, h4, h5, h6⟩, rfl⟩
    · split
      · exact ⟨⟨h1, h2, h3, h4, h5, h6⟩, rfl⟩
      · exact ⟨⟨h1, h2, h3, by simp [setKey], by simp [setKey], h6⟩, rfl⟩

theorem upd_other {k k' : String} (hk : k' ≠ k) (s : State V) (v : String) : Same k (updateNoPersist s k' v).1 s := by
  simp only [updateNoPersist]
  repeat' split
  all_goals first | exact Same.rfl' k s | exact ⟨rfl, rfl, rfl, by simp [setKey, Ne.symm hk], by simp [setKey, Ne.symm hk], rfl⟩

theorem upd_key {k : String} {s : State V} {v : String} {e : KVError} (h : (updateNoPersist s k v).2 = some e) : e.key = k := by
  simp only [updateNoPersist] at h
  repeat' split at h
  all_goals first | cases h; rfl | cases h

theorem upd_hash (s : State V) (k v : String) : (updateNoPersist s k v).1.hash = s.hash := by
  simp only [updateNoPersist]
  repeat' split
  all_goals rfl

theorem load_same (k : String) (l : List KVStr) : ∀ (s s' : State V), Same k s s' →
    Same k (loadPairs s l) (loadPairs s' (l.filter (·.key = k))) := by
  induction l with
  | nil => intro s s' h; exact h
  | cons x l ih =>
    intro s s' h
    by_cases hx : x.key = k
    · rw [List.filter_cons_of_pos (by simpa using hx)]
      simp only [loadPairs]
      rw [hx]
      exact ih _ _ (upd_same h _).1
    · rw [List.filter_cons_of_neg (by simpa using hx)]
      exact ih _ _ ((upd_other hx s _).trans h)

theorem apply_same (k : String) (l : List KVStr) : ∀ (s s' : State V), Same k s s' →
    Same k (batchApply s l).1 (batchApply s' (l.filter (·.key = k))).1 ∧
    (batchApply s l).2.filter (·.key = k) = (batchApply s' (l.filter (·.key = k))).2 := by
  induction l with
  | nil => intro s s' h; exact ⟨h, rfl⟩
  | cons x l ih =>
    intro s s' h
    by_cases hx : x.key = k
    · rw [List.filter_cons_of_pos (by simpa using hx)]
      obtain ⟨h1, h2⟩ := upd_same (k := k) h x.value
      have ih1 := ih _ _ h1
      rw [← hx] at h2 ih1
      simp only [batchApply]
      cases hr : (updateNoPersist s x.key x.value).2 with
      | none =>
        have e1 : updateNoPersist s x.key x.value = ((updateNoPersist s x.key x.value).1, none) := Prod.ext rfl hr
        have e2 : updateNoPersist s' x.key x.value = ((updateNoPersist s' x.key x.value).1, none) := Prod.ext rfl (by rw [← h2, hr])
        rw [e1, e2]
        rw [← hx]
        exact ih1
      | some e =>
        have e1 : updateNoPersist s x.key x.value = ((updateNoPersist s x.key x.value).1, some e) := Prod.ext rfl hr
        have e2 : updateNoPersist s' x.key x.value = ((updateNoPersist s' x.key x.value).1, some e) := Prod.ext rfl (by rw [← h2, hr])
        have hk := upd_key hr
        rw [e1, e2]
        rw [← hx]
        refine ⟨ih1.1, ?_⟩
        dsimp only
        rw [List.filter_cons_of_pos (by simpa using hk), ih1.2]
    · rw [List.filter_cons_of_neg (by simpa using hx)]
      have ho := upd_other hx s x.value
      have ih1 := ih _ _ (ho.trans h)
      simp only [batchApply]
      cases hr : (updateNoPersist s x.key x.value).2 with
      | none =>
        have e1 : updateNoPersist s x.key x.value = ((updateNoPersist s x.key x.value).1, none) := Prod.ext rfl hr
        rw [e1]
        exact ih1
      | some e =>
        have e1 : updateNoPersist s x.key x.value = ((updateNoPersist s x.key x.value).1, some e) := Prod.ext rfl hr
        have hk := upd_key hr
        rw [e1]
        refine ⟨ih1.1, ?_⟩
        dsimp only
        rw [List.filter_cons_of_neg (by simpa [hk] using hx), ih1.2]

theorem hashSet_same (k : String) (l : List KVStr) : ∀ (h h' : String → Option String), h k = h' k →
    hashSet h l k = hashSet h' (l.filter (·.key = k)) k := by
  induction l with
  | nil => intro h h' e; exact e
  | cons x l ih =>
    intro h h' e
    by_cases hx : x.key = k
    · rw [List.filter_cons_of_pos (by simpa using hx)]
      exact ih _ _ (by simp [setKey, hx])
    · rw [List.filter_cons_of_neg (by simpa using hx)]
      exact ih _ _ (by simp [setKey, Ne.symm hx, e])

theorem save_eq (h : String → Option String) (l : List KVStr) (r : PRes) (k : String) :
    (batchSave h l r).1 k = if r.done then hashSet h l k else h k := by
  simp only [batchSave]
  split
  · next hl => subst hl; simp [hashSet]
  · split <;> rfl

theorem batch_same (k : String) (l : List KVStr) (r : PRes) (s s' : State V) (h : Same k s s') :
    Same k (batchUpdate s l r).1 (batchUpdate s' (l.filter (·.key = k)) r).1 ∧
    (batchUpdate s l r).2.filter (·.key = k) = (batchUpdate s' (l.filter (·.key = k)) r).2 := by
  have gen : ∀ (s : State V) (l : List KVStr), batchUpdate s l r =
      ({ (batchApply s l).1 with hash := (batchSave (batchApply s l).1.hash
          (l.filter fun x => !(batchApply s l).2.any (fun e => e.key = x.key)) r).1 }, (batchApply s l).2) := by
    intro s l
    unfold batchUpdate
    split
    · next hl => subst hl; simp [batchApply, batchSave]
    · rfl
  obtain ⟨⟨h1, h2, h3, h4, h5, h6⟩, he⟩ := apply_same k l s s' h
  rw [gen s l, gen s' (l.filter (·.key = k))]
  refine ⟨⟨h1, h2, h3, h4, h5, ?_⟩, he⟩
  dsimp only
  rw [save_eq, save_eq, ← he, h6]
  have hf : (l.filter fun x => !(batchApply s l).2.any (fun e => e.key = x.key)).filter (·.key = k) =
      (l.filter (·.key = k)).filter fun x => !((batchApply s l).2.filter (·.key = k)).any (fun e => e.key = x.key) := by
    simp only [List.filter_filter]
    apply List.filter_congr
    intro x _
    by_cases hx : x.key = k
    · simp only [hx, decide_true, Bool.true_and, Bool.and_true]
      congr 1
      rw [List.any_filter]
      congr 1
      funext e
      simp
    · simp [hx]
  rw [← hf, ← hashSet_same k _ _ _ h6]

theorem exec_same (k : String) (o o' : Op V) (s s' : State V) (h : Same k s s') (ho : o.only k = some o') :
    Same k (exec s o).1 (exec s' o').1 ∧ (exec s o).2.only k = (exec s' o').2 := by
  cases o with
  | batch l r =>
    simp only [Op.only, Option.some.injEq] at ho
    subst ho
    obtain ⟨h1, h2⟩ := batch_same k l r s s' h
    exact ⟨h1, by simp only [exec, Res.only, h2]⟩
  | load order =>
    simp only [Op.only, Option.some.injEq] at ho
    subst ho
    exact ⟨load_same k order s s' h, rfl⟩
  | register k' d vp =>
    simp only [Op.only] at ho
    split at ho
    · next hk =>
      subst hk
      cases ho
      obtain ⟨h1, h2, h3, h4, h5, h6⟩ := h
      simp only [exec, register, h1, h2, Res.only]
      repeat' split
      all_goals first
        | exact ⟨⟨h1, h2, h3, h4, h5, h6⟩, rfl⟩
        | exact ⟨⟨by simp [setKey], by simp [setKey], by simp [setKey], h4, h5, h6⟩, rfl⟩
    · cases ho
  | deregister k' r =>
    simp only [Op.only] at ho
    split at ho
    · next hk =>
      subst hk
      cases ho
      simp only [exec, deregister, Res.only]
      split
      · exact ⟨h, trivial⟩
      · refine ⟨⟨by simp [setKey], by simp [setKey], by simp [setKey], by simp [setKey], by simp [setKey], ?_⟩, trivial⟩
        simp only [hashDelete]
        split
        · simp [setKey]
        · exact h.2.2.2.2.2
    · cases ho
  | update k' v r =>
    simp only [Op.only] at ho
    split at ho
    · next hk =>
      subst hk
      cases ho
      obtain ⟨h1, h2⟩ := upd_same h v
      have key : ∀ (s : State V), update s k' v r =
          match (updateNoPersist s k' v).2 with
          | none => ((updateNoPersist s k' v).1, none)
          | some e => ({ (updateNoPersist s k' v).1 with hash := (batchSave (updateNoPersist s k' v).1.hash [⟨k', v⟩] r).1 },
              if (batchSave (updateNoPersist s k' v).1.hash [⟨k', v⟩] r).2 then some e else none) := by
        intro s
        simp only [update]
        generalize updateNoPersist s k' v = x
        obtain ⟨a, b⟩ := x
        cases b with
        | none => rfl
        | some e =>
          dsimp only
          generalize batchSave a.hash [⟨k', v⟩] r = y
          obtain ⟨c, d⟩ := y
          cases d <;> rfl
      have hb : ∀ (h : String → Option String), (batchSave h [⟨k', v⟩] r).2 = decide (r = .ok) := by
        intro h; simp [batchSave]
      simp only [exec, key, Res.only, ← h2]
      split
      · exact ⟨h1, rfl⟩
      · refine ⟨⟨h1.1, h1.2.1, h1.2.2.1, h1.2.2.2.1, h1.2.2.2.2.1, ?_⟩, by simp only [hb]⟩
        dsimp only
        rw [save_eq, save_eq]
        split
        · simp [hashSet, setKey]
        · exact h1.2.2.2.2.2
    · cases ho
  | updateNoPersist k' v =>
    simp only [Op.only] at ho
    split at ho
    · next hk =>
      subst hk
      cases ho
      obtain ⟨h1, h2⟩ := upd_same h v
      exact ⟨h1, by simp only [exec, Res.only, h2]⟩
    · cases ho
  | reset k' r =>
    simp only [Op.only] at ho
    split at ho
    · next hk =>
      subst hk
      cases ho
      refine ⟨⟨h.1, h.2.1, h.2.2.1, by simp [exec, reset, setKey], by simp [exec, reset, setKey], ?_⟩, rfl⟩
      simp only [exec, reset, hashDelete]
      split
      · simp [setKey]
      · exact h.2.2.2.2.2
    · cases ho
  | outside k' v =>
    simp only [Op.only] at ho
    split at ho
    · next hk =>
      subst hk
      cases ho
      exact ⟨⟨h.1, h.2.1, h.2.2.1, h.2.2.2.1, h.2.2.2.2.1, by simp [exec, setKey]⟩, rfl⟩
    · cases ho

theorem exec_other (k : String) (o : Op V) (s : State V) (ho : o.only k = none) : Same k (exec s o).1 s := by
  cases o with
  | batch l r => simp [Op.only] at ho
  | load order => simp [Op.only] at ho
  | register k' d vp =>
    simp only [Op.only] at ho
    split at ho
    · cases ho
    · next hk =>
      simp only [exec, register]
      repeat' split
      all_goals first
        | exact Same.rfl' k s
        | exact ⟨by simp [setKey, Ne.symm hk], by simp [setKey, Ne.symm hk], by simp [setKey, Ne.symm hk], rfl, rfl, rfl⟩
  | deregister k' r =>
    simp only [Op.only] at ho
    split at ho
    · cases ho
    · next hk =>
      simp only [exec, deregister]
      split
      · exact Same.rfl' k s
      · refine ⟨by simp [setKey, Ne.symm hk], by simp [setKey, Ne.symm hk], by simp [setKey, Ne.symm hk],
          by simp [setKey, Ne.symm hk], by simp [setKey, Ne.symm hk], ?_⟩
        simp only [hashDelete]
        split
        · simp [setKey, Ne.symm hk]
        · rfl
  | update k' v r =>
    simp only [Op.only] at ho
    split at ho
    · cases ho
    · next hk =>
      have h1 := upd_other hk s v
      simp only [exec, update]
      revert h1
      generalize updateNoPersist s k' v = x
      intro h1
      obtain ⟨a, b⟩ := x
      have hh : (batchSave a.hash [⟨k', v⟩] r).1 k = s.hash k := by
        rw [save_eq]
        split
        · simpa [hashSet, setKey, Ne.symm hk] using h1.2.2.2.2.2
        · exact h1.2.2.2.2.2
      cases b with
      | none => exact h1
      | some e =>
        dsimp only
        revert hh
        generalize batchSave a.hash [⟨k', v⟩] r = y
        intro hh
        obtain ⟨c, d⟩ := y
        cases d <;> exact ⟨h1.1, h1.2.1, h1.2.2.1, h1.2.2.2.1, h1.2.2.2.2.1, hh⟩
  | updateNoPersist k' v =>
    simp only [Op.only] at ho
    split at ho
    · cases ho
    · next hk => exact upd_other hk s v
  | reset k' r =>
    simp only [Op.only] at ho
    split at ho
    · cases ho
    · next hk =>
      refine ⟨rfl, rfl, rfl, by simp [exec, reset, setKey, Ne.symm hk], by simp [exec, reset, setKey, Ne.symm hk], ?_⟩
      simp only [exec, reset, hashDelete]
      split
      · simp [setKey, Ne.symm hk]
      · rfl
  | outside k' v =>
    simp only [Op.only] at ho
    split at ho
    · cases ho
    · next hk => exact ⟨rfl, rfl, rfl, rfl, rfl, by simp [exec, setKey, Ne.symm hk]⟩

/-! ### C178 -/

/-- **C178.** The state of a key, in memory and in the hash, and all that calls answer about it are those of the calls about
this key alone. -/
theorem C178_keys (k : String) (os : List (Op V)) : ∀ (s s' : State V), Same k s s' →
    Same k (run s os).1 (run s' (os.filterMap (Op.only k))).1 ∧ answers k s os = (run s' (os.filterMap (Op.only k))).2 := by
  induction os with
  | nil => intro s s' h; exact ⟨h, rfl⟩
  | cons o os ih =>
    intro s s' h
    cases ho : o.only k with
    | none =>
      simp only [List.filterMap_cons, ho, answers, run]
      exact ih _ _ ((exec_other k o s ho).trans h)
    | some o' =>
      obtain ⟨h1, h2⟩ := exec_same k o o' s s' h ho
      simp only [List.filterMap_cons, ho, answers, run, h2]
      exact ⟨(ih _ _ h1).1, by rw [(ih _ _ h1).2]⟩

/-- **C178**, orders: two programs with the same calls about `k`, in the same order, whatever they do with other keys, leave the
same value for `k`, and the same in the hash. -/
theorem C178_order (k : String) (os os' : List (Op V)) (h : os.filterMap (Op.only k) = os'.filterMap (Op.only k)) (s : State V) :
    getValue (run s os).1 k = getValue (run s os').1 k ∧ getValueString (run s os).1 k = getValueString (run s os').1 k ∧
    (run s os).1.hash k = (run s os').1.hash k ∧ answers k s os = answers k s os' := by
  obtain ⟨h1, h2⟩ := C178_keys k os s s (Same.rfl' k s)
  obtain ⟨h3, h4⟩ := C178_keys k os' s s (Same.rfl' k s)
  rw [h] at h1 h2
  obtain ⟨a, b⟩ := h1.value
  obtain ⟨c, d⟩ := h3.value
  exact ⟨a.trans c.symm, b.trans d.symm, h1.2.2.2.2.2.trans h3.2.2.2.2.2.symm, h2.trans h4.symm⟩

/-! ### Examples -/

/-- A processor that accepts the texts without `x`. -/
def noX : Proc String := ⟨fun v => if v = "x" then some "bad" else none, id⟩

/-- A batch with an accepted pair for `a`, a rejected one for `b`, and a later update of `b`. -/
def prog : List (Op String) :=
  [.register "a" "0" (some noX), .register "b" "0" (some noX), .batch [⟨"a", "1"⟩, ⟨"b", "x"⟩] .ok, .updateNoPersist "b" "2",
    .reset "a" .err]

example : getValue (run (new String fun _ => none) prog).1 "a" = some "0" ∧
    (run (new String fun _ => none) prog).1.hash "a" = some "1" ∧
    getValue (run (new String fun _ => none) prog).1 "b" = some "2" ∧
    answers "b" (new String fun _ => none) prog = [.reg .ok, .errs [⟨"b", "x", "bad"⟩], .err none] := by decide

/-! ### Reads -/

/-- The claim for reads: what a read of `k` returns does not depend on whether another key was read before. -/
def C178Reads : Prop := ∀ (s : State String) (p : Option Policy) (i j : LoadIn) (k k' : String) (w : Option String), k' ≠ k →
  Enumerates i.order s.hash → Enumerates j.order (setKey s.hash k w) → i.ok = true → j.ok = true →
  let t := (opGetValue (s, p) i k').1
  (opGetValue ({ t.1 with hash := setKey t.1.hash k w }, t.2) j k).2 =
    (opGetValue ({ s with hash := setKey s.hash k w }, p) j k).2

/-- A store where `a` and `b` are registered. -/
def two : State String :=
  ⟨fun k => if k = "a" ∨ k = "b" then some noX else none, fun k => if k = "a" ∨ k = "b" then some "0" else none,
    fun k => if k = "a" ∨ k = "b" then some "0" else none, fun _ => none, fun _ => none, fun _ => none⟩

/-- **C178**, violated for reads: the read of `a` loads all keys, so the load of the read of `b` five seconds later is left out,
though another process has written `b` in between. -/
theorem C178_reads_violated : ¬ C178Reads := by
  intro h
  have := h two (some ⟨10, none⟩)
    ⟨0, 0, true, []⟩ ⟨5, 5, true, [⟨"b", "1"⟩]⟩ "b" "a" (some "1") (by decide)
    ⟨by simp, by intro x; simp [two]⟩
    ⟨by simp, by
      intro x
      obtain ⟨a, b⟩ := x
      simp only [List.mem_singleton, KVStr.mk.injEq, setKey, two]
      constructor
      · rintro ⟨rfl, rfl⟩; rfl
      · intro hx
        by_cases ha : a = "b"
        · simp [ha] at hx; exact ⟨ha, hx.symm⟩
        · simp [ha] at hx⟩
    rfl rfl
  revert this
  decide

theorem upd_twice (k v : String) (s : State V) : Same k (updateNoPersist (updateNoPersist s k v).1 k v).1 (updateNoPersist s k v).1 := by
  by_cases hk : k = ""
  · simp only [updateNoPersist, hk, if_true]; exact Same.rfl' _ _
  · cases hp : s.proc k with
    | none => simp only [updateNoPersist, hk, hp, if_false]; exact Same.rfl' _ _
    | some p =>
      cases hv : p.validate v with
      | some e => simp only [updateNoPersist, hk, hp, hv, if_false]; exact Same.rfl' _ _
      | none =>
        simp only [updateNoPersist, hk, hp, hv, if_false]
        exact ⟨rfl, rfl, rfl, by simp [setKey], by simp [setKey], rfl⟩

/-- **C178**, partial for reads: without a load policy, and if nobody has written `k` in between. -/
theorem C178_reads_partial (s : State V) (i j : LoadIn) (k k' : String) (hj : j.ok = true) (hn : (j.order.map (·.key)).Nodup)
    (he : i.order.filter (·.key = k) = j.order.filter (·.key = k)) :
    (opGetValue (opGetValue (s, none) i k').1 j k).2 = (opGetValue (s, none) j k).2 := by
  have h0 : ∀ (s : State V), (opGetValue (s, none) j k).2 = getValue (loadPairs s j.order) k := by
    intro s; simp only [opGetValue, doLoad, hj, if_true]
  have h1 : (opGetValue (s, none) i k').1 = (if i.ok then loadPairs s i.order else s, none) := by
    simp only [opGetValue, doLoad]; split <;> rfl
  rw [h1, h0, h0]
  split
  · apply (Same.value _).1
    have a1 := load_same k i.order s s (Same.rfl' k s)
    have a2 := load_same k j.order s s (Same.rfl' k s)
    have a3 := load_same k j.order _ _ a1
    rw [he] at a3
    refine a3.trans (Same.trans ?_ ⟨a2.1.symm, a2.2.1.symm, a2.2.2.1.symm, a2.2.2.2.1.symm, a2.2.2.2.2.1.symm, a2.2.2.2.2.2.symm⟩)
    have hl : j.order.filter (·.key = k) = [] ∨ ∃ v, j.order.filter (·.key = k) = [⟨k, v⟩] := by
      revert hn
      generalize j.order = l
      intro hn
      induction l with
      | nil => exact .inl rfl
      | cons x l ih =>
        simp only [List.map_cons, List.nodup_cons] at hn
        by_cases hx : x.key = k
        · right
          rw [List.filter_cons_of_pos (by simpa using hx)]
          have : l.filter (·.key = k) = [] := by
            rw [List.filter_eq_nil_iff]
            intro y hy hyk
            exact hn.1 (List.mem_map.2 ⟨y, hy, by rw [hx]; simpa using hyk⟩)
          refine ⟨x.value, ?_⟩
          rw [this]
          obtain ⟨a, b⟩ := x
          simp only at hx
          subst hx
          rfl
        · rw [List.filter_cons_of_neg (by simpa using hx)]
          exact ih hn.2
    rcases hl with hl | ⟨v, hl⟩
    · rw [hl]; exact Same.rfl' _ _
    · rw [hl]; exact upd_twice k v s
  · rfl

end Gears.Confstore.Keys
