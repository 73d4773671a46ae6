import Verif.Confstore.Cluster

/-
Stores on a redis that loses data (persister.go:32-83), and processes that restart.

* A loss sets any fields of the hash back to what they were in any earlier state: the failover to a replica that lacks the last writes, a restart from an
  old snapshot or from nothing, or the eviction of the hash.
* A process that restarts has a new store (store.go:26-36); its calls in progress are gone.
-/

namespace Gears.Confstore.Loss

open Gears.Confstore

variable {V : Type}

structure LNet (V : Type) where
  net  : Net V
  /-- the earlier states of the hash, the latest (the present one) first -/
  past : List (String → Option String)

inductive LAct (V : Type) where
  | act (a : NAct V)
  /-- the fields `ks` of the hash are set back to what they were `n` events ago -/
  | lose (ks : String → Bool) (n : Nat)
  /-- process `i` restarts -/
  | restart (i : Nat)

/-- The hash `n` events ago; before all events it was empty. -/
def LNet.ago (s : LNet V) (n : Nat) : String → Option String := s.past[n]?.getD fun _ => none

def lStep (s : LNet V) : LAct V → Option (LNet V)
  | .act a => (nStep s.net a).map fun c => ⟨c, c.hash :: s.past⟩
  | .lose ks n =>
    let h := fun k => if ks k then s.ago n k else s.net.hash k
    some ⟨{ s.net with hash := h }, h :: s.past⟩
  | .restart i =>
    some ⟨{ s.net with
      node := fun j => if j = i then new V s.net.hash else s.net.node j
      jobs := s.net.jobs.filter (·.1 ≠ i) }, s.net.hash :: s.past⟩

def lInit (V : Type) (hash : String → Option String) : LNet V := ⟨nInit V hash, [hash]⟩

/-! ### Where values come from -/

/-- A call that sets the key to the value, or tries to. -/
def Sets (k v : String) : LAct V → Prop
  | .act (.update _ k' v' _) | .act (.updateNoPersist _ k' v') => k' = k ∧ v' = v
  | .act (.startBatch _ l) => ⟨k, v⟩ ∈ l
  | _ => False

/-- A call that can write the value to redis. -/
def Saves (k v : String) : LAct V → Prop
  | .act (.update _ k' v' _) => k' = k ∧ v' = v
  | .act (.startBatch _ l) => ⟨k, v⟩ ∈ l
  | _ => False

theorem unp_value (s : State V) (k' v' k v : String) (h : (updateNoPersist s k' v').1.kvStr k = some v) :
    s.kvStr k = some v ∨ (k' = k ∧ v' = v) := by
  unfold updateNoPersist at h
  split at h
  · exact .inl h
  split at h
  · exact .inl h
  split at h
  · exact .inl h
  · simp only [setKey] at h
    split at h
    · rename_i e
      simp only [Option.some.injEq] at h
      exact .inr ⟨e.symm, h⟩
    · exact .inl h

theorem lastValue_mem {l : List KVStr} {k v : String} (h : lastValue l k = some v) : ⟨k, v⟩ ∈ l := by
  induction l with
  | nil => simp [lastValue] at h
  | cons x l ih =>
    rw [lastValue_cons] at h
    cases hl : lastValue l k with
    | some w =>
      rw [hl] at h ih
      exact List.mem_cons_of_mem _ (ih h)
    | none =>
      rw [hl] at h
      dsimp only at h
      split at h
      · rename_i e
        simp only [Option.some.injEq] at h
        obtain ⟨a, b⟩ := x
        dsimp only at e h
        subst e h
        simp
      · simp at h

theorem batchSave_value {h : String → Option String} {l : List KVStr} {r : PRes} {k v : String} (hv : (batchSave h l r).1 k = some v) :
    h k = some v ∨ ⟨k, v⟩ ∈ l := by
  unfold batchSave at hv
  split at hv
  · exact .inl hv
  · simp only at hv
    split at hv
    · rw [hashSet_apply] at hv
      cases hl : lastValue l k with
      | none => rw [hl] at hv; exact .inl hv
      | some x =>
        rw [hl] at hv
        simp only [Option.some.injEq] at hv
        subst hv
        exact .inr (lastValue_mem hl)
    · exact .inl hv

/-- Redis has values in `P` only, stores have values in `Q` only. -/
structure From (P Q : String → String → Prop) (c : Net V) : Prop where
  hash : ∀ k v, c.hash k = some v → P k v
  node : ∀ i k v, (c.node i).kvStr k = some v → Q k v
  jobs : ∀ x ∈ c.jobs, ∀ p ∈ x.2.pairs, P p.key p.value

theorem from_put {P Q : String → String → Prop} {c : Net V} (h : From P Q c) (i : Nat) (s : State V) (h1 : ∀ k v, s.hash k = some v → P k v)
    (h2 : ∀ k v, s.kvStr k = some v → Q k v) : From P Q (c.put i s) := by
  refine ⟨h1, fun j k v hv => ?_, h.jobs⟩
  simp only [Net.put] at hv
  split at hv
  · exact h2 k v hv
  · exact h.node j k v hv

theorem from_unp {P Q : String → String → Prop} {c : Net V} (h : From P Q c) (i : Nat) (k v : String) (hq : Q k v) :
    From P Q (c.put i (updateNoPersist (c.view i) k v).1) := by
  refine from_put h i _ (fun k' v' hv => ?_) (fun k' v' hv => ?_)
  · rw [(unp_frame (c.view i) k v).1] at hv
    exact h.hash k' v' hv
  · rcases unp_value _ _ _ _ _ hv with hv | ⟨rfl, rfl⟩
    · exact h.node i k' v' hv
    · exact hq

theorem from_step {P Q : String → String → Prop} (hpq : ∀ k v, P k v → Q k v) {c c' : Net V} {a : NAct V} (h : From P Q c)
    (hsave : ∀ k v, Saves k v (.act a) → P k v) (hset : ∀ k v, Sets k v (.act a) → Q k v) (hs : nStep c a = some c') : From P Q c' := by
  cases a with
  | register i k' d vp =>
    simp only [nStep, Option.some.injEq] at hs
    subst hs
    have e : (register (c.view i) k' d vp).1.hash = c.hash ∧ (register (c.view i) k' d vp).1.kvStr = (c.node i).kvStr := by
      unfold register
      (repeat' split) <;> exact ⟨rfl, rfl⟩
    exact from_put h i _ (by rw [e.1]; exact h.hash) (by rw [e.2]; exact h.node i)
  | deregister i k' r =>
    simp only [nStep, Option.some.injEq] at hs
    subst hs
    refine from_put h i _ (fun k v hv => ?_) (fun k v hv => ?_)
    · unfold deregister hashDelete at hv
      (repeat' split at hv) <;> first | exact h.hash k v hv | (simp only [setKey] at hv; split at hv <;> first | simp at hv | exact h.hash k v hv)
    · unfold deregister at hv
      (repeat' split at hv) <;> first | exact h.node i k v hv | (simp only [setKey] at hv; split at hv <;> first | simp at hv | exact h.node i k v hv)
  | updateNoPersist i k' v' =>
    simp only [nStep, Option.some.injEq] at hs
    subst hs
    exact from_unp h i k' v' (hset k' v' ⟨rfl, rfl⟩)
  | update i k' v' r =>
    simp only [nStep, Option.some.injEq] at hs
    subst hs
    have hf := from_unp h i k' v' (hset k' v' ⟨rfl, rfl⟩)
    have h1 : ∀ k v, (updateNoPersist (c.view i) k' v').1.hash k = some v → P k v := hf.hash
    have h2 : ∀ k v, (updateNoPersist (c.view i) k' v').1.kvStr k = some v → Q k v := by
      intro k v hv
      exact hf.node i k v (by simpa [Net.put] using hv)
    unfold update
    rcases hu : updateNoPersist (c.view i) k' v' with ⟨s1, _ | e⟩
    · rw [hu] at h1 h2
      exact from_put h i _ h1 h2
    · rw [hu] at h1 h2
      have hb : ∀ k v, (batchSave s1.hash [⟨k', v'⟩] r).1 k = some v → P k v := by
        intro k v hv
        rcases batchSave_value hv with hv | hv
        · exact h1 k v hv
        · simp only [List.mem_singleton, KVStr.mk.injEq] at hv
          obtain ⟨rfl, rfl⟩ := hv
          exact hsave _ _ ⟨rfl, rfl⟩
      rcases hbs : batchSave s1.hash [⟨k', v'⟩] r with ⟨hh', b⟩
      rw [hbs] at hb
      cases b
      all_goals
        simp only [hbs]
        exact from_put h i _ hb h2
  | reset i k' r =>
    simp only [nStep, Option.some.injEq] at hs
    subst hs
    refine from_put h i _ (fun k v hv => ?_) (fun k v hv => ?_)
    · simp only [reset, hashDelete] at hv
      split at hv
      · simp only [setKey] at hv
        split at hv
        · simp at hv
        · exact h.hash k v hv
      · exact h.hash k v hv
    · simp only [reset, setKey] at hv
      split at hv
      · simp at hv
      · exact h.node i k v hv
  | startBatch i l =>
    simp only [nStep, Option.some.injEq] at hs
    subst hs
    refine ⟨h.hash, h.node, fun x hx p hp => ?_⟩
    rcases List.mem_append.1 hx with hx | hx
    · exact h.jobs x hx p hp
    · simp only [List.mem_singleton] at hx
      subst hx
      simp [Job.pairs] at hp
      exact hsave _ _ hp
  | startLoad i ks =>
    simp only [nStep, Option.some.injEq] at hs
    subst hs
    refine ⟨h.hash, h.node, fun x hx p hp => ?_⟩
    rcases List.mem_append.1 hx with hx | hx
    · exact h.jobs x hx p hp
    · simp only [List.mem_singleton] at hx
      subst hx
      simp only [Job.pairs, List.mem_filterMap, Option.map_eq_some_iff] at hp
      obtain ⟨q, -, v, hv, rfl⟩ := hp
      exact h.hash q v hv
  | step n =>
    simp only [nStep] at hs
    split at hs
    · rename_i i all x todo errs hx
      simp only [Option.some.injEq] at hs
      subst hs
      have hm := List.mem_of_getElem? hx
      have hj := from_unp h i x.key x.value (hpq _ _ (h.jobs _ hm x (by simp [Job.pairs])))
      refine ⟨hj.hash, hj.node, fun y hy p hp => ?_⟩
      rcases List.mem_or_eq_of_mem_set hy with hy | rfl
      · exact h.jobs y hy p hp
      · exact h.jobs _ hm p (by simp [Job.pairs] at hp ⊢; rcases hp with hp | hp <;> simp [hp])
    · rename_i i x todo hx
      simp only [Option.some.injEq] at hs
      subst hs
      have hm := List.mem_of_getElem? hx
      have hj := from_unp h i x.key x.value (hpq _ _ (h.jobs _ hm x (by simp [Job.pairs])))
      refine ⟨hj.hash, hj.node, fun y hy p hp => ?_⟩
      rcases List.mem_or_eq_of_mem_set hy with hy | rfl
      · exact h.jobs y hy p hp
      · exact h.jobs _ hm p (by simp [Job.pairs] at hp ⊢; simp [hp])
    · simp at hs
  | finish n r =>
    simp only [nStep] at hs
    split at hs
    · rename_i i all errs hx
      simp only [Option.some.injEq] at hs
      subst hs
      have hm := List.mem_of_getElem? hx
      refine ⟨fun k v hv => ?_, h.node, fun y hy => h.jobs y (List.mem_of_mem_eraseIdx hy)⟩
      rcases batchSave_value hv with hv | hv
      · exact h.hash k v hv
      · exact h.jobs _ hm ⟨k, v⟩ (by simp [Job.pairs, (List.mem_filter.1 hv).1])
    · simp only [Option.some.injEq] at hs
      subst hs
      exact ⟨h.hash, h.node, fun y hy => h.jobs y (List.mem_of_mem_eraseIdx hy)⟩
    · simp at hs

/-- **C155** (sources).  Losses make up nothing: a value in redis was there at first or is of an `Update` or `BatchUpdate` of the key, and a value in a store is
such a value or of an `UpdateNoPersist` of the key. -/
theorem C155_sources (hash : String → Option String) (as : List (LAct V)) (s : LNet V) (he : exec lStep (lInit V hash) as = some s) (k v : String) :
    (s.net.hash k = some v → hash k = some v ∨ ∃ a ∈ as, Saves k v a) ∧
    (∀ i, (s.net.node i).kvStr k = some v → hash k = some v ∨ ∃ a ∈ as, Sets k v a) := by
  have hsub : ∀ (k v : String) (a : LAct V), Saves k v a → Sets k v a := by
    intro k v a h
    cases a with
    | act a => cases a <;> first | exact h | exact h.elim
    | _ => exact h.elim
  have h := exec_inv_on (step := lStep) (P := fun a => a ∈ as)
    (I := fun s : LNet V => From (fun k v => hash k = some v ∨ ∃ a ∈ as, Saves k v a) (fun k v => hash k = some v ∨ ∃ a ∈ as, Sets k v a) s.net ∧
      ∀ h ∈ s.past, ∀ k v, h k = some v → hash k = some v ∨ ∃ a ∈ as, Saves k v a) ?_ as (lInit V hash) s (fun a ha => ha) ?_ he
  · exact ⟨h.1.hash k v, fun i => h.1.node i k v⟩
  · intro s a s' ha ⟨h1, h2⟩ hs
    cases a with
    | act a =>
      simp only [lStep, Option.map_eq_some_iff] at hs
      obtain ⟨c, hc, rfl⟩ := hs
      have hf := from_step (fun k v hp => hp.imp id (fun ⟨a, h3, h4⟩ => ⟨a, h3, hsub k v a h4⟩)) h1 (fun k v hsv => .inr ⟨_, ha, hsv⟩)
        (fun k v hsv => .inr ⟨_, ha, hsv⟩) hc
      refine ⟨hf, fun h hh => ?_⟩
      rcases List.mem_cons.1 hh with rfl | hh
      · exact hf.hash
      · exact h2 h hh
    | lose ks n =>
      simp only [lStep, Option.some.injEq] at hs
      subst hs
      have hx : ∀ k v, (if ks k then s.ago n k else s.net.hash k) = some v → hash k = some v ∨ ∃ a ∈ as, Saves k v a := by
        intro k v hv
        split at hv
        · simp only [LNet.ago] at hv
          cases hp : s.past[n]? with
          | none => simp [hp] at hv
          | some h =>
            rw [hp] at hv
            exact h2 h (List.mem_of_getElem? hp) k v hv
        · exact h1.hash k v hv
      refine ⟨⟨hx, h1.node, h1.jobs⟩, fun h hh => ?_⟩
      rcases List.mem_cons.1 hh with rfl | hh
      · exact hx
      · exact h2 h hh
    | restart i =>
      simp only [lStep, Option.some.injEq] at hs
      subst hs
      refine ⟨⟨h1.hash, fun j k v hv => ?_, fun x hx => h1.jobs x (List.mem_filter.1 hx).1⟩, fun h hh => ?_⟩
      · dsimp only at hv
        split at hv
        · simp [new] at hv
        · exact h1.node j k v hv
      · rcases List.mem_cons.1 hh with rfl | hh
        · exact h1.hash
        · exact h2 h hh
  · refine ⟨⟨fun k v hv => .inl hv, fun i k v hv => by simp [lInit, nInit, new] at hv, fun x hx => by simp [lInit, nInit] at hx⟩, fun h hh => ?_⟩
    simp only [lInit, List.mem_singleton] at hh
    subst hh
    exact fun k v hv => .inl hv

/-! ### What has been saved -/

/-- Nobody changes the key in redis. -/
def Quiet (k : String) : LAct V → Prop
  | .act (.deregister _ k' _) | .act (.update _ k' _ _) | .act (.reset _ k' _) => k' ≠ k
  | .act (.startBatch _ l) => ∀ x ∈ l, x.key ≠ k
  | _ => True

/-- No batch in progress has the key. -/
def NoBatch (k : String) (c : Net V) : Prop := ∀ i all todo errs, (i, Job.batch all todo errs) ∈ c.jobs → ∀ x ∈ all, x.key ≠ k

/-- Of `m` events that have passed and the following ones, losses of the key do not go back to before them. -/
def Spared (k : String) : Nat → List (LAct V) → Prop
  | _, [] => True
  | m, .lose ks n :: as => (ks k = true → n ≤ m) ∧ Spared k (m + 1) as
  | m, _ :: as => Spared k (m + 1) as

theorem quiet_step {k : String} {c c' : Net V} {a : NAct V} (hn : NoBatch k c) (hq : Quiet k (.act a)) (hs : nStep c a = some c') :
    c'.hash k = c.hash k ∧ NoBatch k c' := by
  cases a with
  | register i k' d vp =>
    simp only [nStep, Option.some.injEq] at hs
    subst hs
    refine ⟨?_, hn⟩
    show (register (c.view i) k' d vp).1.hash k = c.hash k
    unfold register
    (repeat' split) <;> rfl
  | deregister i k' r =>
    simp only [nStep, Option.some.injEq] at hs
    subst hs
    refine ⟨?_, hn⟩
    have : k ≠ k' := fun e => hq e.symm
    show (deregister (c.view i) k' r).hash k = c.hash k
    unfold deregister hashDelete
    (repeat' split) <;> simp [setKey, this, Net.view]
  | updateNoPersist i k' v' =>
    simp only [nStep, Option.some.injEq] at hs
    subst hs
    refine ⟨?_, hn⟩
    show (updateNoPersist (c.view i) k' v').1.hash k = c.hash k
    rw [(unp_frame (c.view i) k' v').1]; rfl
  | update i k' v' r =>
    simp only [nStep, Option.some.injEq] at hs
    subst hs
    refine ⟨?_, hn⟩
    have hne : k ≠ k' := fun e => hq e.symm
    show (update (c.view i) k' v' r).1.hash k = c.hash k
    have hf := (unp_frame (c.view i) k' v').1
    unfold update
    rcases hu : updateNoPersist (c.view i) k' v' with ⟨s1, _ | e⟩
    · rw [hu] at hf
      show s1.hash k = _
      rw [hf]; rfl
    · rw [hu] at hf
      have hb : (batchSave s1.hash [⟨k', v'⟩] r).1 k = c.hash k := by
        simp only [batchSave, reduceCtorEq, if_false]
        split
        · simp only [hashSet, setKey, hne, if_false]; rw [hf]; rfl
        · rw [hf]; rfl
      rcases hbs : batchSave s1.hash [⟨k', v'⟩] r with ⟨hh', b⟩
      rw [hbs] at hb
      cases b
      all_goals
        simp only [hbs]
        exact hb
  | reset i k' r =>
    simp only [nStep, Option.some.injEq] at hs
    subst hs
    refine ⟨?_, hn⟩
    have : k ≠ k' := fun e => hq e.symm
    show (reset (c.view i) k' r).hash k = c.hash k
    unfold reset hashDelete
    split <;> simp [setKey, this, Net.view]
  | startBatch i l =>
    simp only [nStep, Option.some.injEq] at hs
    subst hs
    refine ⟨rfl, fun j all todo errs hj => ?_⟩
    rcases List.mem_append.1 hj with hj | hj
    · exact hn j all todo errs hj
    · simp only [List.mem_singleton, Prod.mk.injEq, Job.batch.injEq] at hj
      obtain ⟨-, rfl, -, -⟩ := hj
      exact hq
  | startLoad i ks =>
    simp only [nStep, Option.some.injEq] at hs
    subst hs
    refine ⟨rfl, fun j all todo errs hj => ?_⟩
    rcases List.mem_append.1 hj with hj | hj
    · exact hn j all todo errs hj
    · simp at hj
  | step n =>
    simp only [nStep] at hs
    split at hs
    · rename_i i all x todo errs hx
      simp only [Option.some.injEq] at hs
      subst hs
      refine ⟨?_, fun j all' todo' errs' hj => ?_⟩
      · show (updateNoPersist (c.view i) x.key x.value).1.hash k = c.hash k
        rw [(unp_frame (c.view i) x.key x.value).1]; rfl
      · rcases List.mem_or_eq_of_mem_set hj with hj | hj
        · exact hn j all' todo' errs' hj
        · simp only [Prod.mk.injEq, Job.batch.injEq] at hj
          obtain ⟨-, rfl, -, -⟩ := hj
          exact hn _ _ _ _ (List.mem_of_getElem? hx)
    · rename_i i x todo hx
      simp only [Option.some.injEq] at hs
      subst hs
      refine ⟨?_, fun j all' todo' errs' hj => ?_⟩
      · show (updateNoPersist (c.view i) x.key x.value).1.hash k = c.hash k
        rw [(unp_frame (c.view i) x.key x.value).1]; rfl
      · rcases List.mem_or_eq_of_mem_set hj with hj | hj
        · exact hn j all' todo' errs' hj
        · simp at hj
    · simp at hs
  | finish n r =>
    simp only [nStep] at hs
    split at hs
    · rename_i i all errs hx
      simp only [Option.some.injEq] at hs
      subst hs
      have hm := hn _ _ _ _ (List.mem_of_getElem? hx)
      refine ⟨?_, fun j all' todo' errs' hj => hn j all' todo' errs' (List.mem_of_mem_eraseIdx hj)⟩
      show (batchSave c.hash (okPairs all errs) r).1 k = c.hash k
      unfold batchSave
      split
      · rfl
      · simp only
        split
        · rw [hashSet_apply, lastValue_none]
          exact fun p hp => hm p (List.mem_filter.1 hp).1
        · rfl
    · simp only [Option.some.injEq] at hs
      subst hs
      exact ⟨rfl, fun j all' todo' errs' hj => hn j all' todo' errs' (List.mem_of_mem_eraseIdx hj)⟩
    · simp at hs

theorem ago_succ (c : Net V) (h : String → Option String) (l : List (String → Option String)) (c' : Net V) (n : Nat) :
    (⟨c, h :: l⟩ : LNet V).ago (n + 1) = (⟨c', l⟩ : LNet V).ago n := by
  simp [LNet.ago]

theorem spared_run {k v : String} : ∀ (bs : List (LAct V)) (m : Nat) (s s' : LNet V), (∀ n, n ≤ m → s.ago n k = some v) → s.net.hash k = some v →
    NoBatch k s.net → (∀ b ∈ bs, Quiet k b) → Spared k m bs → exec lStep s bs = some s' → s'.net.hash k = some v
  | [], m, s, s', h1, h2, h3, h4, h5, he => by
    simp only [exec, Option.some.injEq] at he
    subst he
    exact h2
  | b :: bs, m, s, s', h1, h2, h3, h4, h5, he => by
    simp only [exec] at he
    have next : ∀ (c : Net V), c.hash k = some v → NoBatch k c → exec lStep ⟨c, c.hash :: s.past⟩ bs = some s' → Spared k (m + 1) bs →
        s'.net.hash k = some v := by
      intro c hc hn he hsp
      refine spared_run bs (m + 1) ⟨c, c.hash :: s.past⟩ s' (fun n hn => ?_) hc hn (fun b hb => h4 b (by simp [hb])) hsp he
      cases n with
      | zero => exact hc
      | succ n => rw [ago_succ c c.hash s.past s.net n]; exact h1 n (by omega)
    cases b with
    | act a =>
      simp only [lStep] at he
      cases hc : nStep s.net a with
      | none => simp [hc] at he
      | some c =>
        simp only [hc, Option.map_some] at he
        obtain ⟨e1, e2⟩ := quiet_step h3 (h4 _ (by simp)) hc
        exact next c (by rw [e1, h2]) e2 he h5
    | lose ks n =>
      simp only [lStep] at he
      refine next { s.net with hash := fun k => if ks k then s.ago n k else s.net.hash k } ?_ h3 he h5.2
      dsimp only
      split
      · rename_i hk
        exact h1 n (h5.1 hk)
      · exact h2
    | restart i =>
      simp only [lStep] at he
      exact next { s.net with
        node := fun j => if j = i then new V s.net.hash else s.net.node j
        jobs := s.net.jobs.filter (·.1 ≠ i) } h2 (fun j all todo errs hj => h3 j all todo errs (List.mem_filter.1 hj).1) he h5

theorem past_head (hash : String → Option String) (as : List (LAct V)) (s : LNet V) (he : exec lStep (lInit V hash) as = some s) : s.ago 0 = s.net.hash := by
  refine exec_inv (I := fun s : LNet V => s.ago 0 = s.net.hash) (fun s a s' _ hs => ?_) as _ _ rfl he
  cases a with
  | act a =>
    simp only [lStep, Option.map_eq_some_iff] at hs
    obtain ⟨c, -, rfl⟩ := hs
    rfl
  | lose ks n => simp only [lStep, Option.some.injEq] at hs; subst hs; rfl
  | restart i => simp only [lStep, Option.some.injEq] at hs; subst hs; rfl

/-- The full statement: a value that redis has got is what all processes read that accept it, with a load, as long as nobody changes the key. -/
def C155Claim (V : Type) : Prop := ∀ (hash : String → Option String) (as bs : List (LAct V)) (s s' : LNet V) (k v : String),
  exec lStep (lInit V hash) as = some s → s.net.hash k = some v → NoBatch k s.net → (∀ b ∈ bs, Quiet k b) → exec lStep s bs = some s' →
  ∀ (i : Nat) (p : Proc V) (o : List KVStr), k ≠ "" → (s'.net.node i).proc k = some p → p.validate v = none → Enumerates o s'.net.hash →
    getValueString (loadPairs (s'.net.view i) o) k = some v

/-- **C155**, as long as no loss of the key goes back to before the value was saved; processes may restart, and other keys may be lost. -/
theorem C155_kept_partial (hash : String → Option String) (as bs : List (LAct V)) (s s' : LNet V) (k v : String)
    (he : exec lStep (lInit V hash) as = some s) (hv : s.net.hash k = some v) (hn : NoBatch k s.net) (hq : ∀ b ∈ bs, Quiet k b) (hsp : Spared k 0 bs)
    (he' : exec lStep s bs = some s') (i : Nat) (p : Proc V) (o : List KVStr) (hk : k ≠ "") (hp : (s'.net.node i).proc k = some p)
    (hval : p.validate v = none) (ho : Enumerates o s'.net.hash) : getValueString (loadPairs (s'.net.view i) o) k = some v := by
  have := spared_run bs 0 s s' (fun n hn0 => by
    obtain rfl : n = 0 := by omega
    rw [past_head hash as s he, hv]) hv hn hq hsp he'
  exact ((C64_load (s'.net.view i) o ho).1 k v p hk this hp hval).1

/-- **C155**: a loss that goes back to an older value undoes the update in every process, also in those that made it and have run all the time, with their
next load. -/
theorem C155_undone_violated (s s1 : LNet V) (ks : String → Bool) (n : Nat) (k v0 : String) (hks : ks k = true) (h0 : s.ago n k = some v0)
    (hl : lStep s (.lose ks n) = some s1) (i : Nat) (p : Proc V) (hk : k ≠ "") (hp : (s.net.node i).proc k = some p) (hval : p.validate v0 = none)
    (o : List KVStr) (ho : Enumerates o s1.net.hash) : getValueString (loadPairs (s1.net.view i) o) k = some v0 := by
  simp only [lStep, Option.some.injEq] at hl
  have e : s1.net.hash k = some v0 ∧ s1.net.node = s.net.node := by
    rw [← hl]
    simp [hks, h0]
  exact ((C64_load (s1.net.view i) o ho).1 k v0 p hk e.1 (by simpa [Net.view, e.2] using hp) hval).1

/-- **C155**: a loss that goes back to before there was a value splits the processes: those that have the value keep it, those that restart read their default,
with every load, as long as nobody sets the key again. -/
theorem C155_split_violated (s s1 s2 s3 : LNet V) (ks : String → Bool) (n : Nat) (k v d : String) (hk : k ≠ "") (hks : ks k = true) (h0 : s.ago n k = none)
    (hl : lStep s (.lose ks n) = some s1) (i j : Nat) (hij : i ≠ j) (hi : (s.net.node i).kvStr k = some v)
    (hj : ∀ x ∈ s.net.jobs, ∀ p ∈ x.2.pairs, p.key ≠ k) (hr : lStep s1 (.restart j) = some s2) (p : Proc V) (hd : p.validate d = none)
    (hg : lStep s2 (.act (.register j k d (some p))) = some s3) (as : List (NAct V)) (ha : ∀ a ∈ as, Away k a) (c' : Net V)
    (he : exec nStep s3.net as = some c') (oi oj : List KVStr) (hoi : Enumerates oi c'.hash) (hoj : Enumerates oj c'.hash) :
    getValueString (loadPairs (c'.view i) oi) k = some v ∧ getValueString (loadPairs (c'.view j) oj) k = some d := by
  simp only [lStep, Option.some.injEq] at hl hr
  simp only [lStep, nStep, Option.map_some, Option.some.injEq] at hg
  have a1 : s1.net.hash k = none ∧ s1.net.node i = s.net.node i ∧ s1.net.jobs = s.net.jobs := by
    rw [← hl]
    simp [hks, h0]
  have a2 : s2.net.hash k = none ∧ s2.net.node i = s.net.node i ∧ s2.net.node j = new V s2.net.hash ∧ ∀ x ∈ s2.net.jobs, x ∈ s.net.jobs := by
    rw [← hr]
    refine ⟨a1.1, by simp [hij, a1.2.1], by simp, fun x hx => ?_⟩
    rw [← a1.2.2]
    exact (List.mem_filter.1 hx).1
  have hreg : (register (s2.net.view j) k d (some p)).1.hash = s2.net.hash ∧ (register (s2.net.view j) k d (some p)).1.kvStr k = none ∧
      (register (s2.net.view j) k d (some p)).1.dfltStr k = some d := by
    simp [register, hk, Net.view, a2.2.2.1, new, hd, setKey]
  have a3 : s3.net.hash k = none ∧ (s3.net.node i).kvStr k = some v ∧ (s3.net.node j).kvStr k = none ∧ (s3.net.node j).dfltStr k = some d ∧
      s3.net.jobs = s2.net.jobs := by
    rw [← hg]
    simp only [Net.put, hreg.1, a2.1, hij, if_true, if_false, a2.2.1, hi, hreg.2.1, hreg.2.2, and_self]
  have h1 : Still k s3.net (fun n => (s3.net.node n).kvStr k) (fun n => (s3.net.node n).dfltStr k) :=
    ⟨a3.1, fun x hx => hj x (a2.2.2.2 x (by rw [← a3.2.2.2.2]; exact hx)), fun n => ⟨rfl, rfl⟩⟩
  have h2 := exec_inv_on (I := fun c => Still k c _ _) (fun s a s' hp hi hs => still_step s a s' hp hi hs) as s3.net c' ha h1 he
  rw [reads_own h2 i oi hoi, reads_own h2 j oj hoj]
  simp [a3.2.1, a3.2.2.1, a3.2.2.2.1]

/-- Process 0 saves a value, redis fails over to a replica without it, process 1 starts. -/
theorem C155_violated : ¬ C155Claim Nat := by
  intro h
  have h1 := h (fun _ => none) [.act (.register 0 "a" "0" (some lenProc)), .act (.startBatch 0 [⟨"a", "xyz"⟩]), .act (.step 0), .act (.finish 0 .ok)]
    [.lose (fun _ => true) 1, .restart 1, .act (.register 1 "a" "0" (some lenProc))] _ _ "a" "xyz" rfl (by decide)
    (by intro i all todo errs hj; change _ ∈ ([] : List (Nat × Job)) at hj; simp at hj) (by simp [Quiet]) rfl 1 lenProc [] (by decide) rfl rfl
    ⟨by simp, fun x => by
      simp [LNet.ago, lInit, Net.put, Net.view, setKey, updateNoPersist, register, nInit, new, lenProc]⟩
  exact absurd h1 (by decide)

/-- **C155** (recovery).  Whatever was lost: when a batch that has the key, once and without an error, ends and its HMSET is executed, redis has the value again. -/
theorem C155_saved (s s' : LNet V) (n i : Nat) (r : PRes) (all : List KVStr) (errs : List KVError) (k v : String)
    (hj : s.net.jobs[n]? = some (i, .batch all [] errs)) (hr : r.done = true) (he : ∀ e ∈ errs, e.key ≠ k)
    (hl : ∃ l1 l2, all = l1 ++ ⟨k, v⟩ :: l2 ∧ ∀ x ∈ l2, x.key ≠ k) (hs : lStep s (.act (.finish n r)) = some s') : s'.net.hash k = some v := by
  obtain ⟨l1, l2, rfl, hl⟩ := hl
  simp only [lStep, nStep, hj, Option.map_some, Option.some.injEq] at hs
  subst hs
  show (batchSave s.net.hash (okPairs (l1 ++ ⟨k, v⟩ :: l2) errs) r).1 k = some v
  have hk : (!errs.any fun e => decide (e.key = k)) = true := by simpa using he
  have hok : okPairs (l1 ++ ⟨k, v⟩ :: l2) errs = okPairs l1 errs ++ ⟨k, v⟩ :: okPairs l2 errs := by
    simp only [okPairs, List.filter_append, List.filter_cons, hk, if_true]
  rw [hok]
  unfold batchSave
  rw [if_neg (by simp)]
  simp only [hr, if_true]
  rw [hashSet_apply]
  have h2 : ∀ x ∈ okPairs l2 errs, x.key ≠ k := fun x hx => hl x (List.mem_filter.1 hx).1
  have hf : (okPairs l2 errs).filter (fun x => x.key = k) = [] := by
    rw [List.filter_eq_nil_iff]
    intro x hx
    simpa using h2 x hx
  simp [lastValue, List.filter_append, hf]

/-- The value survives the loss of other keys, a loss that goes back no further, and restarts. -/
example : ∃ (s s' : LNet Nat) (bs : List (LAct Nat)), bs = [.restart 0, .lose (fun _ => true) 1, .lose (fun x => x = "b") 7, .act (.register 0 "a" "0" (some lenProc))] ∧
    exec lStep (lInit Nat fun _ => none) [.act (.register 0 "a" "0" (some lenProc)), .act (.startBatch 0 [⟨"a", "xyz"⟩]), .act (.step 0), .act (.finish 0 .ok)] = some s ∧
    Spared "a" 0 bs ∧ (∀ b ∈ bs, Quiet "a" b) ∧ exec lStep s bs = some s' ∧ s'.net.hash "a" = some "xyz" :=
  ⟨_, _, _, rfl, rfl, by simp [Spared], by simp [Quiet], rfl, by decide⟩

end Gears.Confstore.Loss
