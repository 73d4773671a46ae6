import Verif.TtlRedis.Load
import Verif.TtlRedis.Loss

/-
The limiter of /repo/ratelimiter/ttl_ratelimiter_redis.go on a redis cluster whose slots are moved between the nodes.

* A limiter holds a `*redis.Client` (126-130, 132-150), which is connected to one node.  go-redis follows `MOVED` and `ASK` only in
  its `ClusterClient`, which the constructors do not take; for a `Client` they are errors of the command, and an error of
  `EvalSha` lets the call pass (172-175, 221-224).
* A node executes a command if all its keys are in one slot that the node owns (redis `getNodeByQuery`).  If it is moving the
  slot to another node, it executes the command only if it still has all the keys; an expired key does not count.  In all other
  cases it replies with an error (`CROSSSLOT`, `MOVED`, `ASK`).
* A slot is moved as in `redis-cli --cluster reshard`: the owner begins to move it, keys go over one by one (`MIGRATE`), then the
  rest of the keys goes over and the other node owns the slot.
* All nodes know the scripts (otherwise: C106) and agree about the owners of the slots.  Failovers are in C153.
-/

namespace Gears.TtlRedis.Cluster

open Gears.TtlRedis
open Gears.TtlRedis.Load (down)

/-- A redis cluster. -/
structure State where
  /-- the node that owns a slot -/
  owner  : Nat → Nat
  /-- the node that a slot is being moved to -/
  moving : Nat → Option Nat
  /-- the keys on a node -/
  db     : Nat → Db

/-- An empty cluster. -/
def State.init (owner : Nat → Nat) : State := ⟨owner, fun _ => none, fun _ => Db.empty⟩

/-- Node `n` executes a command with the keys `ks` at time `t` (ttl_ratelimiter_redis.go:170 and 207-219: the keys of `EvalSha`). -/
def State.takes (st : State) (n : Nat) (t : Int) (ks : List Str) : Bool :=
  ks.all fun k => ks.all (fun k' => slot k' == slot k) && st.owner (slot k) == n &&
    ((st.moving (slot k)).isNone || existsK (st.db n) t k)

inductive Act where
  /-- a call of a limiter whose client is connected to node `n` -/
  | call (n : Nat) (c : Call)
  /-- the owner of slot `s` begins to move it to node `m` -/
  | start (s m : Nat)
  /-- one key of a slot that is being moved goes over -/
  | migrate (k : Str)
  /-- the other keys of the slot go over, and the other node owns it -/
  | finish (s : Nat)

/-- The keys `p` go from node `a` to node `b`; a key that is not on `a` stays as it is on `b`. -/
def State.shift (st : State) (p : Str → Bool) (a b : Nat) : State :=
  { st with
    db := fun n k =>
      if p k then
        if n = b then (st.db a k).or (st.db b k)
        else if n = a then none
        else st.db n k
      else st.db n k }

/-- One event at redis time `t`. -/
def step (st : State) (t : Int) : Act → State × List Event
  | .call n c =>
    if st.takes n t c.rkeys then
      ({ st with db := fun n' => if n' = n then (c.exec (st.db n) t).1 else st.db n' }, [⟨t, c, (c.exec (st.db n) t).2⟩])
    else (st, [⟨t, c, ((down c).exec (st.db n) t).2⟩])
  | .start s m =>
    if m = st.owner s ∨ (st.moving s).isSome then (st, [])
    else ({ st with moving := fun s' => if s' = s then some m else st.moving s' }, [])
  | .migrate k =>
    match st.moving (slot k) with
    | none => (st, [])
    | some m => (st.shift (fun k' => decide (k' = k)) (st.owner (slot k)) m, [])
  | .finish s =>
    match st.moving s with
    | none => (st, [])
    | some m =>
      ({ st.shift (fun k => decide (slot k = s)) (st.owner s) m with
          owner := fun s' => if s' = s then m else st.owner s', moving := fun s' => if s' = s then none else st.moving s' }, [])

/-- A sequence of events. -/
def runC (st : State) : List (Int × Act) → State × List Event
  | [] => (st, [])
  | (t, a) :: as =>
    let r := step st t a
    let r2 := runC r.1 as
    (r2.1, r.2 ++ r2.2)

/-! ### What the callers see -/

/-- The calls of a history, in order, each with what the cluster does with it. -/
def seen (st : State) : List (Int × Act) → List (Int × Call × Bool)
  | [] => []
  | (t, .call n c) :: as => (t, c, st.takes n t c.rkeys) :: seen (step st t (.call n c)).1 as
  | (t, a) :: as => seen (step st t a).1 as

/-- The calls of a history. -/
def calls (as : List (Int × Act)) : List (Int × Call) :=
  as.filterMap fun x => match x.2 with | .call _ c => some (x.1, c) | _ => none

/-- The cluster as one database. -/
def State.whole (st : State) : Db := fun k =>
  match st.moving (slot k) with
  | none => st.db (st.owner (slot k)) k
  | some m => (st.db (st.owner (slot k)) k).or (st.db m k)

/-- Where the keys are. -/
structure Inv (st : State) : Prop where
  away   : ∀ n k, n ≠ st.owner (slot k) → st.moving (slot k) ≠ some n → st.db n k = none
  apart  : ∀ m k, st.moving (slot k) = some m → st.db (st.owner (slot k)) k = none ∨ st.db m k = none
  target : ∀ s m, st.moving s = some m → m ≠ st.owner s

theorem inv_init (owner : Nat → Nat) : Inv (State.init owner) := ⟨fun _ _ _ _ => rfl, fun _ _ _ => .inl rfl, fun _ _ h => by cases h⟩

theorem takes_spec {st : State} {n : Nat} {t : Int} {ks : List Str} (h : st.takes n t ks = true) {k : Str} (hk : k ∈ ks) :
    (∀ k' ∈ ks, slot k' = slot k) ∧ st.owner (slot k) = n ∧ (st.moving (slot k) = none ∨ existsK (st.db n) t k = true) := by
  have := List.all_eq_true.mp h k hk
  simp only [Bool.and_eq_true, Bool.or_eq_true, List.all_eq_true, beq_iff_eq, Option.isNone_iff_eq_none] at this
  exact ⟨this.1.1, this.1.2, this.2⟩

theorem exists_some {db : Db} {t : Int} {k : Str} (h : existsK db t k = true) : ∃ e, db k = some e := by
  unfold existsK live at h
  cases hd : db k with
  | none => simp [hd] at h
  | some e => exact ⟨e, rfl⟩

/-- The node that executes a command has the values of the keys that the whole cluster has. -/
theorem takes_whole {st : State} {n : Nat} {t : Int} {ks : List Str} (h : st.takes n t ks = true) : ∀ k ∈ ks, st.db n k = st.whole k := by
  intro k hk
  obtain ⟨-, ho, hm⟩ := takes_spec h hk
  unfold State.whole
  rw [ho]
  cases hmv : st.moving (slot k) with
  | none => rfl
  | some m =>
    rcases hm with hm | hm
    · simp [hmv] at hm
    · obtain ⟨e, he⟩ := exists_some hm
      simp [he]

theorem shift_db (st : State) (p : Str → Bool) (a b n : Nat) (k : Str) : (st.shift p a b).db n k =
    if p k then if n = b then (st.db a k).or (st.db b k) else if n = a then none else st.db n k
    else st.db n k := rfl

/-- A call that the node executes changes only its own keys, and only on that node. -/
theorem call_db (st : State) (n n' : Nat) (t : Int) (c : Call) (k : Str) :
    ((if n' = n then (c.exec (st.db n) t).1 else st.db n') k) = st.db n' k ∨
    (n' = n ∧ k ∈ c.rkeys ∧ (if n' = n then (c.exec (st.db n) t).1 else st.db n') k = (c.exec (st.db n) t).1 k) := by
  by_cases hn : n' = n
  · by_cases hk : k ∈ c.rkeys
    · exact .inr ⟨hn, hk, by rw [if_pos hn]⟩
    · left; rw [if_pos hn, exec_frame _ _ _ _ hk, hn]
  · left; rw [if_neg hn]

theorem inv_step {st : State} (h : Inv st) (t : Int) (a : Act) : Inv (step st t a).1 := by
  cases a with
  | call n c =>
    dsimp only [step]
    split
    · rename_i ht
      refine ⟨?_, ?_, h.target⟩
      · intro n' k h1 h2
        show (if n' = n then (c.exec (st.db n) t).1 else st.db n') k = none
        rcases call_db st n n' t c k with e | ⟨e, hk, -⟩
        · rw [e]; exact h.away n' k h1 h2
        · exact absurd ((takes_spec ht hk).2.1.trans e.symm).symm h1
      · intro m k hm
        show (if st.owner (slot k) = n then (c.exec (st.db n) t).1 else st.db (st.owner (slot k))) k = none ∨
          (if m = n then (c.exec (st.db n) t).1 else st.db m) k = none
        have hmo := h.target _ _ hm
        rcases call_db st n m t c k with e | ⟨e, hk, -⟩
        · rw [e]
          rcases call_db st n (st.owner (slot k)) t c k with e' | ⟨e', hk, -⟩
          · rw [e']; exact h.apart m k hm
          · right
            obtain ⟨-, ho, hex⟩ := takes_spec ht hk
            rcases hex with hex | hex
            · rw [hm] at hex; cases hex
            · obtain ⟨v, hv⟩ := exists_some hex
              rcases h.apart m k hm with hx | hx
              · rw [ho, hv] at hx; cases hx
              · exact hx
        · exact absurd ((takes_spec ht hk).2.1.trans e.symm).symm hmo
    · exact h
  | start s m =>
    dsimp only [step]
    split
    · exact h
    · rename_i hc
      have hm1 : m ≠ st.owner s := fun e => hc (.inl e)
      have hm2 : st.moving s = none := by
        cases hx : st.moving s with
        | none => rfl
        | some x => exact absurd (.inr (by rw [hx]; rfl)) hc
      refine ⟨?_, ?_, ?_⟩
      · intro n k h1 h2
        refine h.away n k h1 ?_
        by_cases hs : slot k = s
        · rw [hs, hm2]; simp
        · simpa [hs] using h2
      · intro x k hx
        by_cases hs : slot k = s
        · simp only [hs, if_true, Option.some.injEq] at hx
          subst hx
          right
          exact h.away m k (by rw [hs]; exact hm1) (by rw [hs, hm2]; simp)
        · simp only [hs, if_false] at hx
          exact h.apart x k hx
      · intro s' x hx
        by_cases hs : s' = s
        · simp only [hs, if_true, Option.some.injEq] at hx
          subst hx; rw [hs]; exact hm1
        · simp only [hs, if_false] at hx
          exact h.target s' x hx
  | migrate k =>
    dsimp only [step]
    cases hmv : st.moving (slot k) with
    | none => exact h
    | some m =>
      have hmo := h.target _ _ hmv
      refine ⟨?_, ?_, h.target⟩
      · intro n k' h1 h2
        simp only [shift_db]
        by_cases hk : k' = k
        · subst hk
          have : n ≠ m := fun e => h2 (e ▸ hmv)
          have h1' : n ≠ st.owner (slot k') := h1
          simp only [decide_true, if_true, if_neg this, if_neg h1']
          exact h.away n k' h1 h2
        · simp only [hk, decide_false, Bool.false_eq_true, if_false]
          exact h.away n k' h1 h2
      · intro x k' hx
        simp only [shift_db]
        by_cases hk : k' = k
        · subst hk
          left
          show (if decide (k' = k') = true then if st.owner (slot k') = m then _ else if st.owner (slot k') = st.owner (slot k') then none else _ else _) = none
          simp [Ne.symm hmo]
        · simp only [hk, decide_false, Bool.false_eq_true, if_false]
          exact h.apart x k' hx
  | finish s =>
    dsimp only [step]
    cases hmv : st.moving s with
    | none => exact h
    | some m =>
      have hmo := h.target _ _ hmv
      refine ⟨?_, ?_, ?_⟩
      · intro n k h1 h2
        simp only [shift_db]
        by_cases hk : slot k = s
        · have h1' : n ≠ m := by simpa [hk] using h1
          simp only [hk, decide_true, if_true, if_neg h1']
          split
          · rfl
          · rename_i hn
            exact h.away n k (by rw [hk]; exact hn) (by rw [hk, hmv]; simpa using Ne.symm h1')
        · simp only [hk, decide_false, Bool.false_eq_true, if_false]
          exact h.away n k (by simpa [hk] using h1) (by simpa [hk] using h2)
      · intro x k hx
        by_cases hk : slot k = s
        · simp [hk] at hx
        · simp only [hk, if_false] at hx
          simp only [shift_db, hk, decide_false, Bool.false_eq_true, if_false]
          exact h.apart x k hx
      · intro s' x hx
        by_cases hs : s' = s
        · simp [hs] at hx
        · simp only [hs, if_false] at hx ⊢
          exact h.target s' x hx

theorem down_exec (c : Call) (db db' : Db) (t : Int) : (down c).exec db t = (db, ((down c).exec db' t).2) := by cases c <;> rfl

/-- One event of the cluster is one or no call of a single server. -/
theorem whole_step {st : State} (h : Inv st) (t : Int) (a : Act) :
    (∀ n c, a = .call n c → st.takes n t c.rkeys = true →
      (step st t a).1.whole = (c.exec st.whole t).1 ∧ (step st t a).2 = [⟨t, c, (c.exec st.whole t).2⟩]) ∧
    (∀ n c, a = .call n c → st.takes n t c.rkeys = false →
      (step st t a).1 = st ∧ (step st t a).2 = [⟨t, c, ((down c).exec st.whole t).2⟩]) ∧
    ((∀ n c, a ≠ .call n c) → (step st t a).1.whole = st.whole ∧ (step st t a).2 = []) := by
  refine ⟨?_, ?_, ?_⟩
  · rintro n c rfl ht
    obtain ⟨e1, e2⟩ := exec_congr (st.db n) st.whole t c (takes_whole ht)
    have hs : step st t (.call n c) =
        ({ st with db := fun n' => if n' = n then (c.exec (st.db n) t).1 else st.db n' }, [⟨t, c, (c.exec (st.db n) t).2⟩]) := by
      dsimp only [step]; rw [if_pos ht]
    rw [hs]
    refine ⟨?_, by rw [e1]⟩
    funext k
    by_cases hk : k ∈ c.rkeys
    · obtain ⟨-, ho, hm⟩ := takes_spec ht hk
      have hwk := takes_whole ht k hk
      have e2 := e2 k hwk
      rw [← e2]
      unfold State.whole
      cases hmv : st.moving (slot k) with
      | none => simp [hmv, ho]
      | some m =>
        have hmo := h.target _ _ hmv
        rw [ho] at hmo
        rcases hm with hm | hm
        · rw [hmv] at hm; cases hm
        · obtain ⟨v, hv⟩ := exists_some hm
          have hmk : st.db m k = none := by
            rcases h.apart m k hmv with hx | hx
            · rw [ho, hv] at hx; cases hx
            · exact hx
          simp only [hmv, ho, if_true, if_neg hmo, hmk]
          cases (c.exec (st.db n) t).1 k <;> rfl
    · rw [exec_frame _ _ _ _ hk]
      have hdb : ∀ n', (if n' = n then (c.exec (st.db n) t).1 else st.db n') k = st.db n' k := by
        intro n'
        split
        · rename_i e; rw [exec_frame _ _ _ _ hk, e]
        · rfl
      unfold State.whole
      simp only [hdb]
  · rintro n c rfl ht
    have hs : step st t (.call n c) = (st, [⟨t, c, ((down c).exec (st.db n) t).2⟩]) := by
      dsimp only [step]; rw [if_neg (by simp [ht])]
    rw [hs]
    exact ⟨rfl, by rw [down_exec c st.whole (st.db n) t]⟩
  · intro hn
    cases a with
    | call n c => exact absurd rfl (hn n c)
    | start s m =>
      dsimp only [step]
      split
      · exact ⟨rfl, rfl⟩
      · rename_i hc
        refine ⟨?_, rfl⟩
        have hm2 : st.moving s = none := by
          cases hx : st.moving s with
          | none => rfl
          | some x => exact absurd (.inr (by rw [hx]; rfl)) hc
        funext k
        unfold State.whole
        by_cases hk : slot k = s
        · simp only [hk, if_true, hm2]
          have : st.db m k = none := h.away m k (by rw [hk]; exact fun e => hc (.inl e)) (by rw [hk, hm2]; simp)
          rw [this]
          cases st.db (st.owner s) k <;> rfl
        · simp only [hk, if_false]
    | migrate k =>
      dsimp only [step]
      cases hmv : st.moving (slot k) with
      | none => exact ⟨rfl, rfl⟩
      | some m =>
        refine ⟨?_, rfl⟩
        have hmo := h.target _ _ hmv
        funext k'
        unfold State.whole
        by_cases hk : k' = k
        · subst hk
          have e : ∀ st' : State, st'.owner = st.owner → st'.moving = st.moving →
              (match st'.moving (slot k') with
                | none => st'.db (st'.owner (slot k')) k'
                | some m => (st'.db (st'.owner (slot k')) k').or (st'.db m k')) =
              (st'.db (st.owner (slot k')) k').or (st'.db m k') := by
            intro st' h1 h2; rw [h1, h2, hmv]
          refine (e (st.shift (fun k'' => decide (k'' = k')) (st.owner (slot k')) m) rfl rfl).trans (Eq.trans ?_ (e st rfl rfl).symm)
          show ((st.shift _ _ _).db (st.owner (slot k')) k').or ((st.shift _ _ _).db m k') = _
          simp only [shift_db, decide_true, if_true, if_neg (Ne.symm hmo), Option.none_or]
        · simp only [shift_db, hk, decide_false, Bool.false_eq_true, if_false]
          rfl
    | finish s =>
      dsimp only [step]
      cases hmv : st.moving s with
      | none => exact ⟨rfl, rfl⟩
      | some m =>
        refine ⟨?_, rfl⟩
        funext k
        unfold State.whole
        by_cases hk : slot k = s
        · simp only [hk, if_true, hmv, shift_db, decide_true]
        · simp only [shift_db, hk, decide_false, Bool.false_eq_true, if_false]

/-- What a single server is asked: the calls that a node executes, and for the others calls whose request fails. -/
def asked (x : Int × Call × Bool) : Int × Call := (x.1, if x.2.2 then x.2.1 else down x.2.1)

theorem refines (as : List (Int × Act)) : ∀ {st : State}, Inv st →
    (run st.whole ((seen st as).map asked)).2 = List.zipWith (fun ev x => ⟨ev.time, (asked x).2, ev.result⟩) (runC st as).2 (seen st as) ∧
    (runC st as).2.map (fun ev => (ev.time, ev.call)) = calls as ∧ (seen st as).map (fun x => (x.1, x.2.1)) = calls as := by
  induction as with
  | nil => intro st _; exact ⟨rfl, rfl, rfl⟩
  | cons x as ih =>
    intro st h
    obtain ⟨t, a⟩ := x
    obtain ⟨w1, w2, w3⟩ := whole_step h t a
    obtain ⟨i1, i2, i3⟩ := ih (inv_step h t a)
    cases a with
    | call n c =>
      cases ht : st.takes n t c.rkeys with
      | true =>
        obtain ⟨e1, e2⟩ := w1 n c rfl ht
        rw [e1] at i1
        simp only [runC, seen, ht, asked, run, e2, List.map_cons, if_true, i1, i2, i3, calls,
          List.filterMap_cons, List.cons_append, List.nil_append, List.zipWith_cons_cons]
        exact ⟨trivial, trivial, trivial⟩
      | false =>
        obtain ⟨e1, e2⟩ := w2 n c rfl ht
        rw [e1] at i1 i2 i3
        have hd : ((down c).exec st.whole t).1 = st.whole := by rw [down_exec c st.whole st.whole t]
        simp only [runC, seen, ht, asked, run, e1, e2, List.map_cons, i1, i2, i3, calls, hd,
          List.filterMap_cons, List.cons_append, List.nil_append, Bool.false_eq_true, if_false, List.zipWith_cons_cons]
        exact ⟨trivial, trivial, trivial⟩
    | start s m =>
      obtain ⟨e1, e2⟩ := w3 (by intro n c e; cases e)
      rw [e1] at i1
      simp only [runC, seen, e2, List.nil_append, i1, i2, i3, calls, List.filterMap_cons]
      exact ⟨trivial, trivial, trivial⟩
    | migrate k =>
      obtain ⟨e1, e2⟩ := w3 (by intro n c e; cases e)
      rw [e1] at i1
      simp only [runC, seen, e2, List.nil_append, i1, i2, i3, calls, List.filterMap_cons]
      exact ⟨trivial, trivial, trivial⟩
    | finish s =>
      obtain ⟨e1, e2⟩ := w3 (by intro n c e; cases e)
      rw [e1] at i1
      simp only [runC, seen, e2, List.nil_append, i1, i2, i3, calls, List.filterMap_cons]
      exact ⟨trivial, trivial, trivial⟩

/-! ### The properties -/

/-- The call is a `ShouldBlock2` of the limiter `NewRedisTtlRateLimiterCluster(…, hashTag, …)`, with keys for which C22 holds. -/
def Proper (hashTag : Str) (c : Call) : Prop :=
  trimBraces hashTag ≠ [] ∧ ∃ pc pu key bk msg now, c = .should (clusterTag hashTag) pc pu key bk msg now ∧ '{' ∉ key ∧ '{' ∉ bk

/-- **C158**, the full claim: the callers of a limiter for a cluster get the results that they would get if redis was one server. -/
def C158Claim : Prop :=
  ∀ (owner : Nat → Nat) (hashTag : Str) (as : List (Int × Act)), (∀ x ∈ calls as, Proper hashTag x.2) →
    (runC (.init owner) as).2 = (run Db.empty (calls as)).2

/-- **C158** for all histories: in any cluster, with clients on any nodes and slots moved in any way, the callers get the results of
one server that is asked the calls which a node executes and which does not answer the others. -/
theorem C158_refines (owner : Nat → Nat) (as : List (Int × Act)) :
    (run Db.empty ((seen (.init owner) as).map asked)).2 =
      List.zipWith (fun ev x => ⟨ev.time, (asked x).2, ev.result⟩) (runC (.init owner) as).2 (seen (.init owner) as) ∧
    (runC (.init owner) as).2.map (fun ev => (ev.time, ev.call)) = calls as ∧
    (seen (.init owner) as).map (fun x => (x.1, x.2.1)) = calls as :=
  refines as (inv_init owner)

theorem zip_self (evs : List Event) (xs : List (Int × Call × Bool)) (h1 : evs.map (fun ev => (ev.time, ev.call)) = xs.map (fun x => (x.1, x.2.1)))
    (h2 : ∀ x ∈ xs, x.2.2 = true) : List.zipWith (fun ev x => (⟨ev.time, (asked x).2, ev.result⟩ : Event)) evs xs = evs ∧
    xs.map asked = xs.map (fun x => (x.1, x.2.1)) := by
  induction evs generalizing xs with
  | nil => cases xs with
    | nil => exact ⟨rfl, rfl⟩
    | cons x xs => simp at h1
  | cons ev evs ih => cases xs with
    | nil => simp at h1
    | cons x xs =>
      simp only [List.map_cons, List.cons.injEq, Prod.mk.injEq] at h1
      obtain ⟨i1, i2⟩ := ih xs h1.2 (fun y hy => h2 y (by simp [hy]))
      have hx := h2 x (by simp)
      refine ⟨?_, ?_⟩
      · rw [List.zipWith_cons_cons, i1]
        simp only [asked, hx, if_true, ← h1.1.2]
      · simp only [List.map_cons, i2, asked, hx, if_true]

/-- **C158** (partial: histories in which a node executes each call). -/
theorem C158_taken_partial (owner : Nat → Nat) (as : List (Int × Act)) (h : ∀ x ∈ seen (.init owner) as, x.2.2 = true) :
    (runC (.init owner) as).2 = (run Db.empty (calls as)).2 := by
  obtain ⟨e1, e2, e3⟩ := C158_refines owner as
  obtain ⟨z1, z2⟩ := zip_self _ _ (e2.trans e3.symm) h
  rw [z1, z2, e3] at e1
  exact e1.symm

/-- No event of the history begins to move slot `s`. -/
def Still (s : Nat) (as : List (Int × Act)) : Prop := ∀ x ∈ as, ∀ m, x.2 ≠ .start s m

/-- All calls come to node `n` and have all their keys in slot `s`. -/
def Home (n s : Nat) (as : List (Int × Act)) : Prop := ∀ x ∈ as, ∀ n' c, x.2 = .call n' c → n' = n ∧ ∀ k ∈ c.rkeys, slot k = s

theorem still_owner (st : State) (t : Int) (a : Act) (s : Nat) (hm : st.moving s = none) (ha : ∀ m, a ≠ .start s m) :
    (step st t a).1.owner s = st.owner s ∧ (step st t a).1.moving s = none := by
  cases a with
  | call n c => dsimp only [step]; split <;> exact ⟨rfl, hm⟩
  | start s' m =>
    dsimp only [step]
    have : s ≠ s' := fun e => ha m (by rw [e])
    split
    · exact ⟨rfl, hm⟩
    · exact ⟨rfl, by simp [this, hm]⟩
  | migrate k => dsimp only [step]; split <;> exact ⟨rfl, hm⟩
  | finish s' =>
    dsimp only [step]
    split
    · exact ⟨rfl, hm⟩
    · rename_i m hx
      have : s ≠ s' := fun e => by rw [e, hx] at hm; cases hm
      exact ⟨by simp [this], by simp [this, hm]⟩

theorem home_taken (n s : Nat) (as : List (Int × Act)) : ∀ (st : State), st.owner s = n → st.moving s = none → Still s as → Home n s as →
    ∀ x ∈ seen st as, x.2.2 = true := by
  induction as with
  | nil => intro st _ _ _ _ x hx; simp [seen] at hx
  | cons y as ih =>
    intro st ho hm hs hh x hx
    obtain ⟨t, a⟩ := y
    obtain ⟨o1, o2⟩ := still_owner st t a s hm (hs (t, a) (by simp))
    replace ih := ih (step st t a).1 (o1.trans ho) o2 (fun z hz => hs z (by simp [hz])) (fun z hz => hh z (by simp [hz]))
    cases a with
    | call n' c =>
      obtain ⟨rfl, hk⟩ := hh _ (List.mem_cons_self ..) n' c rfl
      simp only [seen, List.mem_cons] at hx
      rcases hx with rfl | hx
      · refine List.all_eq_true.mpr fun k hkm => ?_
        simp only [Bool.and_eq_true, Bool.or_eq_true, List.all_eq_true, beq_iff_eq, Option.isNone_iff_eq_none, hk k hkm]
        exact ⟨⟨hk, ho⟩, .inl hm⟩
      · exact ih x hx
    | start s' m => exact ih x (by simpa only [seen] using hx)
    | migrate k => exact ih x (by simpa only [seen] using hx)
    | finish s' => exact ih x (by simpa only [seen] using hx)

/-- The keys of a limiter for a cluster are in the slot of its hash tag. -/
theorem proper_slot {hashTag : Str} {c : Call} (h : Proper hashTag c) :
    ∀ k ∈ c.rkeys, slot k = slot ('{' :: trimBraces hashTag ++ ['}']) := by
  obtain ⟨ht, pc, pu, key, bk, msg, now, rfl, h1, h2⟩ := h
  have e0 : hashPart ([] ++ clusterTag hashTag) = _ := hashPart_tag [] hashTag (by simp) ht
  have e1 := hashPart_tag (pfx ++ key) hashTag (by simp [pfx, h1]) ht
  have e2 := hashPart_tag (bk ++ sfx) hashTag (by simp [sfx, h2]) ht
  intro k hk
  simp only [Call.rkeys, List.mem_cons, List.not_mem_nil, or_false] at hk
  have e0' : hashPart ('{' :: trimBraces hashTag ++ ['}']) = _ := e0
  unfold slot
  rw [e0']
  rcases hk with rfl | rfl
  · unfold listKey; rw [e1]
  · unfold blockRKey; rw [e2]

/-- **C158** (partial: a client on the node that owns the slot of the hash tag, and that slot is not moved; other slots may be). -/
theorem C158_home_partial (owner : Nat → Nat) (hashTag : Str) (as : List (Int × Act))
    (hp : ∀ x ∈ as, ∀ n c, x.2 = .call n c → Proper hashTag c ∧ n = owner (slot ('{' :: trimBraces hashTag ++ ['}'])))
    (hs : Still (slot ('{' :: trimBraces hashTag ++ ['}'])) as) :
    (runC (.init owner) as).2 = (run Db.empty (calls as)).2 :=
  C158_taken_partial owner as (home_taken _ _ as _ rfl rfl hs fun x hx n c e => ⟨(hp x hx n c e).2, proper_slot (hp x hx n c e).1⟩)

/-- **C158**: a call that the node does not execute passes and changes nothing. -/
theorem C158_refused (st : State) (n : Nat) (t : Int) (c : Call) (h : st.takes n t c.rkeys = false) :
    step st t (.call n c) = (st, [⟨t, c, .zero⟩]) := by
  dsimp only [step]
  rw [if_neg (by simp [h])]
  cases c with
  | should tag pc pu key bk msg now => simp only [down, Call.exec, Result.ofEval, ite_self]
  | isBlocked bk => rfl
  | shouldDown pc => simp only [down, Call.exec, Result.ofEval, ite_self]
  | isBlockedDown => rfl

theorem takes_false {st : State} {n : Nat} {t : Int} {ks : List Str} {k : Str} (hk : k ∈ ks)
    (h : ¬ (st.owner (slot k) = n ∧ (st.moving (slot k) = none ∨ existsK (st.db n) t k = true))) : st.takes n t ks = false := by
  cases ht : st.takes n t ks with
  | false => rfl
  | true => exact absurd (takes_spec ht hk).2 h

/-- All calls come to nodes for which the slot `s` of one of their keys is not meant. -/
def Astray (s : Nat) (N : Nat → Prop) (as : List (Int × Act)) : Prop :=
  (∀ x ∈ as, ∀ n c, x.2 = .call n c → N n ∧ ∃ k ∈ c.rkeys, slot k = s) ∧ ∀ x ∈ as, ∀ m, x.2 = .start s m → ¬ N m

theorem astray (s : Nat) (N : Nat → Prop) (as : List (Int × Act)) : ∀ (st : State), ¬ N (st.owner s) → (∀ m, st.moving s = some m → ¬ N m) →
    Astray s N as → ∀ ev ∈ (runC st as).2, ev.result = .zero := by
  induction as with
  | nil => intro st _ _ _ ev hev; simp [runC] at hev
  | cons y as ih =>
    intro st ho hm hs ev hev
    obtain ⟨t, a⟩ := y
    have hs' : Astray s N as := ⟨fun z hz => hs.1 z (by simp [hz]), fun z hz => hs.2 z (by simp [hz])⟩
    have ih := ih (step st t a).1
    simp only [runC, List.mem_append] at hev
    cases a with
    | call n c =>
      obtain ⟨hN, k, hk, rfl⟩ := hs.1 _ (List.mem_cons_self ..) n c rfl
      have hf : st.takes n t c.rkeys = false := takes_false hk fun e => ho (e.1 ▸ hN)
      have hst := C158_refused st n t c hf
      rw [hst] at hev ih
      rcases hev with hev | hev
      · simp only [List.mem_singleton] at hev; rw [hev]
      · exact ih ho hm hs' ev hev
    | start s' m =>
      have hn := hs.2 _ (List.mem_cons_self ..)
      dsimp only [step] at hev ih
      split at hev
      · rename_i hc
        rw [if_pos hc] at ih
        exact ih ho hm hs' ev (by simpa using hev)
      · rename_i hc
        rw [if_neg hc] at ih
        refine ih ho ?_ hs' ev (by simpa using hev)
        intro x hx
        by_cases e : s = s'
        · subst e
          simp only [if_true, Option.some.injEq] at hx
          exact hx ▸ hn m rfl
        · simp only [e, if_false] at hx
          exact hm x hx
    | migrate k =>
      dsimp only [step] at hev ih
      split at hev
      · rename_i hc
        simp only [hc] at ih
        exact ih ho hm hs' ev (by simpa using hev)
      · rename_i m hc
        simp only [hc] at ih
        exact ih ho hm hs' ev (by simpa using hev)
    | finish s' =>
      dsimp only [step] at hev ih
      split at hev
      · rename_i hc
        simp only [hc] at ih
        exact ih ho hm hs' ev (by simpa using hev)
      · rename_i m hc
        simp only [hc] at ih
        refine ih ?_ ?_ hs' ev (by simpa using hev)
        · by_cases e : s = s'
          · subst e; simpa using hm m hc
          · simpa [e] using ho
        · intro x hx
          by_cases e : s = s'
          · simp [e] at hx
          · simp only [e, if_false] at hx
            exact hm x hx

/-- **C158** (violated): clients on nodes that do not own the slot of a key of their calls are never told to block, whatever the
history of the cluster was and whatever else happens, as long as the slot is not moved to one of these nodes. -/
theorem C158_off_violated (st : State) (s : Nat) (N : Nat → Prop) (as : List (Int × Act)) (ho : ¬ N (st.owner s))
    (hm : ∀ m, st.moving s = some m → ¬ N m) (h1 : ∀ x ∈ as, ∀ n c, x.2 = .call n c → N n ∧ ∃ k ∈ c.rkeys, slot k = s)
    (h2 : ∀ x ∈ as, ∀ m, x.2 = .start s m → ¬ N m) : ∀ ev ∈ (runC st as).2, ev.result = .zero :=
  astray s N as st ho hm ⟨h1, h2⟩

/-- **C158** (violated): once the slot of the hash tag was moved away from the node of the client, the limiter is off. -/
theorem C158_moved_violated (st : State) (hi : Inv st) (t : Int) (hashTag : Str) (m : Nat) (as : List (Int × Act))
    (hm : st.moving (slot ('{' :: trimBraces hashTag ++ ['}'])) = some m)
    (hc : ∀ x ∈ as, ∀ n c, x.2 = .call n c → Proper hashTag c ∧ n = st.owner (slot ('{' :: trimBraces hashTag ++ ['}'])))
    (hb : ∀ x ∈ as, x.2 ≠ .start (slot ('{' :: trimBraces hashTag ++ ['}'])) (st.owner (slot ('{' :: trimBraces hashTag ++ ['}'])))) :
    ∀ ev ∈ (runC st ((t, .finish (slot ('{' :: trimBraces hashTag ++ ['}']))) :: as)).2, ev.result = .zero := by
  have hmo := hi.target _ _ hm
  have key := astray (slot ('{' :: trimBraces hashTag ++ ['}'])) (fun n => n = st.owner (slot ('{' :: trimBraces hashTag ++ ['}']))) as
    (step st t (.finish (slot ('{' :: trimBraces hashTag ++ ['}'])))).1
    (by dsimp only [step]; rw [hm]; simpa using hmo) (by dsimp only [step]; rw [hm]; simp)
    ⟨fun x hx n c e => ⟨(hc x hx n c e).2, by
      obtain ⟨hp, -⟩ := hc x hx n c e
      have := proper_slot hp
      obtain ⟨-, pc, pu, k, bk, msg, now, rfl, -, -⟩ := hp
      exact ⟨listKey (clusterTag hashTag) k, by simp [Call.rkeys], this _ (by simp [Call.rkeys])⟩⟩,
     fun x hx m' e em => hb x hx (by rw [e, em])⟩
  intro ev hev
  refine key ev ?_
  simp only [runC, List.mem_append] at hev
  rcases hev with hev | hev
  · dsimp only [step] at hev; rw [hm] at hev; simp at hev
  · exact hev

/-- **C158**: while the slot of the block key is being moved, nobody is blocked who is not blocked already, and no block begins. -/
theorem C158_moving (st : State) (n : Nat) (t : Int) (tag : Str) (pc pu : Params) (key bk msg : Str) (now : Int)
    (hm : st.moving (slot (blockRKey tag bk)) ≠ none) :
    (existsK (st.db n) t (blockRKey tag bk) = false →
      step st t (.call n (.should tag pc pu key bk msg now)) = (st, [⟨t, .should tag pc pu key bk msg now, .zero⟩])) ∧
    ∀ ev ∈ (step st t (.call n (.should tag pc pu key bk msg now))).2, ev.result.triggered = false := by
  have off : existsK (st.db n) t (blockRKey tag bk) = false →
      step st t (.call n (.should tag pc pu key bk msg now)) = (st, [⟨t, .should tag pc pu key bk msg now, .zero⟩]) := by
    intro hx
    refine C158_refused st n t _ (takes_false (k := blockRKey tag bk) (by simp [Call.rkeys]) ?_)
    rintro ⟨-, h | h⟩
    · exact hm h
    · rw [hx] at h; cases h
  refine ⟨off, ?_⟩
  intro ev hev
  cases hx : existsK (st.db n) t (blockRKey tag bk) with
  | false => rw [off hx] at hev; simp only [List.mem_singleton] at hev; rw [hev]; rfl
  | true =>
    cases ht : st.takes n t (Call.should tag pc pu key bk msg now).rkeys with
    | false => rw [C158_refused st n t _ ht] at hev; simp only [List.mem_singleton] at hev; rw [hev]; rfl
    | true =>
      dsimp only [step] at hev
      rw [if_pos ht] at hev
      simp only [List.mem_singleton] at hev
      rw [hev]
      simp only [Call.exec, shouldBlock2]
      split
      · rfl
      · unfold script1
        by_cases hz : pu.capacity ≤ 0 ∨ pu.window ≤ 0 ∨ pu.timeout ≤ 0
        · rw [if_pos hz]; rfl
        · rw [if_neg hz]
          simp only [hx, if_true]
          cases getStr (st.db n) t (blockRKey tag bk) <;> rfl

/-- **C158**: a call whose keys are in different slots is executed by no node. -/
theorem C158_crossslot (st : State) (n : Nat) (t : Int) (c : Call) (k k' : Str) (hk : k ∈ c.rkeys) (hk' : k' ∈ c.rkeys) (h : slot k' ≠ slot k) :
    step st t (.call n c) = (st, [⟨t, c, .zero⟩]) := by
  refine C158_refused st n t c ?_
  cases ht : st.takes n t c.rkeys with
  | false => rfl
  | true => exact absurd ((takes_spec ht hk).1 k' hk') h

/-- The client times of the calls on list key `L` that a node executed and that passed. -/
def decided (L : Str) (evs : List Event) (xs : List (Int × Call × Bool)) : List Int :=
  passed L ((evs.zip xs).filterMap fun p => if p.2.2.2 then some p.1 else none)

theorem decided_eq (L : Str) (evs : List Event) (xs : List (Int × Call × Bool))
    (h : evs.map (fun ev => (ev.time, ev.call)) = xs.map (fun x => (x.1, x.2.1))) :
    decided L evs xs = passed L (List.zipWith (fun ev x => (⟨ev.time, (asked x).2, ev.result⟩ : Event)) evs xs) := by
  induction evs generalizing xs with
  | nil => rfl
  | cons ev evs ih => cases xs with
    | nil => rfl
    | cons x xs =>
      simp only [List.map_cons, List.cons.injEq, Prod.mk.injEq] at h
      have ih := ih xs h.2
      unfold decided at ih ⊢
      obtain ⟨t, c, b⟩ := x
      cases b with
      | true =>
        have hc : ev.call = c := h.1.2
        simp only [List.zip_cons_cons, List.filterMap_cons, if_true, List.zipWith_cons_cons, asked]
        rw [show (⟨ev.time, c, ev.result⟩ : Event) = ev by rw [← hc], passed_cons, ih, ← passed_cons]
        rfl
      | false =>
        simp only [List.zip_cons_cons, List.filterMap_cons, Bool.false_eq_true, if_false, List.zipWith_cons_cons, asked]
        rw [ih, passed_cons L ⟨ev.time, down c, ev.result⟩]
        cases c <;> rfl

/-- **C158**: the bound of C17 for the calls that the nodes executed; the others pass in addition. -/
theorem C158_admission (owner : Nat → Nat) (BK : Str → Prop) (L : Str) (hL : ¬ BK L) (c : Nat) (w e δ : Int) (hc : 0 < c) (hw : 0 < w)
    (he : 0 < e) (hwe : w < 2 * e) (as : List (Int × Act)) (hsort : ((calls as).map (·.1)).Pairwise (· ≤ ·))
    (hok : ∀ x ∈ calls as, CallOk BK L c w e δ x.1 x.2) (lo : Int) :
    (decided L (runC (.init owner) as).2 (seen (.init owner) as)).countP (fun a => lo ≤ a ∧ a ≤ lo + w) ≤ c := by
  obtain ⟨e1, e2, e3⟩ := C158_refines owner as
  rw [decided_eq L _ _ (e2.trans e3.symm), ← e1]
  refine C17_admission BK L hL c w e δ hc hw he hwe _ ?_ ?_ lo
  · rw [← e3] at hsort
    simpa [List.map_map, Function.comp_def, asked] using hsort
  · intro x hx
    obtain ⟨y, hy, rfl⟩ := List.mem_map.mp hx
    have hy' : (y.1, y.2.1) ∈ calls as := by rw [← e3]; exact List.mem_map.mpr ⟨y, hy, rfl⟩
    have := hok _ hy'
    obtain ⟨t, cl, b⟩ := y
    cases b with
    | true => exact this
    | false => cases cl <;> trivial

/-! ### Examples -/

/-- One call per second of a limiter that lets one call per 9 seconds pass. -/
def exCall (n : Nat) (now : Int) : Int × Act :=
  (now * 1000, .call n (.should (clusterTag ['t']) ⟨1, 9, 5⟩ ⟨1, 9, 5⟩ ['k'] ['k'] ['m'] now))

theorem exCall_proper (n : Nat) (now : Int) : ∀ x ∈ calls [exCall n now], Proper ['t'] x.2 := by
  intro x hx
  simp only [calls, exCall, List.filterMap_cons, List.filterMap_nil, List.mem_singleton] at hx
  subst hx
  exact ⟨by decide, _, _, _, _, _, _, rfl, by decide, by decide⟩

/-- Non-vacuity of C158_home_partial: a client on the owner of the slot is told to block; a client on another node is not. -/
example : ((runC (.init fun _ => 1) [exCall 1 0, exCall 1 1]).2.map (·.result.block), (runC (.init fun _ => 1) [exCall 0 0, exCall 0 1]).2.map (·.result.block))
    = ([false, true], [false, false]) := by decide +kernel

/-- Non-vacuity of C158_moved_violated and C158_moving: a caller that is blocked, while the slot is moved and afterwards. -/
example : (runC (.init fun _ => 1) [exCall 1 0, exCall 1 1, (1000, .start (slot "{t}".toList) 2), exCall 1 1,
      (1000, .migrate (listKey (clusterTag ['t']) ['k'])), exCall 1 1, (1000, .finish (slot "{t}".toList)), exCall 1 2, exCall 2 2]).2.map
      (·.result.block) = [false, true, true, false, false, true] := by decide +kernel

/-- The keys of a limiter that was not made for a cluster are in different slots. -/
example : slot (listKey standalone ['k']) ≠ slot (blockRKey standalone ['k']) := by decide +kernel

/-- **C158** (violated). -/
theorem C158_violated : ¬ C158Claim := by
  intro h
  have := h (fun _ => 1) ['t'] [exCall 0 0, exCall 0 1] (by
    intro x hx
    have hx : x ∈ calls [exCall 0 0] ∨ x ∈ calls [exCall 0 1] := by
      simpa [calls, exCall] using hx
    rcases hx with hx | hx
    · exact exCall_proper 0 0 x hx
    · exact exCall_proper 0 1 x hx)
  have := congrArg (fun l : List Event => l.map (·.result.block)) this
  revert this
  decide +kernel

end Gears.TtlRedis.Cluster
