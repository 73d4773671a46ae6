import Verif.Common.Exec
import Verif.TtlRedis.Skew

/-
Calls of the redis limiter over a network that loses replies (/repo/ratelimiter/ttl_ratelimiter_redis.go:162-233 on top of
go-redis v7.2.0, `baseClient._process`).

The limiter reads its clock and builds the command once (209, 211-219); go-redis sends it up to `MaxRetries + 1` times, again
whenever no answer has arrived (time out, broken connection, LOADING).  A command that was sent may be executed by redis at any
later time or never, also when the client has already sent it again or has given up.  The client takes the answer to the
command it sent last.
-/

namespace Gears.TtlRedis

/-- One execution of a command by redis: the `k`-th transmission of call `id`. -/
structure Ex where
  id : Nat
  k  : Nat
  ev : Event
deriving Repr, DecidableEq

/-- How a call ended. -/
inductive Outcome where
  /-- with the answer to the `k`-th transmission -/
  | got (k : Nat) (r : Result)
  /-- with an error of the client library: logged, and the zero result is returned (172-175, 221-224) -/
  | failed
  /-- the parameters are not set: no command (189-191) -/
  | off
deriving Repr, DecidableEq

/-- The result a call returns. -/
def Outcome.result : Outcome → Result
  | .got _ r => r
  | .failed => .zero
  | .off => .zero

/-- Calls of the interface. -/
def Call.real : Call → Bool
  | .should .. => true
  | .isBlocked _ => true
  | _ => false

/-- Does the call send a command (189)? -/
def Call.sends : Call → Bool
  | .should _ pc _ _ _ _ _ => !decide pc.notSet
  | .isBlocked _ => true
  | _ => false

structure RState where
  db    : Db
  /-- the executions, in the order of redis -/
  log   : List Ex
  call  : Nat → Option Call
  /-- transmissions so far -/
  tries : Nat → Nat
  out   : Nat → Option Outcome

def RState.init : RState := ⟨Db.empty, [], fun _ => none, fun _ => 0, fun _ => none⟩

def upd {β : Type} (f : Nat → β) (i : Nat) (x : β) : Nat → β := fun j => if j = i then x else f j

inductive RAct where
  | start (id : Nat) (c : Call)
  | send (id : Nat)
  /-- redis executes the `k`-th transmission at its time `t` (ms) -/
  | run (id k : Nat) (t : Int)
  | deliver (id : Nat) (r : Result)
  | fail (id : Nat)
deriving Repr, DecidableEq

/-- `ShouldBlock2Context` and `IsBlockedContext` (162-233) and the loop of `_process` with `MaxRetries = R`. -/
def rStep (R : Nat) (s : RState) : RAct → Option RState
  | .start id c =>
    if s.call id = none ∧ c.real = true then
      some { s with call := upd s.call id (some c), out := upd s.out id (if c.sends then none else some .off) }
    else none
  | .send id =>
    if s.call id ≠ none ∧ s.out id = none ∧ s.tries id ≤ R then some { s with tries := upd s.tries id (s.tries id + 1) } else none
  | .run id k t =>
    match s.call id with
    | none => none
    | some c =>
      if k < s.tries id ∧ (s.log.all fun e => !(e.id == id && e.k == k)) = true then
        some { s with db := (c.exec s.db t).1, log := s.log ++ [⟨id, k, ⟨t, c, (c.exec s.db t).2⟩⟩] }
      else none
  | .deliver id r =>
    if s.out id = none ∧ (s.log.any fun e => e.id == id && e.k + 1 == s.tries id && e.ev.result == r) = true then
      some { s with out := upd s.out id (some (.got (s.tries id - 1) r)) }
    else none
  | .fail id =>
    if s.call id ≠ none ∧ s.out id = none then some { s with out := upd s.out id (some .failed) } else none

/-! ### Invariant -/

def Ex.cmd (e : Ex) : Int × Call := (e.ev.time, e.ev.call)

structure RInv (R : Nat) (s : RState) : Prop where
  hist  : TtlRedis.run Db.empty (s.log.map Ex.cmd) = (s.db, s.log.map Ex.ev)
  calls : ∀ e ∈ s.log, s.call e.id = some e.ev.call ∧ e.k < s.tries e.id
  dist  : s.log.Pairwise fun a b => ¬ (a.id = b.id ∧ a.k = b.k)
  few   : ∀ id, s.tries id ≤ R + 1
  real  : ∀ id c, s.call id = some c → c.real = true ∧ (c.sends = false → s.out id = some .off)
  off   : ∀ id, s.out id = some .off → s.tries id = 0
  none_ : ∀ id, s.call id = none → s.tries id = 0 ∧ s.out id = none
  got   : ∀ id k r, s.out id = some (.got k r) → ∃ e ∈ s.log, e.id = id ∧ e.k = k ∧ e.ev.result = r

theorem run_snoc (db : Db) (cs : List (Int × Call)) (t : Int) (c : Call) :
    run db (cs ++ [(t, c)]) = ((c.exec (run db cs).1 t).1, (run db cs).2 ++ [⟨t, c, (c.exec (run db cs).1 t).2⟩]) := by
  induction cs generalizing db with
  | nil => rfl
  | cons x cs ih => simp [run, ih]

theorem run_split (db : Db) (cs ds : List (Int × Call)) :
    run db (cs ++ ds) = ((run (run db cs).1 ds).1, (run db cs).2 ++ (run (run db cs).1 ds).2) := by
  induction cs generalizing db with
  | nil => rfl
  | cons x cs ih => simp [run, ih]

theorem rinv_init (R : Nat) : RInv R .init := by
  constructor <;> simp [RState.init, run]

theorem rinv_step (R : Nat) (s : RState) (a : RAct) (s' : RState) (h : RInv R s) (hs : rStep R s a = some s') : RInv R s' := by
  obtain ⟨h1, h2, h3, h4, h5, h6, h7, h8⟩ := h
  cases a with
  | start id c =>
    simp only [rStep, Option.ite_none_right_eq_some, Option.some.injEq] at hs
    obtain ⟨⟨hn, hr⟩, rfl⟩ := hs
    constructor <;> simp only [upd] <;> grind
  | send id =>
    simp only [rStep, Option.ite_none_right_eq_some, Option.some.injEq] at hs
    obtain ⟨hg, rfl⟩ := hs
    constructor <;> simp only [upd] <;> grind
  | run id k t =>
    simp only [rStep] at hs
    split at hs
    · simp at hs
    · rename_i c hc
      simp only [Option.ite_none_right_eq_some, Option.some.injEq, List.all_eq_true] at hs
      obtain ⟨⟨hk, hall⟩, rfl⟩ := hs
      constructor <;> simp only
      · rw [List.map_append, List.map_append]
        show TtlRedis.run Db.empty (s.log.map Ex.cmd ++ [(t, c)]) = _
        rw [run_snoc, h1]
        rfl
      · grind
      · rw [List.pairwise_append]
        refine ⟨h3, by simp, ?_⟩
        intro a ha b hb
        simp only [List.mem_singleton] at hb
        subst hb
        have := hall a ha
        simp only [Bool.not_eq_true', Bool.and_eq_false_iff, beq_eq_false_iff_ne] at this
        rintro ⟨h1, h2⟩
        rcases this with h | h
        · exact h h1
        · exact h h2
      · exact h4
      · exact h5
      · exact h6
      · exact h7
      · intro i k' r hi
        obtain ⟨e, he, h⟩ := h8 i k' r hi
        exact ⟨e, by simp [he], h⟩
  | deliver id r =>
    simp only [rStep, Option.ite_none_right_eq_some, Option.some.injEq, List.any_eq_true, Bool.and_eq_true, beq_iff_eq] at hs
    obtain ⟨⟨hg, e, he, ⟨rfl, hk⟩, rfl⟩, rfl⟩ := hs
    have hc := h2 e he
    constructor <;> simp only [upd]
    · exact h1
    · exact h2
    · exact h3
    · exact h4
    · grind
    · grind
    · grind
    · intro i k r hi
      split at hi
      · rename_i hie
        subst hie
        simp only [Option.some.injEq, Outcome.got.injEq] at hi
        exact ⟨e, he, rfl, by omega, hi.2⟩
      · exact h8 i k r hi
  | fail id =>
    simp only [rStep, Option.ite_none_right_eq_some, Option.some.injEq] at hs
    obtain ⟨hg, rfl⟩ := hs
    constructor <;> simp only [upd] <;> grind

theorem rinv {R : Nat} {as : List RAct} {s : RState} (h : exec (rStep R) .init as = some s) : RInv R s :=
  exec_inv (rinv_step R) as _ _ (rinv_init R) h

/-! ### Counting -/

/-- The event is a call of list key `L` that was not blocked, and its redis and client times satisfy `p`. -/
def Event.passes (L : Str) (p : Int → Int → Bool) (ev : Event) : Bool :=
  match ev.call with
  | .should tag _ _ key _ _ now => decide (listKey tag key = L) && !ev.result.block && p ev.time now
  | _ => false

theorem passedAt_countP (L : Str) (p : Int → Int → Bool) (h : List Event) :
    (passedAt L h).countP (fun a => p a.1 a.2) = h.countP (Event.passes L p) := by
  induction h with
  | nil => rfl
  | cons ev h ih =>
    rw [List.countP_cons, ← ih]
    obtain ⟨time, call, result⟩ := ev
    cases call with
    | should tag pc pu key bk msg now =>
      by_cases hk : listKey tag key = L
      · cases hb : result.block <;> simp [passedAt, Event.passes, hk, hb, List.countP_cons]
      · simp [passedAt, Event.passes, hk]
    | isBlocked bk => simp [passedAt, Event.passes]
    | shouldDown pc => simp [passedAt, Event.passes]
    | isBlockedDown => simp [passedAt, Event.passes]

theorem countP_split {α : Type} (p q : α → Bool) (l : List α) :
    l.countP p = l.countP (fun x => p x && q x) + l.countP (fun x => p x && !q x) := by
  induction l with
  | nil => rfl
  | cons a l ih =>
    simp only [List.countP_cons]
    cases p a <;> cases q a <;> simp <;> omega

theorem same_ex {l : List Ex} (hd : l.Pairwise fun a b => ¬ (a.id = b.id ∧ a.k = b.k)) {x y : Ex} (hx : x ∈ l) (hy : y ∈ l)
    (hi : x.id = y.id) (hk : x.k = y.k) : x = y := by
  induction l with
  | nil => simp at hx
  | cons a l ih =>
    rw [List.pairwise_cons] at hd
    rw [List.mem_cons] at hx hy
    rcases hx with rfl | hx <;> rcases hy with rfl | hy
    · rfl
    · exact absurd ⟨hi, hk⟩ (hd.1 y hy)
    · exact absurd ⟨hi.symm, hk.symm⟩ (hd.1 x hx)
    · exact ih hd.2 hx hy

/-- Transmissions of one call. -/
theorem count_id {l : List Ex} (hd : l.Pairwise fun a b => ¬ (a.id = b.id ∧ a.k = b.k)) (i : Nat) :
    ∀ n, l.countP (fun e => decide (e.id = i) && decide (e.k < n)) ≤ n := by
  have h1 : ∀ n, l.countP (fun e => decide (e.id = i) && decide (e.k = n)) ≤ 1 := by
    intro n
    induction l with
    | nil => simp
    | cons a l ih =>
      rw [List.pairwise_cons] at hd
      have := ih hd.2
      rw [List.countP_cons]
      split
      · rename_i ha
        simp only [Bool.and_eq_true, decide_eq_true_eq] at ha
        have h0 : l.countP (fun e => decide (e.id = i) && decide (e.k = n)) = 0 := by
          rw [List.countP_eq_zero]
          intro e he hp
          simp only [Bool.and_eq_true, decide_eq_true_eq] at hp
          exact hd.1 e he ⟨by omega, by omega⟩
        omega
      · omega
  intro n
  induction n with
  | zero => simp
  | succ n ih =>
    rw [countP_split _ (fun e => decide (e.k < n))]
    have e1 : l.countP (fun e => (decide (e.id = i) && decide (e.k < n + 1)) && decide (e.k < n)) ≤
        l.countP (fun e => decide (e.id = i) && decide (e.k < n)) := by
      refine List.countP_mono_left fun e _ h => ?_
      simp only [Bool.and_eq_true, decide_eq_true_eq] at h ⊢
      omega
    have e2 : l.countP (fun e => (decide (e.id = i) && decide (e.k < n + 1)) && !decide (e.k < n)) ≤
        l.countP (fun e => decide (e.id = i) && decide (e.k = n)) := by
      refine List.countP_mono_left fun e _ h => ?_
      simp only [Bool.and_eq_true, decide_eq_true_eq, Bool.not_eq_true', decide_eq_false_iff_not] at h ⊢
      omega
    have := h1 n
    omega

/-- Executions that satisfy `p` belong to the calls `ids`. -/
theorem count_ids {l : List Ex} (hd : l.Pairwise fun a b => ¬ (a.id = b.id ∧ a.k = b.k)) {n : Nat} (hk : ∀ e ∈ l, e.k < n) :
    ∀ (ids : List Nat) (p : Ex → Bool), (∀ e ∈ l, p e = true → e.id ∈ ids) → l.countP p ≤ n * ids.length
  | [], p, h => by
    have : l.countP p = 0 := by
      rw [List.countP_eq_zero]
      intro e he hp
      exact absurd (h e he hp) (by simp)
    omega
  | i :: ids, p, h => by
    rw [countP_split p (fun e => decide (e.id = i))]
    have h1 : l.countP (fun e => p e && decide (e.id = i)) ≤ n := by
      refine Nat.le_trans (List.countP_mono_left fun e he h => ?_) (count_id hd i n)
      simp only [Bool.and_eq_true, decide_eq_true_eq] at h ⊢
      exact ⟨h.2, hk e he⟩
    have h2 : l.countP (fun e => p e && !decide (e.id = i)) ≤ n * ids.length := by
      refine count_ids hd hk ids _ fun e he hp => ?_
      simp only [Bool.and_eq_true, Bool.not_eq_true', decide_eq_false_iff_not] at hp
      have := h e he hp.1
      rw [List.mem_cons] at this
      rcases this with h | h
      · exact absurd h hp.2
      · exact h
    rw [List.length_cons, Nat.mul_succ]
    omega

/-- Different calls have different executions. -/
theorem ids_count {l : List Ex} : ∀ (ids : List Nat) (p : Ex → Bool), ids.Nodup → (∀ i ∈ ids, ∃ e ∈ l, e.id = i ∧ p e = true) →
    ids.length ≤ l.countP p
  | [], p, _, _ => Nat.zero_le _
  | i :: ids, p, hn, h => by
    rw [countP_split p (fun e => decide (e.id = i))]
    rw [List.nodup_cons] at hn
    have h1 : 0 < l.countP (fun e => p e && decide (e.id = i)) := by
      obtain ⟨e, he, hi, hp⟩ := h i (by simp)
      exact List.countP_pos_iff.2 ⟨e, he, by simp [hp, hi]⟩
    have h2 : ids.length ≤ l.countP (fun e => p e && !decide (e.id = i)) := by
      refine ids_count ids _ hn.2 fun j hj => ?_
      obtain ⟨e, he, hi, hp⟩ := h j (by simp [hj])
      refine ⟨e, he, hi, ?_⟩
      have : e.id ≠ i := by rintro rfl; exact hn.1 (hi ▸ hj)
      simp [hp, this]
    rw [List.length_cons]
    omega

end Gears.TtlRedis
