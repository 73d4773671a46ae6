import Verif.Confstore.Deadlock
import Verif.Confstore.Panics

/-
C126: reading never panics and never hangs, whatever redis holds (/repo/confstore/store.go:138-265, procs.go:182-224), and C93 for
the processors of procs.go.
-/

namespace Gears.Confstore.Panics

open Gears.Str Gears.Rsa Gears.Url
open Gears.Procs (IntProc stringValidate boolValidate boolConvert cssValidate enumValidate enumMap)

variable {V : Type}

/-! ### Specification -/

/-- `order` is what redis holds, in any order. -/
def Enumerates (order : List (Bytes × Bytes)) (h : Bytes → Option Bytes) : Prop :=
  (order.map (·.1)).Nodup ∧ ∀ k v, (k, v) ∈ order ↔ h k = some v

/-- The stores that come about by calls, with processors of procs.go, while others may write to redis.  What redis sends is
arbitrary here. -/
inductive Reach (dec : Bytes → Option Block) : Store Value → Prop
  | new (policy hash) : Reach dec (new Value policy hash)
  | register {s} (k d b) : Reach dec s → Reach dec (register s k d (Builtin.proc dec b)).1
  | deregister {s} (k r) : Reach dec s → Reach dec (deregister s k r).1
  | reset {s} (k r) : Reach dec s → Reach dec (reset s k r).1
  | update {s} (k v r) : Reach dec s → Reach dec (update s k v r).1
  | batchUpdate {s} (l r) : Reach dec s → Reach dec (batchUpdate s l r).1
  | get {s} (i k) : Reach dec s → Reach dec (get s i k).1
  | mustGet {s} (i j k) : Reach dec s → Reach dec (mustGet s i j k).1
  | batchGet {s} (i l) : Reach dec s → Reach dec (batchGet s i l).1
  | others {s} (h) : Reach dec s → Reach dec { s with hash := h }

/-- A load takes place now: the policy allows it and redis answers. -/
def Loads (s : Store V) (i : LoadIn) : Prop :=
  i.ok = true ∧ match s.policy with
    | .noop => False
    | .simple => True
    | .spaced d last => d ≤ 0 ∨ ∀ t, last = some t → t + d ≤ i.now

/-- Redis holds, for a key that is registered with RsaPublicKey, the text of a public key that is not an RSA key. -/
def Poisoned (dec : Bytes → Option Block) (s : Store Value) : Prop :=
  ∃ k v, k ≠ [] ∧ v ≠ [] ∧ s.hash k = some v ∧ s.proc k = some (Builtin.proc dec .rsaPub) ∧ readPub dec v = .panic

/-- The value that a load puts into the store for the key. -/
def Persisted (s : Store V) (k v : Bytes) (x : V) : Prop :=
  k ≠ [] ∧ s.hash k = some v ∧ ∃ p, s.proc k = some p ∧ p.validate v = .ret none ∧ p.convert v = .ret x

/-- C126 in full: whatever is in redis, a read returns, and finds a value if the key is registered. -/
def C126Claim : Prop := ∀ (again : Bytes → Option Block) (s : Store Value) (i : LoadIn) (k : Bytes), Reach (decode again) s →
  Enumerates i.order s.hash → ∃ r, (get s i k).2 = .ret r ∧ (r.isSome ↔ (s.proc k).isSome)

/-! ### The processors -/

theorem readPrivate_ne_panic (dec : Bytes → Option Block) (v : Bytes) : readPrivate dec v ≠ .panic := by
  unfold readPrivate readPrivateKey readPrivateKeyBytes
  repeat' split
  all_goals simp

theorem validate_ne_hang (dec : Bytes → Option Block) (b : Builtin) (v : Bytes) : b.validate dec v ≠ .hang := by
  cases b <;> simp only [Builtin.validate] <;> (repeat' split) <;> simp

theorem validate_panic (dec : Bytes → Option Block) (b : Builtin) (v : Bytes) :
    b.validate dec v = .panic ↔ b = .rsaPub ∧ v ≠ [] ∧ readPub dec v = .panic := by
  cases b <;> simp only [Builtin.validate] <;> try simp
  case rsaPriv =>
    split
    · simp
    · cases h : readPrivate dec v with
      | panic => exact absurd h (readPrivate_ne_panic dec v)
      | _ => simp
  case rsaPub =>
    by_cases hv : v = []
    · simp [hv]
    · cases h : readPub dec v <;> simp [hv]

/-- A value that is valid is converted without panic. -/
theorem convert_ret (dec : Bytes → Option Block) (b : Builtin) (v : Bytes) (h : b.validate dec v = .ret none) :
    ∃ x, b.convert dec v = .ret x := by
  cases b <;> simp only [Builtin.convert] <;> try exact ⟨_, rfl⟩
  case rsaPriv =>
    by_cases hv : v = []
    · simp [hv]
    · simp only [Builtin.validate, hv, if_false] at h ⊢
      cases hr : readPrivate dec v <;> simp [hr] at h ⊢
  case rsaPub =>
    by_cases hv : v = []
    · simp [hv]
    · simp only [Builtin.validate, hv, if_false] at h ⊢
      cases hr : readPub dec v <;> simp [hr] at h ⊢

/-! ### The invariant -/

/-- The lock is free, the processors are those of procs.go, and what the store holds was validated and converted by them. -/
structure Inv (dec : Bytes → Option Block) (s : Store Value) : Prop where
  alive : s.dead = false
  procs : ∀ k p, s.proc k = some p → k ≠ [] ∧ ∃ b, p = Builtin.proc dec b
  cur : ∀ k v x, s.cur k = some (v, x) → ∃ p, s.proc k = some p ∧ p.validate v = .ret none ∧ p.convert v = .ret x
  dflt : ∀ k v x, s.dflt k = some (v, x) → ∃ p, s.proc k = some p ∧ p.validate v = .ret none ∧ p.convert v = .ret x
  have_dflt : ∀ k p, s.proc k = some p → (s.dflt k).isSome

/-- A change that keeps the invariant: only values and what is outside the store. -/
structure Same (s s' : Store V) : Prop where
  proc : s'.proc = s.proc
  dflt : s'.dflt = s.dflt
  hash : s'.hash = s.hash
  policy : s'.policy = s.policy

theorem Same.refl (s : Store V) : Same s s := ⟨rfl, rfl, rfl, rfl⟩

theorem Same.trans {s s' s'' : Store V} (a : Same s s') (b : Same s' s'') : Same s s'' :=
  ⟨b.proc.trans a.proc, b.dflt.trans a.dflt, b.hash.trans a.hash, b.policy.trans a.policy⟩

theorem set_same {α : Type} (f : Bytes → Option α) (k : Bytes) (v : Option α) : set f k v k = v := by simp [set]

theorem set_other {α : Type} (f : Bytes → Option α) {k k' : Bytes} (h : k' ≠ k) (v : Option α) : set f k v k' = f k' := by simp [set, h]

/-- The invariant does not speak of redis and the policy. -/
theorem Inv.of_eq {dec : Bytes → Option Block} {s s' : Store Value} (h : Inv dec s) (h1 : s'.proc = s.proc) (h2 : s'.dflt = s.dflt)
    (h3 : s'.cur = s.cur) (h4 : s'.dead = s.dead) : Inv dec s' :=
  ⟨h4.trans h.alive, h1 ▸ h.procs, by rw [h1, h3]; exact h.cur, by rw [h1, h2]; exact h.dflt, by rw [h1, h2]; exact h.have_dflt⟩

/-- What `UpdateNoPersist` does, when the invariant holds. -/
theorem update_spec {dec : Bytes → Option Block} {s : Store Value} (h : Inv dec s) (k v : Bytes) :
    Inv dec (updateNoPersist s k v).1 ∧ Same s (updateNoPersist s k v).1 ∧
    (∀ k', k' ≠ k → (updateNoPersist s k v).1.cur k' = s.cur k') ∧
    ((updateNoPersist s k v).2 = .panic ∧ k ≠ [] ∧ v ≠ [] ∧ s.proc k = some (Builtin.proc dec .rsaPub) ∧ readPub dec v = .panic ∧
        (updateNoPersist s k v).1.cur = s.cur ∨
      (∃ e, (updateNoPersist s k v).2 = .ret e) ∧ (∀ p, s.proc k = some p → p.validate v ≠ .panic) ∧
        ((∃ p x, k ≠ [] ∧ s.proc k = some p ∧ p.validate v = .ret none ∧ p.convert v = .ret x ∧ (updateNoPersist s k v).1.cur k = some (v, x)) ∨
          (∀ p, k ≠ [] → s.proc k = some p → p.validate v ≠ .ret none) ∧ (updateNoPersist s k v).1.cur = s.cur)) := by
  unfold updateNoPersist
  by_cases hk : k = []
  · rw [if_pos hk]
    refine ⟨h, Same.refl s, fun _ _ => rfl, .inr ⟨⟨_, rfl⟩, fun p hp => absurd hk (h.procs k p hp).1, .inr ⟨fun p h' => absurd hk h', rfl⟩⟩⟩
  · rw [if_neg hk]
    cases hp : s.proc k with
    | none => exact ⟨h, Same.refl s, fun _ _ => rfl, .inr ⟨⟨_, rfl⟩, by simp, .inr ⟨by simp, rfl⟩⟩⟩
    | some p =>
      obtain ⟨-, b, rfl⟩ := h.procs k p hp
      simp only [Option.some.injEq]
      cases hv : (Builtin.proc dec b).validate v with
      | hang => exact absurd hv (validate_ne_hang dec b v)
      | panic =>
        obtain ⟨rfl, h1, h2⟩ := (validate_panic dec b v).1 hv
        exact ⟨h, Same.refl s, fun _ _ => rfl, .inl ⟨rfl, hk, h1, rfl, h2, rfl⟩⟩
      | ret e =>
        cases e with
        | some e =>
          refine ⟨h, Same.refl s, fun _ _ => rfl, .inr ⟨⟨_, rfl⟩, ?_, .inr ⟨?_, rfl⟩⟩⟩
          · rintro p rfl; rw [hv]; simp
          · rintro p - rfl; rw [hv]; simp
        | none =>
          obtain ⟨x, hx⟩ := convert_ret dec b v hv
          have hx' : (Builtin.proc dec b).convert v = .ret x := hx
          simp only [h.alive, Bool.false_eq_true, if_false, hx']
          refine ⟨⟨rfl, h.procs, ?_, h.dflt, h.have_dflt⟩, ⟨rfl, rfl, rfl, rfl⟩, fun k' hk' => set_other _ hk' _, .inr ⟨⟨_, rfl⟩, ?_, .inl
            ⟨_, x, hk, rfl, hv, hx', set_same _ _ _⟩⟩⟩
          · intro k' v' x' he
            simp only [] at he
            by_cases hkk : k' = k
            · subst hkk
              rw [set_same] at he
              simp only [Option.some.injEq, Prod.mk.injEq] at he
              obtain ⟨rfl, rfl⟩ := he
              exact ⟨_, hp, hv, hx'⟩
            · rw [set_other _ hkk] at he
              exact h.cur k' v' x' he
          · rintro p rfl; rw [hv]; simp

/-- What loading pairs does. -/
theorem loadPairs_spec {dec : Bytes → Option Block} (l : List (Bytes × Bytes)) : ∀ {s : Store Value}, Inv dec s →
    Inv dec (loadPairs s l).1 ∧ Same s (loadPairs s l).1 ∧
    (∀ k, k ∉ l.map (·.1) → (loadPairs s l).1.cur k = s.cur k) ∧
    ((loadPairs s l).2 = .panic ∧ (∃ k v, (k, v) ∈ l ∧ k ≠ [] ∧ v ≠ [] ∧ s.proc k = some (Builtin.proc dec .rsaPub) ∧ readPub dec v = .panic) ∨
      (loadPairs s l).2 = .ret () ∧ (∀ k v p, (k, v) ∈ l → s.proc k = some p → p.validate v ≠ .panic) ∧
      ((l.map (·.1)).Nodup → ∀ k v, (k, v) ∈ l →
        (∃ p x, k ≠ [] ∧ s.proc k = some p ∧ p.validate v = .ret none ∧ p.convert v = .ret x ∧ (loadPairs s l).1.cur k = some (v, x)) ∨
        (∀ p, k ≠ [] → s.proc k = some p → p.validate v ≠ .ret none) ∧ (loadPairs s l).1.cur k = s.cur k)) := by
  induction l with
  | nil => intro s h; exact ⟨h, Same.refl s, fun _ _ => rfl, .inr ⟨rfl, by simp, by simp⟩⟩
  | cons a l ih =>
    intro s h
    obtain ⟨k, v⟩ := a
    obtain ⟨u1, u2, u3, u4⟩ := update_spec h k v
    simp only [loadPairs]
    rcases hu : updateNoPersist s k v with ⟨s', o⟩
    rw [hu] at u1 u2 u3 u4
    simp only [] at u1 u2 u3 u4
    rcases u4 with ⟨rfl, g1, g2, g3, g4, g5⟩ | ⟨⟨e, rfl⟩, g1, g2⟩
    · refine ⟨u1, u2, ?_, .inl ⟨rfl, k, v, by simp, g1, g2, g3, g4⟩⟩
      intro k' _; simp only []; rw [g5]
    · obtain ⟨i1, i2, i3, i4⟩ := ih u1
      refine ⟨i1, u2.trans i2, ?_, ?_⟩
      · intro k' hk'
        simp only [List.map_cons, List.mem_cons, not_or] at hk'
        simp only []
        rw [i3 k' hk'.2, u3 k' hk'.1]
      · rcases i4 with ⟨j1, k', v', j2, j3, j4, j5, j6⟩ | ⟨j1, j2, j3⟩
        · exact .inl ⟨j1, k', v', by simp [j2], j3, j4, u2.proc ▸ j5, j6⟩
        · refine .inr ⟨j1, ?_, ?_⟩
          · intro k' v' p hm hp
            simp only [List.mem_cons, Prod.mk.injEq] at hm
            rcases hm with ⟨rfl, rfl⟩ | hm
            · exact g1 p hp
            · exact j2 k' v' p hm (by rw [u2.proc]; exact hp)
          · intro hn k' v' hm
            simp only [List.map_cons, List.nodup_cons] at hn
            simp only [List.mem_cons, Prod.mk.injEq] at hm
            rcases hm with ⟨rfl, rfl⟩ | hm
            · have e := i3 k' hn.1
              simp only [e]
              rcases g2 with g2 | ⟨g2, g3⟩
              · exact .inl g2
              · exact .inr ⟨g2, by rw [g3]⟩
            · have hne : k' ≠ k := by
                rintro rfl
                exact hn.1 (List.mem_map.2 ⟨_, hm, rfl⟩)
              have := j3 hn.2 k' v' hm
              rw [u2.proc, u3 k' hne] at this
              exact this

/-! ### Loading and reading -/

/-- What `DoLoad` does: nothing, or it loads all pairs, or it panics. -/
theorem doLoad_cases {dec : Bytes → Option Block} {s : Store Value} (h : Inv dec s) (i : LoadIn) :
    (¬ Loads s i ∧ (doLoad s i).1 = s ∧ ∃ b, (doLoad s i).2 = .ret b) ∨
    (Loads s i ∧ ((loadPairs s i.order).2 = .panic ∧ doLoad s i = ((loadPairs s i.order).1, .panic) ∨
      (loadPairs s i.order).2 = .ret () ∧ (∃ b, (doLoad s i).2 = .ret b) ∧ ∃ p, (doLoad s i).1 = { (loadPairs s i.order).1 with policy := p })) := by
  have hl := (loadPairs_spec i.order h).2.2.2
  have hload : i.ok = false ∧ load s i = (s, .ret false) ∨ i.ok = true ∧ ((loadPairs s i.order).2 = .panic ∧ load s i = ((loadPairs s i.order).1, .panic) ∨
      (loadPairs s i.order).2 = .ret () ∧ load s i = ((loadPairs s i.order).1, .ret true)) := by
    unfold load
    cases hok : i.ok with
    | false => exact .inl ⟨rfl, by simp⟩
    | true =>
      refine .inr ⟨rfl, ?_⟩
      rcases hx : loadPairs s i.order with ⟨s', o⟩
      rw [hx] at hl
      rcases hl with ⟨rfl, -⟩ | ⟨rfl, -⟩
      · exact .inl ⟨rfl, rfl⟩
      · exact .inr ⟨rfl, rfl⟩
  have key : ∀ t : Option Int, ∀ d : Int, tooEarly t i.now d = true ↔ ¬ ∀ t', t = some t' → t' + d ≤ i.now := by
    intro t d
    cases t with
    | none => simp [tooEarly]
    | some t => simp [tooEarly]; omega
  unfold doLoad Loads
  cases hp : s.policy with
  | noop => exact .inl ⟨by simp, rfl, _, rfl⟩
  | simple =>
    simp only [and_true]
    rcases hload with ⟨h1, h2⟩ | ⟨h1, ⟨h2, h3⟩ | ⟨h2, h3⟩⟩
    · exact .inl ⟨by simp [h1], by rw [h2], _, by rw [h2]⟩
    · exact .inr ⟨h1, .inl ⟨h2, h3⟩⟩
    · refine .inr ⟨h1, .inr ⟨h2, ⟨_, by rw [h3]⟩, (loadPairs s i.order).1.policy, by rw [h3]⟩⟩
  | spaced d last =>
    simp only []
    by_cases hd : d ≤ 0
    · simp only [hd, if_true, true_or, and_true]
      rcases hload with ⟨h1, h2⟩ | ⟨h1, ⟨h2, h3⟩ | ⟨h2, h3⟩⟩
      · exact .inl ⟨by simp [h1], by rw [h2], _, by rw [h2]⟩
      · exact .inr ⟨h1, .inl ⟨h2, h3⟩⟩
      · refine .inr ⟨h1, .inr ⟨h2, ⟨_, by rw [h3]⟩, (loadPairs s i.order).1.policy, by rw [h3]⟩⟩
    · simp only [hd, if_false, false_or]
      by_cases hs : tooEarly last i.now d = true
      · rw [if_pos hs]
        exact .inl ⟨fun hc => (key last d).1 hs hc.2, rfl, _, rfl⟩
      · rw [if_neg hs]
        have hs' : ∀ t', last = some t' → t' + d ≤ i.now := by
          rw [key] at hs; exact Decidable.not_not.1 hs
        rcases hload with ⟨h1, h2⟩ | ⟨h1, ⟨h2, h3⟩ | ⟨h2, h3⟩⟩
        · exact .inl ⟨by simp [h1], by rw [h2], _, by rw [h2]⟩
        · exact .inr ⟨⟨h1, hs'⟩, .inl ⟨h2, by rw [h3]⟩⟩
        · refine .inr ⟨⟨h1, hs'⟩, .inr ⟨h2, ⟨_, by rw [h3]⟩, .spaced d (some i.now'), by rw [h3]⟩⟩

theorem poisoned_iff {dec : Bytes → Option Block} {s : Store Value} {order : List (Bytes × Bytes)} (h : Inv dec s) (ho : Enumerates order s.hash) :
    (loadPairs s order).2 = .panic ↔ Poisoned dec s := by
  rcases (loadPairs_spec order h).2.2.2 with ⟨h1, k, v, h2, h3, h4, h5, h6⟩ | ⟨h1, h2, -⟩
  · exact ⟨fun _ => ⟨k, v, h3, h4, (ho.2 k v).1 h2, h5, h6⟩, fun _ => h1⟩
  · rw [h1]
    simp only [reduceCtorEq, false_iff]
    rintro ⟨k, v, g1, g2, g3, g4, g5⟩
    exact h2 k v _ ((ho.2 k v).2 g3) g4 ((validate_panic dec .rsaPub v).2 ⟨rfl, g2, g5⟩)

theorem doLoad_inv {dec : Bytes → Option Block} {s : Store Value} (h : Inv dec s) (i : LoadIn) : Inv dec (doLoad s i).1 := by
  rcases doLoad_cases h i with ⟨-, h1, -⟩ | ⟨-, ⟨-, h1⟩ | ⟨-, -, p, h1⟩⟩
  · rw [h1]; exact h
  · rw [h1]; exact (loadPairs_spec i.order h).1
  · rw [h1]; exact (loadPairs_spec i.order h).1.of_eq rfl rfl rfl rfl

theorem get_state {dec : Bytes → Option Block} {s : Store Value} (h : Inv dec s) (i : LoadIn) (k : Bytes) : (get s i k).1 = (doLoad s i).1 := by
  have hd := (doLoad_inv h i).alive
  unfold get
  rcases hx : doLoad s i with ⟨s', o⟩
  rw [hx] at hd
  replace hd : s'.dead = false := hd
  cases o <;> simp [hd]

theorem get_out {dec : Bytes → Option Block} {s : Store Value} (h : Inv dec s) (i : LoadIn) (k : Bytes) :
    ((get s i k).2 = .panic ∧ (doLoad s i).2 = .panic) ∨
    (get s i k).2 = .ret (found (doLoad s i).1 k) ∧ ∃ b, (doLoad s i).2 = .ret b := by
  have hd := (doLoad_inv h i).alive
  unfold get
  have hc := doLoad_cases h i
  rcases hx : doLoad s i with ⟨s', o⟩
  rw [hx] at hd hc
  replace hd : s'.dead = false := hd
  cases o with
  | panic => exact .inl ⟨rfl, rfl⟩
  | ret b => exact .inr ⟨by simp [hd], b, rfl⟩
  | hang => rcases hc with ⟨-, -, b, h1⟩ | ⟨-, ⟨-, h1⟩ | ⟨-, ⟨b, h1⟩, -⟩⟩ <;> simp at h1

theorem batchApply_inv {dec : Bytes → Option Block} (l : List (Bytes × Bytes)) : ∀ {s : Store Value}, Inv dec s → Inv dec (batchApply s l).1 := by
  induction l with
  | nil => intro s h; exact h
  | cons a l ih =>
    intro s h
    obtain ⟨k, v⟩ := a
    have hu := (update_spec h k v).1
    simp only [batchApply]
    rcases hx : updateNoPersist s k v with ⟨s', o⟩
    rw [hx] at hu
    cases o with
    | panic => exact hu
    | hang => exact hu
    | ret e =>
      have := ih hu
      simp only []
      rcases hy : batchApply s' l with ⟨s'', o'⟩
      rw [hy] at this
      cases o' <;> exact this

theorem batchLoop_inv {dec : Bytes → Option Block} (l : List (Bytes × LoadIn)) : ∀ {s : Store Value}, Inv dec s → Inv dec (batchLoop s l).1 := by
  induction l with
  | nil => intro s h; exact h
  | cons a l ih =>
    intro s h
    obtain ⟨k, i⟩ := a
    simp only [batchLoop]
    split
    · exact ih h
    · have hg : Inv dec (get s i k).1 := by rw [get_state h]; exact doLoad_inv h i
      rcases hx : get s i k with ⟨s', o⟩
      rw [hx] at hg
      cases o with
      | panic => exact hg
      | hang => exact hg
      | ret x =>
        have := ih hg
        simp only []
        rcases hy : batchLoop s' l with ⟨s'', o'⟩
        rw [hy] at this
        cases o' <;> exact this

theorem reach_inv {dec : Bytes → Option Block} {s : Store Value} (h : Reach dec s) : Inv dec s := by
  induction h with
  | new policy hash => exact ⟨rfl, by simp [new], by simp [new], by simp [new], by simp [new]⟩
  | @register s k d b _ h =>
    unfold register
    by_cases hk : k = []
    · rw [if_pos hk]; exact h
    rw [if_neg hk, if_neg (by simp [h.alive])]
    split
    · exact h
    rename_i hno
    cases hv : (Builtin.proc dec b).validate d with
    | panic => exact h
    | hang => exact h
    | ret e =>
      cases e with
      | some e => exact h
      | none =>
        obtain ⟨x, hx⟩ := convert_ret dec b d hv
        have hx' : (Builtin.proc dec b).convert d = .ret x := hx
        simp only [hx']
        have hno' : s.proc k = none := by
          cases hp : s.proc k with
          | none => rfl
          | some p => simp [hp] at hno
        refine ⟨h.alive, ?_, ?_, ?_, ?_⟩
        · intro k' p hp
          simp only [] at hp
          by_cases hkk : k' = k
          · subst hkk; rw [set_same] at hp; simp only [Option.some.injEq] at hp; exact ⟨hk, b, hp.symm⟩
          · rw [set_other _ hkk] at hp; exact h.procs k' p hp
        · intro k' v x' hc
          have hkk : k' ≠ k := by
            rintro rfl
            obtain ⟨p, hp, -⟩ := h.cur k' v x' hc
            rw [hno'] at hp; simp at hp
          simp only [set_other _ hkk]
          exact h.cur k' v x' hc
        · intro k' v x' hc
          simp only [] at hc
          by_cases hkk : k' = k
          · subst hkk
            rw [set_same] at hc
            simp only [Option.some.injEq, Prod.mk.injEq] at hc
            obtain ⟨rfl, rfl⟩ := hc
            exact ⟨_, set_same _ _ _, hv, hx'⟩
          · rw [set_other _ hkk] at hc
            simp only [set_other _ hkk]
            exact h.dflt k' v x' hc
        · intro k' p hp
          simp only [] at hp ⊢
          by_cases hkk : k' = k
          · subst hkk; simp [set_same]
          · rw [set_other _ hkk] at hp ⊢; exact h.have_dflt k' p hp
  | @deregister s k r _ h =>
    unfold deregister
    by_cases hk : k = []
    · rw [if_pos hk]; exact h
    rw [if_neg hk, if_neg (by simp [h.alive])]
    have hset : ∀ {α : Type} (f : Bytes → Option α) (k' : Bytes) (x : α), set f k none k' = some x → k' ≠ k ∧ f k' = some x := by
      intro α f k' x hx
      by_cases hkk : k' = k
      · subst hkk; rw [set_same] at hx; simp at hx
      · rw [set_other _ hkk] at hx; exact ⟨hkk, hx⟩
    refine ⟨h.alive, ?_, ?_, ?_, ?_⟩
    · intro k' p hp; exact h.procs k' p (hset _ _ _ hp).2
    · intro k' v x hc
      obtain ⟨h1, h2⟩ := hset _ _ _ hc
      simp only [set_other _ h1]; exact h.cur k' v x h2
    · intro k' v x hc
      obtain ⟨h1, h2⟩ := hset _ _ _ hc
      simp only [set_other _ h1]; exact h.dflt k' v x h2
    · intro k' p hp
      obtain ⟨h1, h2⟩ := hset _ _ _ hp
      simp only [set_other _ h1]; exact h.have_dflt k' p h2
  | @reset s k r _ h =>
    unfold reset
    rw [if_neg (by simp [h.alive])]
    refine ⟨h.alive, h.procs, ?_, h.dflt, h.have_dflt⟩
    intro k' v x hc
    simp only [] at hc
    by_cases hkk : k' = k
    · subst hkk; rw [set_same] at hc; simp at hc
    · rw [set_other _ hkk] at hc; exact h.cur k' v x hc
  | @update s k v r _ h =>
    have hu := (update_spec h k v).1
    unfold update
    rcases hx : updateNoPersist s k v with ⟨s', o⟩
    rw [hx] at hu
    split
    · rename_i h1; obtain ⟨rfl, -⟩ := Prod.mk.inj h1; exact hu.of_eq rfl rfl rfl rfl
    · rename_i h1; obtain ⟨rfl, -⟩ := Prod.mk.inj h1; exact hu
  | @batchUpdate s l r _ h =>
    have hu := batchApply_inv l h
    unfold batchUpdate
    rcases hx : batchApply s l with ⟨s', o⟩
    rw [hx] at hu
    cases o with
    | ret e => exact hu.of_eq rfl rfl rfl rfl
    | _ => exact hu
  | @get s i k _ h => rw [get_state h]; exact doLoad_inv h i
  | @mustGet s i j k _ h =>
    have hd := doLoad_inv h i
    unfold mustGet
    rcases hx : doLoad s i with ⟨s', o⟩
    rw [hx] at hd
    cases o with
    | panic => exact hd
    | hang => exact hd
    | ret b =>
      simp only []
      have hg : Inv dec (get s' j k).1 := by rw [get_state hd]; exact doLoad_inv hd j
      rcases hy : get s' j k with ⟨s'', o'⟩
      rw [hy] at hg
      cases o' with
      | panic => exact hg
      | hang => exact hg
      | ret x => cases x <;> exact hg
  | @batchGet s i l _ h =>
    have hd := doLoad_inv h i
    unfold batchGet
    rcases hx : doLoad s i with ⟨s', o⟩
    rw [hx] at hd
    cases o with
    | panic => exact hd
    | hang => exact hd
    | ret b => exact batchLoop_inv l hd
  | @others s hh _ h => exact h.of_eq rfl rfl rfl rfl

/-! ### C126 -/

theorem found_some {dec : Bytes → Option Block} {s : Store Value} (h : Inv dec s) (k : Bytes) : (found s k).isSome ↔ (s.proc k).isSome := by
  unfold found
  cases hc : s.cur k with
  | some x =>
    obtain ⟨p, hp, -⟩ := h.cur k x.1 x.2 hc
    simp [hp]
  | none =>
    simp only []
    cases hp : s.proc k with
    | some p => simp [h.have_dflt k p hp]
    | none =>
      cases hd : s.dflt k with
      | none => simp
      | some x => obtain ⟨p, hp', -⟩ := h.dflt k x.1 x.2 hd; rw [hp] at hp'; simp at hp'

/-- After a load that does not panic. -/
theorem loaded_found {dec : Bytes → Option Block} {s : Store Value} (h : Inv dec s) {order : List (Bytes × Bytes)} (ho : Enumerates order s.hash)
    (hr : (loadPairs s order).2 = .ret ()) (k : Bytes) :
    (∀ v x, Persisted s k v x → found (loadPairs s order).1 k = some (v, x)) ∧
    ((∀ v x, ¬ Persisted s k v x) → found (loadPairs s order).1 k = found s k) := by
  obtain ⟨-, h2, h3, h4⟩ := loadPairs_spec order h
  rcases h4 with ⟨h4, -⟩ | ⟨-, -, h4⟩
  · rw [hr] at h4; simp at h4
  · replace h4 := h4 ho.1
    constructor
    · rintro v x ⟨g1, g2, p, g3, g4, g5⟩
      rcases h4 k v ((ho.2 k v).2 g2) with ⟨p', x', -, e1, -, e2, e3⟩ | ⟨e1, -⟩
      · rw [g3] at e1
        simp only [Option.some.injEq] at e1
        subst e1
        rw [g5] at e2
        simp only [Out.ret.injEq] at e2
        subst e2
        simp [found, e3]
      · exact absurd g4 (e1 p g1 g3)
    · intro hn
      have hcur : (loadPairs s order).1.cur k = s.cur k := by
        by_cases hm : k ∈ order.map (·.1)
        · obtain ⟨⟨k', v⟩, hm', rfl⟩ := List.mem_map.1 hm
          rcases h4 k' v hm' with ⟨p, x, e0, e1, e2, e3, -⟩ | ⟨-, e⟩
          · exact absurd ⟨e0, (ho.2 k' v).1 hm', p, e1, e2, e3⟩ (hn v x)
          · exact e
        · exact h3 k hm
      simp [found, hcur, h2.dflt]

/-- **C126** (partial): a read panics exactly if a load takes place while redis holds, for a key registered with RsaPublicKey, a public
key of another kind.  Otherwise it returns: the persisted value, if there is one that the processor accepts and a load takes place, and
what the store has, if not; it finds something exactly for registered keys.  No call leaves kvLock locked.  Missing: reads with such a
key in redis. -/
theorem C126_get_partial (dec : Bytes → Option Block) {s : Store Value} (h : Reach dec s) (i : LoadIn) (ho : Enumerates i.order s.hash) (k : Bytes) :
    ((get s i k).2 = .panic ↔ Loads s i ∧ Poisoned dec s) ∧
    (¬ (Loads s i ∧ Poisoned dec s) → ∃ r, (get s i k).2 = .ret r ∧ (r.isSome ↔ (s.proc k).isSome) ∧
      (∀ v x, Loads s i → Persisted s k v x → r = some (v, x)) ∧
      ((¬ Loads s i ∨ ∀ v x, ¬ Persisted s k v x) → r = found s k)) ∧
    (get s i k).1.dead = false := by
  have hi := reach_inv h
  have hp := poisoned_iff hi ho
  refine ⟨?_, ?_, ?_⟩
  · rcases get_out hi i k with ⟨h1, h2⟩ | ⟨h1, b, h2⟩
    · rw [h1]
      rcases doLoad_cases hi i with ⟨-, -, b, h3⟩ | ⟨h3, ⟨h4, -⟩ | ⟨-, ⟨b, h4⟩, -⟩⟩
      · rw [h2] at h3; simp at h3
      · exact ⟨fun _ => ⟨h3, hp.1 h4⟩, fun _ => rfl⟩
      · rw [h2] at h4; simp at h4
    · rw [h1]
      simp only [reduceCtorEq, false_iff]
      rintro ⟨g1, g2⟩
      rcases doLoad_cases hi i with ⟨h3, -⟩ | ⟨-, ⟨-, h4⟩ | ⟨h4, -⟩⟩
      · exact h3 g1
      · rw [h4] at h2; simp at h2
      · rw [hp.2 g2] at h4; simp at h4
  · intro hn
    rcases get_out hi i k with ⟨h1, h2⟩ | ⟨h1, b, h2⟩
    · exfalso
      rcases doLoad_cases hi i with ⟨-, -, b, h3⟩ | ⟨h3, ⟨h4, -⟩ | ⟨-, ⟨b, h4⟩, -⟩⟩
      · rw [h2] at h3; simp at h3
      · exact hn ⟨h3, hp.1 h4⟩
      · rw [h2] at h4; simp at h4
    · refine ⟨_, h1, ?_⟩
      rcases doLoad_cases hi i with ⟨h3, h4, -⟩ | ⟨h3, ⟨-, h4⟩ | ⟨h4, -, p, h5⟩⟩
      · rw [h4]
        exact ⟨found_some hi k, fun v x hl => absurd hl h3, fun _ => rfl⟩
      · rw [h4] at h2; simp at h2
      · have e : ∀ k, found (doLoad s i).1 k = found (loadPairs s i.order).1 k := by intro k; rw [h5]; rfl
        have hs := (loadPairs_spec i.order hi).2.1
        obtain ⟨f1, f2⟩ := loaded_found hi ho h4 k
        rw [e]
        refine ⟨?_, fun v x _ hx => f1 v x hx, ?_⟩
        · rw [found_some (loadPairs_spec i.order hi).1 k, hs.proc]
        · rintro (hl | hl)
          · exact absurd h3 hl
          · exact f2 hl
  · rw [get_state hi]; exact (doLoad_inv hi i).alive

theorem doLoad_same {dec : Bytes → Option Block} {s : Store Value} (h : Inv dec s) (i : LoadIn) :
    (doLoad s i).1.proc = s.proc ∧ (doLoad s i).1.hash = s.hash := by
  have hs := (loadPairs_spec i.order h).2.1
  rcases doLoad_cases h i with ⟨-, h1, -⟩ | ⟨-, ⟨-, h1⟩ | ⟨-, -, p, h1⟩⟩
  · rw [h1]; exact ⟨rfl, rfl⟩
  · rw [h1]; exact ⟨hs.proc, hs.hash⟩
  · rw [h1]; exact ⟨hs.proc, hs.hash⟩

theorem poisoned_congr {dec : Bytes → Option Block} {s s' : Store Value} (h1 : s'.proc = s.proc) (h2 : s'.hash = s.hash) :
    Poisoned dec s' ↔ Poisoned dec s := by simp [Poisoned, h1, h2]

/-- A load without such a key in redis returns. -/
theorem doLoad_ret {dec : Bytes → Option Block} {s : Store Value} (h : Inv dec s) (i : LoadIn) (ho : Enumerates i.order s.hash)
    (hn : ¬ Poisoned dec s) : ∃ b, (doLoad s i).2 = .ret b := by
  rcases doLoad_cases h i with ⟨-, -, h1⟩ | ⟨-, ⟨h1, -⟩ | ⟨-, h1, -⟩⟩
  · exact h1
  · exact absurd ((poisoned_iff h ho).1 h1) hn
  · exact h1

theorem batchLoop_ret {dec : Bytes → Option Block} (l : List (Bytes × LoadIn)) : ∀ {s : Store Value}, Inv dec s → ¬ Poisoned dec s →
    (∀ x ∈ l, Enumerates x.2.order s.hash) → ∃ r, (batchLoop s l).2 = .ret r ∧
    (∀ k, k ∈ r.map (·.1) ↔ k ∈ l.map (·.1) ∧ k ≠ [] ∧ (s.proc k).isSome) := by
  induction l with
  | nil => intro s h hn _; exact ⟨[], rfl, by simp⟩
  | cons a l ih =>
    intro s h hn ho
    obtain ⟨k, i⟩ := a
    have hoi : Enumerates i.order s.hash := ho (k, i) (by simp)
    simp only [batchLoop]
    split
    · rename_i hk
      obtain ⟨r, h1, h2⟩ := ih h hn (fun x hx => ho x (by simp [hx]))
      refine ⟨r, h1, fun k' => ?_⟩
      rw [h2]
      simp only [List.map_cons, List.mem_cons]
      constructor
      · rintro ⟨a, b⟩; exact ⟨.inr a, b⟩
      · rintro ⟨a | a, b⟩
        · exact absurd (a.trans hk) b.1
        · exact ⟨a, b⟩
    · rename_i hk
      obtain ⟨e1, e2⟩ := doLoad_same h i
      have hinv := doLoad_inv h i
      rcases get_out h i k with ⟨-, h2⟩ | ⟨h1, -⟩
      · obtain ⟨b, hb⟩ := doLoad_ret h i hoi hn
        rw [h2] at hb; simp at hb
      · have hst := get_state h i k
        rcases hx : get s i k with ⟨s', o⟩
        rw [hx] at h1 hst
        simp only [] at h1 hst
        subst h1 hst
        obtain ⟨r, h3, h4⟩ := ih hinv (by rw [poisoned_congr e1 e2]; exact hn) (fun x hx => by rw [e2]; exact ho x (by simp [hx]))
        have hsome := found_some hinv k
        rw [e1] at hsome h4
        simp only []
        rcases hy : batchLoop (doLoad s i).1 l with ⟨s'', o'⟩
        rw [hy] at h3
        simp only [] at h3
        subst h3
        refine ⟨_, rfl, fun k' => ?_⟩
        cases hf : found (doLoad s i).1 k with
        | none =>
          rw [hf] at hsome
          simp only [List.map_cons, List.mem_cons, h4]
          constructor
          · rintro ⟨a, b⟩; exact ⟨.inr a, b⟩
          · rintro ⟨rfl | a, b⟩
            · simp [b.2] at hsome
            · exact ⟨a, b⟩
        | some x =>
          rw [hf] at hsome
          simp only [List.map_cons, List.mem_cons, h4]
          constructor
          · rintro (rfl | ⟨a, b⟩)
            · exact ⟨.inl rfl, hk, by simpa using hsome⟩
            · exact ⟨.inr a, b⟩
          · rintro ⟨rfl | a, b⟩
            · exact .inl rfl
            · exact .inr ⟨a, b⟩

/-- **C126** (partial), for the other reads: without such a key in redis they return, `MustGetValue` for every registered key, the batch
reads with exactly the registered keys of those that were asked for. -/
theorem C126_partial (dec : Bytes → Option Block) {s : Store Value} (h : Reach dec s) (hn : ¬ Poisoned dec s) :
    (∀ i j k, Enumerates i.order s.hash → Enumerates j.order s.hash →
      (((s.proc k).isSome → ∃ x, (mustGet s i j k).2 = .ret x) ∧ ((s.proc k) = none → (mustGet s i j k).2 = .panic))) ∧
    (∀ i l, Enumerates i.order s.hash → (∀ x ∈ l, Enumerates x.2.order s.hash) → ∃ r, (batchGet s i l).2 = .ret r ∧
      ∀ k, k ∈ r.map (·.1) ↔ k ∈ l.map (·.1) ∧ k ≠ [] ∧ (s.proc k).isSome) := by
  have hi := reach_inv h
  refine ⟨fun i j k ho1 ho2 => ?_, fun i l ho1 ho2 => ?_⟩
  · have hd := doLoad_ret hi i ho1 hn
    obtain ⟨e1, e2⟩ := doLoad_same hi i
    have hinv := doLoad_inv hi i
    unfold mustGet
    rcases hx : doLoad s i with ⟨s', o⟩
    rw [hx] at hd e1 e2 hinv
    obtain ⟨b, hd⟩ := hd
    simp only [] at hd e1 e2 hinv
    subst hd
    simp only []
    rcases get_out hinv j k with ⟨-, h2⟩ | ⟨h1, -⟩
    · obtain ⟨b, hb⟩ := doLoad_ret hinv j (by rw [e2]; exact ho2) (by rw [poisoned_congr e1 e2]; exact hn)
      rw [h2] at hb; simp at hb
    · have hsome := found_some (doLoad_inv hinv j) k
      rw [(doLoad_same hinv j).1, e1] at hsome
      rcases hy : get s' j k with ⟨s'', o'⟩
      rw [hy] at h1
      simp only [] at h1
      subst h1
      cases hf : found (doLoad s' j).1 k with
      | none => rw [hf] at hsome; simp at hsome; simp [hsome]
      | some x =>
        rw [hf] at hsome
        simp only [Option.isSome_some, true_iff] at hsome
        simp only []
        exact ⟨fun _ => ⟨x, rfl⟩, fun hc => by simp [hc] at hsome⟩
  · have hd := doLoad_ret hi i ho1 hn
    obtain ⟨e1, e2⟩ := doLoad_same hi i
    have hinv := doLoad_inv hi i
    unfold batchGet
    rcases hx : doLoad s i with ⟨s', o⟩
    rw [hx] at hd e1 e2 hinv
    obtain ⟨b, hd⟩ := hd
    simp only [] at hd e1 e2 hinv
    subst hd
    simp only []
    obtain ⟨r, h1, h2⟩ := batchLoop_ret l hinv (by rw [poisoned_congr e1 e2]; exact hn) (fun x hx => by rw [e2]; exact ho2 x hx)
    rw [e1] at h2
    exact ⟨r, h1, h2⟩

/-- **C126** does not hold: once a read has panicked, every later read of every key panics as well, as long as nobody changes redis or the
registrations; the load policy does not count the load that panicked. -/
theorem C126_stuck_violated (dec : Bytes → Option Block) {s : Store Value} (h : Reach dec s) (i : LoadIn) (ho : Enumerates i.order s.hash) (k : Bytes)
    (hp : (get s i k).2 = .panic) (i' : LoadIn) (k' : Bytes) (hi' : i'.ok = true) (hnow : i.now ≤ i'.now) (ho' : Enumerates i'.order s.hash) :
    (get (get s i k).1 i' k').2 = .panic ∧ (get s i k).1.hash = s.hash ∧ (get s i k).1.proc = s.proc := by
  have hinv := reach_inv h
  obtain ⟨hl, hpo⟩ := (C126_get_partial dec h i ho k).1.1 hp
  obtain ⟨e1, e2⟩ := doLoad_same hinv i
  have e3 : (doLoad s i).1.policy = s.policy := by
    rcases doLoad_cases hinv i with ⟨h1, -⟩ | ⟨-, ⟨-, h1⟩ | ⟨h1, -⟩⟩
    · exact absurd hl h1
    · rw [h1]; exact (loadPairs_spec i.order hinv).2.1.policy
    · rw [(poisoned_iff hinv ho).2 hpo] at h1; simp at h1
  have hst := get_state hinv i k
  have hr := Reach.get i k h
  rw [hst] at hr ⊢
  refine ⟨(C126_get_partial dec hr i' (by rw [e2]; exact ho') k').1.2 ⟨⟨hi', ?_⟩, (poisoned_congr e1 e2).2 hpo⟩, e2, e1⟩
  obtain ⟨-, hl⟩ := hl
  rw [e3]
  revert hl
  cases s.policy with
  | noop => exact id
  | simple => exact id
  | spaced d last =>
    rintro (hl | hl)
    · exact .inl hl
    · exact .inr fun t ht => Int.le_trans (hl t ht) hnow

/-- The text of an Ed25519 public key. -/
def edText : Bytes := b64encode ([48, 42, 48, 5, 6, 3, 43, 101, 112, 3, 33, 0] ++ List.replicate 32 7)

theorem edText_panics (again : Bytes → Option Block) : readPub (decode again) edText = .panic :=
  C77_ed25519_violated again curvePoint (List.replicate 32 7) edText (by simp) (.inr (by decide +kernel))

/-- A text is set for a key before the key is registered (it is saved, store.go:128), then the key is registered with RsaPublicKey, and
another key with String. -/
def edStore (again : Bytes → Option Block) : Store Value :=
  let s := (update (new Value .simple fun _ => none) [107] edText .ok).1
  let s := (register s [107] [] (Builtin.proc (decode again) .rsaPub)).1
  (register s [110] [] (Builtin.proc (decode again) (.string 0 10))).1

theorem edStore_reach (again : Bytes → Option Block) : Reach (decode again) (edStore again) :=
  .register _ _ _ (.register _ _ _ (.update _ _ _ (.new _ _)))

theorem edStore_hash (again : Bytes → Option Block) : (edStore again).hash = set (fun _ => none) [107] (some edText) ∧
    (edStore again).proc [107] = some (Builtin.proc (decode again) .rsaPub) ∧ (edStore again).policy = .simple := by
  refine ⟨rfl, rfl, rfl⟩

/-- **C126** does not hold: with only calls of the store, from an empty redis, a read of a key that has nothing to do with RSA keys
panics. -/
theorem C126_violated : ¬ C126Claim := by
  intro h
  have ho : Enumerates [([107], edText)] (edStore fun _ => none).hash := by
    rw [(edStore_hash _).1]
    refine ⟨by simp, fun k v => ?_⟩
    simp only [List.mem_singleton, Prod.mk.injEq, set]
    by_cases hk : k = [107]
    · simp [hk, eq_comm]
    · simp [hk]
  obtain ⟨r, h1, -⟩ := h (fun _ => none) _ ⟨0, 0, true, [([107], edText)]⟩ [110] (edStore_reach _) ho
  have h2 := (C126_get_partial _ (edStore_reach _) ⟨0, 0, true, [([107], edText)]⟩ ho [110]).1.2
    ⟨⟨rfl, by rw [(edStore_hash _).2.2]; trivial⟩, [107], edText, by simp, by decide +kernel, by rw [(edStore_hash _).1]; rfl,
      (edStore_hash _).2.1, edText_panics _⟩
  rw [h1] at h2
  simp at h2

/-! ### Redis written by this store only -/

/-- The stores that come about when nobody else writes to redis, keys are registered before they are updated, and are not deregistered. -/
inductive Own (dec : Bytes → Option Block) : Store Value → Prop
  | new (policy) : Own dec (new Value policy fun _ => none)
  | register {s} (k d b) : Own dec s → Own dec (register s k d (Builtin.proc dec b)).1
  | reset {s} (k r) : Own dec s → Own dec (reset s k r).1
  | update {s} (k v r) : (s.proc k).isSome → Own dec s → Own dec (update s k v r).1
  | batchUpdate {s} (l r) : (∀ x ∈ l, (s.proc x.1).isSome) → Own dec s → Own dec (batchUpdate s l r).1
  | get {s} (i k) : Own dec s → Own dec (get s i k).1
  | mustGet {s} (i j k) : Own dec s → Own dec (mustGet s i j k).1
  | batchGet {s} (i l) : Own dec s → Own dec (batchGet s i l).1

theorem Own.reach {dec : Bytes → Option Block} {s : Store Value} (h : Own dec s) : Reach dec s := by
  induction h with
  | new p => exact .new p _
  | register k d b _ ih => exact .register k d b ih
  | reset k r _ ih => exact .reset k r ih
  | update k v r _ _ ih => exact .update k v r ih
  | batchUpdate l r _ _ ih => exact .batchUpdate l r ih
  | get i k _ ih => exact .get i k ih
  | mustGet i j k _ ih => exact .mustGet i j k ih
  | batchGet i l _ ih => exact .batchGet i l ih

/-- Everything in redis belongs to a registered key, and its processor does not panic on it. -/
def Clean (s : Store V) : Prop := ∀ k v, s.hash k = some v → ∃ p, s.proc k = some p ∧ p.validate v ≠ .panic

theorem Clean.of_eq {s s' : Store V} (h : Clean s) (h1 : s'.proc = s.proc) (h2 : s'.hash = s.hash) : Clean s' := by
  unfold Clean; rw [h1, h2]; exact h

theorem save_mem (r : PRes) (l : List (Bytes × Bytes)) : ∀ (h : Bytes → Option Bytes) (k v : Bytes), save h r l k = some v →
    h k = some v ∨ (k, v) ∈ l := by
  induction l with
  | nil => intro h k v e; exact .inl e
  | cons a l ih =>
    intro h k v e
    obtain ⟨k0, v0⟩ := a
    rcases ih _ k v e with e | e
    · split at e
      · by_cases hk : k = k0
        · subst hk; rw [set_same] at e; simp only [Option.some.injEq] at e; subst e; exact .inr (by simp)
        · rw [set_other _ hk] at e; exact .inl e
      · exact .inl e
    · exact .inr (by simp [e])

theorem batchApply_same {dec : Bytes → Option Block} (l : List (Bytes × Bytes)) : ∀ {s : Store Value}, Inv dec s →
    Same s (batchApply s l).1 ∧ (∀ errs, (batchApply s l).2 = .ret errs → ∀ x ∈ l, ∀ p, s.proc x.1 = some p → p.validate x.2 ≠ .panic) := by
  induction l with
  | nil => intro s h; exact ⟨Same.refl s, by simp⟩
  | cons a l ih =>
    intro s h
    obtain ⟨k, v⟩ := a
    obtain ⟨u1, u2, -, u4⟩ := update_spec h k v
    simp only [batchApply]
    rcases hx : updateNoPersist s k v with ⟨s', o⟩
    rw [hx] at u1 u2 u4
    cases o with
    | panic => exact ⟨u2, by simp⟩
    | hang => exact ⟨u2, by simp⟩
    | ret e =>
      have g : ∀ p, s.proc k = some p → p.validate v ≠ .panic := by
        rcases u4 with ⟨u, -⟩ | ⟨-, u, -⟩
        · simp at u
        · exact u
      obtain ⟨i1, i2⟩ := ih u1
      simp only []
      rcases hy : batchApply s' l with ⟨s'', o'⟩
      rw [hy] at i1 i2
      cases o' with
      | panic => exact ⟨u2.trans i1, by simp⟩
      | hang => exact ⟨u2.trans i1, by simp⟩
      | ret e' =>
        refine ⟨u2.trans i1, ?_⟩
        intro errs _ x hm p hp
        simp only [List.mem_cons] at hm
        rcases hm with rfl | hm
        · exact g p hp
        · exact i2 _ rfl x hm p (by rw [u2.proc]; exact hp)

theorem batchLoop_same {dec : Bytes → Option Block} (l : List (Bytes × LoadIn)) : ∀ {s : Store Value}, Inv dec s →
    (batchLoop s l).1.proc = s.proc ∧ (batchLoop s l).1.hash = s.hash := by
  induction l with
  | nil => intro s h; exact ⟨rfl, rfl⟩
  | cons a l ih =>
    intro s h
    obtain ⟨k, i⟩ := a
    simp only [batchLoop]
    split
    · exact ih h
    · have hg : Inv dec (get s i k).1 ∧ (get s i k).1.proc = s.proc ∧ (get s i k).1.hash = s.hash := by
        rw [get_state h]; exact ⟨doLoad_inv h i, doLoad_same h i⟩
      rcases hx : get s i k with ⟨s', o⟩
      rw [hx] at hg
      obtain ⟨g1, g2, g3⟩ := hg
      cases o with
      | panic => exact ⟨g2, g3⟩
      | hang => exact ⟨g2, g3⟩
      | ret x =>
        have := ih g1
        simp only []
        rcases hy : batchLoop s' l with ⟨s'', o'⟩
        rw [hy] at this
        cases o' <;> exact ⟨this.1.trans g2, this.2.trans g3⟩

theorem own_clean {dec : Bytes → Option Block} {s : Store Value} (h : Own dec s) : Clean s := by
  induction h with
  | new p => intro k v e; simp [new] at e
  | @register s k d b hs ih =>
    have hi := reach_inv hs.reach
    unfold register
    by_cases hk : k = []
    · rw [if_pos hk]; exact ih
    rw [if_neg hk, if_neg (by simp [hi.alive])]
    split
    · exact ih
    rename_i hno
    have hno' : s.proc k = none := by
      cases hp : s.proc k with
      | none => rfl
      | some p => simp [hp] at hno
    cases hv : (Builtin.proc dec b).validate d with
    | panic => exact ih
    | hang => exact ih
    | ret e =>
      cases e with
      | some e => exact ih
      | none =>
        simp only []
        cases hx : (Builtin.proc dec b).convert d with
        | panic => exact ih
        | hang => exact ih
        | ret x =>
          intro k' v' e
          obtain ⟨p, hp, hv'⟩ := ih k' v' e
          have hkk : k' ≠ k := by rintro rfl; rw [hno'] at hp; simp at hp
          exact ⟨p, by simp only [set_other _ hkk]; exact hp, hv'⟩
  | @reset s k r hs ih =>
    unfold reset
    rw [if_neg (by simp [(reach_inv hs.reach).alive])]
    intro k' v e
    refine ih k' v ?_
    simp only [hashDelete] at e
    split at e
    · by_cases hkk : k' = k
      · subst hkk; rw [set_same] at e; simp at e
      · rw [set_other _ hkk] at e; exact e
    · exact e
  | @update s k v r hk hs ih =>
    obtain ⟨u1, u2, -, u4⟩ := update_spec (reach_inv hs.reach) k v
    unfold update
    rcases hx : updateNoPersist s k v with ⟨s', o⟩
    rw [hx] at u1 u2 u4
    split
    · rename_i h1
      obtain ⟨rfl, rfl⟩ := Prod.mk.inj h1
      intro k' v' e
      rcases save_mem r _ _ k' v' e with e | e
      · obtain ⟨p, hp, hv⟩ := ih k' v' (by rw [← u2.hash]; exact e)
        exact ⟨p, by rw [← u2.proc] at hp; exact hp, hv⟩
      · simp only [List.mem_singleton, Prod.mk.injEq] at e
        obtain ⟨rfl, rfl⟩ := e
        obtain ⟨p, hp⟩ := Option.isSome_iff_exists.1 hk
        refine ⟨p, by rw [← u2.proc] at hp; exact hp, ?_⟩
        rcases u4 with ⟨u, -⟩ | ⟨-, u, -⟩
        · simp at u
        · exact u p hp
    · rename_i h1; obtain ⟨rfl, -⟩ := Prod.mk.inj h1; exact ih.of_eq u2.proc u2.hash
  | @batchUpdate s l r hk hs ih =>
    obtain ⟨u2, u4⟩ := batchApply_same l (reach_inv hs.reach)
    unfold batchUpdate
    rcases hx : batchApply s l with ⟨s', o⟩
    rw [hx] at u2 u4
    cases o with
    | panic => exact ih.of_eq u2.proc u2.hash
    | hang => exact ih.of_eq u2.proc u2.hash
    | ret errs =>
      intro k' v' e
      rcases save_mem r _ _ k' v' e with e | e
      · obtain ⟨p, hp, hv⟩ := ih k' v' (by rw [← u2.hash]; exact e)
        exact ⟨p, by rw [← u2.proc] at hp; exact hp, hv⟩
      · have hm := List.mem_of_mem_filter e
        obtain ⟨p, hp⟩ := Option.isSome_iff_exists.1 (hk _ hm)
        exact ⟨p, by rw [← u2.proc] at hp; exact hp, u4 errs rfl _ hm p hp⟩
  | @get s i k hs ih =>
    have hi := reach_inv hs.reach
    rw [get_state hi]
    exact ih.of_eq (doLoad_same hi i).1 (doLoad_same hi i).2
  | @mustGet s i j k hs ih =>
    have hi := reach_inv hs.reach
    have hd := doLoad_inv hi i
    obtain ⟨e1, e2⟩ := doLoad_same hi i
    unfold mustGet
    rcases hx : doLoad s i with ⟨s', o⟩
    rw [hx] at hd e1 e2
    cases o with
    | panic => exact ih.of_eq e1 e2
    | hang => exact ih.of_eq e1 e2
    | ret b =>
      simp only []
      have hg := doLoad_same hd j
      rw [← get_state hd j k] at hg
      rcases hy : get s' j k with ⟨s'', o'⟩
      rw [hy] at hg
      cases o' with
      | panic => exact ih.of_eq (hg.1.trans e1) (hg.2.trans e2)
      | hang => exact ih.of_eq (hg.1.trans e1) (hg.2.trans e2)
      | ret x => cases x <;> exact ih.of_eq (hg.1.trans e1) (hg.2.trans e2)
  | @batchGet s i l hs ih =>
    have hi := reach_inv hs.reach
    have hd := doLoad_inv hi i
    obtain ⟨e1, e2⟩ := doLoad_same hi i
    unfold batchGet
    rcases hx : doLoad s i with ⟨s', o⟩
    rw [hx] at hd e1 e2
    cases o with
    | panic => exact ih.of_eq e1 e2
    | hang => exact ih.of_eq e1 e2
    | ret b =>
      have := batchLoop_same l hd
      exact ih.of_eq (this.1.trans e1) (this.2.trans e2)

/-- **C126** (partial): if nobody else writes to redis, keys are registered before they are updated and are not deregistered, then no read
panics, except the Must reads of keys that are not registered. -/
theorem C126_own_partial (dec : Bytes → Option Block) {s : Store Value} (h : Own dec s) (i : LoadIn) (ho : Enumerates i.order s.hash) (k : Bytes) :
    ∃ r, (get s i k).2 = .ret r ∧ (r.isSome ↔ (s.proc k).isSome) := by
  have hn : ¬ Poisoned dec s := by
    rintro ⟨k, v, -, h2, h3, h4, h5⟩
    obtain ⟨p, hp, hv⟩ := own_clean h k v h3
    rw [h4] at hp
    simp only [Option.some.injEq] at hp
    subst hp
    exact hv ((validate_panic dec .rsaPub v).2 ⟨rfl, h2, h5⟩)
  obtain ⟨r, h1, h2, -⟩ := (C126_get_partial dec h.reach i ho k).2.1 fun hc => hn hc.2
  exact ⟨r, h1, h2⟩

/-! ### C93 with these processors -/

/-- The course of an update: which one it is depends on the processors, the key and the value. -/
def course (proc : Bytes → Option (PProc V)) (k v : Bytes) : Deadlock.Upd :=
  if k = [] then .emptyKey
  else match proc k with
    | none => .unknown
    | some p =>
      match p.validate v with
      | .ret none =>
        match p.convert v with
        | .ret _ => .accepted
        | _ => .convertPanics
      | .ret (some _) => .rejected
      | _ => .validatePanics

/-- The updates in a call of the store. -/
def updates : Deadlock.Call → List Deadlock.Upd
  | .nothing | .registration _ | .resetKey _ => []
  | .update u => [u]
  | .batchUpdate us => us
  | .getValue l => ofLoad l
  | .mustGetValue l1 l2 => ofLoad l1 ++ ofLoad l2
  | .batchGet l ls => ofLoad l ++ ls.flatMap ofLoad
where
  ofLoad : Deadlock.Load → List Deadlock.Upd
    | .nothing => []
    | .pairs us => us

theorem fine_iff (c : Deadlock.Call) : c.Fine ↔ ∀ u ∈ updates c, u ≠ .convertPanics := by
  have hl : ∀ l : Deadlock.Load, l.Fine ↔ ∀ u ∈ updates.ofLoad l, u ≠ .convertPanics := by
    intro l; cases l <;> simp [Deadlock.Load.Fine, updates.ofLoad, Deadlock.Upd.Fine]
  cases c with
  | nothing | registration b | resetKey b => simp [Deadlock.Call.Fine, updates]
  | update u => simp [Deadlock.Call.Fine, updates, Deadlock.Upd.Fine]
  | batchUpdate us => simp [Deadlock.Call.Fine, updates, Deadlock.Upd.Fine]
  | getValue l => simp only [Deadlock.Call.Fine, updates, hl]
  | mustGetValue l1 l2 =>
    simp only [Deadlock.Call.Fine, updates, hl, List.mem_append]
    exact ⟨fun h u hu => hu.elim (h.1 u) (h.2 u), fun h => ⟨fun u hu => h u (.inl hu), fun u hu => h u (.inr hu)⟩⟩
  | batchGet l ls =>
    simp only [Deadlock.Call.Fine, updates, hl, List.mem_append, List.mem_flatMap]
    refine ⟨fun h u hu => hu.elim (h.1 u) (fun ⟨l, h1, h2⟩ => h.2 l h1 u h2), fun h => ⟨fun u hu => h u (.inl hu), fun l hl u hu => h u (.inr ⟨l, hl, hu⟩)⟩⟩

/-- **C93** for the processors of procs.go: a valid value is converted without panic, so that all calls of any number of goroutines can be
completed in every state that they can get to, whatever the registrations, the values and the contents of redis, and although `Validate`
panics for some texts. -/
theorem C93_builtin (dec : Bytes → Option Block) (p : Deadlock.Policy) (n : Nat) (calls : Nat → List Deadlock.Call)
    (hc : ∀ i, ∀ c ∈ calls i, ∀ u ∈ updates c, ∃ (proc : Bytes → Option Builtin) (k v : Bytes),
      u = course (fun k => (proc k).map (Builtin.proc dec)) k v)
    (hn : ∀ i, n ≤ i → calls i = []) {sched : List Nat} {s : Locks.State} (h : exec Locks.step (Deadlock.begin p calls) sched = some s) :
    ((∀ i, i < n → (s.gor i).rest = []) ∨ ∃ i, i < n ∧ (Locks.step s i).isSome) ∧
    ∃ more s', exec Locks.step s more = some s' ∧ ∀ i, (s'.gor i).rest = [] := by
  have hf : ∀ i, ∀ c ∈ calls i, c.Fine := by
    intro i c hic
    rw [fine_iff]
    intro u hu
    obtain ⟨proc, k, v, rfl⟩ := hc i c hic u hu
    unfold course
    split
    · simp
    · cases hp : proc k with
      | none => simp [hp]
      | some b =>
        cases hv : (Builtin.proc dec b).validate v with
        | panic => simp [hp, hv]
        | hang => simp [hp, hv]
        | ret e =>
          cases e with
          | some e => simp [hp, hv]
          | none =>
            obtain ⟨x, hx⟩ := convert_ret dec b v hv
            have hx' : (Builtin.proc dec b).convert v = .ret x := hx
            simp [hp, hv, hx']
  obtain ⟨h1, -, h3⟩ := Deadlock.C93_partial p n calls hf hn h
  exact ⟨h1, h3⟩

/-! ### Examples -/

example : course (V := Value) (fun _ => some (Builtin.proc (decode fun _ => none) .rsaPub)) [107] edText = .validatePanics := by
  have : (Builtin.proc (decode fun _ => none) .rsaPub).validate edText = .panic :=
    (validate_panic _ _ _).2 ⟨rfl, by decide +kernel, edText_panics fun _ => none⟩
  simp [course, this]

/-- A persisted number is read, an unacceptable one is not. -/
example : (get (register (new Value .simple fun k => if k = [107] then some [52, 50] else none) [107] [48]
      (Builtin.proc (decode fun _ => none) (.int Procs.intProc))).1 ⟨0, 0, true, [([107], [52, 50])]⟩ [107]).2 = .ret (some ([52, 50], .int 42)) ∧
    (get (register (new Value .simple fun k => if k = [107] then some [120] else none) [107] [48]
      (Builtin.proc (decode fun _ => none) (.int Procs.intProc))).1 ⟨0, 0, true, [([107], [120])]⟩ [107]).2 = .ret (some ([48], .int 0)) := by
  decide +kernel

end Gears.Confstore.Panics
