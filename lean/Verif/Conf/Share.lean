import Verif.Conf.LoadProps

/-
Configurations in which pointers share variables, or point in a circle (/repo/conf/reflect.go, conf.go, env.go, flag.go).

* Variables that pointers point to are objects with an address; a value is a finite tree with addresses at its pointers.  A
  pointer points to a whole object: pointers into a struct (`&s.Field`) are not modelled.
* Types are those of Reflect.lean; every object has the number of its type.
* `initPtrValue` here works on the objects in place.
* What a yaml file does is a parameter, as in Load.lean: what it stores in each variable, and which fields it points at other
  variables.
-/

namespace Gears.Conf

mutual
inductive HVal where
  | basic (k : Kind) (named : Bool) (v : Int)
  | other (v : Int)
  /-- nil pointer to type number `n` -/
  | nil (n : Nat)
  /-- pointer to object `a` -/
  | ptr (a : Nat)
  | struct (fs : HFields)

inductive HFields where
  | nil
  | cons (f : FieldInfo) (v : HVal) (fs : HFields)
end

/-- The objects: their types, their values; those from `next` on do not exist yet. -/
structure Heap where
  ty   : Nat → Nat
  obj  : Nat → HVal
  next : Nat

def Heap.put (h : Heap) (a : Nat) (v : HVal) : Heap := { h with obj := fun b => if b = a then v else h.obj b }

/-- A new object of type `n`. -/
def Heap.new (h : Heap) (n : Nat) (v : HVal) : Heap where
  ty   := fun b => if b = h.next then n else h.ty b
  obj  := fun b => if b = h.next then v else h.obj b
  next := h.next + 1

mutual
/-- `reflect.New(t).Elem()` -/
def hzero : Ty → HVal
  | .basic k named => .basic k named 0
  | .other => .other 0
  | .ptr n => .nil n
  | .struct fs => .struct (hzeroF fs)

def hzeroF : TyFields → HFields
  | .nil => .nil
  | .cons f t fs => .cons f (hzero t) (hzeroF fs)
end

abbrev Rec := Bool → HVal → Heap → Option (HVal × Heap)

/-- The loop reflect.go:48-57; `rec` is the recursive call, with the settability of the field. -/
def hInitFields (rec : Rec) : HFields → Heap → Option (HFields × Heap)
  | .nil, h => some (.nil, h)
  | .cons f v fs, h =>
    match rec f.exported v h with
    | none => none
    | some (v', h1) =>
      match hInitFields rec fs h1 with
      | none => none
      | some (fs', h2) => some (.cons f v' fs', h2)

/-- Lines 40-57, for a value reached by `Elem` or given directly. -/
def hInitElem (rec : Rec) (canSet : Bool) (v : HVal) (h : Heap) : Option (HVal × Heap) :=
  if !canSet then some (v, h)
  else match v with
    | .struct fs =>
      match hInitFields rec fs h with
      | none => none
      | some (fs', h') => some (.struct fs', h')
    | v => some (v, h)

/-- `initPtrValue` (31-59); `none`: it needs more than `fuel` nested calls. -/
def hInit (env : Nat → Ty) : Nat → Rec
  | 0, _, _, _ => none
  | fuel + 1, canSet, v, h =>
    match v with
    | .nil n =>
      -- 34-35
      if canSet then
        match hInitElem (hInit env fuel) true (hzero (env n)) (h.new n (hzero (env n))) with
        | none => none
        | some (v', h') => some (.ptr h.next, h'.put h.next v')
      else some (.nil n, h)
    -- 37
    | .ptr a =>
      match hInitElem (hInit env fuel) canSet (h.obj a) h with
      | none => none
      | some (v', h') => some (.ptr a, h'.put a v')
    | v => hInitElem (hInit env fuel) canSet v h

/-- `initStruct(p)` (26-28) with `p` the address of object `a`. -/
def hInitStruct (env : Nat → Ty) (fuel a : Nat) (h : Heap) : Option Heap :=
  match hInitElem (hInit env fuel) true (h.obj a) h with
  | none => none
  | some (v', h') => some (h'.put a v')

/-! ### Types -/

mutual
/-- The value has the type. -/
def HasTy (h : Heap) : HVal → Ty → Prop
  | .basic k n _, .basic k' n' => k = k' ∧ n = n'
  | .other _, .other => True
  | .nil n, .ptr m => n = m
  | .ptr a, .ptr m => a < h.next ∧ h.ty a = m
  | .struct fs, .struct ts => HasTyF h fs ts
  | _, _ => False

def HasTyF (h : Heap) : HFields → TyFields → Prop
  | .nil, .nil => True
  | .cons f v fs, .cons g t ts => f = g ∧ HasTy h v t ∧ HasTyF h fs ts
  | _, _ => False
end

/-- All objects have their types. -/
def Good (env : Nat → Ty) (h : Heap) : Prop := ∀ a, a < h.next → HasTy h (h.obj a) (env (h.ty a))

mutual
/-- The types that the exported pointers in a value of this type point to. -/
def ptrs : Ty → List Nat
  | .ptr m => [m]
  | .struct fs => ptrsF fs
  | _ => []

def ptrsF : TyFields → List Nat
  | .nil => []
  | .cons f t fs => (if f.exported then ptrs t else []) ++ ptrsF fs
end

/-- The same for what a pointer points to: a pointer there is not followed. -/
def elemPtrs : Ty → List Nat
  | .struct fs => ptrsF fs
  | _ => []

/-- Objects of type `n` have an exported pointer to objects of type `m`. -/
def Below (env : Nat → Ty) (m n : Nat) : Prop := m ∈ elemPtrs (env n)

/-- `x` is `n` or a type below it. -/
inductive Down (env : Nat → Ty) (x : Nat) : Nat → Prop
  | refl : Down env x x
  | step {m n : Nat} (hm : m ∈ elemPtrs (env n)) (hd : Down env x m) : Down env x n

theorem Down.trans {env : Nat → Ty} {x y z : Nat} (h1 : Down env x y) (h2 : Down env y z) : Down env x z := by
  induction h2 with
  | refl => exact h1
  | step hm _ ih => exact .step hm ih

theorem not_down {env : Nat → Ty} {n : Nat} (h : Acc (Below env) n) : ∀ m ∈ elemPtrs (env n), ¬ Down env n m := by
  induction h with
  | intro n _ ih =>
    intro m hm hd
    have ih' := ih m hm
    cases hd with
    | refl => exact ih' n hm .refl
    | step hm' hd' => exact ih' _ hm' (Down.trans (.step hm .refl) hd')

/-! ### What `initPtrValue` changes -/

mutual
/-- `w` is `v` with some nil pointers in exported positions set. -/
def Ref : HVal → HVal → Prop
  | .nil n, w => w = .nil n ∨ ∃ a, w = .ptr a
  | .struct fs, .struct gs => RefF fs gs
  | .basic k n v, w => w = .basic k n v
  | .other v, w => w = .other v
  | .ptr a, w => w = .ptr a
  | .struct _, _ => False

def RefF : HFields → HFields → Prop
  | .nil, .nil => True
  | .cons f v fs, .cons g w gs => f = g ∧ (if f.exported then Ref v w else v = w) ∧ RefF fs gs
  | _, _ => False
end

mutual
theorem Ref.rfl' : ∀ v, Ref v v
  | .nil _ => .inl rfl
  | .struct fs => RefF.rfl' fs
  | .basic _ _ _ => rfl
  | .other _ => rfl
  | .ptr _ => rfl

theorem RefF.rfl' : ∀ fs, RefF fs fs
  | .nil => trivial
  | .cons f v fs => ⟨rfl, by split <;> first | exact Ref.rfl' v | rfl, RefF.rfl' fs⟩
end

mutual
theorem Ref.trans' : ∀ u v w, Ref u v → Ref v w → Ref u w
  | .nil n, v, w, h1, h2 => by
    rcases h1 with rfl | ⟨a, rfl⟩
    · exact h2
    · exact .inr ⟨a, h2⟩
  | .struct fs, .struct gs, .struct hs, h1, h2 => RefF.trans' fs gs hs h1 h2
  | .struct fs, .struct gs, .nil _, h1, h2 => by simp [Ref] at h2
  | .struct fs, .struct gs, .ptr _, h1, h2 => by simp [Ref] at h2
  | .struct fs, .struct gs, .basic _ _ _, h1, h2 => by simp [Ref] at h2
  | .struct fs, .struct gs, .other _, h1, h2 => by simp [Ref] at h2
  | .struct fs, .nil _, w, h1, h2 => by simp [Ref] at h1
  | .struct fs, .ptr _, w, h1, h2 => by simp [Ref] at h1
  | .struct fs, .basic _ _ _, w, h1, h2 => by simp [Ref] at h1
  | .struct fs, .other _, w, h1, h2 => by simp [Ref] at h1
  | .basic _ _ _, v, w, h1, h2 => by simp only [Ref] at h1; subst h1; exact h2
  | .other _, v, w, h1, h2 => by simp only [Ref] at h1; subst h1; exact h2
  | .ptr _, v, w, h1, h2 => by simp only [Ref] at h1; subst h1; exact h2

theorem RefF.trans' : ∀ u v w, RefF u v → RefF v w → RefF u w
  | .nil, .nil, .nil, _, _ => trivial
  | .cons f a as, .cons g b bs, .cons i c cs, h1, h2 => by
    obtain ⟨rfl, h1, h1'⟩ := h1
    obtain ⟨rfl, h2, h2'⟩ := h2
    refine ⟨rfl, ?_, RefF.trans' as bs cs h1' h2'⟩
    split at h1
    · rename_i he
      rw [if_pos he] at h2 ⊢
      exact Ref.trans' a b c h1 h2
    · rename_i he
      rw [if_neg he] at h2 ⊢
      exact h1.trans h2
  | .nil, .nil, .cons _ _ _, h1, h2 => by simp [RefF] at h2
  | .nil, .cons _ _ _, _, h1, h2 => by simp [RefF] at h1
  | .cons _ _ _, .nil, _, h1, h2 => by simp [RefF] at h1
  | .cons _ _ _, .cons _ _ _, .nil, h1, h2 => by simp [RefF] at h2
end

/-- `h'` is `h` with more objects and some nil pointers set. -/
def Ext (h h' : Heap) : Prop := h.next ≤ h'.next ∧ ∀ a, a < h.next → h'.ty a = h.ty a ∧ Ref (h.obj a) (h'.obj a)

theorem Ext.rfl' (h : Heap) : Ext h h := ⟨Nat.le_refl _, fun _ _ => ⟨rfl, Ref.rfl' _⟩⟩

theorem Ext.trans' {h1 h2 h3 : Heap} (a : Ext h1 h2) (b : Ext h2 h3) : Ext h1 h3 :=
  ⟨Nat.le_trans a.1 b.1, fun x hx =>
    ⟨((b.2 x (Nat.lt_of_lt_of_le hx a.1)).1).trans (a.2 x hx).1,
     Ref.trans' _ _ _ (a.2 x hx).2 (b.2 x (Nat.lt_of_lt_of_le hx a.1)).2⟩⟩

mutual
theorem HasTy.later {h h' : Heap} (e : h.next ≤ h'.next) (ey : ∀ a, a < h.next → h'.ty a = h.ty a) : ∀ v t, HasTy h v t → HasTy h' v t
  | .basic _ _ _, t, ht => by cases t <;> simp_all [HasTy]
  | .other _, t, ht => by cases t <;> simp_all [HasTy]
  | .nil _, t, ht => by cases t <;> simp_all [HasTy]
  | .ptr a, t, ht => by
    cases t <;> simp only [HasTy] at ht ⊢
    exact ⟨Nat.lt_of_lt_of_le ht.1 e, (ey a ht.1).trans ht.2⟩
  | .struct fs, t, ht => by
    cases t <;> simp only [HasTy] at ht ⊢
    exact HasTyF.later e ey fs _ ht

theorem HasTyF.later {h h' : Heap} (e : h.next ≤ h'.next) (ey : ∀ a, a < h.next → h'.ty a = h.ty a) : ∀ fs ts, HasTyF h fs ts → HasTyF h' fs ts
  | .nil, ts, ht => by cases ts <;> simp_all [HasTyF]
  | .cons f v fs, ts, ht => by
    cases ts <;> simp only [HasTyF] at ht ⊢
    exact ⟨ht.1, HasTy.later e ey v _ ht.2.1, HasTyF.later e ey fs _ ht.2.2⟩
end

theorem HasTy.ext {h h' : Heap} (e : Ext h h') (v : HVal) (t : Ty) (ht : HasTy h v t) : HasTy h' v t :=
  HasTy.later e.1 (fun a ha => (e.2 a ha).1) v t ht

theorem HasTyF.ext {h h' : Heap} (e : Ext h h') (fs : HFields) (ts : TyFields) (ht : HasTyF h fs ts) : HasTyF h' fs ts :=
  HasTyF.later e.1 (fun a ha => (e.2 a ha).1) fs ts ht

mutual
theorem hzero_ty (h : Heap) : ∀ t, HasTy h (hzero t) t
  | .basic _ _ => ⟨rfl, rfl⟩
  | .other => trivial
  | .ptr _ => rfl
  | .struct fs => hzeroF_ty h fs

theorem hzeroF_ty (h : Heap) : ∀ ts, HasTyF h (hzeroF ts) ts
  | .nil => trivial
  | .cons _ t ts => ⟨rfl, hzero_ty h t, hzeroF_ty h ts⟩
end

mutual
/-- No nil pointer in an exported position. -/
def noNil : HVal → Prop
  | .nil _ => False
  | .struct fs => noNilF fs
  | _ => True

def noNilF : HFields → Prop
  | .nil => True
  | .cons f v fs => (f.exported = true → noNil v) ∧ noNilF fs
end

/-- The same for what a pointer points to. -/
def noNilE : HVal → Prop
  | .struct fs => noNilF fs
  | _ => True

/-- What is true of the recursive call. -/
structure SoundAt (env : Nat → Ty) (P : List Nat) (h h' : Heap) : Prop where
  good : Good env h'
  ext  : Ext h h'
  frame : ∀ c, c < h.next → (∀ m ∈ P, ¬ Down env (h.ty c) m) → h'.obj c = h.obj c
  fresh : ∀ c, h.next ≤ c → c < h'.next → Ref (hzero (env (h'.ty c))) (h'.obj c)

def Sound (env : Nat → Ty) (rec : Rec) : Prop :=
  ∀ b v h v' h' t, rec b v h = some (v', h') → Good env h → HasTy h v t →
    SoundAt env (ptrs t) h h' ∧ HasTy h' v' t ∧ Ref v v' ∧ (b = false → v' = v ∧ h' = h) ∧ (noNil v → v' = v)

theorem SoundAt.rfl' {env : Nat → Ty} {P : List Nat} {h : Heap} (hg : Good env h) : SoundAt env P h h :=
  ⟨hg, Ext.rfl' h, fun _ _ _ => rfl, fun c h1 h2 => by omega⟩

theorem SoundAt.trans' {env : Nat → Ty} {P Q : List Nat} {h1 h2 h3 : Heap} (a : SoundAt env P h1 h2) (b : SoundAt env Q h2 h3) :
    SoundAt env (P ++ Q) h1 h3 where
  good := b.good
  ext := a.ext.trans' b.ext
  frame := by
    intro c hc hd
    have h1 := a.frame c hc (fun m hm => hd m (by simp [hm]))
    have h2 := b.frame c (Nat.lt_of_lt_of_le hc a.ext.1) (fun m hm => by
      rw [(a.ext.2 c hc).1]; exact hd m (by simp [hm]))
    rw [h2, h1]
  fresh := by
    intro c g1 g2
    by_cases hc : c < h2.next
    · obtain ⟨e1, e2⟩ := b.ext.2 c hc
      rw [e1]
      exact Ref.trans' _ _ _ (a.fresh c g1 hc) e2
    · exact b.fresh c (by omega) g2

theorem fields_sound {env : Nat → Ty} {rec : Rec} (hs : Sound env rec) : ∀ (fs : HFields) (h : Heap) (fs' : HFields) (h' : Heap)
    (ts : TyFields), hInitFields rec fs h = some (fs', h') → Good env h → HasTyF h fs ts →
    SoundAt env (ptrsF ts) h h' ∧ HasTyF h' fs' ts ∧ RefF fs fs' ∧ (noNilF fs → fs' = fs)
  | .nil, h, fs', h', ts, hr, hg, ht => by
    simp only [hInitFields, Option.some.injEq, Prod.mk.injEq] at hr
    obtain ⟨rfl, rfl⟩ := hr
    exact ⟨.rfl' hg, ht, trivial, fun _ => rfl⟩
  | .cons f v fs, h, fs', h', ts, hr, hg, ht => by
    cases ts with
    | nil => simp [HasTyF] at ht
    | cons g t ts =>
      obtain ⟨rfl, hv, hfs⟩ := ht
      simp only [hInitFields] at hr
      cases h1 : rec f.exported v h with
      | none => rw [h1] at hr; simp at hr
      | some r =>
        obtain ⟨v1, hp1⟩ := r
        rw [h1] at hr
        dsimp only at hr
        cases h2 : hInitFields rec fs hp1 with
        | none => rw [h2] at hr; simp at hr
        | some r =>
          obtain ⟨fs1, hp2⟩ := r
          rw [h2] at hr
          simp only [Option.some.injEq, Prod.mk.injEq] at hr
          obtain ⟨rfl, rfl⟩ := hr
          obtain ⟨a1, a2, a3, a4, a5⟩ := hs _ _ _ _ _ _ h1 hg hv
          obtain ⟨b1, b2, b3, b4⟩ := fields_sound hs fs hp1 fs1 hp2 ts h2 a1.good (HasTyF.ext a1.ext _ _ hfs)
          refine ⟨?_, ⟨rfl, HasTy.ext b1.ext _ _ a2, b2⟩, ⟨rfl, ?_, b3⟩, ?_⟩
          · simp only [ptrsF]
            cases he : f.exported with
            | true => simpa using a1.trans' b1
            | false =>
              obtain ⟨-, rfl⟩ := a4 he
              simpa using b1
          · split
            · exact a3
            · rename_i he
              exact (a4 (by simpa using he)).1.symm
          · rintro ⟨n1, n2⟩
            rw [b4 n2]
            cases he : f.exported with
            | true => rw [a5 (n1 he)]
            | false => rw [(a4 he).1]

theorem elem_sound {env : Nat → Ty} {rec : Rec} (hs : Sound env rec) (b : Bool) (v : HVal) (h : Heap) (v' : HVal) (h' : Heap) (t : Ty)
    (hr : hInitElem rec b v h = some (v', h')) (hg : Good env h) (ht : HasTy h v t) :
    SoundAt env (elemPtrs t) h h' ∧ HasTy h' v' t ∧ Ref v v' ∧ (b = false → v' = v ∧ h' = h) ∧ (noNilE v → v' = v) := by
  unfold hInitElem at hr
  cases b with
  | false =>
    simp only [Bool.not_false, if_true, Option.some.injEq, Prod.mk.injEq] at hr
    obtain ⟨rfl, rfl⟩ := hr
    exact ⟨.rfl' hg, ht, Ref.rfl' _, fun _ => ⟨rfl, rfl⟩, fun _ => rfl⟩
  | true =>
    simp only [Bool.not_true, Bool.false_eq_true, if_false] at hr
    cases v with
    | struct fs =>
      cases t <;> simp only [HasTy] at ht
      rename_i ts
      dsimp only at hr
      cases h2 : hInitFields rec fs h with
      | none => rw [h2] at hr; simp at hr
      | some r =>
        obtain ⟨fs1, hp2⟩ := r
        rw [h2] at hr
        simp only [Option.some.injEq, Prod.mk.injEq] at hr
        obtain ⟨rfl, rfl⟩ := hr
        obtain ⟨b1, b2, b3, b4⟩ := fields_sound hs fs h fs1 hp2 ts h2 hg ht
        exact ⟨b1, b2, b3, fun e => by simp at e, fun n => by rw [b4 n]⟩
    | _ =>
      simp only [Option.some.injEq, Prod.mk.injEq] at hr
      obtain ⟨rfl, rfl⟩ := hr
      exact ⟨.rfl' hg, ht, Ref.rfl' _, fun e => by simp at e, fun _ => rfl⟩

theorem put_same (h : Heap) (a : Nat) : h.put a (h.obj a) = h := by
  unfold Heap.put
  obtain ⟨ty, obj, next⟩ := h
  simp only [Heap.mk.injEq, true_and, and_true]
  funext b
  split <;> simp_all

theorem good_put {env : Nat → Ty} {h : Heap} {a : Nat} {v : HVal} (hg : Good env h) (ht : HasTy h v (env (h.ty a))) :
    Good env (h.put a v) := by
  intro b hb
  refine HasTy.later (h := h) (h' := h.put a v) (Nat.le_refl _) (fun _ _ => rfl) _ _ ?_
  show HasTy h (if b = a then v else h.obj b) (env (h.ty b))
  split
  · rename_i e; rw [e]; exact ht
  · exact hg b hb

theorem good_new {env : Nat → Ty} {h : Heap} (n : Nat) (hg : Good env h) : Good env (h.new n (hzero (env n))) := by
  intro b hb
  simp only [Heap.new] at hb ⊢
  by_cases e : b = h.next
  · rw [if_pos e, if_pos e]; exact hzero_ty _ _
  · rw [if_neg e, if_neg e]
    refine HasTy.later (h := h) (by simp) ?_ _ _ (hg b (by omega))
    intro a ha
    simp [show a ≠ h.next by omega]

theorem hInit_sound (env : Nat → Ty) (fuel : Nat) : Sound env (hInit env fuel) := by
  induction fuel with
  | zero => intro b v h v' h' t hr; simp [hInit] at hr
  | succ fuel ih =>
    intro b v h v' h' t hr hg ht
    have other : (∀ n, v ≠ .nil n) → (∀ a, v ≠ .ptr a) → hInitElem (hInit env fuel) b v h = some (v', h') →
        SoundAt env (ptrs t) h h' ∧ HasTy h' v' t ∧ Ref v v' ∧ (b = false → v' = v ∧ h' = h) ∧ (noNil v → v' = v) := by
      intro h1 h2 hr
      have := elem_sound ih b v h v' h' t hr hg ht
      have e1 : elemPtrs t = ptrs t := by
        cases t with
        | ptr m => cases v <;> simp_all [HasTy]
        | _ => rfl
      have e2 : noNil v → noNilE v := by
        cases v <;> simp [noNil, noNilE]
      rw [e1] at this
      exact ⟨this.1, this.2.1, this.2.2.1, this.2.2.2.1, fun n => this.2.2.2.2 (e2 n)⟩
    cases v with
    | nil n =>
      simp only [hInit] at hr
      cases t <;> simp only [HasTy] at ht
      rename_i m
      subst ht
      cases b with
      | false =>
        simp only [Bool.false_eq_true, if_false, Option.some.injEq, Prod.mk.injEq] at hr
        obtain ⟨rfl, rfl⟩ := hr
        exact ⟨.rfl' hg, rfl, .inl rfl, fun _ => ⟨rfl, rfl⟩, fun _ => rfl⟩
      | true =>
        simp only [if_true] at hr
        cases h1 : hInitElem (hInit env fuel) true (hzero (env n)) (h.new n (hzero (env n))) with
        | none => rw [h1] at hr; simp at hr
        | some r =>
          obtain ⟨w, hp⟩ := r
          rw [h1] at hr
          simp only [Option.some.injEq, Prod.mk.injEq] at hr
          obtain ⟨rfl, rfl⟩ := hr
          obtain ⟨a1, a2, a3, -, -⟩ := elem_sound ih _ _ _ _ _ _ h1 (good_new n hg) (hzero_ty _ _)
          have hlt : h.next < hp.next := by have := a1.ext.1; simp only [Heap.new] at this; omega
          have hty : hp.ty h.next = n := by
            have := (a1.ext.2 h.next (by simp [Heap.new])).1
            simpa [Heap.new] using this
          refine ⟨⟨good_put a1.good (by rw [hty]; exact a2), ⟨?_, ?_⟩, ?_, ?_⟩, ⟨hlt, hty⟩, .inr ⟨_, rfl⟩, fun e => by simp at e, fun e => e.elim⟩
          · exact Nat.le_of_lt hlt
          · intro a ha
            have := a1.ext.2 a (by simp only [Heap.new]; omega)
            simp only [Heap.new, show a ≠ h.next by omega, if_false] at this
            simp only [Heap.put, show a ≠ h.next by omega, if_false]
            exact this
          · intro c hc hd
            have := a1.frame c (by simp only [Heap.new]; omega) (fun m hm hdn => by
              simp only [Heap.new, show c ≠ h.next by omega, if_false] at hdn
              exact hd n (by simp [ptrs]) (.step hm hdn))
            simp only [Heap.new, show c ≠ h.next by omega, if_false] at this
            simp only [Heap.put, show c ≠ h.next by omega, if_false]
            exact this
          · intro c hc hc'
            simp only [Heap.put] at hc' ⊢
            by_cases e : c = h.next
            · subst e
              rw [if_pos rfl, hty]
              exact a3
            · rw [if_neg e]
              exact a1.fresh c (by simp only [Heap.new]; omega) hc'
    | ptr a =>
      simp only [hInit] at hr
      cases t <;> simp only [HasTy] at ht
      rename_i m
      obtain ⟨hlt, rfl⟩ := ht
      cases h1 : hInitElem (hInit env fuel) b (h.obj a) h with
      | none => rw [h1] at hr; simp at hr
      | some r =>
        obtain ⟨w, hp⟩ := r
        rw [h1] at hr
        simp only [Option.some.injEq, Prod.mk.injEq] at hr
        obtain ⟨rfl, rfl⟩ := hr
        obtain ⟨a1, a2, a3, a4, -⟩ := elem_sound ih _ _ _ _ _ _ h1 hg (hg a hlt)
        refine ⟨⟨good_put a1.good (by rw [(a1.ext.2 a hlt).1]; exact a2), ⟨a1.ext.1, ?_⟩, ?_, ?_⟩,
          ⟨Nat.lt_of_lt_of_le hlt a1.ext.1, (a1.ext.2 a hlt).1⟩, rfl, ?_, fun _ => rfl⟩
        · intro c hc
          refine ⟨(a1.ext.2 c hc).1, ?_⟩
          simp only [Heap.put]
          split
          · rename_i e; rw [e]; exact a3
          · exact (a1.ext.2 c hc).2
        · intro c hc hd
          have hne : c ≠ a := by rintro rfl; exact hd _ (by simp [ptrs]) .refl
          have := a1.frame c hc (fun m hm hdn => hd _ (by simp [ptrs]) (.step hm hdn))
          simp only [Heap.put, hne, if_false]
          exact this
        · intro c hc hc'
          have hne : c ≠ a := by omega
          simp only [Heap.put, hne, if_false]
          exact a1.fresh c hc hc'
        · intro hb
          obtain ⟨rfl, rfl⟩ := a4 hb
          exact ⟨rfl, put_same _ _⟩
    | basic k n x => exact other (by simp) (by simp) (by simpa only [hInit] using hr)
    | other x => exact other (by simp) (by simp) (by simpa only [hInit] using hr)
    | struct fs => exact other (by simp) (by simp) (by simpa only [hInit] using hr)

/-! ### Complete values -/

/-- All exported fields. -/
def allExp (P : HVal → Prop) : HFields → Prop
  | .nil => True
  | .cons f v fs => (f.exported = true → P v) ∧ allExp P fs

def compE (P : HVal → Prop) : HVal → Prop
  | .struct fs => allExp P fs
  | _ => True

/-- Within `k` steps, no nil pointer is found at an exported position, and there the ways end. -/
def comp : Nat → Heap → HVal → Prop
  | 0, _, _ => False
  | _ + 1, _, .nil _ => False
  | k + 1, h, .ptr a => a < h.next ∧ compE (comp k h) (h.obj a)
  | k + 1, h, v => compE (comp k h) v

theorem allExp_mono {P Q : HVal → Prop} (hpq : ∀ v, P v → Q v) : ∀ fs, allExp P fs → allExp Q fs
  | .nil, _ => trivial
  | .cons _ _ fs, h => ⟨fun e => hpq _ (h.1 e), allExp_mono hpq fs h.2⟩

theorem compE_mono {P Q : HVal → Prop} (hpq : ∀ v, P v → Q v) (v : HVal) (h : compE P v) : compE Q v := by
  cases v with
  | struct fs => exact allExp_mono hpq fs h
  | _ => trivial

theorem allExp_noNil {P : HVal → Prop} (hp : ∀ v, P v → noNil v) : ∀ fs, allExp P fs → noNilF fs
  | .nil, _ => trivial
  | .cons _ _ fs, h => ⟨fun e => hp _ (h.1 e), allExp_noNil hp fs h.2⟩

theorem comp_noNil (k : Nat) (h : Heap) (v : HVal) (hc : comp k h v) : noNil v := by
  induction k generalizing v with
  | zero => exact hc.elim
  | succ k ih =>
    cases v with
    | nil n => exact hc.elim
    | struct fs => exact allExp_noNil ih fs hc
    | _ => trivial

theorem compE_noNil {k : Nat} {h : Heap} {v : HVal} (hc : compE (comp k h) v) : noNilE v := by
  cases v with
  | struct fs => exact allExp_noNil (comp_noNil k h) fs hc
  | _ => trivial

/-- What is complete does not change. -/
def Keep (h h' : Heap) : Prop :=
  h.next ≤ h'.next ∧ ∀ k b, b < h.next → compE (comp k h) (h.obj b) → h'.obj b = h.obj b

theorem comp_keep {h h' : Heap} (hk : Keep h h') (k : Nat) (v : HVal) (hc : comp k h v) : comp k h' v := by
  induction k generalizing v with
  | zero => exact hc
  | succ k ih =>
    cases v with
    | nil n => exact hc
    | ptr a =>
      obtain ⟨h1, h2⟩ := hc
      refine ⟨Nat.lt_of_lt_of_le h1 hk.1, ?_⟩
      rw [hk.2 k a h1 h2]
      exact compE_mono ih _ h2
    | struct fs => exact compE_mono ih (.struct fs) hc
    | basic _ _ _ => trivial
    | other _ => trivial

theorem Keep.trans' {h1 h2 h3 : Heap} (a : Keep h1 h2) (b : Keep h2 h3) : Keep h1 h3 := by
  refine ⟨Nat.le_trans a.1 b.1, fun k c hc hcomp => ?_⟩
  have e1 := a.2 k c hc hcomp
  rw [b.2 k c (Nat.lt_of_lt_of_le hc a.1) (by rw [e1]; exact compE_mono (comp_keep a k) _ hcomp), e1]

theorem Keep.rfl' (h : Heap) : Keep h h := ⟨Nat.le_refl _, fun _ _ _ _ => rfl⟩

/-- What the recursive call completes. -/
def Comps (env : Nat → Ty) (k : Nat) (rec : Rec) : Prop :=
  ∀ v h v' h' t, rec true v h = some (v', h') → Good env h → HasTy h v t → (∀ m ∈ ptrs t, Acc (Below env) m) →
    Keep h h' ∧ comp k h' v'

theorem fields_comp {env : Nat → Ty} {k : Nat} {rec : Rec} (hs : Sound env rec) (hc : Comps env k rec) : ∀ (fs : HFields) (h : Heap)
    (fs' : HFields) (h' : Heap) (ts : TyFields), hInitFields rec fs h = some (fs', h') → Good env h → HasTyF h fs ts →
    (∀ m ∈ ptrsF ts, Acc (Below env) m) → Keep h h' ∧ allExp (comp k h') fs'
  | .nil, h, fs', h', ts, hr, hg, ht, ha => by
    simp only [hInitFields, Option.some.injEq, Prod.mk.injEq] at hr
    obtain ⟨rfl, rfl⟩ := hr
    exact ⟨.rfl' _, trivial⟩
  | .cons f v fs, h, fs', h', ts, hr, hg, ht, ha => by
    cases ts with
    | nil => simp [HasTyF] at ht
    | cons g t ts =>
      obtain ⟨rfl, hv, hfs⟩ := ht
      simp only [hInitFields] at hr
      cases h1 : rec f.exported v h with
      | none => rw [h1] at hr; simp at hr
      | some r =>
        obtain ⟨v1, hp1⟩ := r
        rw [h1] at hr
        dsimp only at hr
        cases h2 : hInitFields rec fs hp1 with
        | none => rw [h2] at hr; simp at hr
        | some r =>
          obtain ⟨fs1, hp2⟩ := r
          rw [h2] at hr
          simp only [Option.some.injEq, Prod.mk.injEq] at hr
          obtain ⟨rfl, rfl⟩ := hr
          obtain ⟨a1, a2, a3, a4, a5⟩ := hs _ _ _ _ _ _ h1 hg hv
          obtain ⟨b1, b2⟩ := fields_comp hs hc fs hp1 fs1 hp2 ts h2 a1.good (HasTyF.ext a1.ext _ _ hfs)
            (fun m hm => ha m (by simp [ptrsF, hm]))
          cases he : f.exported with
          | true =>
            rw [he] at h1
            obtain ⟨c1, c2⟩ := hc _ _ _ _ _ h1 hg hv (fun m hm => ha m (by simp [ptrsF, he, hm]))
            exact ⟨c1.trans' b1, fun _ => comp_keep b1 k _ c2, b2⟩
          | false =>
            obtain ⟨-, rfl⟩ := a4 he
            exact ⟨b1, fun e => by simp [he] at e, b2⟩

theorem elem_comp {env : Nat → Ty} {k : Nat} {rec : Rec} (hs : Sound env rec) (hc : Comps env k rec) (v : HVal) (h : Heap) (v' : HVal)
    (h' : Heap) (t : Ty) (hr : hInitElem rec true v h = some (v', h')) (hg : Good env h) (ht : HasTy h v t)
    (ha : ∀ m ∈ elemPtrs t, Acc (Below env) m) : Keep h h' ∧ compE (comp k h') v' := by
  unfold hInitElem at hr
  simp only [Bool.not_true, Bool.false_eq_true, if_false] at hr
  cases v with
  | struct fs =>
    cases t <;> simp only [HasTy] at ht
    rename_i ts
    dsimp only at hr
    cases h2 : hInitFields rec fs h with
    | none => rw [h2] at hr; simp at hr
    | some r =>
      obtain ⟨fs1, hp2⟩ := r
      rw [h2] at hr
      simp only [Option.some.injEq, Prod.mk.injEq] at hr
      obtain ⟨rfl, rfl⟩ := hr
      exact fields_comp hs hc fs h fs1 hp2 ts h2 hg ht ha
  | _ =>
    simp only [Option.some.injEq, Prod.mk.injEq] at hr
    obtain ⟨rfl, rfl⟩ := hr
    exact ⟨.rfl' _, trivial⟩

theorem keep_put {h : Heap} {a : Nat} {v : HVal} (hv : noNilE (h.obj a) → v = h.obj a) : Keep h (h.put a v) := by
  refine ⟨Nat.le_refl _, fun k b _ hc => ?_⟩
  simp only [Heap.put]
  split
  · rename_i e
    subst e
    exact hv (compE_noNil hc)
  · rfl

theorem hInit_comp (env : Nat → Ty) (fuel : Nat) : Comps env fuel (hInit env fuel) := by
  induction fuel with
  | zero => intro v h v' h' t hr; simp [hInit] at hr
  | succ fuel ih =>
    have hs := hInit_sound env fuel
    intro v h v' h' t hr hg ht ha
    have other : (∀ n, v ≠ .nil n) → (∀ a, v ≠ .ptr a) → hInitElem (hInit env fuel) true v h = some (v', h') →
        Keep h h' ∧ compE (comp fuel h') v' := by
      intro h1 h2 hr
      have e1 : elemPtrs t = ptrs t := by
        cases t with
        | ptr m => cases v <;> simp_all [HasTy]
        | _ => rfl
      exact elem_comp hs ih v h v' h' t hr hg ht (by rw [e1]; exact ha)
    cases v with
    | nil n =>
      simp only [hInit, if_true] at hr
      cases t <;> simp only [HasTy] at ht
      rename_i m
      subst ht
      have hacc : Acc (Below env) n := ha n (by simp [ptrs])
      cases h1 : hInitElem (hInit env fuel) true (hzero (env n)) (h.new n (hzero (env n))) with
      | none => rw [h1] at hr; simp at hr
      | some r =>
        obtain ⟨w, hp⟩ := r
        rw [h1] at hr
        simp only [Option.some.injEq, Prod.mk.injEq] at hr
        obtain ⟨rfl, rfl⟩ := hr
        obtain ⟨a1, a2, a3, -, a5⟩ := elem_sound hs _ _ _ _ _ _ h1 (good_new n hg) (hzero_ty _ _)
        obtain ⟨b1, b2⟩ := elem_comp hs ih _ _ _ _ _ h1 (good_new n hg) (hzero_ty _ _) (fun m hm => hacc.inv hm)
        have hlt : h.next < hp.next := by have := a1.ext.1; simp only [Heap.new] at this; omega
        have hfr : hp.obj h.next = hzero (env n) := by
          have := a1.frame h.next (by simp [Heap.new]) (fun m hm => by simpa [Heap.new] using not_down hacc m hm)
          simpa [Heap.new] using this
        have k1 : Keep h (h.new n (hzero (env n))) := ⟨by simp [Heap.new], fun k b hb _ => by simp [Heap.new, show b ≠ h.next by omega]⟩
        have k2 : Keep hp (hp.put h.next w) := keep_put (fun hn => by rw [hfr] at hn ⊢; exact a5 hn)
        refine ⟨(k1.trans' b1).trans' k2, hlt, ?_⟩
        have : (hp.put h.next w).obj h.next = w := by simp [Heap.put]
        rw [this]
        exact compE_mono (comp_keep k2 fuel) _ b2
    | ptr a =>
      simp only [hInit] at hr
      cases t <;> simp only [HasTy] at ht
      rename_i m
      obtain ⟨hlt, rfl⟩ := ht
      have hacc : Acc (Below env) (h.ty a) := ha _ (by simp [ptrs])
      cases h1 : hInitElem (hInit env fuel) true (h.obj a) h with
      | none => rw [h1] at hr; simp at hr
      | some r =>
        obtain ⟨w, hp⟩ := r
        rw [h1] at hr
        simp only [Option.some.injEq, Prod.mk.injEq] at hr
        obtain ⟨rfl, rfl⟩ := hr
        obtain ⟨a1, a2, a3, -, a5⟩ := elem_sound hs _ _ _ _ _ _ h1 hg (hg a hlt)
        obtain ⟨b1, b2⟩ := elem_comp hs ih _ _ _ _ _ h1 hg (hg a hlt) (fun m hm => hacc.inv hm)
        have hfr : hp.obj a = h.obj a := a1.frame a hlt (not_down hacc)
        have k2 : Keep hp (hp.put a w) := keep_put (fun hn => by rw [hfr] at hn ⊢; exact a5 hn)
        refine ⟨b1.trans' k2, Nat.lt_of_lt_of_le hlt a1.ext.1, ?_⟩
        have : (hp.put a w).obj a = w := by simp [Heap.put]
        rw [this]
        exact compE_mono (comp_keep k2 fuel) _ b2
    | basic k n x =>
      obtain ⟨o1, o2⟩ := other (by simp) (by simp) (by simpa only [hInit] using hr)
      refine ⟨o1, ?_⟩
      simp [hInit, hInitElem] at hr
      obtain ⟨rfl, rfl⟩ := hr
      trivial
    | other x =>
      obtain ⟨o1, o2⟩ := other (by simp) (by simp) (by simpa only [hInit] using hr)
      refine ⟨o1, ?_⟩
      simp [hInit, hInitElem] at hr
      obtain ⟨rfl, rfl⟩ := hr
      trivial
    | struct fs =>
      obtain ⟨o1, o2⟩ := other (by simp) (by simp) (by simpa only [hInit] using hr)
      refine ⟨o1, ?_⟩
      simp only [hInit, hInitElem, Bool.not_true, Bool.false_eq_true, if_false] at hr
      split at hr
      · simp at hr
      · simp only [Option.some.injEq, Prod.mk.injEq] at hr
        obtain ⟨rfl, rfl⟩ := hr
        exact o2

/-! ### Termination -/

/-- When the recursive call returns. -/
def Accs (env : Nat → Ty) (rec : Rec) : Prop :=
  ∀ v h r t, rec true v h = some r → Good env h → HasTy h v t → ∀ m ∈ ptrs t, Acc (Below env) m

theorem fields_acc {env : Nat → Ty} {rec : Rec} (hs : Sound env rec) (hc : Accs env rec) : ∀ (fs : HFields) (h : Heap)
    (r : HFields × Heap) (ts : TyFields), hInitFields rec fs h = some r → Good env h → HasTyF h fs ts →
    ∀ m ∈ ptrsF ts, Acc (Below env) m
  | .nil, h, r, ts, hr, hg, ht, m, hm => by
    cases ts <;> simp_all [HasTyF, ptrsF]
  | .cons f v fs, h, r, ts, hr, hg, ht, m, hm => by
    cases ts with
    | nil => simp [HasTyF] at ht
    | cons g t ts =>
      obtain ⟨rfl, hv, hfs⟩ := ht
      simp only [hInitFields] at hr
      cases h1 : rec f.exported v h with
      | none => rw [h1] at hr; simp at hr
      | some r =>
        obtain ⟨v1, hp1⟩ := r
        rw [h1] at hr
        dsimp only at hr
        cases h2 : hInitFields rec fs hp1 with
        | none => rw [h2] at hr; simp at hr
        | some r =>
          obtain ⟨a1, -, -, -, -⟩ := hs _ _ _ _ _ _ h1 hg hv
          simp only [ptrsF, List.mem_append] at hm
          rcases hm with hm | hm
          · cases he : f.exported with
            | true =>
              rw [he] at h1 hm
              exact hc _ _ _ _ h1 hg hv m (by simpa using hm)
            | false => simp [he] at hm
          · exact fields_acc hs hc fs hp1 r ts h2 a1.good (HasTyF.ext a1.ext _ _ hfs) m hm

theorem elem_acc {env : Nat → Ty} {rec : Rec} (hs : Sound env rec) (hc : Accs env rec) (v : HVal) (h : Heap) (r : HVal × Heap) (t : Ty)
    (hr : hInitElem rec true v h = some r) (hg : Good env h) (ht : HasTy h v t) : ∀ m ∈ elemPtrs t, Acc (Below env) m := by
  intro m hm
  unfold hInitElem at hr
  simp only [Bool.not_true, Bool.false_eq_true, if_false] at hr
  cases v with
  | struct fs =>
    cases t <;> simp only [HasTy] at ht
    rename_i ts
    dsimp only at hr
    cases h2 : hInitFields rec fs h with
    | none => rw [h2] at hr; simp at hr
    | some r => exact fields_acc hs hc fs h r ts h2 hg ht m hm
  | _ => cases t <;> simp_all [HasTy, elemPtrs]

theorem hInit_acc (env : Nat → Ty) (fuel : Nat) : Accs env (hInit env fuel) := by
  induction fuel with
  | zero => intro v h r t hr; simp [hInit] at hr
  | succ fuel ih =>
    have hs := hInit_sound env fuel
    intro v h r t hr hg ht m hm
    cases v with
    | nil n =>
      simp only [hInit, if_true] at hr
      cases t <;> simp only [HasTy] at ht
      subst ht
      simp only [ptrs, List.mem_singleton] at hm
      subst hm
      cases h1 : hInitElem (hInit env fuel) true (hzero (env m)) (h.new m (hzero (env m))) with
      | none => rw [h1] at hr; simp at hr
      | some r => exact .intro _ (elem_acc hs ih _ _ _ _ h1 (good_new _ hg) (hzero_ty _ _))
    | ptr a =>
      simp only [hInit] at hr
      cases t <;> simp only [HasTy] at ht
      obtain ⟨hlt, rfl⟩ := ht
      simp only [ptrs, List.mem_singleton] at hm
      subst hm
      cases h1 : hInitElem (hInit env fuel) true (h.obj a) h with
      | none => rw [h1] at hr; simp at hr
      | some r => exact .intro _ (elem_acc hs ih _ _ _ _ h1 hg (hg a hlt))
    | basic k n x => cases t <;> simp_all [HasTy, ptrs]
    | other x => cases t <;> simp_all [HasTy, ptrs]
    | struct fs =>
      cases t <;> simp only [HasTy] at ht
      rename_i ts
      exact elem_acc hs ih (.struct fs) h r (.struct ts) (by simpa only [hInit] using hr) hg ht m hm

/-- With enough fuel the call returns for all values of the type, in all heaps. -/
def Ends2 (env : Nat → Ty) (t : Ty) : Prop :=
  ∃ K, ∀ fuel, K ≤ fuel → ∀ v h, Good env h → HasTy h v t → ∃ r, hInit env fuel true v h = some r

def EndsE (env : Nat → Ty) (t : Ty) : Prop :=
  ∃ K, ∀ fuel, K ≤ fuel → ∀ v h, Good env h → HasTy h v t → ∃ r, hInitElem (hInit env fuel) true v h = some r

def EndsF (env : Nat → Ty) (ts : TyFields) : Prop :=
  ∃ K, ∀ fuel, K ≤ fuel → ∀ fs h, Good env h → HasTyF h fs ts → ∃ r, hInitFields (hInit env fuel) fs h = some r

theorem hInit_false (env : Nat → Ty) (fuel : Nat) (v : HVal) (h : Heap) : ∃ r, hInit env (fuel + 1) false v h = some r := by
  cases v <;> simp [hInit, hInitElem]

mutual
theorem ends2 {env : Nat → Ty} : ∀ t, (∀ m ∈ ptrs t, EndsE env (env m)) → Ends2 env t
  | .basic _ _, _ => ⟨1, fun fuel hf v h hg ht => by
      obtain ⟨fuel, rfl⟩ : ∃ g, fuel = g + 1 := ⟨fuel - 1, by omega⟩
      cases v <;> simp_all [HasTy, hInit, hInitElem]⟩
  | .other, _ => ⟨1, fun fuel hf v h hg ht => by
      obtain ⟨fuel, rfl⟩ : ∃ g, fuel = g + 1 := ⟨fuel - 1, by omega⟩
      cases v <;> simp_all [HasTy, hInit, hInitElem]⟩
  | .ptr m, hm => by
    obtain ⟨K, hK⟩ := hm m (by simp [ptrs])
    refine ⟨K + 1, fun fuel hf v h hg ht => ?_⟩
    obtain ⟨fuel, rfl⟩ : ∃ g, fuel = g + 1 := ⟨fuel - 1, by omega⟩
    cases v <;> simp only [HasTy] at ht
    · subst ht
      rename_i n
      obtain ⟨r, hr⟩ := hK fuel (by omega) _ (h.new n (hzero (env n))) (good_new _ hg) (hzero_ty _ _)
      exact ⟨_, by simp only [hInit, if_true, hr]; rfl⟩
    · rename_i a
      obtain ⟨hlt, rfl⟩ := ht
      obtain ⟨r, hr⟩ := hK fuel (by omega) _ _ hg (hg a hlt)
      exact ⟨_, by simp only [hInit, hr]; rfl⟩
  | .struct ts, hm => by
    obtain ⟨K, hK⟩ := endsF ts hm
    refine ⟨K + 1, fun fuel hf v h hg ht => ?_⟩
    obtain ⟨fuel, rfl⟩ : ∃ g, fuel = g + 1 := ⟨fuel - 1, by omega⟩
    cases v <;> simp only [HasTy] at ht
    obtain ⟨r, hr⟩ := hK fuel (by omega) _ _ hg ht
    exact ⟨_, by simp only [hInit, hInitElem, Bool.not_true, Bool.false_eq_true, if_false, hr]; rfl⟩

theorem endsF {env : Nat → Ty} : ∀ ts, (∀ m ∈ ptrsF ts, EndsE env (env m)) → EndsF env ts
  | .nil, _ => ⟨0, fun fuel _ fs h _ ht => by cases fs <;> simp_all [HasTyF, hInitFields]⟩
  | .cons f t ts, hm => by
    obtain ⟨K2, hK2⟩ := endsF ts (fun m h => hm m (by simp [ptrsF, h]))
    have : ∃ K1, ∀ fuel, K1 ≤ fuel → ∀ v h, Good env h → HasTy h v t → ∃ r, hInit env fuel f.exported v h = some r := by
      cases he : f.exported with
      | true => exact ends2 t (fun m h => hm m (by simp [ptrsF, he, h]))
      | false =>
        refine ⟨1, fun fuel hf v h _ _ => ?_⟩
        obtain ⟨fuel, rfl⟩ : ∃ g, fuel = g + 1 := ⟨fuel - 1, by omega⟩
        exact hInit_false env fuel v h
    obtain ⟨K1, hK1⟩ := this
    refine ⟨max K1 K2, fun fuel hf fs h hg ht => ?_⟩
    cases fs with
    | nil => simp [HasTyF] at ht
    | cons g v fs =>
      obtain ⟨rfl, hv, hfs⟩ := ht
      obtain ⟨⟨v1, h1⟩, hr1⟩ := hK1 fuel (by omega) v h hg hv
      obtain ⟨a1, -⟩ := hInit_sound env fuel _ _ _ _ _ _ hr1 hg hv
      obtain ⟨r2, hr2⟩ := hK2 fuel (by omega) fs h1 a1.good (HasTyF.ext a1.ext _ _ hfs)
      exact ⟨_, by simp only [hInitFields, hr1, hr2]; rfl⟩
end

theorem endsE_acc {env : Nat → Ty} {n : Nat} (h : Acc (Below env) n) : EndsE env (env n) := by
  induction h with
  | intro n _ ih =>
    cases ht : env n with
    | struct ts =>
      obtain ⟨K, hK⟩ := endsF (env := env) ts (fun m hm => ih m (by simpa [Below, ht, elemPtrs] using hm))
      refine ⟨K, fun fuel hf v h hg hv => ?_⟩
      cases v <;> simp only [HasTy] at hv
      obtain ⟨r, hr⟩ := hK fuel hf _ _ hg hv
      exact ⟨_, by simp only [hInitElem, Bool.not_true, Bool.false_eq_true, if_false, hr]; rfl⟩
    | _ =>
      refine ⟨0, fun fuel hf v h hg hv => ?_⟩
      cases v <;> simp_all [HasTy, hInitElem]

theorem hInitStruct_eq (env : Nat → Ty) (fuel a : Nat) (h : Heap) :
    hInit env (fuel + 1) true (.ptr a) h = (hInitStruct env fuel a h).map fun h' => (.ptr a, h') := by
  simp only [hInit, hInitStruct]
  cases hInitElem (hInit env fuel) true (h.obj a) h <;> rfl

/-- **C154** (termination, exactly).  `initStruct` returns if and only if the exported pointers of the type do not lead from
type to type without end.  This depends on the type of the configuration alone: it does not matter which pointers are nil,
which point to the same variable, and whether they point in a circle. -/
theorem C154_returns_partial (env : Nat → Ty) (h : Heap) (hg : Good env h) (a : Nat) (ha : a < h.next) :
    (∃ fuel h', hInitStruct env fuel a h = some h') ↔ Acc (Below env) (h.ty a) := by
  constructor
  · rintro ⟨fuel, h', hr⟩
    have := hInitStruct_eq env fuel a h
    rw [hr] at this
    exact hInit_acc env (fuel + 1) _ _ _ (.ptr (h.ty a)) this hg ⟨ha, rfl⟩ _ (by simp [ptrs])
  · intro hacc
    obtain ⟨K, hK⟩ := endsE_acc hacc
    obtain ⟨r, hr⟩ := hK K (Nat.le_refl _) _ _ hg (hg a ha)
    exact ⟨K, _, by simp only [hInitStruct, hr]; rfl⟩

/-- **C154** (allocation).  When `initStruct` returns, every object that existed keeps its value but for nil pointers in
exported positions that were set; new objects are zero but for such pointers; and from the configuration no nil pointer is
found in an exported position. -/
theorem C154_alloc (env : Nat → Ty) (fuel : Nat) (h : Heap) (hg : Good env h) (a : Nat) (ha : a < h.next) (h' : Heap)
    (hr : hInitStruct env fuel a h = some h') :
    Good env h' ∧ (∀ b, b < h.next → Ref (h.obj b) (h'.obj b)) ∧
    (∀ b, h.next ≤ b → b < h'.next → Ref (hzero (env (h'.ty b))) (h'.obj b)) ∧
    compE (comp fuel h') (h'.obj a) := by
  have e := hInitStruct_eq env fuel a h
  rw [hr] at e
  have hacc := hInit_acc env (fuel + 1) _ _ _ (.ptr (h.ty a)) e hg ⟨ha, rfl⟩ (h.ty a) (by simp [ptrs])
  obtain ⟨a1, -⟩ := hInit_sound env (fuel + 1) _ _ _ _ _ (.ptr (h.ty a)) e hg ⟨ha, rfl⟩
  obtain ⟨-, b2⟩ := hInit_comp env (fuel + 1) _ _ _ _ (.ptr (h.ty a)) e hg ⟨ha, rfl⟩ (by simpa [ptrs] using hacc)
  exact ⟨a1.good, fun b hb => (a1.ext.2 b hb).2, a1.fresh, b2.2⟩

mutual
/-- What the pointers in exported positions of a value point to. -/
def refs : HVal → List Nat
  | .ptr b => [b]
  | .struct fs => refsS fs
  | _ => []

def refsS : HFields → List Nat
  | .nil => []
  | .cons f v fs => (if f.exported then refs v else []) ++ refsS fs
end

/-- The same for what a pointer points to: a pointer to a pointer is not followed. -/
def elemRefs : HVal → List Nat
  | .struct fs => refsS fs
  | _ => []

mutual
theorem refs_ty {h : Heap} : ∀ (v : HVal) (t : Ty), HasTy h v t → ∀ b ∈ refs v, b < h.next ∧ h.ty b ∈ ptrs t
  | .ptr a, t, ht, b, hb => by
    cases t <;> simp only [HasTy] at ht
    simp only [refs, List.mem_singleton] at hb
    subst hb
    exact ⟨ht.1, by simp [ptrs, ht.2]⟩
  | .struct fs, t, ht, b, hb => by
    cases t <;> simp only [HasTy] at ht
    exact refsS_ty fs _ ht b hb
  | .basic _ _ _, _, _, b, hb => by simp [refs] at hb
  | .other _, _, _, b, hb => by simp [refs] at hb
  | .nil _, _, _, b, hb => by simp [refs] at hb

theorem refsS_ty {h : Heap} : ∀ (fs : HFields) (ts : TyFields), HasTyF h fs ts → ∀ b ∈ refsS fs, b < h.next ∧ h.ty b ∈ ptrsF ts
  | .nil, _, _, b, hb => by simp [refsS] at hb
  | .cons f v fs, ts, ht, b, hb => by
    cases ts with
    | nil => simp [HasTyF] at ht
    | cons g t ts =>
      obtain ⟨rfl, hv, hfs⟩ := ht
      simp only [refsS, List.mem_append] at hb
      rcases hb with hb | hb
      · cases he : f.exported with
        | true =>
          rw [he] at hb
          obtain ⟨h1, h2⟩ := refs_ty v t hv b (by simpa using hb)
          exact ⟨h1, by simp [ptrsF, he, h2]⟩
        | false => simp [he] at hb
      · obtain ⟨h1, h2⟩ := refsS_ty fs ts hfs b hb
        exact ⟨h1, by simp [ptrsF, h2]⟩
end

theorem elemRefs_ty {h : Heap} {v : HVal} {t : Ty} (ht : HasTy h v t) {b : Nat} (hb : b ∈ elemRefs v) : b < h.next ∧ h.ty b ∈ elemPtrs t := by
  cases v with
  | struct fs =>
    cases t <;> simp only [HasTy] at ht
    exact refsS_ty fs _ ht b hb
  | _ => simp [elemRefs] at hb

/-- **C154** (circles).  If the pointers of a configuration lead around in a circle, or on and on, `initStruct` never returns,
and so `Load` does not. -/
theorem C154_circle_violated (env : Nat → Ty) (h : Heap) (hg : Good env h) (s : Nat → Nat) (h0 : s 0 < h.next)
    (hs : ∀ i, s (i + 1) ∈ elemRefs (h.obj (s i))) (fuel : Nat) : hInitStruct env fuel (s 0) h = none := by
  have hall : ∀ i, s i < h.next := by
    intro i
    induction i with
    | zero => exact h0
    | succ i ih => exact (elemRefs_ty (hg _ ih) (hs i)).1
  have hnot : ∀ n, Acc (Below env) n → ∀ i, h.ty (s i) ≠ n := by
    intro n hn
    induction hn with
    | intro n _ ih =>
      intro i e
      refine ih (h.ty (s (i + 1))) ?_ (i + 1) rfl
      rw [← e]
      exact (elemRefs_ty (hg _ (hall i)) (hs i)).2
  cases hr : hInitStruct env fuel (s 0) h with
  | none => rfl
  | some h' => exact absurd rfl (hnot _ ((C154_returns_partial env h hg _ h0).1 ⟨fuel, h', hr⟩) 0)

/-! ### The visits -/

/-- A visit, and the variable: field `idx` of object `base`. -/
structure HVisit where
  v    : Visit
  base : Nat
  idx  : List Nat

abbrev VRec := Bytes → Nat → List Nat → List Step → HVal → List HVisit

/-- The loops reflect.go:98-107, 131-145. -/
def hvFields (rec : VRec) (path : Bytes) (a : Nat) (is : List Nat) (loc : List Step) (i : Nat) : HFields → List HVisit
  | .nil => []
  | .cons f v fs =>
    (if f.exported then rec (pathExt path f) a (is ++ [i]) (loc ++ [.field i]) v else []) ++ hvFields rec path a is loc (i + 1) fs

/-- Lines 120-150. -/
def hvElem (rec : VRec) (path : Bytes) (a : Nat) (is : List Nat) (loc : List Step) : HVal → List HVisit
  | .basic k named _ => [⟨⟨path, loc, k, named⟩, a, is⟩]
  | .struct fs => hvFields rec path a is loc 0 fs
  | _ => []

/-- `visitExportedFieldsPath` (111-151) for the settable value `v`, which is field `is` of object `a`, down to `fuel` nested
calls. -/
def hvisit : Nat → Heap → VRec
  | 0, _, _, _, _, _, _ => []
  | k + 1, h, path, a, is, loc, v =>
    match v with
    -- 113-118
    | .ptr b => hvElem (hvisit k h) path b [] (loc ++ [.deref]) (h.obj b)
    | v => hvElem (hvisit k h) path a is loc v

/-- `visitExportedFields(p, fn)` (80-109), with `p` the address of object `a`. -/
def hvisitAll (k : Nat) (h : Heap) (a : Nat) : List HVisit :=
  match h.obj a with
  | .struct fs => hvFields (hvisit k h) [] a [] [] 0 fs
  | _ => []

/-- The tree that the pointers unfold to, as far as visits go. -/
def unfF (rec : HVal → Val) : HFields → Fields
  | .nil => .nil
  | .cons f v fs => .cons f (if f.exported then rec v else .other 0) (unfF rec fs)

def unfE (rec : HVal → Val) : HVal → Val
  | .basic k n x => .basic k n x
  | .other x => .other x
  | .nil n => .nil n
  | .ptr _ => .other 0
  | .struct fs => .struct (unfF rec fs)

def unf : Nat → Heap → HVal → Val
  | 0, _, _ => .other 0
  | k + 1, h, .ptr b => .ptr (unfE (unf k h) (h.obj b))
  | k + 1, h, v => unfE (unf k h) v

theorem hvFields_unf {rec : VRec} {u : HVal → Val}
    (hr : ∀ path a is loc v, (rec path a is loc v).map (·.v) = visit true path loc (u v)) : ∀ (fs : HFields) (path : Bytes) (a : Nat) (is : List Nat)
    (loc : List Step) (i : Nat), (hvFields rec path a is loc i fs).map (·.v) = visitFields path loc i (unfF u fs)
  | .nil, _, _, _, _, _ => by simp [hvFields, unfF, visitFields]
  | .cons f v fs, path, a, is, loc, i => by
    simp only [hvFields, unfF, visitFields, List.map_append, hvFields_unf hr fs]
    cases f.exported <;> simp [hr]

theorem hvElem_unf {rec : VRec} {u : HVal → Val}
    (hr : ∀ path a is loc v, (rec path a is loc v).map (·.v) = visit true path loc (u v)) (md : Bool) (path : Bytes) (a : Nat) (is : List Nat)
    (loc : List Step) (v : HVal) : (hvElem rec path a is loc v).map (·.v) = visit md path loc (unfE u v) := by
  cases v <;> simp [hvElem, unfE, visit, hvFields_unf hr]

theorem hvisit_unf (h : Heap) (k : Nat) : ∀ path a is loc v, (hvisit k h path a is loc v).map (·.v) = visit true path loc (unf k h v) := by
  induction k with
  | zero => intro path a is loc v; simp [hvisit, unf, visit]
  | succ k ih =>
    intro path a is loc v
    cases v with
    | ptr b => simp [hvisit, unf, visit, hvElem_unf ih false]
    | basic _ _ _ => simp [hvisit, unf, hvElem_unf ih true]
    | other _ => simp [hvisit, unf, hvElem_unf ih true]
    | nil _ => simp [hvisit, unf, hvElem_unf ih true]
    | struct _ => simp [hvisit, unf, hvElem_unf ih true]

/-- **C154** (names).  The visits, and with them the names of the flags and environment variables, are those of the tree that
the pointers unfold to: a variable that is reached in several ways is visited once for each of them. -/
theorem C154_names (k : Nat) (h : Heap) (a : Nat) :
    (hvisitAll k h a).map (·.v) = visitExportedFields (unfE (unf k h) (h.obj a)) := by
  unfold hvisitAll
  cases h.obj a <;> simp [unfE, visitExportedFields, hvFields_unf (hvisit_unf h k)]

/-- With more fuel than needed, the visits are the same. -/
theorem hvFields_more {P : HVal → Prop} {rec rec' : VRec} (hr : ∀ v, P v → ∀ path a is loc, rec path a is loc v = rec' path a is loc v) :
    ∀ (fs : HFields), allExp P fs → ∀ path a is loc i, hvFields rec path a is loc i fs = hvFields rec' path a is loc i fs
  | .nil, _, _, _, _, _, _ => rfl
  | .cons f v fs, hf, path, a, is, loc, i => by
    simp only [hvFields, hvFields_more hr fs hf.2]
    cases he : f.exported with
    | true => simp [hr v (hf.1 he)]
    | false => simp

theorem hvElem_more {P : HVal → Prop} {rec rec' : VRec} (hr : ∀ v, P v → ∀ path a is loc, rec path a is loc v = rec' path a is loc v)
    (v : HVal) (hv : compE P v) (path : Bytes) (a : Nat) (is : List Nat) (loc : List Step) :
    hvElem rec path a is loc v = hvElem rec' path a is loc v := by
  cases v <;> simp only [hvElem]
  exact hvFields_more hr _ hv _ _ _ _ _

theorem hvisit_more (h : Heap) (k n : Nat) (v : HVal) (hv : comp k h v) (path : Bytes) (a : Nat) (is : List Nat) (loc : List Step) :
    hvisit k h path a is loc v = hvisit (k + n) h path a is loc v := by
  induction k generalizing v path a is loc with
  | zero => exact hv.elim
  | succ k ih =>
    rw [show k + 1 + n = k + n + 1 by omega]
    cases v with
    | nil m => exact hv.elim
    | ptr b => exact hvElem_more (P := comp k h) ih _ hv.2 _ _ _ _
    | basic _ _ _ => simp only [hvisit]; exact hvElem_more (P := comp k h) ih _ hv _ _ _ _
    | other _ => simp only [hvisit]; exact hvElem_more (P := comp k h) ih _ hv _ _ _ _
    | struct _ => simp only [hvisit]; exact hvElem_more (P := comp k h) ih _ hv _ _ _ _

/-- **C154** (the visits end).  After `initStruct` the visits go no deeper than `initStruct` went. -/
theorem C154_visits_end (env : Nat → Ty) (fuel : Nat) (h : Heap) (hg : Good env h) (a : Nat) (ha : a < h.next) (h' : Heap)
    (hr : hInitStruct env fuel a h = some h') (n : Nat) : hvisitAll (fuel + n) h' a = hvisitAll fuel h' a := by
  have hc := (C154_alloc env fuel h hg a ha h' hr).2.2.2
  unfold hvisitAll
  revert hc
  cases h'.obj a with
  | struct fs => exact fun hc => (hvFields_more (hvisit_more h' fuel n) fs hc _ _ _ _ _).symm
  | _ => exact fun _ => rfl

/-- Field number `i`. -/
def hget : HFields → Nat → Option HVal
  | .nil, _ => none
  | .cons _ v _, 0 => some v
  | .cons _ _ fs, i + 1 => hget fs i

def hpart : HVal → List Nat → Option HVal
  | v, [] => some v
  | .struct fs, i :: is => (hget fs i).bind fun v => hpart v is
  | _, _ :: _ => none

/-- The variable found along `loc`, from field `is` of object `a`. -/
def follow (h : Heap) (a : Nat) (is : List Nat) : List Step → Option (Nat × List Nat)
  | [] => some (a, is)
  | .field i :: loc => follow h a (is ++ [i]) loc
  | .deref :: loc =>
    match hpart (h.obj a) is with
    | some (.ptr b) => follow h b [] loc
    | _ => none

theorem hpart_snoc : ∀ (is : List Nat) (v : HVal) (fs : HFields) (i : Nat) (w : HVal), hpart v is = some (.struct fs) → hget fs i = some w →
    hpart v (is ++ [i]) = some w
  | [], v, fs, i, w, h1, h2 => by
    simp only [hpart, Option.some.injEq] at h1
    subst h1
    simp [hpart, h2]
  | j :: is, v, fs, i, w, h1, h2 => by
    cases v with
    | struct gs =>
      simp only [hpart, List.cons_append] at h1 ⊢
      cases hj : hget gs j with
      | none => simp [hj] at h1
      | some u =>
        rw [hj] at h1
        exact hpart_snoc is u fs i w h1 h2
    | _ => simp [hpart] at h1

theorem follow_append (h : Heap) : ∀ (l : List Step) (a : Nat) (is : List Nat) (r : List Step),
    follow h a is (l ++ r) = (follow h a is l).bind fun x => follow h x.1 x.2 r
  | [], a, is, r => rfl
  | .field i :: l, a, is, r => by simp only [List.cons_append, follow, follow_append h l]
  | .deref :: l, a, is, r => by
    simp only [List.cons_append, follow]
    split
    · exact follow_append h l _ _ _
    · rfl

/-- What a visit names. -/
def VOk (h : Heap) (a0 : Nat) (x : HVisit) : Prop :=
  follow h a0 [] x.v.loc = some (x.base, x.idx) ∧ ∃ y, hpart (h.obj x.base) x.idx = some (.basic x.v.kind x.v.named y)

def VRecOk (h : Heap) (a0 : Nat) (rec : VRec) : Prop :=
  ∀ path a is loc v, hpart (h.obj a) is = some v → follow h a0 [] loc = some (a, is) → ∀ x ∈ rec path a is loc v, VOk h a0 x

theorem hvFields_ok {h : Heap} {a0 : Nat} {rec : VRec} (hr : VRecOk h a0 rec) : ∀ (fs : HFields) (path : Bytes) (a : Nat) (is : List Nat)
    (loc : List Step) (i : Nat) (gs : HFields), hpart (h.obj a) is = some (.struct gs) → (∀ j, hget gs (i + j) = hget fs j) →
    follow h a0 [] loc = some (a, is) → ∀ x ∈ hvFields rec path a is loc i fs, VOk h a0 x
  | .nil, _, _, _, _, _, _, _, _, _, x, hx => by simp [hvFields] at hx
  | .cons f v fs, path, a, is, loc, i, gs, h1, h2, h3, x, hx => by
    simp only [hvFields, List.mem_append] at hx
    rcases hx with hx | hx
    · cases he : f.exported with
      | false => simp [he] at hx
      | true =>
        simp only [he, if_true] at hx
        refine hr _ _ _ _ _ (hpart_snoc is _ gs i v h1 (by simpa [hget] using h2 0)) ?_ x hx
        rw [follow_append, h3]
        rfl
    · exact hvFields_ok hr fs path a is loc (i + 1) gs h1 (fun j => by
        have := h2 (j + 1)
        rw [show i + (j + 1) = i + 1 + j by omega] at this
        simpa [hget] using this) h3 x hx

theorem hvElem_ok {h : Heap} {a0 : Nat} {rec : VRec} (hr : VRecOk h a0 rec) : VRecOk h a0 (hvElem rec) := by
  intro path a is loc v h1 h2 x hx
  cases v with
  | basic k n y =>
    simp only [hvElem, List.mem_singleton] at hx
    subst hx
    exact ⟨h2, y, h1⟩
  | struct fs => exact hvFields_ok hr fs path a is loc 0 fs h1 (fun j => by simp) h2 x hx
  | _ => simp [hvElem] at hx

theorem hvisit_ok (h : Heap) (a0 k : Nat) : VRecOk h a0 (hvisit k h) := by
  induction k with
  | zero => intro path a is loc v _ _ x hx; simp [hvisit] at hx
  | succ k ih =>
    intro path a is loc v h1 h2 x hx
    cases v with
    | ptr b =>
      refine hvElem_ok ih path b [] (loc ++ [.deref]) (h.obj b) rfl ?_ x (by simpa only [hvisit] using hx)
      rw [follow_append, h2]
      simp [follow, h1]
    | basic _ _ _ => exact hvElem_ok ih _ _ _ _ _ h1 h2 x (by simpa only [hvisit] using hx)
    | other _ => exact hvElem_ok ih _ _ _ _ _ h1 h2 x (by simpa only [hvisit] using hx)
    | nil _ => exact hvElem_ok ih _ _ _ _ _ h1 h2 x (by simpa only [hvisit] using hx)
    | struct _ => exact hvElem_ok ih _ _ _ _ _ h1 h2 x (by simpa only [hvisit] using hx)

/-- **C154** (variables).  The variable given to the flags of a visit is the one found along its location, and it has the kind of the
visit.  So two visits have the same variable if and only if their last pointers lead to the same field of the same object. -/
theorem C154_variables (k : Nat) (h : Heap) (a : Nat) (x : HVisit) (hx : x ∈ hvisitAll k h a) :
    follow h a [] x.v.loc = some (x.base, x.idx) ∧ ∃ y, hpart (h.obj x.base) x.idx = some (.basic x.v.kind x.v.named y) := by
  unfold hvisitAll at hx
  cases ho : h.obj a with
  | struct fs =>
    rw [ho] at hx
    exact hvFields_ok (hvisit_ok h a k) fs _ a [] [] 0 fs (by simp [hpart, ho]) (fun j => by simp) rfl x hx
  | _ => rw [ho] at hx; simp at hx

/-! ### Load -/

/-- What a yaml file does: what it stores in each variable, and which fields it makes other variables of. -/
structure YamlV where
  set  : Nat → Option Int
  repl : Nat → Option (Option Int)

/-- `envResolver.init` and `flagResolver.init` as in `defineAll`; field `i` is variable `var i`. -/
def defineAllV (strict : Bool) (name : Binding → Bytes) (var : Nat → Nat) : List Binding → Nat → FlagSet → Option FlagSet
  | [], _, fs => some fs
  | b :: bs, i, fs =>
    if b.named then none
    else match fs.define strict (name b) (.cell (var i) b.kind) with
      | none => none
      | some fs' => defineAllV strict name var bs (i + 1) fs'

def resolveYamlV (yv : Bytes → Option YamlV) (m : Mem) : Option Mem :=
  match yv m.yamlFile with
  | none => none
  | some eff => some { m with cells := fun c => (eff.set c).getD (m.cells c), over := eff.repl }

/-- `Load` (conf.go:30-64) after `initStruct`; `init` are the values of the variables. -/
def loadV (w : World) (yv : Bytes → Option YamlV) (yamlFlag : Bytes) (var : Nat → Nat) (bs : List Binding) (init : Nat → Int) : Res :=
  let fs0 : FlagSet := w.pre.map fun p => (p.1, .pre p.2)
  let m0 : Mem := ⟨init, fun _ => none, []⟩
  match (if yamlFlag ≠ [] then fs0.define w.strict yamlFlag .yamlFile else some fs0) with
  | none => .panic
  | some fs1 =>
    match defineAllV w.strict (·.envName) var bs 0 [] with
    | none => .panic
    | some efs =>
      match defineAllV w.strict (·.flagName) var bs 0 fs1 with
      | none => .panic
      | some ffs =>
        match parseArgs w ffs w.args m0 with
        | none => .exit
        | some m1 =>
          match (if m1.yamlFile ≠ [] then resolveYamlV yv m1 else some m1) with
          | none => .exit
          | some m2 =>
            match resolveEnv w efs (bs.map (·.envName)) m2 with
            | none => .exit
            | some m3 =>
              match parseArgs w ffs w.args m3 with
              | none => .exit
              | some m4 => .done m4

/-- What field `i` holds: variable `var i`, unless yaml made it another. -/
def viewV (var : Nat → Nat) (m : Mem) (i : Nat) : Option Int :=
  match m.over i with
  | none => some (m.cells (var i))
  | some v => v

def shareT (var : Nat → Nat) : Target → Target
  | .cell i k => .cell (var i) k
  | t => t

theorem lookup_share (var : Nat → Nat) (fs : FlagSet) (n : Bytes) :
    FlagSet.lookup (fs.map fun x => (x.1, shareT var x.2)) n = (fs.lookup n).map (shareT var) := by
  induction fs with
  | nil => rfl
  | cons x fs ih =>
    simp only [FlagSet.lookup, List.map_cons, List.find?_cons] at ih ⊢
    by_cases e : x.1 = n
    · simp [e]
    · simp only [e, decide_false]; exact ih

theorem defineAllV_eq (strict : Bool) (name : Binding → Bytes) (var : Nat → Nat) : ∀ (bs : List Binding) (i : Nat) (fs : FlagSet),
    defineAllV strict name var bs i (fs.map fun x => (x.1, shareT var x.2)) =
      (defineAll strict name bs i fs).map fun fs => fs.map fun x => (x.1, shareT var x.2)
  | [], _, _ => rfl
  | b :: bs, i, fs => by
    simp only [defineAllV, defineAll]
    split
    · rfl
    · simp only [FlagSet.define, lookup_share, Option.isSome_map]
      by_cases h1 : (strict && oddName (name b)) = true
      · simp only [h1, if_true]; rfl
      · by_cases h2 : (fs.lookup (name b)).isSome = true
        · simp only [h1, h2, if_true]; rfl
        · simp only [h1, h2]
          exact defineAllV_eq strict name var bs (i + 1) ((name b, .cell i b.kind) :: fs)

theorem share_pre (var : Nat → Nat) (l : List (Bytes × Bool)) :
    (l.map fun p => (p.1, Target.pre p.2)).map (fun x => (x.1, shareT var x.2)) = l.map fun p => (p.1, Target.pre p.2) := by
  simp [shareT, Function.comp_def]

theorem applyAll_append (w : World) (fs : FlagSet) : ∀ (l l' : List (Bytes × Bytes)) (m : Mem),
    applyAll w fs (l ++ l') m = (applyAll w fs l m).bind (applyAll w fs l')
  | [], _, _ => rfl
  | (n, v) :: l, l', m => by
    simp only [List.cons_append, applyAll]
    cases fs.lookup n with
    | none => rfl
    | some t =>
      dsimp only
      cases setTarget w n t v m with
      | none => rfl
      | some m' => exact applyAll_append w fs l l' m'

theorem resolveEnv_apply (w : World) (fs : FlagSet) : ∀ (names : List Bytes) (m : Mem),
    resolveEnv w fs names m = applyAll w fs (names.filterMap fun n => (w.env n).map fun s => (n, s)) m
  | [], _ => rfl
  | n :: names, m => by
    simp only [resolveEnv, List.filterMap_cons]
    cases w.env n with
    | none => exact resolveEnv_apply w fs names m
    | some s =>
      simp only [Option.map_some, applyAll]
      cases fs.lookup n with
      | none => rfl
      | some t =>
        dsimp only
        cases setTarget w n t s m with
        | none => rfl
        | some m' => exact resolveEnv_apply w fs names m'

theorem setTarget_else {w : World} {n v : Bytes} {t : Target} {m m' : Mem} {c : Nat} (h : setTarget w n t v m = some m')
    (ht : ∀ k, t ≠ .cell c k) : m'.cells c = m.cells c := by
  cases t with
  | cell j k =>
    have hj : c ≠ j := fun e => ht k (by rw [e])
    simp only [setTarget] at h
    split at h <;> simp at h
    rw [← h]; simp [upd, hj]
  | yamlFile => simp only [setTarget] at h; simp at h; rw [← h]
  | pre b =>
    simp only [setTarget] at h
    split at h <;> simp at h
    rw [← h]

theorem applyAll_else {w : World} {fs : FlagSet} {c : Nat} : ∀ {l : List (Bytes × Bytes)} {m m' : Mem}, applyAll w fs l m = some m' →
    (∀ x ∈ l, ∀ k, fs.lookup x.1 ≠ some (.cell c k)) → m'.cells c = m.cells c
  | [], m, m', h, _ => by simp [applyAll] at h; rw [h]
  | (n, v) :: l, m, m', h, hn => by
    simp only [applyAll] at h
    split at h
    · simp at h
    · rename_i t ht
      split at h
      · rename_i m1 hs
        rw [applyAll_else h (fun x hx => hn x (by simp [hx])),
          setTarget_else hs (fun k e => hn (n, v) (by simp) k (by rw [ht, e]))]
      · simp at h

theorem applyAll_last {w : World} {fs : FlagSet} {c : Nat} {k : Kind} {l1 l2 : List (Bytes × Bytes)} {n s : Bytes} {m m' : Mem}
    (h : applyAll w fs (l1 ++ (n, s) :: l2) m = some m') (hn : fs.lookup n = some (.cell c k))
    (hl : ∀ x ∈ l2, ∀ k, fs.lookup x.1 ≠ some (.cell c k)) : some (m'.cells c) = w.pv k s := by
  rw [applyAll_append] at h
  cases h1 : applyAll w fs l1 m with
  | none => simp [h1] at h
  | some m1 =>
    rw [h1] at h
    simp only [Option.bind_some, applyAll, hn, setTarget] at h
    cases hp : w.pv k s with
    | none => simp [hp] at h
    | some x =>
      rw [hp] at h
      dsimp only at h
      rw [applyAll_else h hl]
      simp [upd]

/-- What the yaml file named on the command line, if there is one, does. -/
def YamlOfV (yv : Bytes → Option YamlV) (yamlFlag : Bytes) (l : List (Bytes × Bytes)) (eff : YamlV) : Prop :=
  if yamlFlag = [] ∨ given l yamlFlag = none ∨ given l yamlFlag = some [] then eff = ⟨fun _ => none, fun _ => none⟩
  else ∃ file, given l yamlFlag = some file ∧ yv file = some eff

theorem loadV_setup {w : World} {yv : Bytes → Option YamlV} {yamlFlag : Bytes} {var : Nat → Nat} {bs : List Binding} {init : Nat → Int} {m : Mem}
    (h : loadV w yv yamlFlag var bs init = .done m) :
    ∃ (ffs efs : FlagSet) (l : List (Bytes × Bytes)) (eff : YamlV) (m1 m2 m3 : Mem),
      Setup w yamlFlag bs ffs efs ∧ ArgList (knownFlags w yamlFlag bs) w.args l ∧ YamlOfV yv yamlFlag l eff ∧
      applyAll w (ffs.map fun x => (x.1, shareT var x.2)) l ⟨init, fun _ => none, []⟩ = some m1 ∧
      (∀ c, m2.cells c = (eff.set c).getD (m1.cells c)) ∧ m2.over = eff.repl ∧
      resolveEnv w (efs.map fun x => (x.1, shareT var x.2)) (bs.map (·.envName)) m2 = some m3 ∧
      applyAll w (ffs.map fun x => (x.1, shareT var x.2)) l m3 = some m := by
  have hnp : load w yamlFlag bs init ≠ .panic := by
    intro hp
    simp only [load] at hp
    simp only [loadV] at h
    split at h
    · simp at h
    rename_i fs1 h1
    have h1' : fs1.map (fun x => (x.1, shareT var x.2)) = fs1 := by
      split at h1
      · simp only [FlagSet.define] at h1
        split at h1
        · simp at h1
        · split at h1
          · simp at h1
          · simp only [Option.some.injEq] at h1
            rw [← h1, List.map_cons, share_pre]; rfl
      · simp only [Option.some.injEq] at h1
        rw [← h1, share_pre]
    rw [h1] at hp
    dsimp only at hp
    have e1 := defineAllV_eq w.strict (·.envName) var bs 0 []
    have e2 := defineAllV_eq w.strict (·.flagName) var bs 0 fs1
    rw [h1'] at e2
    simp only [List.map_nil] at e1
    rw [e1, e2] at h
    cases h2 : defineAll w.strict (·.envName) bs 0 [] with
    | none => simp [h2] at h
    | some efs =>
      cases h3 : defineAll w.strict (·.flagName) bs 0 fs1 with
      | none => simp [h2, h3] at h
      | some ffs =>
        simp only [h2, h3] at hp
        split at hp
        · simp at hp
        split at hp
        · simp at hp
        split at hp
        · simp at hp
        split at hp <;> simp at hp
  obtain ⟨fs1, ffs, efs, ⟨h1, h2, h3⟩, hs, -⟩ := load_setup_defs hnp
  have h1' : fs1.map (fun x => (x.1, shareT var x.2)) = fs1 := by
    split at h1
    · simp only [FlagSet.define] at h1
      split at h1
      · simp at h1
      · split at h1
        · simp at h1
        · simp only [Option.some.injEq] at h1
          rw [← h1, List.map_cons, share_pre]; rfl
    · simp only [Option.some.injEq] at h1
      rw [← h1, share_pre]
  simp only [loadV] at h
  have e1 := defineAllV_eq w.strict (·.envName) var bs 0 []
  have e2 := defineAllV_eq w.strict (·.flagName) var bs 0 fs1
  rw [h1', h3] at e2
  simp only [List.map_nil] at e1
  rw [h2] at e1
  rw [h1] at h
  dsimp only at h
  rw [e1, e2] at h
  simp only [Option.map_some] at h
  split at h
  · simp at h
  rename_i m1 h4
  split at h
  · simp at h
  rename_i m2 h5
  split at h
  · simp at h
  rename_i m3 h6
  split at h
  · simp at h
  rename_i m4 h7
  simp at h; subst h
  obtain ⟨l, hl⟩ := argList_of w _ w.args.length w.args (Nat.le_refl _) _ _ h4
  rw [parseArgs_of w _ w.args l hl] at h4 h7
  have hb : FlagSet.bools (ffs.map fun x => (x.1, shareT var x.2)) = knownFlags w yamlFlag bs := by
    rw [← hs.bools]
    funext n
    simp only [FlagSet.bools, lookup_share, Option.map_map]
    congr 1
    funext t
    cases t <;> rfl
  rw [hb] at hl
  have hlk : ∀ n, FlagSet.lookup (ffs.map fun x => (x.1, shareT var x.2)) n = some .yamlFile ↔ ffs.lookup n = some .yamlFile := by
    intro n
    rw [lookup_share]
    cases ffs.lookup n with
    | none => simp
    | some t => cases t <;> simp [shareT]
  have hyf : m1.yamlFile = if yamlFlag = [] then [] else (given l yamlFlag).getD [] := by
    split
    · rename_i hy
      rw [applyAll_noYaml (fun n hn => ?_) h4]
      rcases hs.flags n _ ((hlk n).1 hn) with h8 | ⟨b, h8, -⟩ | ⟨i, b, -, -, h8⟩
      · exact h8.2.2 hy
      · simp at h8
      · simp at h8
    · rename_i hy
      refine applyAll_yaml (w := w) (fun n => ⟨fun hn => ?_, fun e => ?_⟩) h4
      · rcases hs.flags n _ ((hlk n).1 hn) with h8 | ⟨b, h8, -⟩ | ⟨i, b, -, -, h8⟩
        · exact h8.2.1
        · simp at h8
        · simp at h8
      · rw [e]; exact (hlk _).2 (hs.yaml hy)
  have hov := applyAll_over h4
  split at h5
  · rename_i hne
    simp only [resolveYamlV] at h5
    split at h5
    · simp at h5
    · rename_i eff heff
      simp at h5; subst h5
      refine ⟨ffs, efs, l, eff, m1, _, m3, hs, hl, ?_, h4, fun i => rfl, rfl, h6, h7⟩
      rw [hyf] at heff hne
      simp only [YamlOfV]
      cases hg : given l yamlFlag with
      | none => simp [hg] at hne
      | some file =>
        by_cases hy : yamlFlag = []
        · simp [hy] at hne
        · simp [hg, hy] at hne heff
          simp [hy, hne, heff]
  · rename_i hne
    simp at h5 hne; subst h5
    refine ⟨ffs, efs, l, ⟨fun _ => none, fun _ => none⟩, m1, m1, m3, hs, hl, ?_, h4, fun i => rfl, hov, h6, h7⟩
    rw [hyf] at hne
    have hc : yamlFlag = [] ∨ given l yamlFlag = none ∨ given l yamlFlag = some [] := by
      by_cases hy : yamlFlag = []
      · exact .inl hy
      · right
        cases hg : given l yamlFlag with
        | none => simp
        | some file => simp [hg, hy] at hne; simp [hne]
    unfold YamlOfV
    rw [if_pos hc]

/-- **C154** (values).  For a field that yaml does not make another variable of: of all the flags of the fields that share its variable,
the one given last on the command line decides; else, of all their environment variables that are set, that of the field visited last;
else what yaml stores in the variable; else its initial value. -/
theorem C154_values (w : World) (yv : Bytes → Option YamlV) (yamlFlag : Bytes) (var : Nat → Nat) (bs : List Binding) (init : Nat → Int) (m : Mem)
    (h : loadV w yv yamlFlag var bs init = .done m) :
    ∃ l eff, ArgList (knownFlags w yamlFlag bs) w.args l ∧ YamlOfV yv yamlFlag l eff ∧
      ∀ (i : Nat), i < bs.length → eff.repl i = none →
        -- the last of the flags
        (∀ l1 l2 s j b, l = l1 ++ (b.flagName, s) :: l2 → bs[j]? = some b → var j = var i →
          (∀ (j' : Nat) (b' : Binding), bs[j']? = some b' → var j' = var i → ∀ x ∈ l2, x.1 ≠ b'.flagName) → viewV var m i = w.pv b.kind s) ∧
        ((∀ (j : Nat) (b : Binding), bs[j]? = some b → var j = var i → ∀ x ∈ l, x.1 ≠ b.flagName) →
          -- the last of the environment variables
          (∀ j b s, bs[j]? = some b → var j = var i → w.env b.envName = some s →
            (∀ (j' : Nat) (b' : Binding), j < j' → bs[j']? = some b' → var j' = var i → w.env b'.envName = none) → viewV var m i = w.pv b.kind s) ∧
          ((∀ (j : Nat) (b : Binding), bs[j]? = some b → var j = var i → w.env b.envName = none) →
            viewV var m i = some ((eff.set (var i)).getD (init (var i))))) := by
  obtain ⟨ffs, efs, l, eff, m1, m2, m3, hs, hl, hy, h4, h5, h5', h6, h7⟩ := loadV_setup h
  refine ⟨l, eff, hl, hy, fun i hi hr => ?_⟩
  have hov : viewV var m i = some (m.cells (var i)) := by
    have : m.over i = none := by rw [applyAll_over h7, resolveEnv_over h6, h5', hr]
    simp [viewV, this]
  rw [hov]
  have hf : ∀ (n : Bytes) (k : Kind), FlagSet.lookup (ffs.map fun x => (x.1, shareT var x.2)) n = some (.cell (var i) k) →
      ∃ (j : Nat) (b : Binding), bs[j]? = some b ∧ var j = var i ∧ n = b.flagName := by
    intro n k hn
    rw [lookup_share] at hn
    cases ht : ffs.lookup n with
    | none => simp [ht] at hn
    | some t =>
      rw [ht] at hn
      rcases hs.flags n t ht with ⟨rfl, -, -⟩ | ⟨b, rfl, -⟩ | ⟨j, b, hj, rfl, rfl⟩
      · simp [shareT] at hn
      · simp [shareT] at hn
      · simp only [shareT, Option.map_some, Option.some.injEq, Target.cell.injEq] at hn
        exact ⟨j, b, hj, hn.1, rfl⟩
  have hf' : ∀ (j : Nat) (b : Binding), bs[j]? = some b → var j = var i →
      FlagSet.lookup (ffs.map fun x => (x.1, shareT var x.2)) b.flagName = some (.cell (var i) b.kind) := by
    intro j b hj hv
    rw [lookup_share, (hs.owns j b hj).1.1]
    simp [shareT, hv]
  refine ⟨fun l1 l2 s j b e hj hv hl2 => ?_, fun hno => ?_⟩
  · rw [e] at h7
    exact applyAll_last h7 (hf' j b hj hv) (fun x hx k hk => by
      obtain ⟨j', b', hj', hv', e'⟩ := hf _ _ hk
      exact hl2 j' b' hj' hv' x hx e')
  · have hel : ∀ x ∈ l, ∀ k, FlagSet.lookup (ffs.map fun x => (x.1, shareT var x.2)) x.1 ≠ some (.cell (var i) k) := by
      intro x hx k hk
      obtain ⟨j', b', hj', hv', e'⟩ := hf _ _ hk
      exact hno j' b' hj' hv' x hx e'
    rw [applyAll_else h7 hel]
    rw [resolveEnv_apply] at h6
    have he : ∀ (n : Bytes) (k : Kind), FlagSet.lookup (efs.map fun x => (x.1, shareT var x.2)) n = some (.cell (var i) k) →
        ∃ (j : Nat) (b : Binding), bs[j]? = some b ∧ var j = var i ∧ n = b.envName := by
      intro n k hn
      rw [lookup_share] at hn
      cases ht : efs.lookup n with
      | none => simp [ht] at hn
      | some t =>
        rw [ht] at hn
        obtain ⟨j, b, hj, rfl, rfl⟩ := hs.envs n t ht
        simp only [shareT, Option.map_some, Option.some.injEq, Target.cell.injEq] at hn
        exact ⟨j, b, hj, hn.1, rfl⟩
    refine ⟨fun j b s hj hv hse hlast => ?_, fun hne => ?_⟩
    · obtain ⟨hjl, hjb⟩ := List.getElem?_eq_some_iff.1 hj
      have hsplit : bs = bs.take j ++ b :: bs.drop (j + 1) := by
        rw [← hjb, List.getElem_cons_drop, List.take_append_drop]
      rw [hsplit, List.map_append, List.map_cons, List.filterMap_append, List.filterMap_cons] at h6
      simp only [hse, Option.map_some] at h6
      refine applyAll_last (k := b.kind) h6 (by rw [lookup_share, (hs.owns j b hj).2.1]; simp [shareT, hv]) (fun x hx k hk => ?_)
      rw [List.mem_filterMap] at hx
      obtain ⟨n, hn, hx⟩ := hx
      rw [Option.map_eq_some_iff] at hx
      obtain ⟨s', hs', rfl⟩ := hx
      rw [List.mem_map] at hn
      obtain ⟨c, hc, rfl⟩ := hn
      obtain ⟨q, hq⟩ := List.getElem?_of_mem hc
      rw [List.getElem?_drop] at hq
      obtain ⟨j', b', hj', hv', e'⟩ := he _ _ hk
      have u1 := (hs.owns _ _ hq).2.1
      have u2 := (hs.owns _ _ hj').2.1
      dsimp only at e'
      rw [e', u2] at u1
      simp only [Option.some.injEq, Target.cell.injEq] at u1
      obtain ⟨rfl, -⟩ := u1
      have := hlast (j + 1 + q) b' (by omega) hj' hv'
      rw [e', this] at hs'
      simp at hs'
    · rw [applyAll_else h6 (fun x hx k hk => ?_), h5]
      · cases eff.set (var i) with
        | some v => rfl
        | none => simp only [Option.getD_none]; rw [applyAll_else h4 hel]
      · rw [List.mem_filterMap] at hx
        obtain ⟨n, hn, hx⟩ := hx
        rw [Option.map_eq_some_iff] at hx
        obtain ⟨s', hs', rfl⟩ := hx
        obtain ⟨j', b', hj', hv', e'⟩ := he _ _ hk
        dsimp only at e'
        rw [e', hne j' b' hj' hv'] at hs'
        simp at hs'

/-- **C154**: the flag of one field given after the flag of another field with the same variable: the other field does not get the value of
its own flag. -/
theorem C154_flags_violated (w : World) (yv : Bytes → Option YamlV) (yamlFlag : Bytes) (var : Nat → Nat) (bs : List Binding) (init : Nat → Int) (m : Mem)
    (h : loadV w yv yamlFlag var bs init = .done m) :
    ∃ l eff, ArgList (knownFlags w yamlFlag bs) w.args l ∧ YamlOfV yv yamlFlag l eff ∧
      ∀ (i j : Nat) (b c : Binding) l1 l2 s t, bs[i]? = some b → bs[j]? = some c → var j = var i → eff.repl i = none →
        l = l1 ++ (c.flagName, t) :: l2 →
        (∀ (j' : Nat) (b' : Binding), bs[j']? = some b' → var j' = var i → ∀ x ∈ l2, x.1 ≠ b'.flagName) →
        given l b.flagName = some s → w.pv c.kind t ≠ w.pv b.kind s → viewV var m i ≠ w.pv b.kind s := by
  obtain ⟨l, eff, hl, hy, hv⟩ := C154_values w yv yamlFlag var bs init m h
  refine ⟨l, eff, hl, hy, fun i j b c l1 l2 s t hi hj hij hr e h2 _ hne => ?_⟩
  rw [(hv i (List.getElem?_eq_some_iff.1 hi).1 hr).1 l1 l2 t j c e hj hij h2]
  exact hne

theorem given_split {l : List (Bytes × Bytes)} {n s : Bytes} (h : given l n = some s) :
    ∃ l1 l2, l = l1 ++ (n, s) :: l2 ∧ ∀ x ∈ l2, x.1 ≠ n := by
  induction l with
  | nil => simp [given] at h
  | cons x l ih =>
    rw [given_cons] at h
    cases hg : given l n with
    | some s' =>
      rw [hg] at h
      simp only [Option.some.injEq] at h
      subst h
      obtain ⟨l1, l2, e, h2⟩ := ih hg
      exact ⟨x :: l1, l2, by rw [e]; rfl, h2⟩
    | none =>
      rw [hg] at h
      simp at h
      obtain ⟨h1, h2⟩ := h
      obtain ⟨a, b⟩ := x
      dsimp only at h1 h2
      subst h1 h2
      refine ⟨[], l, rfl, fun x hx e => ?_⟩
      have : x.2 ∈ ((l.filter (·.1 = a)).map (·.2)) := List.mem_map_of_mem (by simp [hx, e])
      simp only [given, List.getLast?_eq_none_iff] at hg
      rw [hg] at this
      simp at this

theorem given_absent {l : List (Bytes × Bytes)} {n : Bytes} (h : given l n = none) (x : Bytes × Bytes) (hx : x ∈ l) : x.1 ≠ n := by
  intro e
  have : x.2 ∈ ((l.filter (·.1 = n)).map (·.2)) := List.mem_map_of_mem (by simp [hx, e])
  simp only [given, List.getLast?_eq_none_iff] at h
  rw [h] at this
  simp at this

/-- The number of the variable of visit `i`: that of the first visit with the variable. -/
def varOf (vs : List HVisit) (i : Nat) : Nat :=
  match vs[i]? with
  | none => i
  | some x => vs.findIdx fun y => y.base = x.base ∧ y.idx = x.idx

theorem C154_same (vs : List HVisit) (i j : Nat) (x y : HVisit) (hx : vs[i]? = some x) (hy : vs[j]? = some y) :
    varOf vs i = varOf vs j ↔ x.base = y.base ∧ x.idx = y.idx := by
  simp only [varOf, hx, hy]
  constructor
  · intro e
    have hlt : ∀ z ∈ vs, vs.findIdx (fun y => decide (y.base = z.base ∧ y.idx = z.idx)) < vs.length := by
      intro z hz
      rw [List.findIdx_lt_length]
      exact ⟨z, hz, by simp⟩
    have h1 := List.findIdx_getElem (w := hlt x (List.mem_of_getElem? hx))
    have h2 := List.findIdx_getElem (w := hlt y (List.mem_of_getElem? hy))
    simp only [decide_eq_true_eq] at h1 h2
    have e2 : vs[vs.findIdx (fun z => decide (z.base = x.base ∧ z.idx = x.idx))]'(hlt x (List.mem_of_getElem? hx)) =
        vs[vs.findIdx (fun z => decide (z.base = y.base ∧ z.idx = y.idx))]'(hlt y (List.mem_of_getElem? hy)) := by
      congr 1
    rw [e2] at h1
    exact ⟨h1.1.symm.trans h2.1, h1.2.symm.trans h2.2⟩
  · rintro ⟨h1, h2⟩
    rw [h1, h2]

/-- The value of the variable of a visit. -/
def hread (h : Heap) (x : HVisit) : Int :=
  match hpart (h.obj x.base) x.idx with
  | some (.basic _ _ v) => v
  | _ => 0

def initOf (h : Heap) (vs : List HVisit) (c : Nat) : Int :=
  match vs[c]? with
  | some x => hread h x
  | none => 0

/-- `Load(p, yamlFlag)` (conf.go:30-64), with `p` the address of object `a`; `none`: `initStruct` needs more than `fuel` nested calls. -/
def hLoad (env : Nat → Ty) (fuel : Nat) (w : World) (yv : Bytes → Option YamlV) (yamlFlag : Bytes) (a : Nat) (h : Heap) : Option (Res × Heap) :=
  match hInitStruct env fuel a h with
  | none => none
  | some h' =>
    let vs := hvisitAll fuel h' a
    some (loadV w yv yamlFlag (varOf vs) (vs.map fun x => bindingOf x.v) (initOf h' vs), h')

theorem initOf_varOf (h : Heap) (vs : List HVisit) (i : Nat) (x : HVisit) (hx : vs[i]? = some x) : initOf h vs (varOf vs i) = hread h x := by
  have hlt : vs.findIdx (fun y => decide (y.base = x.base ∧ y.idx = x.idx)) < vs.length := by
    rw [List.findIdx_lt_length]
    exact ⟨x, List.mem_of_getElem? hx, by simp⟩
  have h1 := List.findIdx_getElem (w := hlt)
  simp only [decide_eq_true_eq] at h1
  simp only [initOf, varOf, hx, List.getElem?_eq_getElem hlt, hread]
  rw [h1.1, h1.2]

/-- The value that a field should have: its flag, else its environment variable, else yaml, else its initial value. -/
def OwnValue (w : World) (l : List (Bytes × Bytes)) (b : Binding) (yaml : Option Int) (init : Int) : Option Int :=
  match given l b.flagName with
  | some s => w.pv b.kind s
  | none =>
    match w.env b.envName with
    | some s => w.pv b.kind s
    | none => some (yaml.getD init)

/-- **C154** for the fields whose variable no other field shares. -/
theorem C154_load_partial (env : Nat → Ty) (fuel : Nat) (w : World) (yv : Bytes → Option YamlV) (yamlFlag : Bytes) (a : Nat) (h h' : Heap) (m : Mem)
    (hl : hLoad env fuel w yv yamlFlag a h = some (.done m, h')) :
    ∃ l eff, ArgList (knownFlags w yamlFlag ((hvisitAll fuel h' a).map fun x => bindingOf x.v)) w.args l ∧ YamlOfV yv yamlFlag l eff ∧
      ∀ (i : Nat) (x : HVisit), (hvisitAll fuel h' a)[i]? = some x → eff.repl i = none →
        (∀ (j : Nat) (y : HVisit), (hvisitAll fuel h' a)[j]? = some y → y.base = x.base → y.idx = x.idx → j = i) →
        viewV (varOf (hvisitAll fuel h' a)) m i =
          OwnValue w l (bindingOf x.v) (eff.set (varOf (hvisitAll fuel h' a) i)) (hread h' x) := by
  unfold hLoad at hl
  split at hl
  · simp at hl
  · rename_i h1 hi
    simp only [Option.some.injEq, Prod.mk.injEq] at hl
    obtain ⟨hl, rfl⟩ := hl
    obtain ⟨l, eff, ha, hy, hv⟩ := C154_values _ _ _ _ _ _ _ hl
    refine ⟨l, eff, ha, hy, fun i x hx hr hu => ?_⟩
    have hb : ((hvisitAll fuel h1 a).map fun x => bindingOf x.v)[i]? = some (bindingOf x.v) := by simp [hx]
    have huniq : ∀ (j : Nat) (b : Binding), ((hvisitAll fuel h1 a).map fun x => bindingOf x.v)[j]? = some b →
        varOf (hvisitAll fuel h1 a) j = varOf (hvisitAll fuel h1 a) i → j = i ∧ b = bindingOf x.v := by
      intro j b hj hij
      rw [List.getElem?_map, Option.map_eq_some_iff] at hj
      obtain ⟨y, hy, rfl⟩ := hj
      obtain ⟨e1, e2⟩ := (C154_same _ _ _ _ _ hy hx).1 hij
      obtain rfl := hu j y hy e1 e2
      rw [hy] at hx
      simp only [Option.some.injEq] at hx
      exact ⟨rfl, by rw [hx]⟩
    obtain ⟨v1, v2⟩ := hv i (List.getElem?_eq_some_iff.1 hb).1 hr
    unfold OwnValue
    cases hg : given l (bindingOf x.v).flagName with
    | some s =>
      obtain ⟨l1, l2, e, h2⟩ := given_split hg
      exact v1 l1 l2 s i _ e hb rfl (fun j' b' hj' hv' y hy => by rw [(huniq j' b' hj' hv').2]; exact h2 y hy)
    | none =>
      obtain ⟨v3, v4⟩ := v2 (fun j b hj hvj y hy => by rw [(huniq j b hj hvj).2]; exact given_absent hg y hy)
      cases he : w.env (bindingOf x.v).envName with
      | some s => exact v3 i _ s hb rfl he (fun j' b' hlt hj' hv' => by have := (huniq j' b' hj' hv').1; omega)
      | none =>
        dsimp only
        rw [v4 (fun j b hj hvj => by rw [(huniq j b hj hvj).2]; exact he), initOf_varOf _ _ _ _ hx]

/-! ### An example -/

/-- `struct { A, B *T }` with `type T struct { N int }`. -/
def exShareEnv : Nat → Ty
  | 0 => .struct (.cons ⟨[65], true, false, {}⟩ (.ptr 1) (.cons ⟨[66], true, false, {}⟩ (.ptr 1) .nil))
  | 1 => .struct (.cons ⟨[78], true, false, {}⟩ (.basic .int false) .nil)
  -- `type Node struct { N int; Next *Node }`
  | _ => .struct (.cons ⟨[78], true, false, {}⟩ (.basic .int false) (.cons ⟨[77], true, false, {}⟩ (.ptr 2) .nil))

/-- `t := &T{7}; conf := &struct{…}{t, b}`, with `b` the address of an object or nil. -/
def exShareHeap (b : HVal) : Heap where
  ty   := fun a => if a = 0 then 0 else 1
  obj  := fun a => if a = 0 then .struct (.cons ⟨[65], true, false, {}⟩ (.ptr 1) (.cons ⟨[66], true, false, {}⟩ b .nil))
    else .struct (.cons ⟨[78], true, false, {}⟩ (.basic .int false 7) .nil)
  next := 3

/-- `node := &Node{}; node.Next = node` -/
def exCircle : Heap where
  ty   := fun _ => 2
  obj  := fun _ => .struct (.cons ⟨[78], true, false, {}⟩ (.basic .int false 0) (.cons ⟨[77], true, false, {}⟩ (.ptr 0) .nil))
  next := 1

/-- `-a-n 1 -b-n 2` -/
def exShareWorld : World := exWorld [[45, 97, 45, 110], [49], [45, 98, 45, 110], [50]] fun _ => none

theorem exShare_good (b : HVal) (hb : b = .ptr 1 ∨ b = .ptr 2 ∨ b = .nil 1) : Good exShareEnv (exShareHeap b) := by
  intro a ha
  simp only [exShareHeap] at *
  rcases hb with rfl | rfl | rfl <;> (split <;> simp [HasTy, HasTyF, exShareEnv])

theorem exCircle_good : Good exShareEnv exCircle := by
  intro a ha
  simp [exCircle, HasTy, HasTyF, exShareEnv]

/-- The full statement: `Load` returns, and every field that yaml does not make another variable of has the value of its own flag, its own
environment variable, what yaml stores, or its initial value. -/
def C154Claim : Prop :=
  ∀ (env : Nat → Ty) (h : Heap) (a : Nat), Good env h → a < h.next → ∀ (w : World) (yv : Bytes → Option YamlV) (yamlFlag : Bytes),
    ∃ fuel r h', hLoad env fuel w yv yamlFlag a h = some (r, h') ∧
      ∀ m, r = .done m → ∃ l eff, ArgList (knownFlags w yamlFlag ((hvisitAll fuel h' a).map fun x => bindingOf x.v)) w.args l ∧
        YamlOfV yv yamlFlag l eff ∧ ∀ (i : Nat) (x : HVisit), (hvisitAll fuel h' a)[i]? = some x → eff.repl i = none →
          viewV (varOf (hvisitAll fuel h' a)) m i =
            OwnValue w l (bindingOf x.v) (eff.set (varOf (hvisitAll fuel h' a) i)) (hread h' x)

/-- A list whose only element points to itself. -/
theorem C154_violated : ¬ C154Claim := by
  intro hc
  obtain ⟨fuel, r, h', hl, -⟩ := hc exShareEnv exCircle 0 exCircle_good (by simp [exCircle]) exShareWorld (fun _ => none) []
  have := C154_circle_violated exShareEnv exCircle exCircle_good (fun _ => 0) (by simp [exCircle])
    (fun _ => by simp [exCircle, elemRefs, refsS, refs]) fuel
  unfold hLoad at hl
  rw [this] at hl
  simp at hl

/-- `-a-n 1 -b-n 2` where both pointers are to one variable: the field `A.N` gets 2. -/
theorem C154_shared_violated : ∃ m h', hLoad exShareEnv 5 exShareWorld (fun _ => none) [] 0 (exShareHeap (.ptr 1)) = some (.done m, h') ∧
    ArgList (knownFlags exShareWorld [] ((hvisitAll 5 h' 0).map fun x => bindingOf x.v)) exShareWorld.args
      [([97, 45, 110], [49]), ([98, 45, 110], [50])] ∧
    (hvisitAll 5 h' 0).map (fun x => flagStyle x.v.path) = [[97, 45, 110], [98, 45, 110]] ∧
    viewV (varOf (hvisitAll 5 h' 0)) m 0 = exShareWorld.pv .int [50] ∧
    exShareWorld.pv .int [49] ≠ exShareWorld.pv .int [50] := by
  refine ⟨_, _, rfl, ?_, rfl, rfl, by decide⟩
  refine .next [dash] [97, 45, 110] [49] _ _ (.inl rfl) ⟨by simp, by decide, by decide⟩ rfl ?_
  exact .next [dash] [98, 45, 110] [50] _ _ (.inl rfl) ⟨by simp, by decide, by decide⟩ rfl .nil

/-- With two variables, each field gets its own value. -/
example : ∃ m h', hLoad exShareEnv 5 exShareWorld (fun _ => none) [] 0 (exShareHeap (.ptr 2)) = some (.done m, h') ∧
    viewV (varOf (hvisitAll 5 h' 0)) m 0 = some 49 ∧ viewV (varOf (hvisitAll 5 h' 0)) m 1 = some 50 := ⟨_, _, rfl, rfl, rfl⟩

/-- A nil pointer gets a variable of its own. -/
example : ∃ h', hInitStruct exShareEnv 5 0 (exShareHeap (.nil 1)) = some h' ∧ (hvisitAll 5 h' 0).map (·.base) = [1, 3] ∧
    (hvisitAll 5 h' 0).map (hread h') = [7, 0] := ⟨_, rfl, rfl, rfl⟩

example : Good exShareEnv (exShareHeap (.ptr 1)) := exShare_good _ (.inl rfl)

end Gears.Conf
