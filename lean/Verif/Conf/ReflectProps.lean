import Verif.Conf.Reflect

/-
Properties C53, C54, C56: allocation of pointers and visiting of fields.
-/

namespace Gears.Conf

/-! ## Specification: parts of a value -/

/-- The `i`-th field of a struct. -/
def Fields.get? : Fields → Nat → Option (FieldInfo × Val)
  | .nil, _ => none
  | .cons f v _, 0 => some (f, v)
  | .cons _ _ fs, i + 1 => fs.get? i

/-- The part of a value at a location. -/
def Val.get : Val → List Step → Option Val
  | v, [] => some v
  | .struct fs, .field i :: p =>
    match fs.get? i with
    | some (_, w) => w.get p
    | none => none
  | .ptr w, .deref :: p => w.get p
  | _, _ :: _ => none

/-- A location is visible if it is reached through exported fields only, and never through a pointer to a pointer
(`md`: a pointer at the beginning may be followed).  The result are the fields passed. -/
def visible : Bool → Val → List Step → Option (List FieldInfo)
  | _, _, [] => some []
  | _, .struct fs, .field i :: p =>
    match fs.get? i with
    | some (f, w) => if f.exported then (visible true w p).map (f :: ·) else none
    | none => none
  | true, .ptr w, .deref :: p => visible false w p
  | _, _, _ :: _ => none

def Val.isLeaf : Val → Bool
  | .basic .. => true
  | .other _ => true
  | _ => false

def Val.isZeroLeaf : Val → Prop
  | .basic _ _ v => v = 0
  | .other v => v = 0
  | _ => True

/-- The location is what a pointer points to. -/
def endsDeref (loc : List Step) : Prop := loc.getLast? = some .deref

/-! ## Lemmas -/

theorem get_nil (v : Val) : v.get [] = some v := by cases v <;> simp [Val.get]

theorem visible_nil (md : Bool) (v : Val) : visible md v [] = some [] := by cases v <;> simp [visible]

theorem initFields_get {rec : Bool → Val → Option Val} : ∀ {fs fs' : Fields}, initFields rec fs = some fs' → ∀ i : Nat,
    (∀ f v, fs.get? i = some (f, v) → ∃ v', rec f.exported v = some v' ∧ fs'.get? i = some (f, v')) ∧
    (∀ f v', fs'.get? i = some (f, v') → ∃ v, rec f.exported v = some v' ∧ fs.get? i = some (f, v))
  | .nil, fs', h, i => by simp [initFields] at h; subst h; simp [Fields.get?]
  | .cons f v fs, fs', h, i => by
    simp only [initFields] at h
    split at h
    · rename_i v' hv
      split at h
      · rename_i fs1 h1
        simp at h; subst h
        cases i with
        | zero => simp [Fields.get?, hv]
        | succ i => simpa [Fields.get?] using initFields_get h1 i
      · simp at h
    · simp at h

/-- What `initElem` does to a settable value. -/
theorem initElem_cases {rec : Bool → Val → Option Val} {v v' : Val} (h : initElem rec true v = some v') :
    (∃ fs fs', v = .struct fs ∧ v' = .struct fs' ∧ initFields rec fs = some fs') ∨ ((∀ fs, v ≠ .struct fs) ∧ v' = v) := by
  cases v <;> simp [initElem] at h <;> try exact .inr ⟨by simp, h.symm⟩
  rename_i fs
  obtain ⟨fs', h1, h2⟩ := h
  exact .inl ⟨fs, fs', rfl, h2.symm, h1⟩

theorem initElem_false {rec : Bool → Val → Option Val} {v v' : Val} (h : initElem rec false v = some v') : v' = v := by
  simp [initElem] at h; exact h.symm

theorem initPtrValue_false {env : Nat → Ty} {fuel : Nat} {v v' : Val} (h : initPtrValue env fuel false v = some v') :
    v' = v := by
  cases fuel with
  | zero => simp [initPtrValue] at h
  | succ fuel =>
    cases v <;> simp [initPtrValue] at h
    · exact initElem_false h
    · exact initElem_false h
    · exact h.symm
    · obtain ⟨w, h1, h2⟩ := h
      rw [initElem_false h1] at h2; exact h2.symm
    · exact initElem_false h

/-- What `initPtrValue` does to a settable value. -/
theorem initPtrValue_cases {env : Nat → Ty} {fuel : Nat} {v v' : Val} (h : initPtrValue env fuel true v = some v') :
    ∃ fuel', fuel = fuel' + 1 ∧
    ((∃ n w, v = .nil n ∧ v' = .ptr w ∧ initElem (initPtrValue env fuel') true (zero (env n)) = some w) ∨
     (∃ w w', v = .ptr w ∧ v' = .ptr w' ∧ initElem (initPtrValue env fuel') true w = some w') ∨
     ((∀ n, v ≠ .nil n) ∧ (∀ w, v ≠ .ptr w) ∧ initElem (initPtrValue env fuel') true v = some v')) := by
  cases fuel with
  | zero => simp [initPtrValue] at h
  | succ fuel =>
    refine ⟨fuel, rfl, ?_⟩
    cases v <;> simp [initPtrValue] at h
    · exact .inr (.inr ⟨by simp, by simp, h⟩)
    · exact .inr (.inr ⟨by simp, by simp, h⟩)
    · obtain ⟨w, h1, h2⟩ := h
      exact .inl ⟨_, w, rfl, h2.symm, h1⟩
    · obtain ⟨w, h1, h2⟩ := h
      exact .inr (.inl ⟨_, w, rfl, h2.symm, h1⟩)
    · exact .inr (.inr ⟨by simp, by simp, h⟩)

/-- Induction over `initElem` (`P`) and `initPtrValue` (`Q`). -/
theorem init_induction {env : Nat → Ty} {P Q : Val → Val → Prop}
    (leaf : ∀ v, (∀ fs, v ≠ .struct fs) → P v v)
    (struct : ∀ fs fs', (∀ i, (∀ f v, fs.get? i = some (f, v) → ∃ v', fs'.get? i = some (f, v') ∧
        ((f.exported = true ∧ Q v v') ∨ (f.exported = false ∧ v' = v))) ∧
      (∀ f v', fs'.get? i = some (f, v') → ∃ v, fs.get? i = some (f, v))) → P (.struct fs) (.struct fs'))
    (alloc : ∀ n w, P (zero (env n)) w → Q (.nil n) (.ptr w))
    (ptr : ∀ w w', P w w' → Q (.ptr w) (.ptr w'))
    (val : ∀ v v', (∀ n, v ≠ .nil n) → (∀ w, v ≠ .ptr w) → (∀ n, v' ≠ .nil n) → (∀ w, v' ≠ .ptr w) → P v v' → Q v v') :
    ∀ fuel, (∀ v v', initElem (initPtrValue env fuel) true v = some v' → P v v') ∧
      (∀ v v', initPtrValue env fuel true v = some v' → Q v v') := by
  have elem : ∀ fuel, (∀ v v', initPtrValue env fuel true v = some v' → Q v v') →
      ∀ v v', initElem (initPtrValue env fuel) true v = some v' → P v v' := by
    intro fuel hQ v v' h
    rcases initElem_cases h with ⟨fs, fs', rfl, rfl, hf⟩ | ⟨hn, rfl⟩
    · refine struct fs fs' fun i => ⟨fun f v hg => ?_, fun f v' hg => ?_⟩
      · obtain ⟨v', hr, hg'⟩ := (initFields_get hf i).1 f v hg
        refine ⟨v', hg', ?_⟩
        cases he : f.exported with
        | true => rw [he] at hr; exact .inl ⟨rfl, hQ _ _ hr⟩
        | false => rw [he] at hr; exact .inr ⟨rfl, initPtrValue_false hr⟩
      · obtain ⟨v, -, hg'⟩ := (initFields_get hf i).2 f v' hg
        exact ⟨v, hg'⟩
    · exact leaf _ hn
  have main : ∀ fuel, ∀ v v', initPtrValue env fuel true v = some v' → Q v v' := by
    intro fuel
    induction fuel with
    | zero => intro v v' h; simp [initPtrValue] at h
    | succ fuel ih =>
      intro v v' h
      obtain ⟨fuel', he, h'⟩ := initPtrValue_cases h
      clear h
      obtain rfl : fuel = fuel' := by omega
      rcases h' with ⟨n, w, rfl, rfl, h⟩ | ⟨w, w', rfl, rfl, h⟩ | ⟨h1, h2, h⟩
      · exact alloc n w (elem fuel ih _ _ h)
      · exact ptr w w' (elem fuel ih _ _ h)
      · have hp := elem fuel ih _ _ h
        rcases initElem_cases h with ⟨fs, fs', rfl, rfl, -⟩ | ⟨-, rfl⟩
        · exact val _ _ h1 h2 (by simp) (by simp) hp
        · exact val _ _ h1 h2 h1 h2 hp
  exact fun fuel => ⟨elem fuel (main fuel), main fuel⟩

theorem get_cons_struct (fs : Fields) (i : Nat) (p : List Step) :
    (Val.struct fs).get (.field i :: p) = match fs.get? i with
      | some (_, w) => w.get p
      | none => none := rfl

theorem visible_cons_struct (md : Bool) (fs : Fields) (i : Nat) (p : List Step) :
    visible md (.struct fs) (.field i :: p) = match fs.get? i with
      | some (f, w) => if f.exported then (visible true w p).map (f :: ·) else none
      | none => none := by cases md <;> rfl

/-- Leaves do not change. -/
def Keeps (v v' : Val) : Prop := ∀ loc x, v.get loc = some x → x.isLeaf = true → v'.get loc = some x

theorem init_keeps (env : Nat → Ty) (fuel : Nat) (v v' : Val) (h : initStruct env fuel v = some v') : Keeps v v' := by
  refine (init_induction (P := Keeps) (Q := Keeps) ?_ ?_ ?_ ?_ ?_ fuel).1 v v' h
  · exact fun v _ loc x hx _ => hx
  · intro fs fs' hi loc x hx hl
    match loc with
    | [] => simp [get_nil] at hx; subst hx; simp [Val.isLeaf] at hl
    | .deref :: p => simp [Val.get] at hx
    | .field i :: p =>
      rw [get_cons_struct] at hx ⊢
      split at hx
      rotate_left
      · simp at hx
      rename_i f w hg
      obtain ⟨w', hg', h1 | h1⟩ := (hi i).1 f w hg
      · rw [hg']; exact h1.2 p x hx hl
      · rw [hg', h1.2]; exact hx
  · intro n w _ loc x hx hl
    match loc with
    | [] => simp [get_nil] at hx; subst hx; simp [Val.isLeaf] at hl
    | _ :: _ => simp [Val.get] at hx
  · intro w w' ih loc x hx hl
    match loc with
    | [] => simp [get_nil] at hx; subst hx; simp [Val.isLeaf] at hl
    | .deref :: p => exact ih p x hx hl
    | .field i :: p => simp [Val.get] at hx
  · exact fun v v' _ _ _ _ h => h

theorem endsDeref_cons {s t : Step} {p : List Step} : endsDeref (s :: t :: p) ↔ endsDeref (t :: p) := by
  simp [endsDeref]

theorem endsDeref_field {i : Nat} {p : List Step} (h : endsDeref (.field i :: p)) : endsDeref p := by
  cases p with
  | nil => simp [endsDeref] at h
  | cons t p => exact endsDeref_cons.1 h

theorem endsDeref_deref {p : List Step} (h : endsDeref (.deref :: p)) : p = [] ∨ endsDeref p := by
  cases p with
  | nil => exact .inl rfl
  | cons t p => exact .inr (endsDeref_cons.1 h)

/-- Nil pointers that are not visible, or are what a pointer points to, stay nil. -/
def KeepsNil (root : Bool) (v v' : Val) : Prop := ∀ loc n, v.get loc = some (.nil n) →
  (visible (!root) v loc = none ∨ endsDeref loc ∨ (root = true ∧ loc = [])) → v'.get loc = some (.nil n)

theorem init_keepsNil (env : Nat → Ty) (fuel : Nat) (v v' : Val) (h : initStruct env fuel v = some v') :
    KeepsNil true v v' := by
  refine (init_induction (P := KeepsNil true) (Q := KeepsNil false) ?_ ?_ ?_ ?_ ?_ fuel).1 v v' h
  · exact fun v _ loc x hx _ => hx
  · intro fs fs' hi loc n hx hl
    match loc with
    | [] => simp [get_nil] at hx
    | .deref :: p => simp [Val.get] at hx
    | .field i :: p =>
      rw [get_cons_struct] at hx ⊢
      split at hx
      rotate_left
      · simp at hx
      rename_i f w hg
      obtain ⟨w', hg', h1 | h1⟩ := (hi i).1 f w hg
      · rw [hg']
        refine h1.2 p n hx ?_
        rcases hl with hl | hl | hl
        · rw [visible_cons_struct, hg] at hl
          simp [h1.1] at hl
          exact .inl hl
        · exact .inr (.inl (endsDeref_field hl))
        · simp at hl
      · rw [hg', h1.2]; exact hx
  · intro n w _ loc m hx hl
    match loc with
    | [] => simp [visible_nil, endsDeref] at hl
    | _ :: _ => simp [Val.get] at hx
  · intro w w' ih loc n hx hl
    match loc with
    | [] => simp [visible_nil, endsDeref] at hl
    | .deref :: p =>
      refine ih p n hx ?_
      rcases hl with hl | hl | hl
      · exact .inl hl
      · rcases endsDeref_deref hl with rfl | hl
        · exact .inr (.inr ⟨rfl, rfl⟩)
        · exact .inr (.inl hl)
      · simp at hl
    | .field i :: p => simp [Val.get] at hx
  · intro v v' h1 h2 _ _ ih loc n hx hl
    refine ih loc n hx ?_
    rcases hl with hl | hl | hl
    · refine .inl ?_
      match loc with
      | [] => simp [visible_nil] at hl
      | .deref :: p => cases v <;> simp_all [Val.get]
      | .field i :: p =>
        cases v <;> simp [Val.get] at hx
        simpa [visible_cons_struct] using hl
    · exact .inr (.inl hl)
    · simp at hl

/-- Visible pointers are not nil, except those that a pointer points to. -/
def NoNil (root : Bool) (_v v' : Val) : Prop := ∀ loc is n, visible (!root) v' loc = some is → v'.get loc = some (.nil n) →
  endsDeref loc ∨ (root = true ∧ loc = [])

theorem init_noNil (env : Nat → Ty) (fuel : Nat) (v v' : Val) (h : initStruct env fuel v = some v') :
    NoNil true v v' := by
  refine (init_induction (P := NoNil true) (Q := NoNil false) ?_ ?_ ?_ ?_ ?_ fuel).1 v v' h
  · intro v hv loc is n hi hx
    match loc with
    | [] => exact .inr ⟨rfl, rfl⟩
    | .deref :: p => cases v <;> simp [visible] at hi
    | .field i :: p => cases v <;> simp_all [Val.get]
  · intro fs fs' hi loc is n hv hx
    match loc with
    | [] => simp [get_nil] at hx
    | .deref :: p => simp [Val.get] at hx
    | .field i :: p =>
      rw [get_cons_struct] at hx
      rw [visible_cons_struct] at hv
      split at hx
      rotate_left
      · simp at hx
      rename_i f w hg
      simp only [hg] at hv
      split at hv
      rotate_left
      · simp at hv
      rename_i he
      simp at hv
      obtain ⟨is', hv, -⟩ := hv
      obtain ⟨v0, hg0⟩ := (hi i).2 f w hg
      obtain ⟨w', hg', h1 | h1⟩ := (hi i).1 f v0 hg0
      · rw [hg] at hg'; simp at hg'; subst hg'
        rcases h1.2 p is' n hv hx with h2 | h2
        · left
          cases p with
          | nil => simp [endsDeref] at h2
          | cons t p => exact endsDeref_cons.2 h2
        · simp at h2
      · simp [he] at h1
  · intro n w ih loc is m hv hx
    match loc with
    | [] => simp [get_nil] at hx
    | .field i :: p => simp [Val.get] at hx
    | .deref :: p =>
      left
      rcases ih p is m hv hx with h2 | ⟨-, rfl⟩
      · cases p with
        | nil => simp [endsDeref] at h2
        | cons t p => exact endsDeref_cons.2 h2
      · simp [endsDeref]
  · intro w w' ih loc is m hv hx
    match loc with
    | [] => simp [get_nil] at hx
    | .field i :: p => simp [Val.get] at hx
    | .deref :: p =>
      left
      rcases ih p is m hv hx with h2 | ⟨-, rfl⟩
      · cases p with
        | nil => simp [endsDeref] at h2
        | cons t p => exact endsDeref_cons.2 h2
      · simp [endsDeref]
  · intro v v' _ _ h1 h2 ih loc is n hv hx
    match loc with
    | [] => simp [get_nil] at hx; exact absurd hx (h1 n)
    | .deref :: p => cases v' <;> simp_all [Val.get]
    | .field i :: p =>
      cases v' <;> simp [Val.get] at hx
      rw [visible_cons_struct] at hv
      rcases ih (.field i :: p) is n (by simpa [visible_cons_struct] using hv) (by simpa [Val.get] using hx) with h3 | h3
      · exact .inl h3
      · simp at h3

/-- All leaves are zero. -/
def AllZero (v : Val) : Prop := ∀ loc x, v.get loc = some x → x.isZeroLeaf

/-- Zero values stay zero, and new variables are zero apart from pointers. -/
def NewZero (v v' : Val) : Prop :=
  (AllZero v → AllZero v') ∧ ∀ loc n x, v.get loc = some (.nil n) → v'.get loc = some (.ptr x) → AllZero x

mutual
theorem zero_allZero : ∀ t : Ty, AllZero (zero t)
  | .basic k nm => fun loc x h => by
    match loc with
    | [] => simp [get_nil, zero] at h; subst h; simp [Val.isZeroLeaf]
    | _ :: _ => simp [zero, Val.get] at h
  | .other => fun loc x h => by
    match loc with
    | [] => simp [get_nil, zero] at h; subst h; simp [Val.isZeroLeaf]
    | _ :: _ => simp [zero, Val.get] at h
  | .ptr n => fun loc x h => by
    match loc with
    | [] => simp [get_nil, zero] at h; subst h; simp [Val.isZeroLeaf]
    | _ :: _ => simp [zero, Val.get] at h
  | .struct fs => fun loc x h => by
    match loc with
    | [] => simp [get_nil, zero] at h; subst h; simp [Val.isZeroLeaf]
    | .deref :: _ => simp [zero, Val.get] at h
    | .field i :: p =>
      simp only [zero, get_cons_struct] at h
      split at h
      rotate_left
      · simp at h
      rename_i f w hg
      exact zeroFields_allZero fs i f w hg p x h

theorem zeroFields_allZero : ∀ (fs : TyFields) (i : Nat) (f : FieldInfo) (w : Val),
    (zeroFields fs).get? i = some (f, w) → AllZero w
  | .nil, i, f, w, h => by simp [zeroFields, Fields.get?] at h
  | .cons g t fs, 0, f, w, h => by
    simp [zeroFields, Fields.get?] at h; rw [← h.2]; exact zero_allZero t
  | .cons g t fs, i + 1, f, w, h => by
    simp only [zeroFields, Fields.get?] at h; exact zeroFields_allZero fs i f w h
end

theorem allZero_field {fs : Fields} (h : AllZero (.struct fs)) {i : Nat} {f : FieldInfo} {w : Val}
    (hg : fs.get? i = some (f, w)) : AllZero w := fun loc x hx => h (.field i :: loc) x (by rw [get_cons_struct, hg]; exact hx)

theorem init_newZero (env : Nat → Ty) (fuel : Nat) (v v' : Val) (h : initStruct env fuel v = some v') : NewZero v v' := by
  refine (init_induction (P := NewZero) (Q := NewZero) ?_ ?_ ?_ ?_ ?_ fuel).1 v v' h
  · intro v _
    refine ⟨id, fun loc n x h1 h2 => ?_⟩
    rw [h1] at h2; simp at h2
  · intro fs fs' hi
    refine ⟨fun hz loc x hx => ?_, fun loc n x h1 h2 => ?_⟩
    · match loc with
      | [] => simp [get_nil] at hx; subst hx; simp [Val.isZeroLeaf]
      | .deref :: p => simp [Val.get] at hx
      | .field i :: p =>
        rw [get_cons_struct] at hx
        split at hx
        rotate_left
        · simp at hx
        rename_i f w hg
        obtain ⟨v0, hg0⟩ := (hi i).2 f w hg
        obtain ⟨w', hg', h1 | h1⟩ := (hi i).1 f v0 hg0
        · rw [hg] at hg'; simp at hg'; subst hg'
          exact h1.2.1 (allZero_field hz hg0) p x hx
        · rw [hg] at hg'; simp at hg'; subst hg'
          rw [h1.2] at hx
          exact allZero_field hz hg0 p x hx
    · match loc with
      | [] => simp [get_nil] at h1
      | .deref :: p => simp [Val.get] at h1
      | .field i :: p =>
        rw [get_cons_struct] at h1 h2
        split at h1
        rotate_left
        · simp at h1
        rename_i f w hg
        obtain ⟨w', hg', h3 | h3⟩ := (hi i).1 f w hg
        · rw [hg'] at h2; exact h3.2.2 p n x h1 h2
        · rw [hg', h3.2] at h2
          simp only at h2
          rw [h1] at h2; simp at h2
  · intro n w ih
    have hw := ih.1 (zero_allZero _)
    refine ⟨fun _ loc x hx => ?_, fun loc m x h1 h2 => ?_⟩
    · match loc with
      | [] => simp [get_nil] at hx; subst hx; simp [Val.isZeroLeaf]
      | .field i :: p => simp [Val.get] at hx
      | .deref :: p => exact hw p x hx
    · match loc with
      | [] => simp [get_nil] at h2; subst h2; exact hw
      | _ :: _ => simp [Val.get] at h1
  · intro w w' ih
    refine ⟨fun hz loc x hx => ?_, fun loc m x h1 h2 => ?_⟩
    · match loc with
      | [] => simp [get_nil] at hx; subst hx; simp [Val.isZeroLeaf]
      | .field i :: p => simp [Val.get] at hx
      | .deref :: p => exact ih.1 (fun loc y hy => hz (.deref :: loc) y hy) p x hx
    · match loc with
      | [] => simp [get_nil] at h1
      | .field i :: p => simp [Val.get] at h1
      | .deref :: p => exact ih.2 p m x h1 h2
  · exact fun v v' _ _ _ _ h => h

theorem initFields_idem {rec : Bool → Val → Option Val} (hr : ∀ b v v', rec b v = some v' → rec b v' = some v') :
    ∀ {fs fs' : Fields}, initFields rec fs = some fs' → initFields rec fs' = some fs'
  | .nil, fs', h => by simp [initFields] at h; subst h; simp [initFields]
  | .cons f v fs, fs', h => by
    simp only [initFields] at h
    split at h
    · rename_i v' hv
      split at h
      · rename_i fs1 h1
        simp at h; subst h
        simp [initFields, hr _ _ _ hv, initFields_idem hr h1]
      · simp at h
    · simp at h

theorem initElem_idem {rec : Bool → Val → Option Val} (hr : ∀ b v v', rec b v = some v' → rec b v' = some v') {v v' : Val}
    (h : initElem rec true v = some v') : initElem rec true v' = some v' := by
  rcases initElem_cases h with ⟨fs, fs', rfl, rfl, hf⟩ | ⟨hn, rfl⟩
  · simp [initElem, initFields_idem hr hf]
  · exact h

theorem initPtrValue_idem (env : Nat → Ty) : ∀ (fuel : Nat) (b : Bool) (v v' : Val),
    initPtrValue env fuel b v = some v' → initPtrValue env fuel b v' = some v' := by
  intro fuel
  induction fuel with
  | zero => intro b v v' h; simp [initPtrValue] at h
  | succ fuel ih =>
    intro b v v' h
    cases b with
    | false =>
      have h1 := initPtrValue_false h
      subst h1; exact h
    | true =>
      obtain ⟨fuel', he, h'⟩ := initPtrValue_cases h
      obtain rfl : fuel = fuel' := by omega
      rcases h' with ⟨n, w, rfl, rfl, h2⟩ | ⟨w, w', rfl, rfl, h2⟩ | ⟨h3, h4, h2⟩
      · simp [initPtrValue, initElem_idem ih h2]
      · simp [initPtrValue, initElem_idem ih h2]
      · have h5 := initElem_idem ih h2
        rcases initElem_cases h2 with ⟨fs, fs', rfl, rfl, -⟩ | ⟨-, rfl⟩
        · simpa [initPtrValue] using h5
        · exact h

/-! ## C53 -/

/-- **C53** (pointers).  After `initStruct` no pointer field reachable through exported fields is nil. -/
theorem C53_alloc_partial (env : Nat → Ty) (fuel : Nat) (w w' : Val) (h : initStruct env fuel w = some w')
    (loc : List Step) (i : Nat) (is : List FieldInfo) (n : Nat) (hv : visible false w' (loc ++ [.field i]) = some is) :
    w'.get (loc ++ [.field i]) ≠ some (.nil n) := by
  intro hg
  rcases init_noNil env fuel w w' h _ is n hv hg with h1 | h1
  · simp [endsDeref] at h1
  · simp at h1

/-- **C53** (frame).  Every variable that existed before keeps its value, and so do the nil pointers that no exported
field holds. -/
theorem C53_frame (env : Nat → Ty) (fuel : Nat) (w w' : Val) (h : initStruct env fuel w = some w') (loc : List Step) :
    (∀ x, w.get loc = some x → x.isLeaf = true → w'.get loc = some x) ∧
    (∀ n, w.get loc = some (.nil n) → visible false w loc = none → w'.get loc = some (.nil n)) :=
  ⟨init_keeps env fuel w w' h loc, fun n hn hv => init_keepsNil env fuel w w' h loc n hn (.inl hv)⟩

/-- **C53** (new variables).  In what a new pointer points to, every leaf is zero. -/
theorem C53_new (env : Nat → Ty) (fuel : Nat) (w w' : Val) (h : initStruct env fuel w = some w') (loc : List Step)
    (n : Nat) (x : Val) (hn : w.get loc = some (.nil n)) (hx : w'.get loc = some (.ptr x)) (loc' : List Step) (y : Val)
    (hy : x.get loc' = some y) : y.isZeroLeaf :=
  (init_newZero env fuel w w' h).2 loc n x hn hx loc' y hy

/-- **C53** (idempotence). -/
theorem C53_idempotent (env : Nat → Ty) (fuel : Nat) (w w' : Val) (h : initStruct env fuel w = some w') :
    initStruct env fuel w' = some w' :=
  initElem_idem (initPtrValue_idem env fuel) h

/-- **C53** does not hold for pointers to pointers: with a field of type `**int` the inner pointer stays nil. -/
theorem C53_double_pointer_violated : ∃ (env : Nat → Ty) (f : FieldInfo) (w' : Val), f.exported = true ∧
    (∀ fuel, initStruct env (fuel + 1) (.struct (.cons f (.nil 0) .nil)) = some w') ∧
    w'.get [.field 0, .deref] = some (.nil 1) :=
  ⟨fun n => if n = 0 then .ptr 1 else .basic .int false, ⟨[80], true, false, {}⟩,
    .struct (.cons ⟨[80], true, false, {}⟩ (.ptr (.nil 1)) .nil), rfl,
    fun fuel => by simp [initStruct, initElem, initFields, initPtrValue, zero], by simp [Val.get, Fields.get?]⟩

/-- Inner pointers stay nil always: `initStruct` follows one pointer only. -/
theorem C53_double_pointer (env : Nat → Ty) (fuel : Nat) (w w' : Val) (h : initStruct env fuel w = some w')
    (loc : List Step) (n : Nat) (hn : w.get (loc ++ [.deref]) = some (.nil n)) : w'.get (loc ++ [.deref]) = some (.nil n) :=
  init_keepsNil env fuel w w' h _ n hn (.inr (.inl (by simp [endsDeref])))

/-- `struct { A *int; b *int; C struct { D *int } }` with a value in `C.D`. -/
def exVal : Val := .struct (.cons ⟨[65], true, false, {}⟩ (.nil 0) (.cons ⟨[98], false, false, {}⟩ (.nil 0)
  (.cons ⟨[67], true, false, {}⟩ (.struct (.cons ⟨[68], true, false, {}⟩ (.ptr (.basic .int false 5)) .nil)) .nil)))

example : initStruct (fun _ => .basic .int false) 2 exVal = some (.struct (.cons ⟨[65], true, false, {}⟩
  (.ptr (.basic .int false 0)) (.cons ⟨[98], false, false, {}⟩ (.nil 0) (.cons ⟨[67], true, false, {}⟩
    (.struct (.cons ⟨[68], true, false, {}⟩ (.ptr (.basic .int false 5)) .nil)) .nil)))) := rfl

/-! ## C54 -/

mutual
theorem mem_visit : ∀ (v : Val) (md : Bool) (path : Bytes) (loc : List Step) (x : Visit),
    x ∈ visit md path loc v ↔ ∃ p is k nm val, visible md v p = some is ∧ v.get p = some (.basic k nm val) ∧
      x = ⟨is.foldl pathExt path, loc ++ p, k, nm⟩
  | .nil n, md, path, loc, x => by
    simp only [visit, List.not_mem_nil, false_iff]
    rintro ⟨p, is, k, nm, val, -, h, -⟩
    match p with
    | [] => simp [get_nil] at h
    | _ :: _ => simp [Val.get] at h
  | .other n, md, path, loc, x => by
    simp only [visit, List.not_mem_nil, false_iff]
    rintro ⟨p, is, k, nm, val, -, h, -⟩
    match p with
    | [] => simp [get_nil] at h
    | _ :: _ => simp [Val.get] at h
  | .basic k nm val, md, path, loc, x => by
    simp only [visit, List.mem_singleton]
    constructor
    · rintro rfl
      exact ⟨[], [], k, nm, val, visible_nil _ _, get_nil _, by simp⟩
    · rintro ⟨p, is, k', nm', val', hv, h, rfl⟩
      match p with
      | [] =>
        simp [get_nil] at h
        simp [visible_nil] at hv
        subst hv
        simp [h]
      | _ :: _ => simp [Val.get] at h
  | .ptr w, md, path, loc, x => by
    cases md with
    | false =>
      simp only [visit, Bool.false_eq_true, if_false, List.not_mem_nil, false_iff]
      rintro ⟨p, is, k, nm, val, hv, h, -⟩
      match p with
      | [] => simp [get_nil] at h
      | _ :: _ => simp [visible] at hv
    | true =>
      simp only [visit, if_true, mem_visit w]
      constructor
      · rintro ⟨p, is, k, nm, val, hv, h, rfl⟩
        exact ⟨.deref :: p, is, k, nm, val, hv, h, by simp⟩
      · rintro ⟨p, is, k, nm, val, hv, h, rfl⟩
        match p with
        | [] => simp [get_nil] at h
        | .field _ :: _ => simp [visible] at hv
        | .deref :: p => exact ⟨p, is, k, nm, val, hv, h, by simp⟩
  | .struct fs, md, path, loc, x => by
    simp only [visit, mem_visitFields fs]
    constructor
    · rintro ⟨j, f, w, p, is, k, nm, val, hj, he, hv, h, rfl⟩
      refine ⟨.field j :: p, f :: is, k, nm, val, ?_, ?_, by simp⟩
      · rw [visible_cons_struct, hj]; simp [he, hv]
      · rw [get_cons_struct, hj]; exact h
    · rintro ⟨p, is, k, nm, val, hv, h, rfl⟩
      match p with
      | [] => simp [get_nil] at h
      | .deref :: _ => simp [Val.get] at h
      | .field j :: p =>
        rw [get_cons_struct] at h
        rw [visible_cons_struct] at hv
        split at h
        rotate_left
        · simp at h
        rename_i f w hj
        rw [hj] at hv
        simp at hv
        obtain ⟨he, is', hv, rfl⟩ := hv
        exact ⟨j, f, w, p, is', k, nm, val, hj, he, hv, h, by simp⟩

theorem mem_visitFields : ∀ (fs : Fields) (path : Bytes) (loc : List Step) (i : Nat) (x : Visit),
    x ∈ visitFields path loc i fs ↔ ∃ j f w p is k nm val, fs.get? j = some (f, w) ∧ f.exported = true ∧
      visible true w p = some is ∧ w.get p = some (.basic k nm val) ∧
      x = ⟨is.foldl pathExt (pathExt path f), loc ++ .field (i + j) :: p, k, nm⟩
  | .nil, path, loc, i, x => by simp [visitFields, Fields.get?]
  | .cons f v fs, path, loc, i, x => by
    simp only [visitFields, List.mem_append, mem_visitFields fs]
    constructor
    · rintro (h | ⟨j, g, w, p, is, k, nm, val, hj, h⟩)
      · split at h
        · rename_i he
          rw [mem_visit v] at h
          obtain ⟨p, is, k, nm, val, hv, hg, rfl⟩ := h
          exact ⟨0, f, v, p, is, k, nm, val, rfl, he, hv, hg, by simp⟩
        · simp at h
      · refine ⟨j + 1, g, w, p, is, k, nm, val, hj, ?_⟩
        rw [show i + (j + 1) = i + 1 + j by omega]
        exact h
    · rintro ⟨j, g, w, p, is, k, nm, val, hj, he, hv, hg, rfl⟩
      cases j with
      | zero =>
        simp [Fields.get?] at hj
        obtain ⟨rfl, rfl⟩ := hj
        left
        rw [if_pos he, mem_visit v]
        exact ⟨p, is, k, nm, val, hv, hg, by simp⟩
      | succ j =>
        right
        refine ⟨j, g, w, p, is, k, nm, val, hj, he, hv, hg, ?_⟩
        rw [show i + (j + 1) = i + 1 + j by omega]
end

mutual
theorem nodup_visit : ∀ (v : Val) (md : Bool) (path : Bytes) (loc : List Step), ((visit md path loc v).map (·.loc)).Nodup
  | .nil n, md, path, loc => by simp [visit]
  | .other n, md, path, loc => by simp [visit]
  | .basic k nm val, md, path, loc => by simp [visit]
  | .ptr w, md, path, loc => by
    simp only [visit]
    split
    · exact nodup_visit w _ _ _
    · simp
  | .struct fs, md, path, loc => nodup_visitFields fs path loc 0

theorem nodup_visitFields : ∀ (fs : Fields) (path : Bytes) (loc : List Step) (i : Nat),
    ((visitFields path loc i fs).map (·.loc)).Nodup
  | .nil, path, loc, i => by simp [visitFields]
  | .cons f v fs, path, loc, i => by
    simp only [visitFields, List.map_append]
    rw [List.nodup_append]
    refine ⟨?_, nodup_visitFields fs _ _ _, ?_⟩
    · split
      · exact nodup_visit v _ _ _
      · simp
    · intro a ha b hb hab
      subst hab
      rw [List.mem_map] at ha hb
      obtain ⟨x, hx, rfl⟩ := ha
      obtain ⟨y, hy, hxy⟩ := hb
      split at hx
      · rw [mem_visit] at hx
        rw [mem_visitFields] at hy
        obtain ⟨p, is, k, nm, val, -, -, rfl⟩ := hx
        obtain ⟨j, g, w, q, is', k', nm', val', -, -, -, -, rfl⟩ := hy
        simp at hxy
        omega
      · simp at hx
end

/-- **C54.**  The visitor is called exactly for the variables of supported kind that are reached through exported
fields, once for each. -/
theorem C54_visit (fs : Fields) :
    (∀ x, x ∈ visitExportedFields (.struct fs) ↔ ∃ loc is k nm val, visible false (.struct fs) loc = some is ∧
      (Val.struct fs).get loc = some (.basic k nm val) ∧ x = ⟨is.foldl pathExt [], loc, k, nm⟩) ∧
    ((visitExportedFields (.struct fs)).map (·.loc)).Nodup := by
  refine ⟨fun x => ?_, nodup_visitFields fs [] [] 0⟩
  have := mem_visit (.struct fs) false [] [] x
  simpa [visit, visitExportedFields] using this

theorem foldl_pathExt_ne (is : List FieldInfo) : ∀ path : Bytes, path ≠ [] →
    is.foldl pathExt path = path ++ ((is.filter (!·.anon)).map (dot :: ·.name)).flatten := by
  induction is with
  | nil => intro path _; simp
  | cons f is ih =>
    intro path hp
    rw [List.foldl_cons]
    cases ha : f.anon with
    | true => simp [pathExt, ha, ih path hp]
    | false =>
      rw [ih _ (by simp [pathExt, ha, hp])]
      simp [pathExt, ha, hp]

theorem intercalate_cons_flatten (s a : Bytes) (l : List Bytes) :
    s.intercalate (a :: l) = a ++ (l.map (s ++ ·)).flatten := by
  induction l generalizing a with
  | nil => simp [List.intercalate]
  | cons b l ih =>
    have : s.intercalate (a :: b :: l) = a ++ (s ++ s.intercalate (b :: l)) := by simp [List.intercalate, List.intersperse]
    rw [this, ih]; simp

/-- **C54** (path).  The path is made of the names of the fields passed that are not embedded, joined with dots. -/
theorem C54_path (is : List FieldInfo) (hn : ∀ f ∈ is, f.name ≠ []) :
    is.foldl pathExt [] = [dot].intercalate ((is.filter (!·.anon)).map (·.name)) := by
  induction is with
  | nil => rfl
  | cons f is ih =>
    rw [List.foldl_cons]
    cases ha : f.anon with
    | true => simpa [pathExt, ha] using ih (fun g hg => hn g (by simp [hg]))
    | false =>
      have hf : f.name ≠ [] := hn f (by simp)
      have : pathExt [] f = f.name := by simp [pathExt, ha]
      rw [this, foldl_pathExt_ne is _ hf]
      simp [ha, intercalate_cons_flatten]
      rfl

theorem visible_append_deref : ∀ (p : List Step) (md : Bool) (v x : Val) (is : List FieldInfo) (i : Nat),
    visible md v (p ++ [.field i]) = some is → v.get (p ++ [.field i]) = some (.ptr x) →
    visible md v (p ++ [.field i, .deref]) = some is ∧ v.get (p ++ [.field i, .deref]) = some x
  | [], md, v, x, is, i, hv, hg => by
    cases v <;> simp [Val.get] at hg
    rename_i fs
    simp only [List.nil_append] at hv ⊢
    rw [visible_cons_struct] at hv ⊢
    rw [get_cons_struct]
    split at hg
    · rename_i f w hj
      simp at hg
      subst hg
      rw [hj] at hv
      simp [visible_nil] at hv
      simp [hv.1, visible, Val.get, hv.2, get_nil]
    · simp at hg
  | s :: p, md, v, x, is, i, hv, hg => by
    cases v <;> simp only [List.cons_append] at hv hg ⊢ <;> (try (simp [Val.get] at hg; done))
    · cases s <;> simp [Val.get] at hg
      cases md <;> simp [visible] at hv
      simpa [visible, Val.get] using visible_append_deref p false _ x is i hv hg
    · cases s
      · rename_i fs j
        rw [get_cons_struct] at hg ⊢
        rw [visible_cons_struct] at hv ⊢
        split at hg
        · rename_i f w hj
          rw [hj] at hv
          simp at hv
          obtain ⟨he, is', hv, rfl⟩ := hv
          have := visible_append_deref p true w x is' i hv hg
          simp [he, this]
        · simp at hg
      · simp [Val.get] at hg

/-- **C54** (after initialisation).  After `initStruct` the visitor is called for every field reached through exported
fields whose type is supported or a pointer to a supported type: no such field is missed because its pointer is nil. -/
theorem C54_after_init (env : Nat → Ty) (fuel : Nat) (w : Val) (fs : Fields) (h : initStruct env fuel w = some (.struct fs))
    (loc : List Step) (i : Nat) (is : List FieldInfo) (hv : visible false (.struct fs) (loc ++ [.field i]) = some is) :
    (∀ n, (Val.struct fs).get (loc ++ [.field i]) ≠ some (.nil n)) ∧
    (∀ k nm val, (Val.struct fs).get (loc ++ [.field i]) = some (.basic k nm val) →
      ⟨is.foldl pathExt [], loc ++ [.field i], k, nm⟩ ∈ visitExportedFields (.struct fs)) ∧
    (∀ k nm val, (Val.struct fs).get (loc ++ [.field i]) = some (.ptr (.basic k nm val)) →
      ⟨is.foldl pathExt [], loc ++ [.field i, .deref], k, nm⟩ ∈ visitExportedFields (.struct fs)) := by
  refine ⟨fun n => C53_alloc_partial env fuel w _ h loc i is n hv, fun k nm val hg => ?_, fun k nm val hg => ?_⟩
  · exact ((C54_visit fs).1 _).2 ⟨_, is, k, nm, val, hv, hg, rfl⟩
  · obtain ⟨h1, h2⟩ := visible_append_deref loc false _ _ is i hv hg
    exact ((C54_visit fs).1 _).2 ⟨_, is, k, nm, val, h1, h2, rfl⟩

example : (visitExportedFields (.struct (.cons ⟨[65], true, false, {}⟩ (.ptr (.basic .int false 0))
    (.cons ⟨[98], false, false, {}⟩ (.basic .int false 0) (.cons ⟨[67], true, false, {}⟩
      (.struct (.cons ⟨[69], true, true, {}⟩ (.struct (.cons ⟨[68], true, false, {}⟩ (.basic .bool false 5) .nil)) .nil)) .nil))))) =
    [⟨[65], [.field 0, .deref], .int, false⟩, ⟨[67, 46, 68], [.field 2, .field 0, .field 0], .bool, false⟩] := by decide

/-! ## C56 -/

/-- The value has a nil pointer to type number `m` in a field reached through exported fields. -/
def Needs (v : Val) (m : Nat) : Prop := ∃ loc i is, visible false v (loc ++ [.field i]) = some is ∧
  v.get (loc ++ [.field i]) = some (.nil m)

/-- A new variable of type number `n` has such a pointer. -/
def NeedsTy (env : Nat → Ty) (m n : Nat) : Prop := Needs (zero (env n)) m

/-- The same for a part of a value. -/
def NeedsQ (v : Val) (m : Nat) : Prop := ∃ loc is, visible true v loc = some is ∧ v.get loc = some (.nil m) ∧ ¬ endsDeref loc

theorem not_endsDeref_cons {s : Step} {p : List Step} (h : ¬ endsDeref (s :: p)) (hp : p ≠ []) : ¬ endsDeref p := by
  cases p with
  | nil => simp at hp
  | cons t p => rwa [endsDeref_cons] at h

theorem needs_iff (v : Val) (m : Nat) : Needs v m ↔ ∃ loc is, visible false v loc = some is ∧ v.get loc = some (.nil m) ∧
    ¬ endsDeref loc ∧ loc ≠ [] := by
  constructor
  · rintro ⟨loc, i, is, hv, hg⟩
    exact ⟨_, is, hv, hg, by simp [endsDeref], by simp⟩
  · rintro ⟨loc, is, hv, hg, he, hn⟩
    rcases List.eq_nil_or_concat loc with rfl | ⟨l, s, rfl⟩
    · simp at hn
    · cases s with
      | deref => simp [endsDeref] at he
      | field i => exact ⟨l, i, is, by simpa using hv, by simpa using hg⟩

theorem needs_struct (fs : Fields) (m : Nat) : Needs (.struct fs) m ↔
    ∃ i f w, fs.get? i = some (f, w) ∧ f.exported = true ∧ NeedsQ w m := by
  rw [needs_iff]
  constructor
  · rintro ⟨loc, is, hv, hg, he, hn⟩
    match loc with
    | [] => simp at hn
    | .deref :: p => simp [Val.get] at hg
    | .field i :: p =>
      rw [get_cons_struct] at hg
      rw [visible_cons_struct] at hv
      split at hg
      rotate_left
      · simp at hg
      rename_i f w hj
      rw [hj] at hv
      simp at hv
      obtain ⟨hx, is', hv, rfl⟩ := hv
      refine ⟨i, f, w, hj, hx, p, is', hv, hg, fun hh => he ?_⟩
      cases p with
      | nil => simp [endsDeref] at hh
      | cons t p => exact endsDeref_cons.2 hh
  · rintro ⟨i, f, w, hj, hx, p, is, hv, hg, he⟩
    refine ⟨.field i :: p, f :: is, ?_, ?_, fun hh => he (endsDeref_field hh), by simp⟩
    · rw [visible_cons_struct, hj]; simp [hx, hv]
    · rw [get_cons_struct, hj]; exact hg

theorem needs_not_struct {v : Val} (hv : ∀ fs, v ≠ .struct fs) (m : Nat) : ¬ Needs v m := by
  rw [needs_iff]
  rintro ⟨loc, is, hi, hg, he, hn⟩
  match loc with
  | [] => simp at hn
  | .deref :: p => cases v <;> simp [visible] at hi
  | .field i :: p => cases v <;> simp_all [Val.get]

theorem needsQ_nil (n m : Nat) : NeedsQ (.nil n) m ↔ m = n := by
  constructor
  · rintro ⟨loc, is, hv, hg, -⟩
    match loc with
    | [] => simp [get_nil] at hg; exact hg.symm
    | _ :: _ => simp [Val.get] at hg
  · rintro rfl
    exact ⟨[], [], visible_nil _ _, get_nil _, by simp [endsDeref]⟩

theorem needsQ_ptr (w : Val) (m : Nat) : NeedsQ (.ptr w) m ↔ Needs w m := by
  rw [needs_iff]
  constructor
  · rintro ⟨loc, is, hv, hg, he⟩
    match loc with
    | [] => simp [get_nil] at hg
    | .field _ :: _ => simp [Val.get] at hg
    | .deref :: p =>
      by_cases hp : p = []
      · subst hp; simp [endsDeref] at he
      · exact ⟨p, is, hv, hg, not_endsDeref_cons he hp, hp⟩
  · rintro ⟨loc, is, hv, hg, he, hn⟩
    refine ⟨.deref :: loc, is, hv, hg, fun hh => ?_⟩
    rcases endsDeref_deref hh with rfl | hh
    · exact hn rfl
    · exact he hh

theorem needsQ_val {v : Val} (h1 : ∀ n, v ≠ .nil n) (h2 : ∀ w, v ≠ .ptr w) (m : Nat) : NeedsQ v m ↔ Needs v m := by
  rw [needs_iff]
  constructor
  · rintro ⟨loc, is, hv, hg, he⟩
    match loc with
    | [] => simp [get_nil] at hg; exact absurd hg (h1 m)
    | .deref :: p => cases v <;> simp_all [Val.get]
    | .field i :: p =>
      refine ⟨.field i :: p, is, ?_, hg, he, by simp⟩
      cases v <;> simp [Val.get] at hg
      rw [visible_cons_struct] at hv ⊢
      exact hv
  · rintro ⟨loc, is, hv, hg, he, hn⟩
    refine ⟨loc, is, ?_, hg, he⟩
    match loc with
    | [] => simp at hn
    | .deref :: p => cases v <;> simp_all [Val.get]
    | .field i :: p =>
      cases v <;> simp [Val.get] at hg
      rw [visible_cons_struct] at hv ⊢
      exact hv

theorem init_acc (env : Nat → Ty) (fuel : Nat) (v v' : Val) (h : initStruct env fuel v = some v') :
    ∀ m, Needs v m → Acc (NeedsTy env) m := by
  refine (init_induction (P := fun v _ => ∀ m, Needs v m → Acc (NeedsTy env) m)
    (Q := fun v _ => ∀ m, NeedsQ v m → Acc (NeedsTy env) m) ?_ ?_ ?_ ?_ ?_ fuel).1 v v' h
  · exact fun v hv m hm => absurd hm (needs_not_struct hv m)
  · intro fs fs' hi m hm
    obtain ⟨i, f, w, hj, he, hq⟩ := (needs_struct fs m).1 hm
    obtain ⟨w', -, h1 | h1⟩ := (hi i).1 f w hj
    · exact h1.2 m hq
    · simp [he] at h1
  · intro n w ih m hm
    rw [needsQ_nil] at hm
    subst hm
    exact ⟨_, fun k hk => ih k hk⟩
  · exact fun w w' ih m hm => ih m ((needsQ_ptr w m).1 hm)
  · exact fun v v' h1 h2 _ _ ih m hm => ih m ((needsQ_val h1 h2 m).1 hm)

/-- Initialisation ends for every large enough `fuel`. -/
def Ends (env : Nat → Ty) (v : Val) : Prop := ∃ k, ∀ fuel ≥ k, ∃ v', initStruct env fuel v = some v'

def EndsQ (env : Nat → Ty) (v : Val) : Prop := ∃ k, ∀ fuel ≥ k, ∃ v', initPtrValue env fuel true v = some v'

theorem initPtrValue_false_ends (env : Nat → Ty) (fuel : Nat) (v : Val) : initPtrValue env (fuel + 1) false v = some v := by
  cases v <;> simp [initPtrValue, initElem]

theorem ends_leaf (env : Nat → Ty) {v : Val} (hv : ∀ fs, v ≠ .struct fs) : Ends env v :=
  ⟨0, fun fuel _ => ⟨v, by cases v <;> simp_all [initStruct, initElem]⟩⟩

theorem endsQ_ptr {env : Nat → Ty} {w : Val} (h : Ends env w) : EndsQ env (.ptr w) := by
  obtain ⟨k, hk⟩ := h
  refine ⟨k + 1, fun fuel hf => ?_⟩
  obtain ⟨fuel, rfl⟩ : ∃ g, fuel = g + 1 := ⟨fuel - 1, by omega⟩
  obtain ⟨v', hv⟩ := hk fuel (by omega)
  exact ⟨.ptr v', by simp only [initStruct] at hv; simp [initPtrValue, hv]⟩

theorem endsQ_nil {env : Nat → Ty} {n : Nat} (h : Ends env (zero (env n))) : EndsQ env (.nil n) := by
  obtain ⟨k, hk⟩ := h
  refine ⟨k + 1, fun fuel hf => ?_⟩
  obtain ⟨fuel, rfl⟩ : ∃ g, fuel = g + 1 := ⟨fuel - 1, by omega⟩
  obtain ⟨v', hv⟩ := hk fuel (by omega)
  exact ⟨.ptr v', by simp only [initStruct] at hv; simp [initPtrValue, hv]⟩

theorem endsQ_val {env : Nat → Ty} {v : Val} (h1 : ∀ n, v ≠ .nil n) (h2 : ∀ w, v ≠ .ptr w) (h : Ends env v) :
    EndsQ env v := by
  obtain ⟨k, hk⟩ := h
  refine ⟨k + 1, fun fuel hf => ?_⟩
  obtain ⟨fuel, rfl⟩ : ∃ g, fuel = g + 1 := ⟨fuel - 1, by omega⟩
  obtain ⟨v', hv⟩ := hk fuel (by omega)
  exact ⟨v', by simp only [initStruct] at hv; cases v <;> simp_all [initPtrValue]⟩

mutual
theorem ends_of : ∀ (env : Nat → Ty) (v : Val), (∀ m, Needs v m → Ends env (zero (env m))) → Ends env v
  | env, .basic .., _ => ends_leaf env (by simp)
  | env, .other _, _ => ends_leaf env (by simp)
  | env, .nil _, _ => ends_leaf env (by simp)
  | env, .ptr _, _ => ends_leaf env (by simp)
  | env, .struct fs, h => by
    obtain ⟨k, hk⟩ := endsFields_of env fs (fun i f w hi he m hq => h m ((needs_struct fs m).2 ⟨i, f, w, hi, he, hq⟩))
    refine ⟨k, fun fuel hf => ?_⟩
    obtain ⟨fs', hs⟩ := hk fuel hf
    exact ⟨.struct fs', by simp [initStruct, initElem, hs]⟩

theorem endsQ_of : ∀ (env : Nat → Ty) (v : Val), (∀ m, NeedsQ v m → Ends env (zero (env m))) → EndsQ env v
  | env, .basic .., h => endsQ_val (by simp) (by simp) (ends_leaf env (by simp))
  | env, .other _, h => endsQ_val (by simp) (by simp) (ends_leaf env (by simp))
  | env, .nil n, h => endsQ_nil (h n ((needsQ_nil n n).2 rfl))
  | env, .ptr w, h => endsQ_ptr (ends_of env w (fun m hm => h m ((needsQ_ptr w m).2 hm)))
  | env, .struct fs, h => endsQ_val (by simp) (by simp) (by
    obtain ⟨k, hk⟩ := endsFields_of env fs (fun i f w hi he m hq => h m ((needsQ_val (by simp) (by simp) m).2
      ((needs_struct fs m).2 ⟨i, f, w, hi, he, hq⟩)))
    refine ⟨k, fun fuel hf => ?_⟩
    obtain ⟨fs', hs⟩ := hk fuel hf
    exact ⟨.struct fs', by simp [initStruct, initElem, hs]⟩)

theorem endsFields_of : ∀ (env : Nat → Ty) (fs : Fields),
    (∀ i f w, fs.get? i = some (f, w) → f.exported = true → ∀ m, NeedsQ w m → Ends env (zero (env m))) →
    ∃ k, ∀ fuel ≥ k, ∃ fs', initFields (initPtrValue env fuel) fs = some fs'
  | env, .nil, _ => ⟨0, fun fuel _ => ⟨.nil, rfl⟩⟩
  | env, .cons f v fs, h => by
    obtain ⟨k1, h1⟩ := endsFields_of env fs (fun i g w hi => h (i + 1) g w hi)
    cases he : f.exported with
    | true =>
      obtain ⟨k2, h2⟩ := endsQ_of env v (fun m hq => h 0 f v rfl he m hq)
      refine ⟨k1 + k2, fun fuel hf => ?_⟩
      obtain ⟨fs', hs⟩ := h1 fuel (by omega)
      obtain ⟨v', hv⟩ := h2 fuel (by omega)
      exact ⟨.cons f v' fs', by simp [initFields, he, hv, hs]⟩
    | false =>
      refine ⟨k1 + 1, fun fuel hf => ?_⟩
      obtain ⟨fs', hs⟩ := h1 fuel (by omega)
      obtain ⟨fuel, rfl⟩ : ∃ g, fuel = g + 1 := ⟨fuel - 1, by omega⟩
      exact ⟨.cons f v fs', by simp [initFields, he, initPtrValue_false_ends, hs]⟩
end

theorem ends_acc (env : Nat → Ty) (n : Nat) (h : Acc (NeedsTy env) n) : Ends env (zero (env n)) := by
  induction h with
  | intro n _ ih => exact ends_of env _ ih

/-- **C56**, exactly.  `initStruct` terminates if and only if there is no infinite chain of types, each of which has an
exported pointer field to the next one, starting at a nil pointer field of the value. -/
theorem C56_partial (env : Nat → Ty) (v : Val) :
    (∃ fuel v', initStruct env fuel v = some v') ↔ ∀ m, Needs v m → Acc (NeedsTy env) m := by
  constructor
  · rintro ⟨fuel, v', h⟩
    exact init_acc env fuel v v' h
  · intro h
    obtain ⟨k, hk⟩ := ends_of env v (fun m hm => ends_acc env m (h m hm))
    exact ⟨k, hk k (Nat.le_refl _)⟩

/-- `type Node struct { Next *Node }` -/
def nodeEnv : Nat → Ty := fun _ => .struct (.cons ⟨[78], true, false, {}⟩ (.ptr 0) .nil)

/-- **C56** does not hold: `initStruct` never returns for a struct with an exported pointer to its own type. -/
theorem C56_violated : ∀ fuel, initStruct nodeEnv fuel (zero (nodeEnv 0)) = none := by
  intro fuel
  cases hh : initStruct nodeEnv fuel (zero (nodeEnv 0)) with
  | none => rfl
  | some v' =>
    exfalso
    have hn : NeedsTy nodeEnv 0 0 := ⟨[], 0, [⟨[78], true, false, {}⟩], by
      simp [nodeEnv, zero, zeroFields, visible, Fields.get?], by simp [nodeEnv, zero, zeroFields, Val.get, Fields.get?]⟩
    have hacc := init_acc nodeEnv fuel _ v' hh 0 hn
    have : ∀ n, Acc (NeedsTy nodeEnv) n → n ≠ 0 := by
      intro n ha
      induction ha with
      | intro n _ ih =>
        rintro rfl
        exact ih 0 hn rfl
    exact this 0 hacc rfl

/-- Non-vacuity of `C56_partial`: types that refer to smaller numbers only. -/
example (env : Nat → Ty) (hr : ∀ n m, Needs (zero (env n)) m → m < n) (v : Val) : ∃ fuel v', initStruct env fuel v = some v' :=
  (C56_partial env v).2 fun m _ =>
    Subrelation.accessible (fun {_ _} h => hr _ _ h) (Nat.lt_wfRel.wf.apply m)

end Gears.Conf
