import Verif.Conf.Merge

/-
C156, continued: files with merge keys compared with the files with aliases and merge keys written out (`Out`).
-/

namespace Gears.Conf.Yaml.Merge

open Gears.Str (ascii)

/-! ## Files whose merge keys do what they should -/

/-- A scalar that is not null. -/
def Plain (L : Lib) : Node → Prop
  | .scalar str s => scalarRes L str s ≠ .null
  | _ => False

def Mem (k : Key) (n : Node) : Entries → Prop
  | .nil => False
  | .cons k' n' es => (k = k' ∧ n = n') ∨ Mem k n es

/-- Keys of both are names, and have scalars as values, not null. -/
def Easy (L : Lib) (A B : Entries) : Prop := ∀ k n k' n', Mem k n A → Mem k' n' B → sameKey k k' = true →
  Plain L n ∧ Plain L n' ∧ keyText L k' ≠ .skip

mutual
/-- As `Out`, for files in which `<<` is always the first key, and `Easy` for what is merged and what overrides it. -/
inductive OutS (L : Lib) (tgt : Nat → XNode) : XNode → Node → Prop where
  | scalar {str s} : OutS L tgt (.scalar str s) (.scalar str s)
  | seq {ns} : OutS L tgt (.seq ns) (.seq ns.length)
  | ref {id n} : OutS L tgt (tgt id) n → OutS L tgt (.ref id) n
  | own {es B} : OwnS L tgt es B → OutS L tgt (.map es) (.map B)
  | map {k n es A B} : isMerge k = true → ValueS L tgt n A → OwnS L tgt es B → Easy L A B →
      OutS L tgt (.map (.cons k n es)) (.map (override A B))

inductive OwnS (L : Lib) (tgt : Nat → XNode) : XEntries → Entries → Prop where
  | nil : OwnS L tgt .nil .nil
  | cons {k n n' es B} : isMerge k = false → OutS L tgt n n' → OwnS L tgt es B → OwnS L tgt (.cons k n es) (.cons k n' B)

inductive ValueS (L : Lib) (tgt : Nat → XNode) : XNode → Entries → Prop where
  | one {n A} : mergeable tgt n = true → OutS L tgt n (.map A) → ValueS L tgt n A
  | list {ns A} : ListS L tgt ns A → ValueS L tgt (.seq ns) A

inductive ListS (L : Lib) (tgt : Nat → XNode) : XNodes → Entries → Prop where
  | nil : ListS L tgt .nil .nil
  | cons {n ns A B} : mergeable tgt n = true → OutS L tgt n (.map B) → ListS L tgt ns A → Easy L A B →
      ListS L tgt (.cons n ns) (override A B)
end

/-- They are written out as `Out` says. -/
theorem outS_out {L : Lib} {tgt : Nat → XNode} {x : XNode} {n : Node} (h : OutS L tgt x n) : Out tgt x n := by
  refine OutS.rec (motive_1 := fun x n _ => Out tgt x n) (motive_2 := fun es B _ => Own tgt es B ∧ Merged tgt es .nil)
    (motive_3 := fun n A _ => ∀ k es, isMerge k = true → Merged tgt (.cons k n es) A) (motive_4 := fun ns A _ => MergedList tgt ns A)
    ?_ ?_ ?_ ?_ ?_ ?_ ?_ ?_ ?_ ?_ ?_ h
  · intro str s; exact .scalar
  · intro ns; exact .seq
  · intro id n _ h; exact .ref h
  · intro es B _ h; exact Out.map (A := .nil) h.1 h.2
  · intro k n es A B hk _ _ _ h1 h2; exact .map (.merge hk h2.1) (h1 k es hk)
  · exact ⟨.nil, .nil⟩
  · intro k n n' es B hk _ _ h1 h2; exact ⟨.cons hk h1 h2.1, .other hk h2.2⟩
  · intro n A hm _ h k es hk; exact .one hk hm h
  · intro ns A _ h k es hk; exact .list hk h
  · exact .nil
  · intro n ns A B hm _ _ _ h1 h2; exact .cons hm h1 h2

/-! ## Lemmas: a scalar after a scalar -/

theorem setScalar_twice {L : Lib} (ho : ∀ str s a b, L.oth (.scalar str s) a = L.oth (.scalar str s) b) {a b : Bool} {s t : Bytes}
    {w w1 w2 : Val} (hl : Leaf w) (h1 : setScalar L a s w = .done w1 false) (h2 : setScalar L b t w1 = .done w2 false) :
    Leaf w1 ∧ setScalar L b t w = .done w2 false := by
  cases w with
  | ptr => exact hl.elim
  | nil => exact hl.elim
  | struct fs => simp [setScalar] at h1
  | basic k nm x =>
    simp only [setScalar] at h1
    split at h1 <;> simp at h1
    subst h1
    refine ⟨trivial, ?_⟩
    simp only [setScalar] at h2 ⊢
    split at h2 <;> simp at h2
    simp [h2]
  | other x =>
    simp only [setScalar, ofOther] at h1
    split at h1 <;> simp at h1
    subst h1
    refine ⟨trivial, ?_⟩
    rename_i y _
    simp only [setScalar, ofOther, ho b t x y] at h2 ⊢
    split at h2 <;> simp at h2
    simp [h2]

theorem intoNil_twice {L : Lib} (ho : ∀ str s a b, L.oth (.scalar str s) a = L.oth (.scalar str s) b) {env : Nat → Ty} {fuel : Nat}
    {a b : Bool} {s t : Bytes} : ∀ (c n : Nat) (w1 w2 : Val), intoNil env (setScalar L a s) c n = .done w1 false →
    into env fuel (setScalar L b t) w1 = .done w2 false → intoNil env (setScalar L b t) c n = .done w2 false
  | 0, n, w1, w2, h1, h2 => by simp [intoNil] at h1
  | c + 1, n, w1, w2, h1, h2 => by
    simp only [intoNil] at h1 ⊢
    have hz := zero_not_ptr (env n)
    cases hv : zero (env n) with
    | nil m =>
      simp only [hv] at h1 ⊢
      obtain ⟨u, hu, rfl⟩ := map_done h1
      simp only [into] at h2
      obtain ⟨u2, hu2, rfl⟩ := map_done h2
      rw [intoNil_twice ho c m u u2 hu hu2]; rfl
    | ptr w => exact absurd hv (hz w)
    | basic k nm x =>
      simp only [hv] at h1 ⊢
      obtain ⟨u, hu, rfl⟩ := map_done h1
      simp only [into] at h2
      obtain ⟨u2, hu2, rfl⟩ := map_done h2
      have hlu : Leaf u := by
        simp only [setScalar] at hu
        split at hu <;> simp at hu
        rw [← hu]; trivial
      rw [into_leaf hlu] at hu2
      rw [(setScalar_twice ho (show Leaf (.basic k nm x) from trivial) hu hu2).2]; rfl
    | other x =>
      simp only [hv] at h1 ⊢
      obtain ⟨u, hu, rfl⟩ := map_done h1
      simp only [into] at h2
      obtain ⟨u2, hu2, rfl⟩ := map_done h2
      have hlu : Leaf u := by
        simp only [setScalar, ofOther] at hu
        split at hu <;> simp at hu
        rw [← hu]; trivial
      rw [into_leaf hlu] at hu2
      rw [(setScalar_twice ho (show Leaf (.other x) from trivial) hu hu2).2]; rfl
    | struct fs =>
      simp only [hv] at h1
      obtain ⟨u, hu, rfl⟩ := map_done h1
      simp [setScalar] at hu

theorem into_twice {L : Lib} (ho : ∀ str s a b, L.oth (.scalar str s) a = L.oth (.scalar str s) b) {env : Nat → Ty} {fuel : Nat}
    {a b : Bool} {s t : Bytes} : ∀ (w w1 w2 : Val), into env fuel (setScalar L a s) w = .done w1 false →
    into env fuel (setScalar L b t) w1 = .done w2 false → into env fuel (setScalar L b t) w = .done w2 false
  | .ptr w, w1, w2, h1, h2 => by
    simp only [into] at h1 ⊢
    obtain ⟨u, hu, rfl⟩ := map_done h1
    simp only [into] at h2
    obtain ⟨u2, hu2, rfl⟩ := map_done h2
    rw [into_twice ho w u u2 hu hu2]; rfl
  | .nil n, w1, w2, h1, h2 => intoNil_twice ho fuel n w1 w2 h1 h2
  | .basic k nm x, w1, w2, h1, h2 => by
    have hl : Leaf (.basic k nm x) := trivial
    rw [into_leaf hl] at h1 ⊢
    have hlu : Leaf w1 := by
      simp only [setScalar] at h1
      split at h1 <;> simp at h1
      rw [← h1]; trivial
    rw [into_leaf hlu] at h2
    exact (setScalar_twice ho hl h1 h2).2
  | .other x, w1, w2, h1, h2 => by
    have hl : Leaf (.other x) := trivial
    rw [into_leaf hl] at h1 ⊢
    have hlu : Leaf w1 := by
      simp only [setScalar, ofOther] at h1
      split at h1 <;> simp at h1
      rw [← h1]; trivial
    rw [into_leaf hlu] at h2
    exact (setScalar_twice ho hl h1 h2).2
  | .struct fs, w1, w2, h1, h2 => by simp [into, setScalar] at h1

theorem plain_twice {L : Lib} (ho : ∀ str s a b, L.oth (.scalar str s) a = L.oth (.scalar str s) b) {env : Nat → Ty} {fuel : Nat}
    {n m : Node} (hn : Plain L n) (hm : Plain L m) {w w1 w2 : Val} (h1 : decode L env fuel n w = .done w1 false)
    (h2 : decode L env fuel m w1 = .done w2 false) : decode L env fuel m w = .done w2 false := by
  cases n with
  | seq => exact hn.elim
  | map => exact hn.elim
  | scalar a s =>
    cases m with
    | seq => exact hm.elim
    | map => exact hm.elim
    | scalar b t =>
      simp only [decode, if_neg hn, if_neg hm] at h1 h2 ⊢
      exact into_twice ho w w1 w2 h1 h2

theorem plain_ro {L : Lib} {n : Node} (hn : Plain L n) (w : Val) : readOnly L n w = .panic := by
  cases n with
  | seq => exact hn.elim
  | map => exact hn.elim
  | scalar a s =>
    have h : scalarRes L a s ≠ .null := hn
    simp [readOnly, Node.isNull, h]

/-! ## Lemmas: overriding -/

/-- The first entry for a name has a scalar, not null. -/
def First (L : Lib) (s : Bytes) : Entries → Prop
  | .nil => False
  | .cons k n es => (keyText L k = .name s ∧ Plain L n) ∨ (keyText L k ≠ .name s ∧ First L s es)

/-- One entry. -/
theorem entries_cons {L : Lib} {env : Nat → Ty} {fuel : Nat} {k : Key} {n : Node} {es : Entries} {l : List Info} {v : Val} :
    decodeEntries L env fuel (.cons k n es) l v =
      match keyText L k with
      | .skip => decodeEntries L env fuel es l v
      | .bad => (decodeEntries L env fuel es l v).orErr true
      | .name s =>
        match l.find? (·.key = s) with
        | none => decodeEntries L env fuel es l v
        | some i => Dec.bind (modify (if i.ro then readOnly L n else decode L env fuel n) i.path v) (decodeEntries L env fuel es l) := by
  rw [decodeEntries]
  cases keyText L k with
  | skip => rfl
  | bad => rfl
  | name s =>
    cases hf : l.find? (·.key = s) with
    | none => rfl
    | some i =>
      simp only [hf]
      cases modify (if i.ro then readOnly L n else decode L env fuel n) i.path v <;> rfl

/-- A scalar for a field makes no difference when another follows. -/
theorem drop_scalar {L : Lib} (ho : ∀ str s a b, L.oth (.scalar str s) a = L.oth (.scalar str s) b) {env : Nat → Ty} {fuel : Nat}
    {l : List Info} {s : Bytes} {i : Info} (hi : l.find? (·.key = s) = some i) (hr : i.ro = false) {n : Node} (hn : Plain L n) :
    ∀ (C : Entries), First L s C → ∀ (v w w1 v' : Val), With L l v → v.get i.path = some w → decode L env fuel n w = .done w1 false →
      decodeEntries L env fuel C l (put i.path w1 v) = .done v' false → decodeEntries L env fuel C l v = .done v' false
  | .nil, hF, v, w, w1, v', hw, hg, hd, h => hF.elim
  | .cons k m C, hF, v, w, w1, v', hw, hg, hd, h => by
    rw [entries_cons] at h ⊢
    rcases hF with ⟨hk, hm⟩ | ⟨hk, hF⟩
    · simp only [hk, hi, hr, Bool.false_eq_true, if_false] at h ⊢
      obtain ⟨v2, h1, h2⟩ := bind_eq_ok h
      rw [modify_eq (get_put hg)] at h1
      obtain ⟨w2, h3, rfl⟩ := map_done h1
      rw [modify_eq hg, plain_twice ho hn hm hd h3]
      simp only [Dec.map, Dec.bind, orErr_false]
      rw [put_put] at h2
      exact h2
    · have ih := drop_scalar (env := env) (fuel := fuel) ho hi hr hn C hF
      cases hkt : keyText L k with
      | skip => simp only [hkt] at h ⊢; exact ih v w w1 v' hw hg hd h
      | bad =>
        simp only [hkt] at h
        obtain ⟨e, -, he⟩ := orErr_done h
        simp at he
      | name t =>
        have hts : t ≠ s := fun e => hk (by rw [hkt, e])
        simp only [hkt] at h ⊢
        cases hj : l.find? (·.key = t) with
        | none => simp only [hj] at h ⊢; exact ih v w w1 v' hw hg hd h
        | some j =>
          simp only [hj] at h ⊢
          obtain ⟨him, hik⟩ := find_mem hi
          obtain ⟨hjm, hjk⟩ := find_mem hj
          have hne : i ≠ j := fun e => hts (by rw [← hjk, ← hik, e])
          have hap := apart_of_ne (infosV_apart L _ l (infos_ok hw.2).1) him hjm hne
          obtain ⟨u, hu⟩ := with_get hw hjm
          obtain ⟨v2, h1, h2⟩ := bind_eq_ok h
          rw [modify_eq (w := u) (by rw [get_put_apart hap.1 hap.2]; exact hu)] at h1
          obtain ⟨u2, h3, rfl⟩ := map_done h1
          rw [modify_eq hu, h3]
          simp only [Dec.map, Dec.bind, orErr_false]
          rw [put_comm hap.2 hap.1] at h2
          exact ih _ w w1 v' (with_put hw hjm u2) (by rw [get_put_apart hap.2 hap.1]; exact hg) hd h2

theorem has_append (k : Key) (B : Entries) : ∀ A : Entries, (append A B).has k = (A.has k || B.has k)
  | .nil => by simp [append, Entries.has]
  | .cons k' n A => by simp [append, Entries.has, has_append k B A, Bool.or_assoc]

theorem has_without (k : Key) (B : Entries) : ∀ A : Entries, (without B A).has k = true → A.has k = true
  | .nil, h => by simp [without, Entries.has] at h
  | .cons k' n A, h => by
    simp only [without] at h
    split at h
    · simp [Entries.has, has_without k B A h]
    · simp only [Entries.has, Bool.or_eq_true] at h ⊢
      exact h.imp_right (has_without k B A)

theorem dup_override {B : Entries} (hB : B.dup = false) : ∀ A : Entries, A.dup = false → (override A B).dup = false
  | .nil, _ => by simpa [override, without, append] using hB
  | .cons k n A, h => by
    simp [Entries.dup] at h
    have ih := dup_override hB A h.2
    simp only [override, without]
    split
    · exact ih
    · rename_i hk
      simp only [append, Entries.dup, has_append]
      have h1 : (without B A).has k = false := by
        cases e : (without B A).has k with
        | false => rfl
        | true => rw [has_without k B A e] at h; simp at h
      simp [h1, hk, override] at ih ⊢
      exact ih

theorem sameKey_name {L : Lib} {k k' : Key} {s : Bytes} (h : keyText L k = .name s) (h' : keyText L k' = .name s) : sameKey k k' = true := by
  cases k <;> cases k' <;> simp only [keyText] at h h' <;> try contradiction
  split at h <;> simp at h
  split at h' <;> simp at h'
  simp [sameKey, h, h']

theorem sameKey_comm (k k' : Key) : sameKey k k' = sameKey k' k := by
  cases k <;> cases k' <;> simp [sameKey, eq_comm]

theorem sameKey_trans {a b c : Key} (h : sameKey a b = true) (h' : sameKey b c = true) : sameKey a c = true := by
  cases a <;> cases b <;> simp [sameKey] at h <;> cases c <;> simp [sameKey] at h' ⊢
  exact h.trans h'

theorem has_mem {k : Key} : ∀ {B : Entries}, B.has k = true → ∃ k' n', Mem k' n' B ∧ sameKey k k' = true
  | .nil, h => by simp [Entries.has] at h
  | .cons k' n' B, h => by
    simp only [Entries.has, Bool.or_eq_true] at h
    rcases h with h | h
    · exact ⟨k', n', .inl ⟨rfl, rfl⟩, h⟩
    · obtain ⟨k2, n2, h1, h2⟩ := has_mem h
      exact ⟨k2, n2, .inr h1, h2⟩

theorem mem_has {k k' : Key} {n' : Node} (hs : sameKey k k' = true) : ∀ {B : Entries}, Mem k' n' B → B.has k = true
  | .nil, h => h.elim
  | .cons k2 n2 B, h => by
    simp only [Entries.has, Bool.or_eq_true]
    rcases h with ⟨rfl, rfl⟩ | h
    · exact .inl hs
    · exact .inr (mem_has hs h)

theorem first_mem {L : Lib} {k : Key} {n : Node} {s : Bytes} (hk : keyText L k = .name s) (hn : Plain L n) : ∀ {B : Entries}, B.dup = false →
    Mem k n B → First L s B
  | .nil, _, h => h.elim
  | .cons k' n' B, hd, h => by
    simp [Entries.dup] at hd
    rcases h with ⟨rfl, rfl⟩ | h
    · exact .inl ⟨hk, hn⟩
    · refine .inr ⟨fun e => ?_, first_mem hk hn hd.2 h⟩
      rw [mem_has (sameKey_name e hk) h] at hd
      simp at hd

theorem first_append {L : Lib} {B : Entries} {k' : Key} {n' : Node} {s : Bytes} (hm : Mem k' n' B) (hk : keyText L k' = .name s)
    (hF : First L s B) : ∀ A : Entries, First L s (append (without B A) B)
  | .nil => hF
  | .cons k n A => by
    simp only [without]
    split
    · exact first_append hm hk hF A
    · rename_i h
      refine .inr ⟨fun e => h (mem_has (sameKey_name e hk) hm), first_append hm hk hF A⟩

/-- Entries and then others do the same as all of them, where those of both are only there once. -/
theorem entries_override {L : Lib} (ho : ∀ str s a b, L.oth (.scalar str s) a = L.oth (.scalar str s) b) {env : Nat → Ty} {fuel : Nat}
    {l : List Info} {B : Entries} (hB : B.dup = false) : ∀ (A : Entries), A.dup = false → Easy L A B → ∀ (v v1 v' : Val), With L l v →
      decodeEntries L env fuel A l v = .done v1 false → decodeEntries L env fuel B l v1 = .done v' false →
      decodeEntries L env fuel (override A B) l v = .done v' false
  | .nil, _, _, v, v1, v', hw, h1, h2 => by
    simp [decodeEntries] at h1; subst h1
    simpa [override, without, append] using h2
  | .cons k n A, hA, hE, v, v1, v', hw, h1, h2 => by
    simp [Entries.dup] at hA
    have ih := entries_override (env := env) (fuel := fuel) (l := l) ho hB A hA.2 (fun k1 n1 k2 n2 hm => hE k1 n1 k2 n2 (.inr hm))
    simp only [override, without]
    split
    · rename_i hk
      obtain ⟨k', n', hm, hs⟩ := has_mem hk
      obtain ⟨hn, hn', hk'⟩ := hE k n k' n' (.inl ⟨rfl, rfl⟩) hm hs
      rw [entries_cons] at h1
      cases hkt : keyText L k with
      | skip => simp only [hkt] at h1; exact ih v v1 v' hw h1 h2
      | bad =>
        simp only [hkt] at h1
        obtain ⟨e, -, he⟩ := orErr_done h1
        simp at he
      | name s =>
        simp only [hkt] at h1
        cases hi : l.find? (·.key = s) with
        | none => simp only [hi] at h1; exact ih v v1 v' hw h1 h2
        | some i =>
          simp only [hi] at h1
          obtain ⟨v2, h3, h4⟩ := bind_eq_ok h1
          obtain ⟨w, hg⟩ := with_get hw (find_mem hi).1
          rw [modify_eq hg] at h3
          obtain ⟨w1, h5, rfl⟩ := map_done h3
          have hr : i.ro = false := by
            cases e : i.ro with
            | false => rfl
            | true => simp [e, plain_ro hn] at h5
          simp only [hr, Bool.false_eq_true, if_false] at h5
          have hk2 : keyText L k' = .name s := by
            cases k <;> cases k' <;> simp only [keyText] at hkt hk' ⊢ <;> try contradiction
            split at hkt <;> simp at hkt
            split at hk'
            · exact absurd rfl hk'
            · rename_i hz; simp [sameKey] at hs; subst hs; subst hkt; simp [hz]
          exact drop_scalar ho hi hr hn _ (first_append hm hk2 (first_mem hk2 hn' hB hm) A) v w w1 v' hw hg h5
            (ih _ v1 v' (with_put hw (find_mem hi).1 w1) h4 h2)
    · simp only [append]
      rw [entries_cons] at h1 ⊢
      cases hkt : keyText L k with
      | skip => simp only [hkt] at h1 ⊢; exact ih v v1 v' hw h1 h2
      | bad =>
        simp only [hkt] at h1
        obtain ⟨e, -, he⟩ := orErr_done h1
        simp at he
      | name s =>
        simp only [hkt] at h1 ⊢
        cases hi : l.find? (·.key = s) with
        | none => simp only [hi] at h1 ⊢; exact ih v v1 v' hw h1 h2
        | some i =>
          simp only [hi] at h1 ⊢
          obtain ⟨v2, h3, h4⟩ := bind_eq_ok h1
          rw [h3]
          simp only [Dec.bind, orErr_false]
          exact ih v2 v1 v' (modify_with hw (find_mem hi).1 h3) h4 h2

/-! ## Lemmas: accepted files -/

theorem xmap_done {d : XDec} {f : Val → Val} {v' : Val} {e : Bool} (h : d.map f = .done v' e) : ∃ v, d = .done v e ∧ f v = v' := by
  cases d <;> simp [XDec.map] at h
  exact ⟨_, by rw [h.2], h.1⟩

theorem xbind_ok {d : XDec} {f : Val → XDec} {v' : Val} (h : d.bind f = .done v' false) : ∃ v1, d = .done v1 false ∧ f v1 = .done v' false := by
  cases d <;> simp [XDec.bind] at h
  rename_i v e
  cases hf : f v <;> simp [hf, XDec.orErr] at h
  obtain ⟨rfl, h1, h2⟩ := h
  exact ⟨v, by rw [h1], by rw [hf, h2]⟩

theorem xintoNil_ok {env : Nat → Ty} {f : Val → XDec} {g : Val → Dec} (h : ∀ w w', Leaf w → f w = .done w' false → g w = .done w' false) :
    ∀ (fuel n : Nat) (v' : Val), xintoNil env f fuel n = .done v' false → intoNil env g fuel n = .done v' false
  | 0, n, v', hd => by simp [xintoNil] at hd
  | fuel + 1, n, v', hd => by
    simp only [xintoNil, intoNil] at hd ⊢
    have hz := zero_not_ptr (env n)
    cases hv : zero (env n) with
    | nil m =>
      simp only [hv] at hd ⊢
      obtain ⟨u, hu, rfl⟩ := xmap_done hd
      rw [xintoNil_ok h fuel m u hu]; rfl
    | ptr w => exact absurd hv (hz w)
    | basic k nm x => simp only [hv] at hd ⊢; obtain ⟨u, hu, rfl⟩ := xmap_done hd; rw [h (.basic k nm x) u trivial hu]; rfl
    | other x => simp only [hv] at hd ⊢; obtain ⟨u, hu, rfl⟩ := xmap_done hd; rw [h (.other x) u trivial hu]; rfl
    | struct fs => simp only [hv] at hd ⊢; obtain ⟨u, hu, rfl⟩ := xmap_done hd; rw [h (.struct fs) u trivial hu]; rfl

theorem xinto_ok {env : Nat → Ty} {fuel : Nat} {f : Val → XDec} {g : Val → Dec}
    (h : ∀ w w', Leaf w → f w = .done w' false → g w = .done w' false) : ∀ (v v' : Val), xinto env fuel f v = .done v' false →
    into env fuel g v = .done v' false
  | .ptr w, v', hd => by
    simp only [xinto, into] at hd ⊢
    obtain ⟨u, hu, rfl⟩ := xmap_done hd
    rw [xinto_ok h w u hu]; rfl
  | .nil n, v', hd => xintoNil_ok h fuel n v' hd
  | .basic .., v', hd => h _ _ trivial hd
  | .other .., v', hd => h _ _ trivial hd
  | .struct .., v', hd => h _ _ trivial hd

theorem xmodify_ok {f : Val → XDec} {g : Val → Dec} (h : ∀ w w', f w = .done w' false → g w = .done w' false) : ∀ (p : List Step) (v v' : Val),
    xmodify f p v = .done v' false → modify g p v = .done v' false
  | [], v, v', hd => h v v' hd
  | .field i :: p, v, v', hd => by
    cases v <;> simp only [xmodify, modify] at hd ⊢ <;> try contradiction
    rename_i fs
    cases hi : fs.get? i with
    | none => simp [hi] at hd
    | some x =>
      simp only [hi] at hd ⊢
      obtain ⟨u, hu, rfl⟩ := xmap_done hd
      rw [xmodify_ok h p _ u hu]; rfl
  | .deref :: p, v, v', hd => by
    cases v <;> simp only [xmodify, modify] at hd ⊢ <;> try contradiction
    obtain ⟨u, hu, rfl⟩ := xmap_done hd
    rw [xmodify_ok h p _ u hu]; rfl

theorem ownS_has {L : Lib} {tgt : Nat → XNode} (k : Key) : ∀ {es : XEntries} {B : Entries}, OwnS L tgt es B → B.has k = es.has k
  | .nil, _, h => by cases h; rfl
  | .cons k' n es, _, h => by
    cases h with
    | cons hk h1 h2 => simp [Entries.has, XEntries.has, ownS_has k h2]

theorem ownS_dup {L : Lib} {tgt : Nat → XNode} : ∀ {es : XEntries} {B : Entries}, OwnS L tgt es B → B.dup = es.dup
  | .nil, _, h => by cases h; rfl
  | .cons k' n es, _, h => by
    cases h with
    | cons hk h1 h2 => simp [Entries.dup, XEntries.dup, ownS_has _ h2, ownS_dup h2]

/-- A mapping for a struct. -/
theorem decode_with {L : Lib} {env : Nat → Ty} {fuel : Nat} {l : List Info} {A : Entries} {v v' : Val} (hw : With L l v)
    (h : decode L env fuel (.map A) v = .done v' false) : A.dup = false ∧ decodeEntries L env fuel A l v = .done v' false := by
  obtain ⟨⟨fs, rfl⟩, hi⟩ := hw
  rw [decode_map, into_leaf (show Leaf (.struct fs) from trivial)] at h
  simp only [mapBody, hi] at h
  split at h
  · simp at h
  · rename_i hd; exact ⟨by simpa using hd, h⟩

theorem xmapping_ok {L : Lib} {env : Nat → Ty} {fuel : Nat} {d : Bool} {rest : List Info → Val → XDec} {B : Entries} (hd : d = false → B.dup = false)
    (h : d = false → ∀ l v v', With L l v → rest l v = .done v' false → decodeEntries L env fuel B l v = .done v' false) (w w' : Val) (hl : Leaf w)
    (hx : xmapping L d rest w = .done w' false) : mapBody L env fuel B w = .done w' false := by
  cases w with
  | ptr => exact hl.elim
  | nil => exact hl.elim
  | basic k nm x => simp [xmapping] at hx
  | other x => simp [xmapping] at hx
  | struct fs =>
    simp only [xmapping, mapBody] at hx ⊢
    cases e : d with
    | true => simp [e] at hx
    | false =>
      simp only [e, hd e, Bool.false_eq_true, if_false] at hx ⊢
      cases hi : infos L (.struct fs) with
      | panic => simp [hi] at hx
      | unknown => simp [hi] at hx
      | ok l => simp only [hi] at hx ⊢; exact h e l _ _ ⟨⟨fs, rfl⟩, hi⟩ hx

theorem xmerge_xdec {L : Lib} {env : Nat → Ty} {fuel : Nat} {tgt : Nat → XNode} {fol : List Nat → Nat → Val → XDec} {act : List Nat} {n : XNode}
    (h : mergeable tgt n = true) (v : Val) : xmerge L env fuel tgt fol act n v = xdec L env fuel tgt fol act n v := by
  cases n <;> simp [mergeable] at h <;> simp [xmerge, xdec, h]

theorem outS_ok {L : Lib} (ho : ∀ str s a b, L.oth (.scalar str s) a = L.oth (.scalar str s) b) {env : Nat → Ty} {fuel : Nat}
    {tgt : Nat → XNode} {x : XNode} {n : Node} (h : OutS L tgt x n) : ∀ F act v v',
    xdec L env fuel tgt (follow L env fuel tgt F) act x v = .done v' false → decode L env fuel n v = .done v' false := by
  refine OutS.rec
    (motive_1 := fun x n _ => ∀ F act v v', xdec L env fuel tgt (follow L env fuel tgt F) act x v = .done v' false →
      decode L env fuel n v = .done v' false)
    (motive_2 := fun es B _ => ∀ F act l v v', With L l v → xentries L env fuel tgt (follow L env fuel tgt F) act es l v = .done v' false →
      decodeEntries L env fuel B l v = .done v' false)
    (motive_3 := fun n A _ => ∀ F act l v v', With L l v → xmerge L env fuel tgt (follow L env fuel tgt F) act n v = .done v' false →
      A.dup = false ∧ decodeEntries L env fuel A l v = .done v' false)
    (motive_4 := fun ns A _ => ∀ F act l v v', With L l v → xmergeAll L env fuel tgt (follow L env fuel tgt F) act ns v = .done v' false →
      A.dup = false ∧ decodeEntries L env fuel A l v = .done v' false)
    ?_ ?_ ?_ ?_ ?_ ?_ ?_ ?_ ?_ ?_ ?_ h
  · intro str s F act v v' h
    simp only [xdec] at h
    cases hd : decode L env fuel (.scalar str s) v <;> simp [hd, ofDec] at h
    rw [h.1, h.2]
  · intro ns F act v v' h
    simp only [xdec] at h
    simp only [decode]
    refine xinto_ok (fun w w' hl hw => ?_) v v' h
    cases w <;> simp at hw
  · intro id n _ ih F act v v' h
    simp only [xdec] at h
    split at h
    · simp at h
    · cases F with
      | zero => simp [follow] at h
      | succ F => exact ih F _ v v' h
  · intro es B ho' ih F act v v' h
    simp only [xdec] at h
    rw [decode_map]
    exact xinto_ok (xmapping_ok (fun hd => by rw [ownS_dup ho', hd]) (fun _ l v v' hw hx => ih F act l v v' hw hx)) v v' h
  · intro k n es A B hk _ ho' hE ihA ihB F act v v' h
    simp only [xdec] at h
    rw [decode_map]
    have key : (XEntries.cons k n es).dup = false → ∀ l v v', With L l v →
        xentries L env fuel tgt (follow L env fuel tgt F) act (.cons k n es) l v = .done v' false →
        B.dup = false ∧ A.dup = false ∧ decodeEntries L env fuel (override A B) l v = .done v' false := by
      intro hd l v v' hw hx
      simp [XEntries.dup] at hd
      simp only [xentries, hk, if_true] at hx
      obtain ⟨v1, h1, h2⟩ := xbind_ok hx
      obtain ⟨h3, h4⟩ := ihA F act l v v1 hw h1
      have hB : B.dup = false := by rw [ownS_dup ho', hd.2]
      exact ⟨hB, h3, entries_override ho hB A h3 hE v v1 v' hw h4 (ihB F act l v1 v' (entries_with hw h4) h2)⟩
    refine xinto_ok (fun w w' hl hx => ?_) v v' h
    cases w with
    | ptr => exact hl.elim
    | nil => exact hl.elim
    | basic k nm x => simp [xmapping] at hx
    | other x => simp [xmapping] at hx
    | struct fs =>
      simp only [xmapping, mapBody] at hx ⊢
      cases e : (XEntries.cons k n es).dup with
      | true => simp [e] at hx
      | false =>
        simp only [e, Bool.false_eq_true, if_false] at hx
        cases hi : infos L (.struct fs) with
        | panic => simp [hi] at hx
        | unknown => simp [hi] at hx
        | ok l =>
          simp only [hi] at hx
          obtain ⟨h1, h2, h3⟩ := key e l _ _ ⟨⟨fs, rfl⟩, hi⟩ hx
          simp only [dup_override h1 A h2, Bool.false_eq_true, if_false]
          exact h3
  · intro F act l v v' hw h
    simpa [xentries, decodeEntries] using h
  · intro k n n' es B hk _ _ ih1 ih2 F act l v v' hw h
    rw [entries_cons]
    simp only [xentries, hk, Bool.false_eq_true, if_false] at h
    cases hkt : keyText L k with
    | skip => simp only [hkt] at h ⊢; exact ih2 F act l v v' hw h
    | bad =>
      simp only [hkt] at h
      cases hx : xentries L env fuel tgt (follow L env fuel tgt F) act es l v <;> simp [hx, XDec.orErr] at h
    | name s =>
      simp only [hkt] at h ⊢
      cases hi : l.find? (·.key = s) with
      | none => simp only [hi] at h ⊢; exact ih2 F act l v v' hw h
      | some i =>
        simp only [hi] at h ⊢
        obtain ⟨v1, h1, h2⟩ := xbind_ok h
        cases hr : i.ro with
        | true => simp [hr] at h1
        | false =>
          simp only [hr, Bool.false_eq_true, if_false] at h1 ⊢
          have h3 := xmodify_ok (fun w w' hx => ih1 F act w w' hx) i.path v v1 h1
          rw [h3]
          simp only [Dec.bind, orErr_false]
          exact ih2 F act l v1 v' (modify_with hw (find_mem hi).1 h3) h2
  · intro n A hm _ ih F act l v v' hw h
    rw [xmerge_xdec hm] at h
    exact decode_with hw (ih F act v v' h)
  · intro ns A _ ih F act l v v' hw h
    simp only [xmerge] at h
    exact ih F act l v v' hw h
  · intro F act l v v' hw h
    simpa [xmergeAll, decodeEntries, Entries.dup] using h
  · intro n ns A B hm _ _ hE ihB ihA F act l v v' hw h
    simp only [xmergeAll, hm, if_true] at h
    obtain ⟨v1, h1, h2⟩ := xbind_ok h
    obtain ⟨h3, h4⟩ := ihA F act l v v1 hw h1
    obtain ⟨h5, h6⟩ := decode_with (entries_with hw h4) (ihB F act v1 v' h2)
    exact ⟨dup_override h5 A h3, entries_override ho h5 A h3 hE v v1 v' hw h4 h6⟩

/-- **C156**, for files in which `<<` is the first key of its mapping and values that are overridden, and those overriding them, are
scalars that are not null: such a file, if it is accepted, gives the struct the values of the file with aliases and merge keys written
out.  Not so in general (`C156_violated`, `C156_deep_violated`, `C156_null_violated`). -/
theorem C156_merge_partial (L : Lib) (env : Nat → Ty) (fuel : Nat) (tgt : Nat → XNode) (F : Nat) (x : XNode) (n : Node) (v v' : Val)
    (ho : ∀ str s a b, L.oth (.scalar str s) a = L.oth (.scalar str s) b) (h : OutS L tgt x n)
    (hx : xunmarshal L env fuel tgt F x v = .done v' false) : decode L env fuel n v = .done v' false :=
  outS_ok ho h F [] v v' hx

/-! ## Where merge keys do something else -/

/-- `name: …` -/
def key (s : String) : Key := .scalar false (ascii s)
def num (s : String) : Node := .scalar false (ascii s)
def xnum (s : String) : XNode := .scalar false (ascii s)

/-- `struct { A int; D struct { H, P int } }` -/
def exV (a h p : Int) : Val :=
  .struct (.cons ⟨ascii "A", true, false, {}⟩ (.basic .int false a)
    (.cons ⟨ascii "D", true, false, {}⟩ (.struct
      (.cons ⟨ascii "H", true, false, {}⟩ (.basic .int false h) (.cons ⟨ascii "P", true, false, {}⟩ (.basic .int false p) .nil))) .nil))

/-- `a: 1`, `<<: {a: 2}` -/
def orderFile : XNode := .map (.cons (key "a") (xnum "1") (.cons (key "<<") (.map (.cons (key "a") (xnum "2") .nil)) .nil))

/-- `<<: {d: {h: 1, p: 2}}`, `d: {h: 3}` -/
def deepFile : XNode := .map (.cons (key "<<")
  (.map (.cons (key "d") (.map (.cons (key "h") (xnum "1") (.cons (key "p") (xnum "2") .nil))) .nil))
  (.cons (key "d") (.map (.cons (key "h") (xnum "3") .nil)) .nil))

/-- `<<: {a: 1}`, `a: ~` -/
def nullFile : XNode := .map (.cons (key "<<") (.map (.cons (key "a") (xnum "1") .nil)) (.cons (key "a") (xnum "~") .nil))

theorem out_entry {tgt : Nat → XNode} {k : Key} {n : XNode} {n' : Node} (hk : isMerge k = false) (h : Out tgt n n') :
    Out tgt (.map (.cons k n .nil)) (.map (.cons k n' .nil)) :=
  Out.map (A := .nil) (.cons hk h .nil) (.other hk .nil)

/-- The value merged by `<<` after a key wins over the value for the key. -/
theorem C156_violated : ¬ C156Claim := by
  intro h
  have h1 := h exLib (fun _ => .other) 1 (fun _ => .seq .nil) 0 orderFile (.map (.cons (key "a") (num "1") .nil)) (exV 0 0 0) (exV 2 0 0)
    (fun _ _ _ _ => rfl)
    (Out.map (A := .cons (key "a") (num "2") .nil) (B := .cons (key "a") (num "1") .nil)
      (.cons (by decide) .scalar (.merge (by decide) .nil))
      (.other (by decide) (.one (by decide) rfl (out_entry (by decide) .scalar)))) rfl
  have h2 : decode exLib (fun _ => .other) 1 (.map (.cons (key "a") (num "1") .nil)) (exV 0 0 0) = .done (exV 1 0 0) false := rfl
  rw [h2] at h1
  simp [exV] at h1

/-- A mapping for a key is joined with the mapping merged for it: `p` is 2, although `d` is given as `{h: 3}`. -/
theorem C156_deep_violated : ∃ n, Out (fun _ => .seq .nil) deepFile n ∧
    xunmarshal exLib (fun _ => .other) 1 (fun _ => .seq .nil) 0 deepFile (exV 0 0 0) = .done (exV 0 3 2) false ∧
    decode exLib (fun _ => .other) 1 n (exV 0 0 0) = .done (exV 0 3 0) false :=
  ⟨.map (.cons (key "d") (.map (.cons (key "h") (num "3") .nil)) .nil),
    Out.map (A := .cons (key "d") (.map (.cons (key "h") (num "1") (.cons (key "p") (num "2") .nil))) .nil)
      (B := .cons (key "d") (.map (.cons (key "h") (num "3") .nil)) .nil)
      (.merge (by decide) (.cons (by decide) (out_entry (by decide) .scalar) .nil))
      (.one (by decide) rfl (out_entry (by decide) (Out.map (A := .nil) (.cons (by decide) .scalar (.cons (by decide) .scalar .nil))
        (.other (by decide) (.other (by decide) .nil))))), rfl, rfl⟩

/-- A null does not override what is merged: `a` is 1. -/
theorem C156_null_violated : ∃ n, Out (fun _ => .seq .nil) nullFile n ∧
    xunmarshal exLib (fun _ => .other) 1 (fun _ => .seq .nil) 0 nullFile (exV 0 0 0) = .done (exV 1 0 0) false ∧
    decode exLib (fun _ => .other) 1 n (exV 0 0 0) = .done (exV 0 0 0) false :=
  ⟨.map (.cons (key "a") (num "~") .nil),
    Out.map (A := .cons (key "a") (num "1") .nil) (B := .cons (key "a") (num "~") .nil)
      (.merge (by decide) (.cons (by decide) .scalar .nil)) (.one (by decide) rfl (out_entry (by decide) .scalar)), rfl, rfl⟩

/-! ## Files that contain themselves -/

mutual
/-- The aliases have numbers below `N`. -/
def Below (N : Nat) : XNode → Prop
  | .scalar _ _ => True
  | .seq ns => BelowN N ns
  | .map es => BelowE N es
  | .ref id => id < N

def BelowN (N : Nat) : XNodes → Prop
  | .nil => True
  | .cons n ns => Below N n ∧ BelowN N ns

def BelowE (N : Nat) : XEntries → Prop
  | .nil => True
  | .cons _ n es => Below N n ∧ BelowE N es
end

section
variable {L : Lib} {env : Nat → Ty} {fuel : Nat} {tgt : Nat → XNode} {f g : List Nat → Nat → Val → XDec} {act : List Nat} {N : Nat}

mutual
theorem xdec_congr (h : ∀ id, id < N → id ∉ act → ∀ v, f (id :: act) id v = g (id :: act) id v) : ∀ (x : XNode), Below N x → ∀ v,
    xdec L env fuel tgt f act x v = xdec L env fuel tgt g act x v
  | .scalar str s, hb, v => by simp only [xdec]
  | .seq ns, hb, v => by simp only [xdec]
  | .ref id, hb, v => by
    simp only [xdec]
    split
    · rfl
    · rename_i hi; exact h id (by simpa [Below] using hb) hi v
  | .map es, hb, v => by
    have : xentries L env fuel tgt f act es = xentries L env fuel tgt g act es := by
      funext l v; exact xentries_congr h es (by simpa [Below] using hb) l v
    simp only [xdec, this]

theorem xentries_congr (h : ∀ id, id < N → id ∉ act → ∀ v, f (id :: act) id v = g (id :: act) id v) : ∀ (es : XEntries), BelowE N es → ∀ l v,
    xentries L env fuel tgt f act es l v = xentries L env fuel tgt g act es l v
  | .nil, hb, l, v => by simp only [xentries]
  | .cons k n es, hb, l, v => by
    simp only [BelowE] at hb
    have h1 : xentries L env fuel tgt f act es = xentries L env fuel tgt g act es := by
      funext l v; exact xentries_congr h es hb.2 l v
    have h2 : xdec L env fuel tgt f act n = xdec L env fuel tgt g act n := by
      funext v; exact xdec_congr h n hb.1 v
    have h3 : xmerge L env fuel tgt f act n = xmerge L env fuel tgt g act n := by
      funext v; exact xmerge_congr h n hb.1 v
    simp only [xentries, h1, h2, h3]

theorem xmerge_congr (h : ∀ id, id < N → id ∉ act → ∀ v, f (id :: act) id v = g (id :: act) id v) : ∀ (x : XNode), Below N x → ∀ v,
    xmerge L env fuel tgt f act x v = xmerge L env fuel tgt g act x v
  | .scalar str s, hb, v => by simp only [xmerge]
  | .seq ns, hb, v => by
    simp only [xmerge]
    exact xmergeAll_congr h ns (by simpa [Below] using hb) v
  | .ref id, hb, v => by
    simp only [xmerge]
    split
    · split
      · rfl
      · rename_i hi; exact h id (by simpa [Below] using hb) hi v
    · rfl
  | .map es, hb, v => by
    have : xentries L env fuel tgt f act es = xentries L env fuel tgt g act es := by
      funext l v; exact xentries_congr h es (by simpa [Below] using hb) l v
    simp only [xmerge, this]

theorem xmergeAll_congr (h : ∀ id, id < N → id ∉ act → ∀ v, f (id :: act) id v = g (id :: act) id v) : ∀ (ns : XNodes), BelowN N ns → ∀ v,
    xmergeAll L env fuel tgt f act ns v = xmergeAll L env fuel tgt g act ns v
  | .nil, hb, v => by simp only [xmergeAll]
  | .cons n ns, hb, v => by
    simp only [BelowN] at hb
    have h2 : xdec L env fuel tgt f act n = xdec L env fuel tgt g act n := by
      funext v; exact xdec_congr h n hb.1 v
    simp only [xmergeAll, h2, xmergeAll_congr h ns hb.2 v]
end
end

theorem few : ∀ (N : Nat) (l : List Nat), l.Nodup → (∀ a ∈ l, a < N) → l.length ≤ N
  | 0, l, _, h => by
    cases l with
    | nil => simp
    | cons a l => exact absurd (h a (by simp)) (by omega)
  | N + 1, l, hn, h => by
    have h1 := few N (l.erase N) (hn.erase N) (fun a ha => by
      have h2 := h a (List.mem_of_mem_erase ha)
      have h3 : a ≠ N := fun e => by subst e; exact (hn.mem_erase_iff.1 ha).1 rfl
      omega)
    rw [List.length_erase] at h1
    split at h1 <;> omega

theorem follow_ends (L : Lib) (env : Nat → Ty) (fuel : Nat) (tgt : Nat → XNode) (N : Nat) (hb : ∀ id, Below N (tgt id)) : ∀ (F : Nat) (act : List Nat),
    act.Nodup → (∀ a ∈ act, a < N) → N + 1 ≤ F + act.length → ∀ id v, follow L env fuel tgt F act id v = follow L env fuel tgt (F + 1) act id v
  | 0, act, hn, ha, hF, id, v => by
    have := few N act hn ha
    omega
  | F + 1, act, hn, ha, hF, id, v => by
    rw [follow, follow]
    refine xdec_congr (N := N) (fun id' hi hm v => ?_) (tgt id) (hb id) v
    refine follow_ends L env fuel tgt N hb F (id' :: act) (List.nodup_cons.2 ⟨hm, hn⟩) (fun a h => ?_) (by simp; omega) id' v
    rcases List.mem_cons.1 h with rfl | h
    · exact hi
    · exact ha a h

/-- **C156**: decoding ends for every file, also for one that contains itself: with `N` aliases never more than `N` are inside each
other, since an alias inside itself is refused. -/
theorem C156_ends (L : Lib) (env : Nat → Ty) (fuel : Nat) (tgt : Nat → XNode) (N : Nat) (hb : ∀ id, Below N (tgt id)) (x : XNode) (hx : Below N x)
    (v : Val) : ∀ F, N ≤ F → xunmarshal L env fuel tgt F x v = xunmarshal L env fuel tgt N x v := by
  intro F hF
  obtain ⟨d, rfl⟩ : ∃ d, F = N + d := ⟨F - N, by omega⟩
  clear hF
  induction d with
  | zero => rfl
  | succ d ih =>
    rw [← ih]
    refine (xdec_congr (N := N) (fun id hi _ v => ?_) x hx v).symm
    exact follow_ends L env fuel tgt N hb (N + d) [id] (by simp) (by simpa using hi) (by simp) id v

/-- A mapping that merges itself is refused, not followed for ever. -/
theorem C156_circle (L : Lib) (env : Nat → Ty) (fuel : Nat) (tgt : Nat → XNode) (id : Nat) (k : Key) (es : XEntries) (hk : isMerge k = true)
    (ht : tgt id = .map (.cons k (.ref id) es)) (hd : (XEntries.cons k (.ref id) es).dup = false) (fs : Fields) (l : List Info)
    (hl : infos L (.struct fs) = .ok l) (F : Nat) : xunmarshal L env fuel tgt (F + 1) (tgt id) (.struct fs) = .fatal := by
  have hm : (tgt id).isMap = true := by rw [ht]; rfl
  have h1 : follow L env fuel tgt (F + 1) [id] id (.struct fs) = .fatal := by
    rw [follow, ht]
    simp only [xdec, xinto, xmapping, hd, hl, xentries, hk, xmerge, hm, Bool.false_eq_true, if_false, if_true, List.mem_singleton, XDec.bind]
  unfold xunmarshal
  rw [ht]
  simp only [xdec, xinto, xmapping, hd, hl, xentries, hk, xmerge, hm, Bool.false_eq_true, if_false, if_true, List.not_mem_nil, h1, XDec.bind]

/-! ## Examples -/

/-- `d: &x {h: 1, p: 2}`: number 0 -/
def exTgt : Nat → XNode := fun _ => .map (.cons (key "h") (xnum "1") (.cons (key "p") (xnum "2") .nil))

/-- `d: {<<: *x, p: 3}` -/
def exFileX : XNode := .map (.cons (key "d") (.map (.cons (key "<<") (.ref 0) (.cons (key "p") (xnum "3") .nil))) .nil)

example : xunmarshal exLib (fun _ => .other) 1 exTgt 1 exFileX (exV 0 0 0) = .done (exV 0 1 3) false := rfl

example : lay exTgt (layN exTgt 1) exFileX = some ((lay exTgt (layN exTgt 1) exFileX).getD []) := rfl

/-- The file of `C156_merge_partial`. -/
example : OutS exLib exTgt exFileX (.map (.cons (key "d") (.map (.cons (key "h") (num "1") (.cons (key "p") (num "3") .nil))) .nil)) := by
  refine .own (.cons (by decide) ?_ .nil)
  refine OutS.map (A := .cons (key "h") (num "1") (.cons (key "p") (num "2") .nil)) (B := .cons (key "p") (num "3") .nil) (by decide)
    (.one rfl (.ref (.own (.cons (by decide) .scalar (.cons (by decide) .scalar .nil))))) (.cons (by decide) .scalar .nil) ?_
  rintro k n k' n' h1 h2 h3
  simp only [Mem, or_false] at h1 h2
  obtain ⟨rfl, rfl⟩ := h2
  have e : scalarRes exLib false (ascii "3") = .int 3 := by decide +kernel
  have e2 : scalarRes exLib false (ascii "2") = .int 2 := by decide +kernel
  have e3 : scalarRes exLib false (ascii "p") = .str := by decide +kernel
  rcases h1 with ⟨rfl, rfl⟩ | ⟨rfl, rfl⟩
  · exact absurd h3 (by decide)
  · refine ⟨?_, ?_, ?_⟩
    · simp [Plain, num, e2]
    · simp [Plain, num, e]
    · simp [key, keyText, e3]

/-- `&x {<<: *x}` -/
example : xunmarshal exLib (fun _ => .other) 1 (fun _ => .map (.cons (key "<<") (.ref 0) .nil)) 5 (.map (.cons (key "<<") (.ref 0) .nil)) (exV 0 0 0) =
    .fatal := rfl

example : Copy (fun _ => .scalar false (ascii "7")) (.map (.cons (key "a") (.ref 0) .nil)) (.map (.cons (key "a") (num "7") .nil)) :=
  .map (.cons (by decide) (.ref .scalar) .nil)

end Gears.Conf.Yaml.Merge
