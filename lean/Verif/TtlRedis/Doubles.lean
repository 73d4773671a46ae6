import Verif.TtlRedis.LuaSpec

/-
C128: the numbers of the scripts are doubles, and redis keeps times in 64 bits.

`ieee` is the arithmetic of Lua 5.1 in redis on the numbers that occur: decimal texts are rounded to 53 bits, results of `-` and `*` are rounded,
and a number becomes an argument of `redis.call` through `%.17g`.
-/

namespace Gears.TtlRedis.Lua

/-! ## Doubles -/

/-- A natural number rounded to 53 bits, ties to even. -/
def rndNat (n : Nat) : Nat :=
  if n < 2 ^ 53 then n
  else
    let k := n.log2 - 52
    let q := n / 2 ^ k
    let r := n % 2 ^ k
    (if 2 * r < 2 ^ k ∨ (2 * r = 2 ^ k ∧ q % 2 = 0) then q else q + 1) * 2 ^ k

def rndInt (z : Int) : Int := if z < 0 then -(rndNat z.natAbs : Int) else rndNat z.natAbs

/-- The digits without the zeros at their end. -/
def trimZeros (s : Str) : Str := (s.reverse.dropWhile (· = '0')).reverse

/-- `%.17g` of a number of 18 digits or more: `d.ddde+XX` with 17 digits, rounded, without zeros at the end. -/
def sci (n : Nat) : Str :=
  let e := (natDec n).length - 1
  let d := 10 ^ (e - 16)
  let q := n / d
  let m := if 2 * (n % d) < d ∨ (2 * (n % d) = d ∧ q % 2 = 0) then q else q + 1
  let me := if m = 10 ^ 17 then (10 ^ 16, e + 1) else (m, e)
  let ds := trimZeros (natDec me.1)
  ds.take 1 ++ (if ds.length ≤ 1 then [] else '.' :: ds.drop 1) ++ "e+".toList ++ natDec me.2

/-- `%.17g` -/
def gText (z : Int) : Str :=
  if z.natAbs < 10 ^ 17 then dec z else (if z < 0 then ['-'] else []) ++ sci z.natAbs

/-- Numbers of Lua as redis handles them. -/
def ieee : Arith := ⟨fun s => (signed s).map rndInt, fun a b => rndInt (a - b), fun a b => rndInt (a * b), gText⟩

example : ieee.read "9007199254740993".toList = some 9007199254740992 := by decide
example : ieee.text (rndInt 9223372036854775807) = "9.2233720368547758e+18".toList := by decide +kernel
example : ieee.text 100000000000000000 = "1e+17".toList := by decide +kernel
example : ieee.text 1700000000 = "1700000000".toList := by decide +kernel

theorem rndNat_exact (n : Nat) (h : n ≤ 2 ^ 53) : rndNat n = n := by
  by_cases hn : n < 2 ^ 53
  · unfold rndNat; rw [if_pos hn]
  · have : n = 2 ^ 53 := by omega
    subst this
    decide

theorem rndInt_exact (z : Int) (h1 : -2 ^ 53 ≤ z) (h2 : z ≤ 2 ^ 53) : rndInt z = z := by
  unfold rndInt
  rw [rndNat_exact _ (by omega)]
  split <;> omega

/-- So the laws of C105 hold. -/
theorem ieee_exact : ieee.Exact where
  total n := ⟨rndInt n, by simp [ieee, signed_dec]⟩
  read n h1 h2 := by simp [ieee, signed_dec, rndInt_exact n h1 h2]
  sub a b h1 h2 := rndInt_exact _ h1 h2
  mul a b h1 h2 := rndInt_exact _ h1 h2
  text n h1 h2 := by
    show gText n = dec n
    unfold gText
    rw [if_pos (by omega)]

/-! ## Times beyond 64 bits -/

theorem rndNat_ge (n : Nat) (h : 10 ^ 16 ≤ n) : 9223372036854776 ≤ rndNat n := by
  by_cases hn : n < 2 ^ 53
  · unfold rndNat; rw [if_pos hn]; omega
  · unfold rndNat
    rw [if_neg hn]
    simp only
    have h0 : n ≠ 0 := by omega
    have hlog : 2 ^ n.log2 ≤ n := Nat.log2_self_le h0
    have hk : 52 ≤ n.log2 := by
      rw [Nat.le_log2 h0]; omega
    have hpow : 2 ^ n.log2 = 2 ^ (n.log2 - 52) * 2 ^ 52 := by
      rw [← Nat.pow_add]; congr 1; omega
    generalize 2 ^ (n.log2 - 52) = d at *
    have hd : 0 < d := by
      rcases Nat.eq_zero_or_pos d with h | h
      · subst h; simp at hpow
      · exact h
    have hq := Nat.div_add_mod n d
    have hm := Nat.mod_lt n hd
    have hle : n / d * d ≤ (if 2 * (n % d) < d ∨ 2 * (n % d) = d ∧ n / d % 2 = 0 then n / d else n / d + 1) * d :=
      Nat.mul_le_mul_right _ (by split <;> omega)
    rw [Nat.mul_comm d] at hq
    rw [hpow] at hlog
    omega

/-- A text with a letter is not a number for redis. -/
theorem digits_bad : ∀ (s : Str) (acc : Nat), 'e' ∈ s → digits acc s = none
  | [], _, h => by simp at h
  | c :: s, acc, h => by
    unfold digits
    split
    · rename_i hd
      refine digits_bad s _ ?_
      rcases List.mem_cons.1 h with rfl | h
      · exact absurd hd (by decide)
      · exact h
    · rfl

theorem undec_bad (s : Str) (h : 'e' ∈ s) : undec s = none := by
  have hs : signed s = none := by
    unfold signed
    split
    · rename_i r
      rw [digits_bad r 0 (by simpa using h)]; rfl
    · rw [digits_bad _ 0 h]; rfl
  unfold undec
  rw [hs]

theorem sci_e (n : Nat) : 'e' ∈ sci n := by
  unfold sci
  simp

/-- The text of a huge number of seconds: `SET` and `EXPIRE` refuse it. -/
theorem huge_refused (n t : Int) (hn : 10 ^ 16 ≤ n) (ht : 0 ≤ t) :
    undec (gText (rndInt n)) = none ∨ ∃ m, undec (gText (rndInt n)) = some m ∧ tooFar t m = true := by
  have h1 : 9223372036854776 ≤ rndInt n := by
    have := rndNat_ge n.natAbs (by omega)
    unfold rndInt
    rw [if_neg (by omega)]
    omega
  generalize rndInt n = m at h1
  unfold gText
  split
  · right
    refine ⟨m, undec_dec m, ?_⟩
    unfold tooFar
    rw [decide_eq_true_eq]
    omega
  · left
    exact undec_bad _ (List.mem_append_right _ (sci_e _))

/-! ## Without blocks -/

/-- No string is stored. -/
def NoStr (db : RDb) : Prop := ∀ k s w, db k ≠ some ⟨.str s, w⟩

theorem noStr_live {db : RDb} (h : NoStr db) (t : Int) (k s : Str) (w : Option Int) : rlive db t k ≠ some ⟨.str s, w⟩ := by
  intro hl
  unfold rlive at hl
  split at hl
  · simp at hl
  · rename_i e he
    split at hl
    · simp at hl; subst hl; exact h _ _ _ he
    · split at hl
      · simp at hl
      · simp at hl; subst hl; exact h _ _ _ he

theorem noStr_set {db : RDb} (h : NoStr db) (k : Str) (e : Option REntry) (he : ∀ s w, e ≠ some ⟨.str s, w⟩) : NoStr (db.set k e) := by
  intro k' s w
  unfold RDb.set
  split
  · exact he s w
  · exact h k' s w

theorem noStr_ttl {db : RDb} (h : NoStr db) (t : Int) (k : Str) : NoStr (cTTL t k db).1 := by
  unfold cTTL
  rcases rlive db t k with _ | ⟨v, _ | w⟩ <;> exact h

theorem noStr_get {db : RDb} (h : NoStr db) (t : Int) (k : Str) : NoStr (cGET t k db).1 := by
  unfold cGET
  rcases rlive db t k with _ | ⟨_ | _ | _, w⟩ <;> exact h

theorem noStr_llen {db : RDb} (h : NoStr db) (t : Int) (k : Str) : NoStr (cLLEN t k db).1 := by
  unfold cLLEN
  rcases rlive db t k with _ | ⟨_ | _ | _, w⟩ <;> exact h

theorem noStr_rpush {db : RDb} (h : NoStr db) (t : Int) (k v : Str) : NoStr (cRPUSH t k v db).1 := by
  unfold cRPUSH
  rcases rlive db t k with _ | ⟨_ | _ | _, w⟩
  · exact noStr_set h _ _ (by simp)
  · exact h
  · exact noStr_set h _ _ (by simp)
  · exact h

theorem noStr_lpop {db : RDb} (h : NoStr db) (t : Int) (k : Str) : NoStr (cLPOP t k db).1 := by
  unfold cLPOP
  rcases rlive db t k with _ | ⟨_ | (_ | ⟨_, _ | ⟨_, _⟩⟩) | _, w⟩
  · exact h
  · exact h
  · exact noStr_set h _ _ (by simp)
  · exact noStr_set h _ _ (by simp)
  · exact noStr_set h _ _ (by simp)
  · exact h

theorem noStr_lrange {db : RDb} (h : NoStr db) (t : Int) (k a b : Str) : NoStr (cLRANGE t k a b db).1 := by
  unfold cLRANGE
  rcases undec a with _ | a
  · exact h
  rcases undec b with _ | b
  · exact h
  rcases rlive db t k with _ | ⟨_ | _ | _, w⟩ <;> exact h

theorem noStr_expire {db : RDb} (h : NoStr db) (t : Int) (k n : Str) : NoStr (cEXPIRE t k n db).1 := by
  unfold cEXPIRE
  rcases undec n with _ | n
  · exact h
  simp only
  split
  · exact h
  rcases hl : rlive db t k with _ | ⟨v, w⟩
  · exact h
  · refine noStr_set h _ _ ?_
    intro s w'
    split
    · simp
    · intro hc
      simp only [Option.some.injEq, REntry.mk.injEq] at hc
      exact noStr_live h t k s w (by rw [hl, hc.1])

theorem command_noStr (t : Int) (name : Str) (l : List Str) (hn : name ≠ "SET".toList) {db : RDb} (h : NoStr db) : NoStr (command t name l db).1 := by
  unfold command
  split
  · split
    · exact h
    · exact h
  split
  · split
    · exact noStr_ttl h _ _
    · exact h
  split
  · split
    · exact noStr_get h _ _
    · exact h
  split
  · split
    · exact noStr_llen h _ _
    · exact h
  split
  · split
    · exact noStr_rpush h _ _ _
    · exact h
  split
  · split
    · exact noStr_lpop h _ _
    · exact h
  split
  · split
    · exact noStr_lrange h _ _ _ _
    · exact h
  split
  · split
    · exact noStr_expire h _ _ _
    · exact h
  exact h

mutual
/-- No `SET` is called: the names of commands are written out. -/
def plainE : Expr → Bool
  | .index e i => plainE e && plainE i
  | .neg e => plainE e
  | .bin _ a b => plainE a && plainE b
  | .call _ (.cons (.str c) a) => c != "SET" && plainA a
  | .call f a => f != "redis.call" && plainA a
  | .table a => plainA a
  | _ => true

def plainA : Args → Bool
  | .nil => true
  | .cons e a => plainE e && plainA a
end

theorem bind_noStr {α β : Type} {m : M α} {g : α → M β} {db : RDb} (h1 : NoStr (m db).1) (h2 : ∀ a db', NoStr db' → NoStr (g a db').1) :
    NoStr (M.bind m g db).1 := by
  unfold M.bind
  rcases hm : m db with ⟨db', e | a⟩
  · rw [hm] at h1; exact h1
  · rw [hm] at h1; exact h2 a db' h1

variable {ar : Arith} {t : Int} {env : Env}

theorem callF_noStr (f : String) (l : List Value) (h : f = "redis.call" → ∃ c l', l = .str c :: l' ∧ c ≠ "SET".toList) {db : RDb} (hd : NoStr db) :
    NoStr (callF ar t f l db).1 := by
  unfold callF
  split
  · rename_i hf
    obtain ⟨c, l', rfl, hc⟩ := h hf
    unfold strings
    rcases strings ar l' with _ | l''
    · exact hd
    · exact command_noStr t c l'' hc hd
  split
  · split <;> exact hd
  split
  · split <;> exact hd
  · exact hd

theorem binF_noStr (op : Op) (a b : Value) {db : RDb} (hd : NoStr db) : NoStr (binF ar op a b db).1 := by
  unfold binF
  split <;> exact hd

theorem indexF_noStr (a b : Value) {db : RDb} (hd : NoStr db) : NoStr (indexF a b db).1 := by
  unfold indexF
  split <;> exact hd

theorem toList_ne {c : String} (h : (c != "SET") = true) : c.toList ≠ "SET".toList := by
  intro e
  rw [String.toList_inj] at e
  simp [e] at h

mutual
theorem evalE_noStr (e : Expr) (h : plainE e = true) (db : RDb) (hd : NoStr db) : NoStr (evalE ar t env e db).1 := by
  match e, h with
  | .num n, _ => exact hd
  | .str s, _ => exact hd
  | .var x, _ => exact hd
  | .index e i, h =>
    simp only [plainE, Bool.and_eq_true] at h
    unfold evalE
    exact bind_noStr (evalE_noStr e h.1 db hd) fun _ d hd => bind_noStr (evalE_noStr i h.2 d hd) fun _ d hd => indexF_noStr _ _ hd
  | .neg e, h =>
    simp only [plainE] at h
    unfold evalE
    exact bind_noStr (evalE_noStr e h db hd) fun a d hd => by cases a <;> exact hd
  | .bin op a b, h =>
    simp only [plainE, Bool.and_eq_true] at h
    have ha := evalE_noStr a h.1 db hd
    have hb := fun d hd => evalE_noStr b h.2 d hd
    cases op
    · unfold evalE
      refine bind_noStr ha fun x d hd => ?_
      split
      · exact hd
      · exact hb d hd
    all_goals
      unfold evalE
      exact bind_noStr ha fun _ d hd => bind_noStr (hb d hd) fun _ d hd => binF_noStr _ _ _ hd
  | .call f .nil, h =>
    simp only [plainE, Bool.and_eq_true] at h
    unfold evalE
    refine bind_noStr (by unfold evalA; exact hd) fun l d hd => callF_noStr f l (fun e => ?_) hd
    simp [e] at h
  | .call f (.cons e a), h =>
    unfold evalE evalA M.bind
    by_cases hs : ∃ c, e = .str c
    · obtain ⟨c, rfl⟩ := hs
      simp only [plainE, Bool.and_eq_true] at h
      have ha := evalA_noStr a h.2 db hd
      simp only [evalE, M.pure]
      rcases hx : evalA ar t env a db with ⟨d, e | l⟩
      · rw [hx] at ha; exact ha
      · rw [hx] at ha
        exact callF_noStr f _ (fun _ => ⟨c.toList, l, rfl, toList_ne h.1⟩) ha
    · have hf : (f != "redis.call") = true ∧ plainE e = true ∧ plainA a = true := by
        have : plainE (.call f (.cons e a)) = (f != "redis.call" && plainA (.cons e a)) := by
          unfold plainE
          cases e <;> first | rfl | exact absurd ⟨_, rfl⟩ hs
        rw [this] at h
        simpa [plainA] using h
      have he := evalE_noStr e hf.2.1 db hd
      rcases hx : evalE ar t env e db with ⟨d, r | v⟩
      · rw [hx] at he
        simpa [M.bind] using he
      · rw [hx] at he
        have ha := evalA_noStr a hf.2.2 d he
        simp only
        rcases hy : evalA ar t env a d with ⟨d', r | l⟩
        · rw [hy] at ha; exact ha
        · rw [hy] at ha
          exact callF_noStr f _ (fun e => by simp [e] at hf) ha
  | .table a, h =>
    simp only [plainE] at h
    unfold evalE
    exact bind_noStr (evalA_noStr a h db hd) fun _ d hd => hd

theorem evalA_noStr (a : Args) (h : plainA a = true) (db : RDb) (hd : NoStr db) : NoStr (evalA ar t env a db).1 := by
  match a, h with
  | .nil, _ => exact hd
  | .cons e a, h =>
    simp only [plainA, Bool.and_eq_true] at h
    unfold evalA
    exact bind_noStr (evalE_noStr e h.1 db hd) fun _ d hd => bind_noStr (evalA_noStr a h.2 d hd) fun _ d hd => hd
end

/-- The run stores no string, and a reply says "pass". -/
def Tame (r : RDb × Except RErr Ctl) : Prop :=
  NoStr r.1 ∧ ∀ v, r.2 = .ok (.ret v) → v = .table [.num 0, .num 0, .num 0, .str []]

theorem tame_local {x : String} {e : Expr} {b : Block} {db : RDb} (hd : NoStr db) (he : plainE e = true)
    (h : ∀ v db', NoStr db' → Tame (execB ar t ((x, v) :: env) b db')) : Tame (execB ar t env (.cons (.local x e) b) db) := by
  have h1 := evalE_noStr (ar := ar) (t := t) (env := env) e he db hd
  rcases hx : evalE ar t env e db with ⟨db', r | v⟩
  · rw [hx] at h1
    rw [run_local_err hx]; exact ⟨h1, by simp⟩
  · rw [hx] at h1
    rw [run_local hx]; exact h v db' h1

theorem tame_call {f : String} {a : Args} {b : Block} {db : RDb} (hd : NoStr db) (he : plainE (.call f a) = true)
    (h : ∀ db', NoStr db' → Tame (execB ar t env b db')) : Tame (execB ar t env (.cons (.call f a) b) db) := by
  have h1 := evalE_noStr (ar := ar) (t := t) (env := env) _ he db hd
  rcases hx : evalE ar t env (.call f a) db with ⟨db', r | v⟩
  · rw [hx] at h1
    simp only [execB, execS, M.bind, hx]; exact ⟨h1, by simp⟩
  · rw [hx] at h1
    rw [run_call hx]; exact h db' h1

theorem tame_if {c : Expr} {body b : Block} {db : RDb} (hd : NoStr db) (he : plainE c = true)
    (hb : ∀ db', NoStr db' → Tame (execB ar t env body db')) (h : ∀ db', NoStr db' → Tame (execB ar t env b db')) :
    Tame (execB ar t env (.cons (.ifThen c body) b) db) := by
  have h1 := evalE_noStr (ar := ar) (t := t) (env := env) _ he db hd
  rcases hx : evalE ar t env c db with ⟨db', r | v⟩
  · rw [hx] at h1
    simp only [execB, execS, M.bind, hx]; exact ⟨h1, by simp⟩
  · rw [hx] at h1
    simp only [execB, execS, M.bind, hx]
    cases hv : v.truthy with
    | false => simpa [M.pure] using h db' h1
    | true =>
      have h2 := hb db' h1
      rcases hy : execB ar t env body db' with ⟨d, e | (env' | r)⟩
      · rw [hy] at h2
        simpa [M.bind, hy] using h2
      · rw [hy] at h2
        simpa [M.bind, hy, M.pure] using h d h2.1
      · rw [hy] at h2
        simpa [M.bind, hy, M.pure] using h2

theorem tame_pass {b : Block} {db : RDb} (hd : NoStr db) : Tame (execB ar t env (.cons pass b) db) := by
  rw [pass_run]
  refine ⟨hd, ?_⟩
  intro v hv
  simp [ends, Reply.pass] at hv
  exact hv.symm

theorem tame_loop (body : Int → M Ctl) (hs : ∀ i db, NoStr db → NoStr (body i db).1 ∧ ∀ v, (body i db).2 ≠ .ok (.ret v)) :
    ∀ (n : Nat) (a c : Int) (db : RDb), NoStr db → NoStr (loop body env n a c db).1 ∧ ∀ v, (loop body env n a c db).2 ≠ .ok (.ret v)
  | 0, a, c, db, hd => ⟨hd, by simp [loop, M.pure]⟩
  | n + 1, a, c, db, hd => by
    unfold loop
    have h := hs a db hd
    simp only [M.bind]
    rcases hx : body a db with ⟨d, e | (env' | r)⟩
    · rw [hx] at h; exact ⟨h.1, by simp⟩
    · rw [hx] at h; exact tame_loop body hs n (a + c) c d h.1
    · rw [hx] at h; exact absurd rfl (h.2 _)

variable {key kb : Str} {cap win exp now : Int} {msg : Str}

theorem tame_push_renew {db : RDb} (hd : NoStr db) : Tame (execB ar t env (block (push ++ renew)) db) :=
  tame_call hd (by decide) fun _ hd => tame_call hd (by decide) fun _ hd => tame_pass hd

/-- `SET` refuses the number of seconds. -/
theorem tame_tail5 (hv : Vars env key kb cap win exp now msg)
    (hr : undec (ar.text exp) = none ∨ ∃ m, undec (ar.text exp) = some m ∧ tooFar t m = true) {db : RDb} (hd : NoStr db) :
    Tame (execB ar t env tail5 db) := by
  have h : ∃ e, evalE ar t env (.call "redis.call" (args [.str "SET", .var "keyb", .var "msg", .str "EX", .var "exp", .str "NX"])) db = (db, .error e) := by
    have h0 : evalE ar t env (.call "redis.call" (args [.str "SET", .var "keyb", .var "msg", .str "EX", .var "exp", .str "NX"])) db =
        cSETEXNX t kb msg (ar.text exp) db := by
      rw [← command_SET]
      simp [evalE, evalA, args, M.bind, M.pure, callF, strings, hv.keyb, hv.exp, hv.msg]
    rw [h0]
    unfold cSETEXNX
    rcases hr with hr | ⟨m, hr, hf⟩
    · rw [hr]; exact ⟨_, rfl⟩
    · rw [hr]
      simp only [hf, if_true]
      split
      · exact ⟨_, rfl⟩
      · exact ⟨_, rfl⟩
  obtain ⟨e, h⟩ := h
  show Tame (execB ar t env (.cons (.call _ _) _) db)
  simp only [execB, execS, M.bind]
  rw [h]
  exact ⟨hd, by simp⟩

theorem tame_tail1 (hv : Vars env key kb cap win exp now msg)
    (hr : undec (ar.text exp) = none ∨ ∃ m, undec (ar.text exp) = some m ∧ tooFar t m = true) {db : RDb} (hd : NoStr db) :
    Tame (execB ar t env tail1 db) := by
  refine tame_local hd (by decide) fun v1 d1 hd => tame_if hd (by decide) (fun _ hd => tame_push_renew hd) fun d2 hd => ?_
  refine tame_local hd (by decide) fun v3 d3 hd => tame_if hd (by decide) (fun d4 hd => ?_) fun d5 hd => ?_
  · show Tame (execB ar t _ (.cons (.for _ _ _ _ _) .nil) _)
    have hl : ∀ (e : Env) i db, NoStr db → NoStr (execB ar t (("i", .num i) :: e) (block [.call "redis.call" (args [.str "LPOP", .var "key"])]) db).1 ∧
        ∀ v, (execB ar t (("i", .num i) :: e) (block [.call "redis.call" (args [.str "LPOP", .var "key"])]) db).2 ≠ .ok (.ret v) := by
      intro e i db hd
      show NoStr (execB ar t _ (.cons (.call _ _) .nil) _).1 ∧ ∀ v, (execB ar t _ (.cons (.call _ _) .nil) _).2 ≠ _
      have h1 := evalE_noStr (ar := ar) (t := t) (env := ("i", .num i) :: e) (.call "redis.call" (args [.str "LPOP", .var "key"])) (by decide) db hd
      simp only [execB, execS, M.bind]
      rcases hx : evalE ar t (("i", .num i) :: e) (.call "redis.call" (args [.str "LPOP", .var "key"])) db with ⟨d, e | r⟩ <;>
        (rw [hx] at h1; exact ⟨h1, by simp [M.pure]⟩)
    generalize hE : (("diff", v3) :: ("size", v1) :: env : Env) = E
    have e2 : evalE ar t E (.neg (.num 1)) = M.pure (.num (-1)) := by funext d; simp [evalE, M.bind, M.pure]
    have e3 : evalE ar t E (.num 1) = M.pure (.num 1) := by simp [evalE]
    have e1 : evalE ar t E (.var "diff") = M.pure v3 := by rw [← hE]; simp [evalE, Env.get]
    simp only [execB, execS, e1, e2, e3, M.bind, M.pure]
    cases v3 with
    | num a =>
      simp only
      have h1 := tame_loop (env := E) _ (hl E) (rounds a 1 (-1)) a (-1) d4 hd
      rcases hx : loop (fun i => execB ar t (("i", .num i) :: E) (block [.call "redis.call" (args [.str "LPOP", .var "key"])])) E
        (rounds a 1 (-1)) a (-1) d4 with ⟨d, e | (env' | r)⟩
      · rw [hx] at h1; exact ⟨h1.1, by simp⟩
      · rw [hx] at h1; exact ⟨h1.1, by simp [M.pure]⟩
      · rw [hx] at h1; exact absurd rfl (h1.2 _)
    | _ => exact ⟨hd, by simp [M.fail]⟩
  · refine tame_local hd (by decide) fun v6 d6 hd => tame_if hd (by decide) (fun _ hd => tame_push_renew hd) fun d7 hd => ?_
    refine tame_local hd (by decide) fun v8 d8 hd => tame_if hd (by decide)
      (fun _ hd => tame_call hd (by decide) fun _ hd => tame_call hd (by decide) fun _ hd => tame_call hd (by decide) fun _ hd => tame_pass hd) fun d9 hd => ?_
    exact tame_tail5 ((((hv.cons "size" _ (by simp)).cons "diff" _ (by simp)).cons "list" _ (by simp)).cons "oldest" _ (by simp)) hr hd

/-- Without stored strings the check of the block key finds nothing. -/
theorem tame_blocked {b : Block} {db : RDb} {kb : Str} (hd : NoStr db) (hk : env.get "keyb" = .str kb) (h : ∀ db', NoStr db' → Tame (execB ar t env b db')) :
    Tame (execB ar t env (.cons blocked b) db) := by
  have hc : evalE ar t env (.bin .eq (.call "redis.call" (args [.str "EXISTS", .var "keyb"])) (.num 1)) db =
      (db, .ok (.bool (rlive db t kb).isSome)) := by
    unfold evalE
    rw [call1 env _ _ kb hk, command_EXISTS]
    simp only [M.bind, cEXISTS, evalE, M.pure, binF, Value.same]
    cases (rlive db t kb).isSome <;> rfl
  cases he : (rlive db t kb).isSome with
  | false =>
    rw [he] at hc
    have := run_if_false (b := b) (body := block
      [.local "ttl" (.call "redis.call" (args [.str "TTL", .var "keyb"])),
       .local "omsg" (.call "redis.call" (args [.str "GET", .var "keyb"])),
       .ret (.table (args [.num 1, .num 0, .var "ttl", .var "omsg"]))]) hc
    show Tame (execB ar t env (.cons (.ifThen _ _) b) db)
    rw [this]
    exact h db hd
  | true =>
    rw [he] at hc
    show Tame (execB ar t env (.cons (.ifThen _ _) b) db)
    rw [run_if_true hc]
    have hg : ∀ e : Env, e.get "keyb" = .str kb → evalE ar t e (.call "redis.call" (args [.str "GET", .var "keyb"])) db = (db, .error .wrongType) := by
      intro e hk
      rw [call1 e _ _ kb hk, command_GET]
      unfold cGET
      have := noStr_live hd t kb
      rcases hx : rlive db t kb with _ | ⟨_ | _ | _, w⟩
      · rw [hx] at he; simp at he
      · exact absurd hx (this _ _)
      · rfl
      · rfl
    have ht : ∃ v, evalE ar t env (.call "redis.call" (args [.str "TTL", .var "keyb"])) db = (db, .ok v) := by
      rw [call1 env _ _ kb hk, command_TTL]
      unfold cTTL
      rcases rlive db t kb with _ | ⟨_, _ | w⟩ <;> exact ⟨_, rfl⟩
    obtain ⟨v, ht⟩ := ht
    have : execB ar t env (block
      [.local "ttl" (.call "redis.call" (args [.str "TTL", .var "keyb"])),
       .local "omsg" (.call "redis.call" (args [.str "GET", .var "keyb"])),
       .ret (.table (args [.num 1, .num 0, .var "ttl", .var "omsg"]))]) db = (db, .error .wrongType) := by
      refine (run_local ht).trans (run_local_err (hg _ ?_))
      simp [Env.get, hk]
    rw [this]
    exact ⟨hd, by simp⟩

theorem tame_prog1 (hx : ar.Exact) {db : RDb} (hd : NoStr db) (e : Int) (he : ar.read (dec exp) = some e)
    (hr : undec (ar.text e) = none ∨ ∃ m, undec (ar.text e) = some m ∧ tooFar t m = true) :
    Tame (execB ar t [("KEYS", .table [.str key, .str kb]), ("ARGV", .table [.str (dec cap), .str (dec win), .str (dec exp), .str (dec now), .str msg])]
      prog1 db) := by
  obtain ⟨cap', h1⟩ := hx.total cap
  obtain ⟨win', h2⟩ := hx.total win
  obtain ⟨now', h4⟩ := hx.total now
  refine (congrArg Tame (run_local (db' := db) (v := .str key) (by simp [evalE, M.bind, M.pure, indexF, Env.get]))).mpr ?_
  refine (congrArg Tame (run_local (db' := db) (v := .str kb) (by simp [evalE, M.bind, M.pure, indexF, Env.get]))).mpr ?_
  refine (congrArg Tame (run_local (db' := db) (v := .num cap') (by simp [evalE, evalA, args, M.bind, M.pure, indexF, Env.get, callF, h1]))).mpr ?_
  refine (congrArg Tame (run_local (db' := db) (v := .num win') (by simp [evalE, evalA, args, M.bind, M.pure, indexF, Env.get, callF, h2]))).mpr ?_
  refine (congrArg Tame (run_local (db' := db) (v := .num e) (by simp [evalE, evalA, args, M.bind, M.pure, indexF, Env.get, callF, he]))).mpr ?_
  refine (congrArg Tame (run_local (db' := db) (v := .num now') (by simp [evalE, evalA, args, M.bind, M.pure, indexF, Env.get, callF, h4]))).mpr ?_
  refine (congrArg Tame (run_local (db' := db) (v := .str msg) (by simp [evalE, M.bind, M.pure, indexF, Env.get]))).mpr ?_
  refine tame_if hd (by decide) (fun _ hd => tame_pass hd) fun d hd => ?_
  exact tame_blocked hd rfl fun d hd => tame_tail1 (key := key) (kb := kb) (cap := cap') (win := win') (exp := e) (now := now') (msg := msg)
    ⟨rfl, rfl, rfl, rfl, rfl, rfl, rfl⟩ hr hd

theorem tame_prog2 {db : RDb} (hd : NoStr db) : Tame (execB ar t [("KEYS", .table [.str kb]), ("ARGV", .table [])] prog2 db) := by
  refine (congrArg Tame (run_local (db' := db) (v := .str kb) (by simp [evalE, M.bind, M.pure, indexF, Env.get]))).mpr ?_
  exact tame_blocked hd rfl fun _ hd => tame_pass hd

theorem tame_result {prog : Block} {keys argv : List Str} {db : RDb}
    (h : Tame (execB ar t [("KEYS", .table (keys.map .str)), ("ARGV", .table (argv.map .str))] prog db)) :
    NoStr (evalScript ar t prog keys argv db).1 ∧ ∀ r, goResult (evalScript ar t prog keys argv db).2 = some r → r = .zero := by
  unfold evalScript M.bind
  rcases hx : execB ar t [("KEYS", .table (keys.map .str)), ("ARGV", .table (argv.map .str))] prog db with ⟨d, e | (env' | v)⟩
  · rw [hx] at h
    exact ⟨h.1, by simp [goResult]⟩
  · rw [hx] at h
    exact ⟨h.1, by simp [goResult, M.pure]⟩
  · rw [hx] at h
    have := h.2 v rfl
    subst this
    refine ⟨h.1, ?_⟩
    simp [goResult, M.pure, items, Value.item]
    rfl

/-! ## C128 -/

/-- A call with a timeout of 10^16 seconds or more (or one that writes nothing). -/
def Endless (t : Int) : Call → Prop
  | .should _ _ pu _ _ _ _ => 0 ≤ t ∧ 10 ^ 16 ≤ pu.timeout
  | _ => True

/-- Such calls never block anything: redis refuses the expiry times. -/
theorem endless_exec (t : Int) (c : Call) (hc : Endless t c) {db : RDb} (hd : NoStr db) :
    NoStr (goExec ieee db t c).1 ∧ ∀ r, (goExec ieee db t c).2 = some r → r = .zero := by
  cases c with
  | should tag pc pu key bk msg now =>
    simp only [goExec]
    unfold goShouldBlock2
    split
    · exact ⟨hd, by simp⟩
    · simp only [compiled1]
      refine tame_result (tame_prog1 ieee_exact hd (rndInt pu.timeout) (by simp [ieee, signed_dec]) ?_)
      exact huge_refused pu.timeout t hc.2 hc.1
  | isBlocked bk =>
    simp only [goExec]
    unfold goIsBlocked
    simp only [compiled2]
    exact tame_result (tame_prog2 hd)
  | shouldDown pc =>
    refine ⟨hd, ?_⟩
    simp only [goExec]
    split <;> simp [goResult]
  | isBlockedDown => exact ⟨hd, by simp [goExec, goResult]⟩

theorem endless_run : ∀ (cs : List (Int × Call)) {db : RDb}, NoStr db → (∀ x ∈ cs, Endless x.1 x.2) →
    ∃ db' evs, goRun ieee db cs = some (db', evs) ∧ evs.length = cs.length ∧ ∀ e ∈ evs, e.result = .zero
  | [], db, _, _ => ⟨db, [], rfl, rfl, by simp⟩
  | (t, c) :: cs, db, hd, h => by
    have h1 := endless_exec t c (h (t, c) (by simp)) hd
    have h2 := C105_no_panic ieee_exact db t c
    unfold goRun
    rcases hx : goExec ieee db t c with ⟨d, _ | r⟩
    · rw [hx] at h2; exact absurd rfl h2
    · rw [hx] at h1
      obtain ⟨db', evs, h3, h4, h5⟩ := endless_run cs h1.1 (fun x hx => h x (by simp [hx]))
      refine ⟨db', ⟨t, c, r⟩ :: evs, by simp [h3], by simp [h4], ?_⟩
      intro e he
      rcases List.mem_cons.1 he with rfl | he
      · exact h1.2 r rfl
      · exact h5 e he

/-- An int64 that is set. -/
def Pos64 (n : Int) : Prop := 0 < n ∧ n < 2 ^ 63

instance (n : Int) : Decidable (Pos64 n) := by unfold Pos64; infer_instance

/-- The claim: with any parameters that are set, `capacity` calls at one moment pass, and the next one blocks. -/
def C128Claim (ar : Arith) : Prop :=
  ∀ (p : Params) (t now : Int) (tag key bk msg : Str), Pos64 p.capacity → Pos64 p.window → Pos64 p.timeout → Pos64 t → Pos64 now →
    listKey tag key ≠ blockRKey tag bk →
    ∃ db evs, goRun ar (fun _ => none) (List.replicate (p.capacity.toNat + 1) (t, .should tag p p key bk msg now)) = some (db, evs) ∧
      evs.map (·.result.block) = List.replicate p.capacity.toNat false ++ [true]

/-- No history with timeouts of 10^16 seconds or more has a blocked call: every call passes. -/
theorem C128_endless_violated (cs : List (Int × Call)) (h : ∀ x ∈ cs, Endless x.1 x.2) :
    ∃ db evs, goRun ieee (fun _ => none) cs = some (db, evs) ∧ evs.length = cs.length ∧ ∀ e ∈ evs, e.result = .zero :=
  endless_run cs (fun _ _ _ h => by simp at h) h

/-- So the claim is false. -/
theorem C128_violated : ¬ C128Claim ieee := by
  intro h
  obtain ⟨db, evs, h1, h2⟩ := h ⟨1, 1, 10 ^ 16⟩ 1 1 [] [] [] [] (by decide) (by decide) (by decide) (by decide) (by decide) (by decide)
  obtain ⟨db', evs', h3, -, h5⟩ := C128_endless_violated (List.replicate 2 (1, .should [] ⟨1, 1, 10 ^ 16⟩ ⟨1, 1, 10 ^ 16⟩ [] [] [] 1)) (by
    intro x hx
    rw [List.eq_of_mem_replicate hx]
    exact ⟨by decide, by decide⟩)
  have h6 : some (db, evs) = some (db', evs') := h1.symm.trans h3
  simp only [Option.some.injEq, Prod.mk.injEq] at h6
  obtain ⟨-, rfl⟩ := h6
  have h7 : true ∈ evs.map (·.result.block) := by rw [h2]; simp
  obtain ⟨e, he, h8⟩ := List.mem_map.1 h7
  rw [h5 e he] at h8
  simp [Result.zero] at h8

theorem filled {L B : Str} (hne : L ≠ B) {p : Params} (h1 : 0 < p.capacity) (h2 : 0 < p.window) (h3 : 0 < p.timeout) (t now : Int) (msg : Str)
    {tag key bk : Str} (hL : listKey tag key = L) (hB : blockRKey tag bk = B) : ∀ (n i : Nat) (db : Db), (i + n : Int) = p.capacity → live db t B = none →
    (i = 0 ∧ live db t L = none ∨ ∃ w, live db t L = some ⟨.list (List.replicate i now), w⟩) →
    (run db (List.replicate (n + 1) (t, .should tag p p key bk msg now))).2.map (·.result.block) = List.replicate n false ++ [true] := by
  have hn : p.notSet = false := by simp [Params.notSet]; omega
  intro n
  induction n with
  | zero =>
    intro i db hi hb hl
    obtain ⟨w, hl⟩ := hl.resolve_left (fun h => by omega)
    have hlen : llen db t L = .ok p.capacity := by simp [llen, hl, ← hi]
    obtain ⟨k, rfl⟩ : ∃ k, i = k + 1 := ⟨i - 1, by omega⟩
    have hr : lrange00 db t L = some now := by simp [lrange00, hl, List.replicate_succ]
    have he : existsK db t B = false := by simp [existsK, hb]
    have hs : script1 db t L B p.capacity p.window p.timeout now msg = (setExNx db t B msg p.timeout, .ok ⟨1, 1, p.timeout, msg⟩) := by
      unfold script1
      rw [if_neg (by omega)]
      simp only [he, hlen, Bool.false_eq_true, if_false, Int.lt_irrefl, Int.sub_self, Int.toNat_zero, lpopN, hr]
      rw [if_neg (by omega)]
    simp [run, Call.exec, shouldBlock2, hn, hL, hB, hs, Result.ofEval, Result.ofReply]
  | succ n ih =>
    intro i db hi hb hl
    have hlen : llen db t L = .ok (i : Int) := by
      rcases hl with ⟨rfl, hl⟩ | ⟨w, hl⟩ <;> simp [llen, hl]
    have he : existsK db t B = false := by simp [existsK, hb]
    have hs : script1 db t L B p.capacity p.window p.timeout now msg = (expire (rpush db t L now) t L (p.timeout * 2), .ok .pass) := by
      unfold script1
      rw [if_neg (by omega)]
      simp only [he, hlen, Bool.false_eq_true, if_false]
      rw [if_pos (by omega)]
    rw [List.replicate_succ]
    have hlb : live (expire (rpush db t L now) t L (p.timeout * 2)) t B = none := by
      rw [← hb]
      refine live_ne t ?_
      have h0 : ∀ (d : Db) (v : Option Entry), (d.set L v) B = d B := fun d v => by simp [Db.set, hne.symm]
      have h4 : (rpush db t L now) B = db B := by
        unfold rpush
        rcases live db t L with _ | ⟨_ | _, _⟩ <;> first | rfl | exact h0 _ _
      have h5 : (expire (rpush db t L now) t L (p.timeout * 2)) B = (rpush db t L now) B := by
        unfold expire
        rcases live (rpush db t L now) t L with _ | _ <;> first | rfl | exact h0 _ _
      exact h5.trans h4
    have hll : ∃ w, live (expire (rpush db t L now) t L (p.timeout * 2)) t L = some ⟨.list (List.replicate (i + 1) now), w⟩ := by
      rcases hl with ⟨rfl, hl⟩ | ⟨w, hl⟩
      · exact ⟨_, live_expire (by omega) (live_rpush_none now hl)⟩
      · refine ⟨some (t + p.timeout * 2 * 1000), (live_expire (by omega) (live_rpush now hl)).trans ?_⟩
        simp [List.replicate_succ']
    have := ih (i + 1) _ (by omega) hlb (.inr hll)
    have hx : (Call.should tag p p key bk msg now).exec db t = (expire (rpush db t L now) t L (p.timeout * 2), .zero) := by
      simp [Call.exec, shouldBlock2, hn, hL, hB, hs, Result.ofEval, Result.ofReply, Reply.pass, Result.zero]
    rw [run, hx, List.map_cons, this]
    rfl

/-- With parameters and times up to 2^52 the claim holds, with all numbers that are exact up to 2^53 (as `ieee` is). -/
theorem C128_partial {ar : Arith} (hx : ar.Exact) (p : Params) (t now : Int) (tag key bk msg : Str) (h1 : 0 < p.capacity) (h2 : 0 < p.window)
    (h3 : 0 < p.timeout) (hs : SmallCall t (.should tag p p key bk msg now)) (hne : listKey tag key ≠ blockRKey tag bk) :
    ∃ db evs, goRun ar (fun _ => none) (List.replicate (p.capacity.toNat + 1) (t, .should tag p p key bk msg now)) = some (db, evs) ∧
      evs.map (·.result.block) = List.replicate p.capacity.toNat false ++ [true] := by
  refine ⟨_, _, C105_run hx _ (fun x hx => by rw [List.eq_of_mem_replicate hx]; exact hs) Db.empty fits_empty, ?_⟩
  exact filled hne h1 h2 h3 t now msg rfl rfl _ 0 Db.empty (by omega) rfl (.inl ⟨rfl, rfl⟩)

/-- Both sides apply: a timeout of 10^16 seconds is accepted, one of a day works. -/
example : ∃ db evs, goRun ieee (fun _ => none) (List.replicate 3 (1, .should [] ⟨2, 10, 86400⟩ ⟨2, 10, 86400⟩ [] [] [] 1)) = some (db, evs) ∧
    evs.map (·.result.block) = [false, false, true] :=
  C128_partial ieee_exact ⟨2, 10, 86400⟩ 1 1 [] [] [] [] (by decide) (by decide) (by decide) (by decide) (by decide)

example : (⟨1, 1, 10 ^ 16⟩ : Params).set := by simp [Params.set]

end Gears.TtlRedis.Lua
