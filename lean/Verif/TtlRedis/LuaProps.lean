import Verif.TtlRedis.LuaProg
import Verif.TtlRedis.Props

/-
The scripts do what the functions `script1` and `script2` of the model do.
-/

namespace Gears.TtlRedis.Lua

/-! ## Numbers -/

theorem digit_char {n : Nat} (h : n < 10) : isDigit (Char.ofNat (48 + n)) = true ∧ (Char.ofNat (48 + n)).toNat - 48 = n ∧ Char.ofNat (48 + n) ≠ '-' := by
  have : ∀ i : Fin 10, isDigit (Char.ofNat (48 + i.1)) = true ∧ (Char.ofNat (48 + i.1)).toNat - 48 = i.1 ∧ Char.ofNat (48 + i.1) ≠ '-' := by decide
  exact this ⟨n, h⟩

theorem digits_append (s : Str) (c : Char) : ∀ acc, digits acc (s ++ [c]) = (digits acc s).bind fun n => if isDigit c then some (n * 10 + (c.toNat - 48)) else none := by
  induction s with
  | nil => intro acc; simp [digits]
  | cons d s ih =>
    intro acc
    simp only [List.cons_append, digits]
    split
    · exact ih _
    · rfl

theorem digits_natDec (n : Nat) : digits 0 (natDec n) = some n ∧ ∃ c s, natDec n = c :: s ∧ c ≠ '-' := by
  induction n using Nat.strongRecOn with
  | ind n ih =>
    rw [natDec]
    split
    · rename_i h
      obtain ⟨h1, h2, h3⟩ := digit_char h
      refine ⟨?_, _, _, rfl, h3⟩
      simp only [digits, h1, h2, if_true]
      simp
    · rename_i h
      obtain ⟨i1, c, s, i2, i3⟩ := ih (n / 10) (by omega)
      obtain ⟨h1, h2, h3⟩ := digit_char (show n % 10 < 10 by omega)
      refine ⟨?_, c, s ++ [_], by rw [i2]; rfl, i3⟩
      rw [digits_append, i1]
      simp only [Option.bind_some, h1, h2, if_true]
      congr 1
      omega

theorem signed_dec (z : Int) : signed (dec z) = some z := by
  obtain ⟨h1, c, s, h2, h3⟩ := digits_natDec z.natAbs
  unfold dec
  split
  · simp only [signed, h1, Option.map_some]
    congr 1
    omega
  · rw [h2] at h1 ⊢
    unfold signed
    split
    · rename_i heq
      simp at heq
      exact absurd heq.1 h3
    · rw [h1]
      simp only [Option.map_some]
      congr 1
      omega

theorem undec_dec (z : Int) : undec (dec z) = some z := by
  unfold undec
  rw [signed_dec]
  simp

/-! ## Databases -/

def absV : Val → RVal
  | .str s => .str s
  | .list l => .list (l.map dec)

def absE (e : Entry) : REntry := ⟨absV e.val, e.expireAt⟩

/-- How redis stores what the model says: numbers in lists as decimal strings. -/
def abs (db : Db) : RDb := fun k => (db k).map absE

theorem rlive_abs (db : Db) (t : Int) (k : Str) : rlive (abs db) t k = (live db t k).map absE := by
  unfold rlive live abs
  cases h : db k with
  | none => rfl
  | some e =>
    obtain ⟨v, w⟩ := e
    cases w with
    | none => simp [absE, Entry.expired]
    | some w =>
      by_cases hw : w < t
      · simp [absE, Entry.expired, hw]
      · simp [absE, Entry.expired, hw]

theorem set_abs (db : Db) (k : Str) (e : Option Entry) : (abs db).set k (e.map absE) = abs (db.set k e) := by
  funext k'
  unfold RDb.set abs Db.set
  split <;> rfl

/-- Errors of commands. -/
def liftErr {α : Type} : Except Err α → Except RErr α
  | .ok a => .ok a
  | .error _ => .error .wrongType

theorem exists_abs (db : Db) (t : Int) (k : Str) : cEXISTS t k (abs db) = (abs db, .ok (.num (if existsK db t k then 1 else 0))) := by
  unfold cEXISTS existsK
  rw [rlive_abs]
  simp

theorem ttl_abs (db : Db) (t : Int) (k : Str) : cTTL t k (abs db) = (abs db, .ok (.num (ttl db t k))) := by
  unfold cTTL ttl
  rw [rlive_abs]
  cases live db t k with
  | none => rfl
  | some e =>
    obtain ⟨v, w⟩ := e
    cases w <;> rfl

theorem get_abs (db : Db) (t : Int) (k : Str) (h : existsK db t k = true) :
    cGET t k (abs db) = (abs db, (liftErr (getStr db t k)).map .str) := by
  unfold cGET getStr
  unfold existsK at h
  rw [rlive_abs]
  cases hl : live db t k with
  | none => rw [hl] at h; simp at h
  | some e =>
    obtain ⟨v, w⟩ := e
    cases v <;> rfl

theorem llen_abs (db : Db) (t : Int) (k : Str) : cLLEN t k (abs db) = (abs db, (liftErr (llen db t k)).map .num) := by
  unfold cLLEN llen
  rw [rlive_abs]
  cases hl : live db t k with
  | none => rfl
  | some e =>
    obtain ⟨v, w⟩ := e
    cases v with
    | str s => rfl
    | list l => simp [absE, absV, liftErr, Except.map]

theorem rpush_abs (db : Db) (t : Int) (k : Str) (n : Int) (h : ∃ z, llen db t k = .ok z) :
    ∃ m, cRPUSH t k (dec n) (abs db) = (abs (rpush db t k n), .ok (.num m)) := by
  unfold cRPUSH rpush
  unfold llen at h
  rw [rlive_abs]
  cases hl : live db t k with
  | none => exact ⟨1, by rw [← set_abs]; rfl⟩
  | some e =>
    obtain ⟨v, w⟩ := e
    cases v with
    | str s => rw [hl] at h; simp at h
    | list l => exact ⟨_, by rw [← set_abs]; simp [absE, absV]; rfl⟩

theorem lpop_abs (db : Db) (t : Int) (k : Str) (h : ∃ z, llen db t k = .ok z) :
    ∃ v, cLPOP t k (abs db) = (abs (lpop db t k), .ok v) := by
  unfold cLPOP lpop
  unfold llen at h
  rw [rlive_abs]
  cases hl : live db t k with
  | none => exact ⟨_, rfl⟩
  | some e =>
    obtain ⟨v, w⟩ := e
    cases v with
    | str s => rw [hl] at h; simp at h
    | list l =>
      match l with
      | [] => exact ⟨.bool false, by rw [← set_abs]; rfl⟩
      | [a] => exact ⟨_, by rw [← set_abs]; rfl⟩
      | a :: b :: l => exact ⟨_, by rw [← set_abs]; rfl⟩

theorem llen_lpop (db : Db) (t : Int) (k : Str) (h : ∃ z, llen db t k = .ok z) : ∃ z, llen (lpop db t k) t k = .ok z := by
  obtain ⟨z, h⟩ := h
  unfold llen at h
  unfold lpop
  cases hl : live db t k with
  | none => exact ⟨z, by unfold llen; rw [hl] at h ⊢; exact h⟩
  | some e =>
    obtain ⟨v, w⟩ := e
    cases v with
    | str s => rw [hl] at h; simp at h
    | list l =>
      have hw : Entry.expired ⟨.list l, w⟩ t = false := by
        unfold live at hl
        split at hl
        · simp at hl
        · split at hl
          · simp at hl
          · rename_i he
            simp at hl
            subst hl
            simpa using he
      match l with
      | [] => exact ⟨0, by simp [llen, live, Db.set]⟩
      | [a] => exact ⟨0, by simp [llen, live, Db.set]⟩
      | a :: b :: l =>
        have hw' : Entry.expired ⟨.list (b :: l), w⟩ t = false := hw
        exact ⟨_, by simp [llen, live, Db.set, hw']; rfl⟩

theorem llen_rpush (db : Db) (t : Int) (k : Str) (n : Int) (h : ∃ z, llen db t k = .ok z) : ∃ z, llen (rpush db t k n) t k = .ok z := by
  obtain ⟨z, h⟩ := h
  unfold llen at h
  unfold rpush
  cases hl : live db t k with
  | none => exact ⟨1, by simp [llen, live, Db.set, Entry.expired]⟩
  | some e =>
    obtain ⟨v, w⟩ := e
    cases v with
    | str s => rw [hl] at h; simp at h
    | list l =>
      have hw : Entry.expired ⟨.list (l ++ [n]), w⟩ t = false := by
        unfold live at hl
        split at hl
        · simp at hl
        · split at hl
          · simp at hl
          · rename_i he
            simp at hl
            subst hl
            simpa [Entry.expired] using he
      exact ⟨_, by simp [llen, live, Db.set, hw]; rfl⟩

theorem lrange_abs (db : Db) (t : Int) (k : Str) (h : ∃ z, llen db t k = .ok z) :
    cLRANGE t k (dec 0) (dec 0) (abs db) = (abs db, .ok (.table ((lrange00 db t k).toList.map fun n => .str (dec n)))) := by
  unfold cLRANGE lrange00
  unfold llen at h
  rw [undec_dec, rlive_abs]
  cases hl : live db t k with
  | none => rfl
  | some e =>
    obtain ⟨v, w⟩ := e
    cases v with
    | str s => rw [hl] at h; simp at h
    | list l => cases l <;> simp [absE, absV, range]

theorem expire_abs (db : Db) (t : Int) (k : Str) (n : Int) (hn : 0 < n) (hf : tooFar t n = false) : ∃ m, cEXPIRE t k (dec n) (abs db) = (abs (expire db t k n), .ok (.num m)) := by
  unfold cEXPIRE expire
  rw [undec_dec, rlive_abs]
  simp only [hf, Bool.false_eq_true, if_false]
  cases hl : live db t k with
  | none => exact ⟨0, rfl⟩
  | some e => exact ⟨1, by rw [← set_abs]; simp only [Option.map_some]; rw [if_neg (by omega)]; rfl⟩

theorem set_ex_abs (db : Db) (t : Int) (k v : Str) (n : Int) (hn : 0 < n) (hf : tooFar t n = false) : ∃ r, cSETEXNX t k v (dec n) (abs db) = (abs (setExNx db t k v n), .ok r) := by
  unfold cSETEXNX setExNx
  rw [undec_dec, rlive_abs]
  simp only [hf, Bool.false_eq_true, if_false]
  rw [if_neg (by omega)]
  cases hl : live db t k with
  | none => exact ⟨.table [], by rw [← set_abs]; rfl⟩
  | some e => exact ⟨_, rfl⟩

/-! ## Running -/

theorem command_EXISTS (t : Int) (k : Str) : command t "EXISTS".toList [k] = cEXISTS t k := by simp [command]
theorem command_TTL (t : Int) (k : Str) : command t "TTL".toList [k] = cTTL t k := by simp [command]
theorem command_GET (t : Int) (k : Str) : command t "GET".toList [k] = cGET t k := by simp [command]
theorem command_LLEN (t : Int) (k : Str) : command t "LLEN".toList [k] = cLLEN t k := by simp [command]
theorem command_RPUSH (t : Int) (k v : Str) : command t "RPUSH".toList [k, v] = cRPUSH t k v := by simp [command]
theorem command_LPOP (t : Int) (k : Str) : command t "LPOP".toList [k] = cLPOP t k := by simp [command]
theorem command_LRANGE (t : Int) (k a b : Str) : command t "LRANGE".toList [k, a, b] = cLRANGE t k a b := by simp [command]
theorem command_EXPIRE (t : Int) (k n : Str) : command t "EXPIRE".toList [k, n] = cEXPIRE t k n := by simp [command]
theorem command_SET (t : Int) (k v n : Str) : command t "SET".toList [k, v, "EX".toList, n, "NX".toList] = cSETEXNX t k v n := by simp [command]

/-! ## Numbers that doubles represent -/

/-- What Lua's doubles guarantee: every decimal number is read as some number, and up to 2^53 everything is exact. -/
structure Arith.Exact (ar : Arith) : Prop where
  total : ∀ n, ∃ m, ar.read (dec n) = some m
  read : ∀ n, -2 ^ 53 ≤ n → n ≤ 2 ^ 53 → ar.read (dec n) = some n
  sub : ∀ a b, -2 ^ 53 ≤ a - b → a - b ≤ 2 ^ 53 → ar.sub a b = a - b
  mul : ∀ a b, -2 ^ 53 ≤ a * b → a * b ≤ 2 ^ 53 → ar.mul a b = a * b
  text : ∀ n, -2 ^ 53 ≤ n → n ≤ 2 ^ 53 → ar.text n = dec n

/-- Numbers of seconds or milliseconds far beyond all that occurs: 2^52 ms are 142000 years. -/
def Small (n : Int) : Prop := -2 ^ 52 ≤ n ∧ n ≤ 2 ^ 52

instance (n : Int) : Decidable (Small n) := inferInstanceAs (Decidable (_ ∧ _))

/-- The lists of a database have small elements and lengths. -/
def Fits (db : Db) : Prop := ∀ k l e, db k = some ⟨.list l, e⟩ → (l.length : Int) ≤ 2 ^ 52 ∧ ∀ n ∈ l, Small n

theorem fits_live {db : Db} (hf : Fits db) {t : Int} {k : Str} {l : List Int} {e : Option Int} (h : live db t k = some ⟨.list l, e⟩) :
    (l.length : Int) ≤ 2 ^ 52 ∧ ∀ n ∈ l, Small n := hf k l e (live_some h).1

theorem fits_set {db : Db} (hf : Fits db) (k : Str) (e : Option Entry)
    (he : ∀ l w, e = some ⟨.list l, w⟩ → (l.length : Int) ≤ 2 ^ 52 ∧ ∀ n ∈ l, Small n) : Fits (db.set k e) := by
  intro k' l w h
  by_cases hk : k' = k
  · subst hk; rw [set_self] at h; exact he l w h
  · rw [set_ne _ _ hk] at h; exact hf k' l w h

theorem fits_lpop {db : Db} (hf : Fits db) (t : Int) (k : Str) : Fits (lpop db t k) := by
  unfold lpop
  split
  · rename_i hl
    have := fits_live hf hl
    refine fits_set hf _ _ ?_
    intro l w h
    simp only [Option.some.injEq, Entry.mk.injEq, Val.list.injEq] at h
    obtain ⟨rfl, rfl⟩ := h
    refine ⟨?_, fun n hn => this.2 n (List.mem_cons_of_mem _ hn)⟩
    have := this.1
    simp at this ⊢
    omega
  · exact fits_set hf _ _ (by simp)
  · exact hf

theorem fits_lpopN (t : Int) (k : Str) : ∀ (n : Nat) {db : Db}, Fits db → Fits (lpopN db t k n)
  | 0, _, h => h
  | n + 1, _, h => fits_lpopN t k n (fits_lpop h t k)

theorem fits_expire {db : Db} (hf : Fits db) (t : Int) (k : Str) (n : Int) : Fits (expire db t k n) := by
  unfold expire
  split
  · exact hf
  · rename_i e hl
    refine fits_set hf _ _ ?_
    intro l w h
    obtain ⟨v, w'⟩ := e
    simp only [Option.some.injEq, Entry.mk.injEq] at h
    obtain ⟨rfl, rfl⟩ := h
    exact fits_live hf hl

theorem fits_setExNx {db : Db} (hf : Fits db) (t : Int) (k v : Str) (n : Int) : Fits (setExNx db t k v n) := by
  unfold setExNx
  split
  · exact hf
  · exact fits_set hf _ _ (by simp)

theorem fits_rpush {db : Db} (hf : Fits db) (t : Int) (k : Str) (v : Int) (hv : Small v) (hlen : ∀ z, llen db t k = .ok z → z < 2 ^ 52) :
    Fits (rpush db t k v) := by
  unfold rpush
  split
  · refine fits_set hf _ _ ?_
    intro l w h
    simp only [Option.some.injEq, Entry.mk.injEq, Val.list.injEq] at h
    obtain ⟨rfl, rfl⟩ := h
    exact ⟨by simp, by simpa using hv⟩
  · rename_i l' e hl
    have h1 := fits_live hf hl
    have h2 := hlen l'.length (by simp [llen, hl])
    refine fits_set hf _ _ ?_
    intro l w h
    simp only [Option.some.injEq, Entry.mk.injEq, Val.list.injEq] at h
    obtain ⟨rfl, rfl⟩ := h
    refine ⟨by simp at h2 ⊢; omega, ?_⟩
    intro n hn
    rcases List.mem_append.1 hn with hn | hn
    · exact h1.2 n hn
    · rw [List.mem_singleton] at hn; rw [hn]; exact hv
  · exact hf

/-- An element more and one less. -/
theorem fits_swap {db : Db} (hf : Fits db) (t : Int) (k : Str) (v : Int) (hv : Small v) : Fits (lpop (rpush db t k v) t k) := by
  intro k' l w h
  by_cases hk : k' = k
  · subst hk
    unfold rpush at h
    split at h
    · rename_i hl
      simp [lpop, live, set_self, Entry.expired] at h
    · rename_i l' e hl
      have hx := (live_some hl).2
      have hx' : Entry.expired ⟨.list (l' ++ [v]), e⟩ t = false := by simpa [Entry.expired] using hx
      have h1 := fits_live hf hl
      have hlive : live (db.set k' (some ⟨.list (l' ++ [v]), e⟩)) t k' = some ⟨.list (l' ++ [v]), e⟩ := live_set _ _ _ _ hx'
      unfold lpop at h
      rw [hlive] at h
      rcases l' with _ | ⟨a, l'⟩
      · simp [set_self] at h
      · rcases l' with _ | ⟨b, l'⟩
        · simp [set_self] at h
          obtain ⟨rfl, rfl⟩ := h
          exact ⟨by simp, by simpa using hv⟩
        · simp [set_self] at h
          obtain ⟨rfl, rfl⟩ := h
          have h0 := h1.1
          refine ⟨by simp at h0 ⊢; omega, ?_⟩
          intro n hn
          rw [← List.cons_append, List.mem_append, List.mem_singleton] at hn
          rcases hn with hn | rfl
          · exact h1.2 n (List.mem_cons_of_mem _ hn)
          · exact hv
    · rename_i hl
      simp [lpop, hl] at h
      exact hf _ _ _ h
  · rw [lpop_ne _ _ hk, rpush_ne _ _ _ hk] at h
    exact hf _ _ _ h

theorem lrange_small {db : Db} (hf : Fits db) {t : Int} {k : Str} {o : Int} (h : lrange00 db t k = some o) : Small o := by
  unfold lrange00 at h
  split at h
  · rename_i hl
    simp at h; subst h
    exact (fits_live hf hl).2 _ (by simp)
  · simp at h

theorem llen_small {db : Db} (hf : Fits db) {t : Int} {k : Str} {z : Int} (h : llen db t k = .ok z) : 0 ≤ z ∧ z ≤ 2 ^ 52 := by
  unfold llen at h
  split at h
  · simp at h; subst h; simp
  · rename_i hl
    simp at h; subst h
    exact ⟨by omega, (fits_live hf hl).1⟩
  · simp at h

variable {ar : Arith} {t : Int}

theorem call1 (env : Env) (c x : String) (k : Str) (h : env.get x = .str k) :
    evalE ar t env (.call "redis.call" (args [.str c, .var x])) = command t c.toList [k] := by
  funext db
  simp [evalE, evalA, args, M.bind, M.pure, callF, strings, h]

/-- What redis sends for a reply of the model. -/
def wire (r : Reply) : List Item := [.int r.block, .int r.triggered, .int r.ttl, .bulk r.msg]

/-- The end of a run with a reply. -/
def ends (r : Except Err Reply) : Except RErr Ctl :=
  match r with
  | .ok r => .ok (.ret (.table [.num r.block, .num r.triggered, .num r.ttl, .str r.msg]))
  | .error _ => .error .wrongType

theorem run_local {env : Env} {x : String} {e : Expr} {b : Block} {db db' : RDb} {v : Value} (h : evalE ar t env e db = (db', .ok v)) :
    execB ar t env (.cons (.local x e) b) db = execB ar t ((x, v) :: env) b db' := by
  simp only [execB, execS, M.bind, h, M.pure]

theorem run_local_err {env : Env} {x : String} {e : Expr} {b : Block} {db db' : RDb} {r : RErr} (h : evalE ar t env e db = (db', .error r)) :
    execB ar t env (.cons (.local x e) b) db = (db', .error r) := by
  simp only [execB, execS, M.bind, h]

theorem run_call {env : Env} {f : String} {a : Args} {b : Block} {db db' : RDb} {v : Value} (h : evalE ar t env (.call f a) db = (db', .ok v)) :
    execB ar t env (.cons (.call f a) b) db = execB ar t env b db' := by
  simp only [execB, execS, M.bind, h, M.pure]

theorem run_ret {env : Env} {e : Expr} {b : Block} {db db' : RDb} {v : Value} (h : evalE ar t env e db = (db', .ok v)) :
    execB ar t env (.cons (.ret e) b) db = (db', .ok (.ret v)) := by
  simp only [execB, execS, M.bind, h, M.pure]

theorem run_if_false {env : Env} {c : Expr} {body b : Block} {db db' : RDb} (h : evalE ar t env c db = (db', .ok (.bool false))) :
    execB ar t env (.cons (.ifThen c body) b) db = execB ar t env b db' := by
  simp [execB, execS, M.bind, h, M.pure, Value.truthy]

theorem run_if_true {env : Env} {c : Expr} {body b : Block} {db db' : RDb} (h : evalE ar t env c db = (db', .ok (.bool true))) :
    execB ar t env (.cons (.ifThen c body) b) db = match execB ar t env body db' with
      | (d, .ok (.ret v)) => (d, .ok (.ret v))
      | (d, .ok (.next _)) => execB ar t env b d
      | (d, .error e) => (d, .error e) := by
  simp only [execB, execS, M.bind, h, Value.truthy]
  rcases hb : execB ar t env body db' with ⟨d, e | (_ | _)⟩ <;> simp [M.bind, hb, M.pure]

theorem run_if_ends {env : Env} {c : Expr} {body b : Block} {db db' d : RDb} {r : Except Err Reply} (h : evalE ar t env c db = (db', .ok (.bool true)))
    (hb : execB ar t env body db' = (d, ends r)) : execB ar t env (.cons (.ifThen c body) b) db = (d, ends r) := by
  rw [run_if_true h, hb]
  cases r <;> rfl

theorem pass_run (env : Env) (b : Block) (db : RDb) : execB ar t env (.cons pass b) db = (db, ends (.ok .pass)) :=
  run_ret (by simp [args, evalE, evalA, M.bind, M.pure, Reply.pass])

/-- The check of the block key. -/
theorem blocked_run (env : Env) (b : Block) (db : Db) (kb : Str) (h : env.get "keyb" = .str kb) :
    execB ar t env (.cons blocked b) (abs db) =
      if existsK db t kb then (abs db, ends ((getStr db t kb).map fun m => ⟨1, 0, ttl db t kb, m⟩)) else execB ar t env b (abs db) := by
  have hc : evalE ar t env (.bin .eq (.call "redis.call" (args [.str "EXISTS", .var "keyb"])) (.num 1)) (abs db) =
      (abs db, .ok (.bool (existsK db t kb))) := by
    unfold evalE
    rw [call1 env _ _ kb h, command_EXISTS]
    simp only [M.bind, exists_abs, evalE, M.pure, binF, Value.same]
    cases existsK db t kb <;> rfl
  cases he : existsK db t kb with
  | false =>
    rw [he] at hc
    exact run_if_false hc
  | true =>
    rw [he] at hc
    refine run_if_ends hc ?_
    refine (run_local (db' := abs db) (v := .num (ttl db t kb)) (by rw [call1 env _ _ kb h, command_TTL, ttl_abs])).trans ?_
    have h2 : evalE ar t (("ttl", .num (ttl db t kb)) :: env) (.call "redis.call" (args [.str "GET", .var "keyb"])) (abs db) =
        (abs db, (liftErr (getStr db t kb)).map .str) := by
      rw [call1 _ _ _ kb (by simp [Env.get, h]), command_GET, get_abs db t kb he]
    cases hg : getStr db t kb with
    | error e =>
      rw [hg] at h2
      exact run_local_err h2
    | ok m =>
      rw [hg] at h2
      refine (run_local h2).trans (run_ret ?_)
      simp [args, evalE, evalA, M.bind, M.pure, Env.get]

theorem prog2_run (db : Db) (kb : Str) :
    execB ar t [("KEYS", .table [.str kb]), ("ARGV", .table [])] prog2 (abs db) = (abs db, ends (script2 db t kb)) := by
  refine (run_local (db' := abs db) (v := .str kb) (by simp [evalE, M.bind, M.pure, indexF, Env.get])).trans ?_
  refine (blocked_run _ _ db kb rfl).trans ?_
  unfold script2
  split
  · cases getStr db t kb <;> rfl
  · exact pass_run _ _ _

/-! ## The first script -/

/-- The variables of script1 after the first lines. -/
structure Vars (env : Env) (key kb : Str) (cap win exp now : Int) (msg : Str) : Prop where
  key : env.get "key" = .str key
  keyb : env.get "keyb" = .str kb
  cap : env.get "cap" = .num cap
  win : env.get "win" = .num win
  exp : env.get "exp" = .num exp
  now : env.get "now" = .num now
  msg : env.get "msg" = .str msg

theorem Vars.cons {env : Env} {key kb : Str} {cap win exp now : Int} {msg : Str} (h : Vars env key kb cap win exp now msg) (x : String) (v : Value)
    (hx : x ∈ ["size", "diff", "list", "oldest", "i"]) : Vars ((x, v) :: env) key kb cap win exp now msg := by
  simp only [List.mem_cons, List.not_mem_nil, or_false] at hx
  rcases hx with rfl | rfl | rfl | rfl | rfl <;>
    exact ⟨by simpa [Env.get] using h.key, by simpa [Env.get] using h.keyb, by simpa [Env.get] using h.cap, by simpa [Env.get] using h.win,
      by simpa [Env.get] using h.exp, by simpa [Env.get] using h.now, by simpa [Env.get] using h.msg⟩

variable {env : Env} {key kb : Str} {cap win exp now : Int} {msg : Str}

theorem push_run (hx : ar.Exact) (hn : Small now) (hv : Vars env key kb cap win exp now msg) (db : Db) (b : List Stmt) (h : ∃ z, llen db t key = .ok z) :
    execB ar t env (block (push ++ b)) (abs db) = execB ar t env (block b) (abs (rpush db t key now)) := by
  obtain ⟨m, hm⟩ := rpush_abs db t key now h
  refine run_call (v := .num m) ?_
  rw [← hm, ← command_RPUSH]
  simp [evalE, evalA, args, M.bind, M.pure, callF, strings, hv.key, hv.now, hx.text now (by unfold Small at hn; omega) (by unfold Small at hn; omega)]

theorem lpop_run (hv : Vars env key kb cap win exp now msg) (db : Db) (h : ∃ z, llen db t key = .ok z) :
    ∃ v, evalE ar t env (.call "redis.call" (args [.str "LPOP", .var "key"])) (abs db) = (abs (lpop db t key), .ok v) := by
  obtain ⟨v, hm⟩ := lpop_abs db t key h
  exact ⟨v, by rw [← hm, ← command_LPOP, call1 _ _ _ _ hv.key]⟩

theorem far_small {t n : Int} (ht : Small t) (hn : n ≤ 2 ^ 53) : tooFar t n = false := by
  unfold Small at ht
  unfold tooFar
  rw [decide_eq_false_iff_not]
  omega

theorem renew_run (hx : ar.Exact) (ht : Small t) (hs : Small exp) (hv : Vars env key kb cap win exp now msg) (db : Db) (he : 0 < exp) :
    execB ar t env (block renew) (abs db) = (abs (expire db t key (exp * 2)), ends (.ok .pass)) := by
  obtain ⟨m, hm⟩ := expire_abs db t key (exp * 2) (by omega) (far_small ht (by unfold Small at hs; omega))
  refine (run_call (v := .num m) ?_).trans (pass_run _ _ _)
  rw [← hm, ← command_EXPIRE]
  unfold Small at hs
  simp [evalE, evalA, args, M.bind, M.pure, callF, strings, hv.key, hv.exp, binF, hx.mul exp 2 (by omega) (by omega), hx.text (exp * 2) (by omega) (by omega)]

theorem tail5_run (hx : ar.Exact) (ht : Small t) (hs : Small exp) (hv : Vars env key kb cap win exp now msg) (db : Db) (he : 0 < exp) :
    execB ar t env tail5 (abs db) = (abs (setExNx db t kb msg exp), ends (.ok ⟨1, 1, exp, msg⟩)) := by
  obtain ⟨r, hr⟩ := set_ex_abs db t kb msg exp he (far_small ht (by unfold Small at hs; omega))
  refine (run_call (v := r) (db' := abs (setExNx db t kb msg exp)) ?_).trans (run_ret ?_)
  · rw [← hr, ← command_SET]
    unfold Small at hs
    simp [evalE, evalA, args, M.bind, M.pure, callF, strings, hv.keyb, hv.exp, hv.msg, hx.text exp (by omega) (by omega)]
  · simp [evalE, evalA, args, M.bind, M.pure, hv.exp, hv.msg]

theorem tail4_run (hx : ar.Exact) (ht : Small t) (hs : Small exp) (hn : Small now) (hv : Vars env key kb cap win exp now msg) (db : Db) (he : 0 < exp)
    (hl : ∃ z, llen db t key = .ok z) (oldest : Int) (hso : Small oldest) (ho : env.get "list" = .table [.str (dec oldest)]) :
    execB ar t env tail4 (abs db) =
      if now - oldest > win then (abs (expire (lpop (rpush db t key now) t key) t key (exp * 2)), ends (.ok .pass))
      else (abs (setExNx db t kb msg exp), ends (.ok ⟨1, 1, exp, msg⟩)) := by
  refine (run_local (db' := abs db) (v := .num oldest) (by simp [evalE, evalA, args, M.bind, M.pure, callF, ho, hx.read oldest (by unfold Small at hso; omega) (by unfold Small at hso; omega), indexF])).trans ?_
  have hv' := hv.cons "oldest" (.num oldest) (by simp)
  have hc : evalE ar t (("oldest", .num oldest) :: env) (.bin .gt (.bin .sub (.var "now") (.var "oldest")) (.var "win")) (abs db) =
      (abs db, .ok (.bool (decide (now - oldest > win)))) := by
    unfold Small at hso hn
    simp [evalE, M.bind, M.pure, hv.now, hv.win, binF, Env.get, hx.sub now oldest (by omega) (by omega)]
  split
  · rename_i h
    rw [decide_eq_true h] at hc
    refine run_if_ends hc ?_
    refine (push_run hx hn hv' db _ hl).trans ?_
    obtain ⟨v, h1⟩ := lpop_run (ar := ar) hv' (rpush db t key now) (llen_rpush db t key now hl)
    exact (run_call h1).trans (renew_run hx ht hs hv' _ he)
  · rename_i h
    rw [decide_eq_false h] at hc
    exact (run_if_false hc).trans (tail5_run hx ht hs hv' db he)

theorem tail3_run (hx : ar.Exact) (ht : Small t) (hs : Small exp) (hn : Small now) (hv : Vars env key kb cap win exp now msg) (db : Db) (hfit : Fits db) (he : 0 < exp)
    (hl : ∃ z, llen db t key = .ok z) :
    execB ar t env tail3 (abs db) = match lrange00 db t key with
      | none => (abs (expire (rpush db t key now) t key (exp * 2)), ends (.ok .pass))
      | some oldest =>
        if now - oldest > win then (abs (expire (lpop (rpush db t key now) t key) t key (exp * 2)), ends (.ok .pass))
        else (abs (setExNx db t kb msg exp), ends (.ok ⟨1, 1, exp, msg⟩)) := by
  refine (run_local (db' := abs db) (v := .table ((lrange00 db t key).toList.map fun n => .str (dec n))) ?_).trans ?_
  · rw [← lrange_abs db t key hl, ← command_LRANGE]
    simp [evalE, evalA, args, M.bind, M.pure, callF, strings, hv.key, hx.text 0 (by omega) (by omega)]
  have hv' := hv.cons "list" (.table ((lrange00 db t key).toList.map fun n => .str (dec n))) (by simp)
  cases ho : lrange00 db t key with
  | none =>
    rw [ho] at hv'
    refine run_if_ends (db' := abs db) ?_ ((push_run hx hn hv' db _ hl).trans (renew_run hx ht hs hv' _ he))
    simp [evalE, evalA, args, M.bind, M.pure, callF, binF, Env.get, Value.same]
  | some oldest =>
    rw [ho] at hv'
    refine (run_if_false (db' := abs db) ?_).trans (tail4_run hx ht hs hn hv' db he hl oldest (lrange_small hfit ho) rfl)
    simp [evalE, evalA, args, M.bind, M.pure, callF, binF, Env.get, Value.same]

/-- The loop. -/
theorem loop_run (hv : Vars env key kb cap win exp now msg) : ∀ (n : Nat) (db : Db) (a c : Int), (∃ z, llen db t key = .ok z) →
    loop (fun i => execB ar t (("i", .num i) :: env) (block [.call "redis.call" (args [.str "LPOP", .var "key"])])) env n a c (abs db) =
      (abs (lpopN db t key n), .ok (.next env)) ∧ ∃ z, llen (lpopN db t key n) t key = .ok z
  | 0, db, a, c, h => ⟨rfl, h⟩
  | n + 1, db, a, c, h => by
    have hv' := hv.cons "i" (.num a) (by simp)
    obtain ⟨v, h1⟩ := lpop_run (ar := ar) (t := t) hv' db h
    have h2 : execB ar t (("i", .num a) :: env) (block [.call "redis.call" (args [.str "LPOP", .var "key"])]) (abs db) =
        (abs (lpop db t key), .ok (.next (("i", .num a) :: env))) := (run_call h1).trans rfl
    obtain ⟨i1, i2⟩ := loop_run hv n (lpop db t key) (a + c) c (llen_lpop db t key h)
    refine ⟨?_, i2⟩
    unfold loop
    simp only [M.bind, h2]
    exact i1

theorem tail2_run (hx : ar.Exact) (hcap : Small cap) (hv : Vars env key kb cap win exp now msg) (db : Db) (hfit : Fits db) (size : Int)
    (hl : llen db t key = .ok size) (hs : env.get "size" = .num size) :
    execB ar t env tail2 (abs db) = execB ar t (("diff", .num (size - cap)) :: env) tail3 (abs (lpopN db t key (size - cap).toNat)) := by
  have hsub : ar.sub size cap = size - cap := by
    have := llen_small hfit hl
    unfold Small at hcap
    exact hx.sub _ _ (by omega) (by omega)
  refine (run_local (db' := abs db) (v := .num (size - cap)) (by simp [evalE, M.bind, M.pure, binF, hv.cap, hs, hsub])).trans ?_
  have hv' := hv.cons "diff" (.num (size - cap)) (by simp)
  have hc : evalE ar t (("diff", .num (size - cap)) :: env) (.bin .gt (.var "diff") (.num 0)) (abs db) =
      (abs db, .ok (.bool (decide (size - cap > 0)))) := by
    simp [evalE, M.bind, M.pure, binF, Env.get]
  by_cases h : size - cap > 0
  · rw [decide_eq_true h] at hc
    refine (run_if_true hc).trans ?_
    have h1 := (loop_run (ar := ar) (t := t) hv' (size - cap).toNat db (size - cap) (-1) ⟨_, hl⟩).1
    have hr : rounds (size - cap) 1 (-1) = (size - cap).toNat := by
      unfold rounds
      rw [if_neg (by omega), if_pos (by omega)]
      simp
      omega
    have h2 : execB ar t (("diff", .num (size - cap)) :: env)
        (block [.for "i" (.var "diff") (.num 1) (.neg (.num 1)) (block [.call "redis.call" (args [.str "LPOP", .var "key"])])]) (abs db) =
        (abs (lpopN db t key (size - cap).toNat), .ok (.next (("diff", .num (size - cap)) :: env))) := by
      have e1 : evalE ar t (("diff", .num (size - cap)) :: env) (.var "diff") = M.pure (.num (size - cap)) := by simp [evalE, Env.get]
      have e2 : evalE ar t (("diff", .num (size - cap)) :: env) (.neg (.num 1)) = M.pure (.num (-1)) := by
        funext d; simp [evalE, M.bind, M.pure]
      have e3 : evalE ar t (("diff", .num (size - cap)) :: env) (.num 1) = M.pure (.num 1) := by simp [evalE]
      show execB ar t _ (.cons (.for _ _ _ _ _) .nil) _ = _
      simp only [execB, execS, e1, e2, e3, M.bind, M.pure, hr, h1]
    rw [h2]
  · rw [decide_eq_false h] at hc
    rw [show (size - cap).toNat = 0 by omega]
    exact run_if_false hc

theorem tail1_run (hx : ar.Exact) (ht : Small t) (hs : Small exp) (hn : Small now) (hcap : Small cap) (hv : Vars env key kb cap win exp now msg) (db : Db) (hfit : Fits db) (he : 0 < exp) :
    execB ar t env tail1 (abs db) = match llen db t key with
      | .error e => (abs db, ends (.error e))
      | .ok size =>
        if size < cap then (abs (expire (rpush db t key now) t key (exp * 2)), ends (.ok .pass))
        else match lrange00 (lpopN db t key (size - cap).toNat) t key with
          | none => (abs (expire (rpush (lpopN db t key (size - cap).toNat) t key now) t key (exp * 2)), ends (.ok .pass))
          | some oldest =>
            if now - oldest > win then (abs (expire (lpop (rpush (lpopN db t key (size - cap).toNat) t key now) t key) t key (exp * 2)), ends (.ok .pass))
            else (abs (setExNx (lpopN db t key (size - cap).toNat) t kb msg exp), ends (.ok ⟨1, 1, exp, msg⟩)) := by
  have h1 : evalE ar t env (.call "redis.call" (args [.str "LLEN", .var "key"])) (abs db) = (abs db, (liftErr (llen db t key)).map .num) := by
    rw [call1 _ _ _ _ hv.key, command_LLEN, llen_abs]
  cases hl : llen db t key with
  | error e =>
    rw [hl] at h1
    exact run_local_err h1
  | ok size =>
    rw [hl] at h1
    refine (run_local h1).trans ?_
    have hv' := hv.cons "size" (.num size) (by simp)
    have hc : evalE ar t (("size", .num size) :: env) (.bin .lt (.var "size") (.var "cap")) (abs db) = (abs db, .ok (.bool (decide (size < cap)))) := by
      simp [evalE, M.bind, M.pure, binF, hv.cap, Env.get]
    simp only
    split
    · rename_i h
      rw [decide_eq_true h] at hc
      exact run_if_ends hc ((push_run hx hn hv' db _ ⟨_, hl⟩).trans (renew_run hx ht hs hv' _ he))
    · rename_i h
      rw [decide_eq_false h] at hc
      refine (run_if_false hc).trans ((tail2_run hx hcap hv' db hfit size hl rfl).trans ?_)
      have hl' := (loop_run (ar := ar) (t := t) hv (size - cap).toNat db 0 0 ⟨_, hl⟩).2
      exact tail3_run hx ht hs hn (hv'.cons "diff" _ (by simp)) _ (fits_lpopN t key _ hfit) he hl'

/-- Running the first text. -/
theorem prog1_run (hx : ar.Exact) (ht : Small t) (db : Db) (hfit : Fits db) (key kb : Str) (cap win exp now : Int) (msg : Str)
    (hcap : Small cap) (hwin : Small win) (hs : Small exp) (hn : Small now) :
    execB ar t [("KEYS", .table [.str key, .str kb]), ("ARGV", .table [.str (dec cap), .str (dec win), .str (dec exp), .str (dec now), .str msg])]
      prog1 (abs db) = (abs (script1 db t key kb cap win exp now msg).1, ends (script1 db t key kb cap win exp now msg).2) := by
  have hread : ∀ n, Small n → ar.read (dec n) = some n := fun n h => by unfold Small at h; exact hx.read n (by omega) (by omega)
  refine (run_local (db' := abs db) (v := .str key) (by simp [evalE, M.bind, M.pure, indexF, Env.get])).trans ?_
  refine (run_local (db' := abs db) (v := .str kb) (by simp [evalE, M.bind, M.pure, indexF, Env.get])).trans ?_
  refine (run_local (db' := abs db) (v := .num cap) (by simp [evalE, evalA, args, M.bind, M.pure, indexF, Env.get, callF, hread cap hcap])).trans ?_
  refine (run_local (db' := abs db) (v := .num win) (by simp [evalE, evalA, args, M.bind, M.pure, indexF, Env.get, callF, hread win hwin])).trans ?_
  refine (run_local (db' := abs db) (v := .num exp) (by simp [evalE, evalA, args, M.bind, M.pure, indexF, Env.get, callF, hread exp hs])).trans ?_
  refine (run_local (db' := abs db) (v := .num now) (by simp [evalE, evalA, args, M.bind, M.pure, indexF, Env.get, callF, hread now hn])).trans ?_
  refine (run_local (db' := abs db) (v := .str msg) (by simp [evalE, M.bind, M.pure, indexF, Env.get])).trans ?_
  have hv : Vars [("msg", .str msg), ("now", .num now), ("exp", .num exp), ("win", .num win), ("cap", .num cap), ("keyb", .str kb), ("key", .str key),
      ("KEYS", .table [.str key, .str kb]), ("ARGV", .table [.str (dec cap), .str (dec win), .str (dec exp), .str (dec now), .str msg])]
      key kb cap win exp now msg := ⟨rfl, rfl, rfl, rfl, rfl, rfl, rfl⟩
  generalize he : ([("msg", .str msg), ("now", .num now), ("exp", .num exp), ("win", .num win), ("cap", .num cap), ("keyb", .str kb), ("key", .str key),
      ("KEYS", .table [.str key, .str kb]), ("ARGV", .table [.str (dec cap), .str (dec win), .str (dec exp), .str (dec now), .str msg])] : Env) = env at hv ⊢
  have hc : evalE ar t env (.bin .or (.bin .or (.bin .le (.var "cap") (.num 0)) (.bin .le (.var "win") (.num 0))) (.bin .le (.var "exp") (.num 0)))
      (abs db) = (abs db, .ok (.bool (decide (cap ≤ 0 ∨ win ≤ 0 ∨ exp ≤ 0)))) := by
    simp only [evalE, M.bind, M.pure, hv.cap, hv.win, hv.exp, binF]
    by_cases h1 : cap ≤ 0
    · simp [h1, Value.truthy, M.pure]
    · by_cases h2 : win ≤ 0
      · simp [h1, h2, Value.truthy, M.pure, M.bind]
      · simp [h1, h2, Value.truthy, M.pure, M.bind]
  unfold script1
  split
  · rename_i h
    rw [decide_eq_true h] at hc
    exact run_if_ends hc (pass_run _ _ _)
  · rename_i h
    rw [decide_eq_false h] at hc
    refine (run_if_false hc).trans ((blocked_run _ _ db kb hv.keyb).trans ?_)
    split
    · cases getStr db t kb <;> rfl
    · rw [tail1_run hx ht hs hn hcap hv db hfit (by omega)]
      cases llen db t key with
      | error e => rfl
      | ok size =>
        simp only
        split
        · rfl
        · cases lrange00 (lpopN db t key (size - cap).toNat) t key with
          | none => rfl
          | some o => simp only; split <;> rfl

end Gears.TtlRedis.Lua
