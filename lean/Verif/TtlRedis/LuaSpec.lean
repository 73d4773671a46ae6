import Verif.TtlRedis.LuaProps

/-
C105: what the limiter does when redis runs the texts of the scripts.
-/

namespace Gears.TtlRedis.Lua

variable {ar : Arith}

theorem compiled1 : compiled text1 = prog1 := by unfold compiled; rw [prog1_text]; rfl
theorem compiled2 : compiled text2 = prog2 := by unfold compiled; rw [prog2_text]; rfl

theorem goResult_ends (db : RDb) (r : Except Err Reply) :
    goResult (M.bind (fun d => (d, ends r)) (fun r => match r with
      | .ret (.table l) => M.pure (some (items l))
      | _ => M.pure none) db).2 = some (Result.ofEval r) := by
  cases r with
  | error e => rfl
  | ok r => rfl

/-- Both scripts compile. -/
theorem C105_compile : (parse text1).isSome = true ∧ (parse text2).isSome = true := by rw [prog1_text, prog2_text]; exact ⟨rfl, rfl⟩

/-- The numbers of a call: up to 2^52. -/
def SmallCall (t : Int) : Call → Prop
  | .should _ _ pu _ _ _ now => Small t ∧ Small pu.capacity ∧ Small pu.window ∧ Small pu.timeout ∧ Small now
  | _ => True

instance (t : Int) (c : Call) : Decidable (SmallCall t c) := by
  cases c <;> unfold SmallCall <;> infer_instance

/-- Such calls keep the numbers in the database small. -/
theorem fits_exec {db : Db} (hf : Fits db) {t : Int} {c : Call} (hc : SmallCall t c) : Fits (c.exec db t).1 := by
  cases c with
  | should tag pc pu key bk msg now =>
    obtain ⟨-, h1, -, -, h4⟩ := hc
    simp only [Call.exec, shouldBlock2]
    split
    · exact hf
    simp only
    generalize listKey tag key = K
    generalize blockRKey tag bk = B
    unfold script1
    split
    · exact hf
    split
    · split <;> exact hf
    split
    · exact hf
    rename_i size hl
    split
    · refine fits_expire (fits_rpush hf _ _ _ h4 ?_) _ _ _
      intro z hz
      rw [hl] at hz
      cases hz
      unfold Small at h1
      omega
    · simp only
      have hf' := fits_lpopN t K (size - pu.capacity).toNat hf
      split
      · rename_i ho
        refine fits_expire (fits_rpush hf' _ _ _ h4 ?_) _ _ _
        intro z hz
        unfold lrange00 at ho
        unfold llen at hz
        split at hz
        · cases hz; decide
        · rename_i l _ hl'
          rw [hl'] at ho
          cases l with
          | nil => cases hz; decide
          | cons a l => simp at ho
        · simp at hz
      · split
        · exact fits_expire (fits_swap hf' _ _ _ h4) _ _ _
        · exact fits_setExNx hf' _ _ _ _
  | isBlocked bk => exact hf
  | shouldDown pc => exact hf
  | isBlockedDown => exact hf

theorem fits_run {cs : List (Int × Call)} : ∀ {db : Db}, Fits db → (∀ x ∈ cs, SmallCall x.1 x.2) → Fits (run db cs).1 := by
  induction cs with
  | nil => intro _ h _; exact h
  | cons x cs ih => intro _ h hc; exact ih (fits_exec h (hc x (by simp))) fun y hy => hc y (by simp [hy])

theorem fits_empty : Fits Db.empty := fun _ _ _ h => by simp [Db.empty] at h

/-- `ShouldBlock2` with the text of the script is the function of the model. -/
theorem C105_should (hx : ar.Exact) (db : Db) (hfit : Fits db) (t : Int) (tag : Str) (pc pu : Params) (key bk msg : Str) (now : Int)
    (hsm : SmallCall t (.should tag pc pu key bk msg now)) :
    goShouldBlock2 ar (abs db) t tag pc pu key bk msg now =
      (abs (shouldBlock2 db t tag pc pu key bk msg now).1, some (shouldBlock2 db t tag pc pu key bk msg now).2) := by
  unfold goShouldBlock2 shouldBlock2
  split
  · rfl
  · simp only [compiled1, evalScript, M.bind, List.map_cons, List.map_nil, prog1_run hx hsm.1 db hfit _ _ _ _ _ _ _ hsm.2.1 hsm.2.2.1 hsm.2.2.2.1 hsm.2.2.2.2]
    cases (script1 db t (listKey tag key) (blockRKey tag bk) pu.capacity pu.window pu.timeout now msg).2 <;> rfl

/-- `IsBlocked` likewise; the database does not change. -/
theorem C105_isBlocked (db : Db) (t : Int) (bk : Str) : goIsBlocked ar (abs db) t bk = (abs db, some (isBlocked db t bk)) := by
  unfold goIsBlocked isBlocked
  simp only [compiled2, evalScript, M.bind, List.map_cons, List.map_nil, prog2_run]
  cases script2 db t (bk ++ sfx) <;> rfl

/-- A call, with redis running the texts; none: a panic. -/
def goExec (ar : Arith) (db : RDb) (t : Int) : Call → RDb × Option Result
  | .should tag pc pu key bk msg now => goShouldBlock2 ar db t tag pc pu key bk msg now
  | .isBlocked bk => goIsBlocked ar db t bk
  | .shouldDown pc => (db, if pc.notSet then some .zero else goResult (.error .lua))
  | .isBlockedDown => (db, goResult (.error .lua))

/-- A history; it ends with a panic. -/
def goRun (ar : Arith) (db : RDb) : List (Int × Call) → Option (RDb × List Event)
  | [] => some (db, [])
  | (t, c) :: cs =>
    match goExec ar db t c with
    | (_, none) => none
    | (db', some r) => (goRun ar db' cs).map fun x => (x.1, ⟨t, c, r⟩ :: x.2)

/-- So all histories are those of the model: C15–C22 hold for the texts. -/
theorem C105_run (hx : ar.Exact) (cs : List (Int × Call)) (hsm : ∀ x ∈ cs, SmallCall x.1 x.2) (db : Db) (hfit : Fits db) :
    goRun ar (abs db) cs = some (abs (run db cs).1, (run db cs).2) := by
  induction cs generalizing db with
  | nil => rfl
  | cons x cs ih =>
    obtain ⟨t, c⟩ := x
    have he : goExec ar (abs db) t c = (abs (c.exec db t).1, some (c.exec db t).2) := by
      cases c with
      | should tag pc pu key bk msg now => exact C105_should hx db hfit t tag pc pu key bk msg now (hsm (t, _) (by simp))
      | isBlocked bk => exact C105_isBlocked db t bk
      | shouldDown pc =>
        simp only [goExec, Call.exec]
        split <;> rfl
      | isBlockedDown => rfl
    simp only [goRun, he, run, ih (fun y hy => hsm y (by simp [hy])) _ (fits_exec hfit (hsm (t, c) (by simp))), Option.map_some]

/-! ## No panics -/

/-- The array that the type assertions of the Go code expect. -/
def Good (r : RDb × Except RErr Ctl) : Prop :=
  match r.2 with
  | .error _ => True
  | .ok (.ret v) => ∃ a b c m, v = .table [.num a, .num b, .num c, .str m]
  | .ok (.next _) => False

/-- No `return`. -/
def Silent (r : RDb × Except RErr Ctl) : Prop := ∀ v, r.2 ≠ .ok (.ret v)

section
variable {t : Int} {env : Env}

theorem good_local {x : String} {e : Expr} {b : Block} {db : RDb}
    (h : ∀ db' v, evalE ar t env e db = (db', .ok v) → Good (execB ar t ((x, v) :: env) b db')) :
    Good (execB ar t env (.cons (.local x e) b) db) := by
  rcases he : evalE ar t env e db with ⟨db', r | v⟩
  · rw [run_local_err he]; trivial
  · rw [run_local he]; exact h _ _ he

theorem good_call {f : String} {a : Args} {b : Block} {db : RDb} (h : ∀ db', Good (execB ar t env b db')) :
    Good (execB ar t env (.cons (.call f a) b) db) := by
  rcases he : evalE ar t env (.call f a) db with ⟨db', r | v⟩
  · simp only [execB, execS, M.bind, he]; trivial
  · rw [run_call he]; exact h _

theorem good_if {c : Expr} {body b : Block} {db : RDb}
    (hb : ∀ db' v, evalE ar t env c db = (db', .ok v) → v.truthy = true → Good (execB ar t env body db') ∨ Silent (execB ar t env body db'))
    (h : ∀ db', Good (execB ar t env b db')) : Good (execB ar t env (.cons (.ifThen c body) b) db) := by
  rcases he : evalE ar t env c db with ⟨db', r | v⟩
  · simp only [execB, execS, M.bind, he]; trivial
  · simp only [execB, execS, M.bind, he]
    cases hv : v.truthy with
    | false => simpa [M.pure] using h db'
    | true =>
      have := hb _ _ he hv
      rcases hx : execB ar t env body db' with ⟨d, e | (env' | r)⟩
      · simp [M.bind, hx]; trivial
      · simpa [M.bind, hx, M.pure] using h d
      · rw [hx] at this
        rcases this with h1 | h1
        · simpa [M.bind, hx, M.pure] using h1
        · exact absurd rfl (h1 _)

theorem good_pass {b : Block} {db : RDb} : Good (execB ar t env (.cons pass b) db) := by
  rw [pass_run]
  exact ⟨_, _, _, _, rfl⟩

/-- Nothing else can be read between `EXISTS` and `GET`: the script is atomic. -/
theorem good_blocked {b : Block} {db : RDb} {kb : Str} (hk : env.get "keyb" = .str kb) (h : ∀ db', Good (execB ar t env b db')) :
    Good (execB ar t env (.cons blocked b) db) := by
  refine good_if ?_ h
  intro db' v he hv
  refine .inl ?_
  unfold evalE at he
  rw [call1 env _ _ kb hk, command_EXISTS] at he
  simp only [M.bind, cEXISTS, evalE, M.pure, binF, Prod.mk.injEq, Except.ok.injEq] at he
  obtain ⟨rfl, rfl⟩ := he
  have hx : (rlive db t kb).isSome = true := by
    cases hl : (rlive db t kb).isSome with
    | true => rfl
    | false => rw [hl] at hv; simp [Value.same, Value.truthy] at hv
  refine good_local ?_
  intro d1 v1 h1
  rw [call1 env _ _ kb hk, command_TTL] at h1
  have hd1 : d1 = db ∧ ∃ n, v1 = .num n := by
    unfold cTTL at h1
    split at h1
    · simp at h1; exact ⟨h1.1.symm, _, h1.2.symm⟩
    · split at h1 <;> (simp at h1; exact ⟨h1.1.symm, _, h1.2.symm⟩)
  obtain ⟨rfl, n, rfl⟩ := hd1
  refine good_local ?_
  intro d2 v2 h2
  rw [call1 _ _ _ kb (by simp [Env.get, hk]), command_GET] at h2
  have hd2 : ∃ s, v2 = .str s := by
    unfold cGET at h2
    split at h2
    · rename_i hn; rw [hn] at hx; simp at hx
    · simp at h2; exact ⟨_, h2.2.symm⟩
    · simp at h2
  obtain ⟨s, rfl⟩ := hd2
  refine (congrArg Good (run_ret (db' := d2) (v := .table [.num 1, .num 0, .num n, .str s]) ?_)).mpr ⟨_, _, _, _, rfl⟩
  simp [args, evalE, evalA, M.bind, M.pure, Env.get]

theorem silent_loop (body : Int → M Ctl) (hs : ∀ i db, Silent (body i db)) : ∀ (n : Nat) (a c : Int) (db : RDb), Silent (loop body env n a c db)
  | 0, a, c, db => by intro v; simp [loop, M.pure]
  | n + 1, a, c, db => by
    intro v
    unfold loop
    have h := hs a db
    simp only [M.bind]
    rcases hx : body a db with ⟨d, e | (env' | r)⟩
    · simp
    · exact silent_loop body hs n (a + c) c d v
    · rw [hx] at h; exact absurd rfl (h _)

variable {key kb : Str} {cap win exp now : Int} {msg : Str}

theorem good_push_renew {db : RDb} : Good (execB ar t env (block (push ++ renew)) db) :=
  good_call fun _ => good_call fun _ => good_pass

theorem good_tail5 (hv : Vars env key kb cap win exp now msg) (db : RDb) : Good (execB ar t env tail5 db) := by
  refine good_call fun db' => ?_
  refine (congrArg Good (run_ret (db' := db') (v := .table [.num 1, .num 1, .num exp, .str msg]) ?_)).mpr ⟨_, _, _, _, rfl⟩
  simp [args, evalE, evalA, M.bind, M.pure, hv.exp, hv.msg]

theorem good_tail1 (hv : Vars env key kb cap win exp now msg) (db : RDb) : Good (execB ar t env tail1 db) := by
  refine good_local fun d1 v1 _ => good_if (fun _ _ _ _ => .inl good_push_renew) fun d2 => ?_
  refine good_local fun d3 v3 _ => good_if (fun d4 _ _ _ => .inr ?_) fun d5 => ?_
  · intro v
    show (execB ar t _ (.cons (.for _ _ _ _ _) .nil) _).2 ≠ _
    have hl : ∀ (e : Env) i db, Silent (execB ar t (("i", .num i) :: e) (block [.call "redis.call" (args [.str "LPOP", .var "key"])]) db) := by
      intro e i db v
      show (execB ar t _ (.cons (.call _ _) .nil) _).2 ≠ _
      simp only [execB, execS, M.bind]
      rcases hx : evalE ar t (("i", .num i) :: e) (.call "redis.call" (args [.str "LPOP", .var "key"])) db with ⟨d, e | r⟩ <;> simp [M.pure]
    generalize hE : (("diff", v3) :: ("size", v1) :: env : Env) = E
    have e2 : evalE ar t E (.neg (.num 1)) = M.pure (.num (-1)) := by funext d; simp [evalE, M.bind, M.pure]
    have e3 : evalE ar t E (.num 1) = M.pure (.num 1) := by simp [evalE]
    have e1 : evalE ar t E (.var "diff") = M.pure v3 := by rw [← hE]; simp [evalE, Env.get]
    simp only [execB, execS, e1, e2, e3, M.bind, M.pure]
    cases v3 with
    | num a =>
      simp only
      have h1 := silent_loop (env := E) _ (hl E) (rounds a 1 (-1)) a (-1) d4
      rcases hx : loop (fun i => execB ar t (("i", .num i) :: E) (block [.call "redis.call" (args [.str "LPOP", .var "key"])])) E
        (rounds a 1 (-1)) a (-1) d4 with ⟨d, e | (env' | r)⟩
      · simp
      · simp [M.pure]
      · rw [hx] at h1; exact absurd rfl (h1 _)
    | _ => simp [M.fail]
  · refine good_local fun d6 v6 _ => good_if (fun _ _ _ _ => .inl good_push_renew) fun d7 => ?_
    refine good_local fun d8 v8 _ => good_if (fun _ _ _ _ => .inl (good_call fun _ => good_call fun _ => good_call fun _ => good_pass)) fun d9 => ?_
    exact good_tail5 ((((hv.cons "size" _ (by simp)).cons "diff" _ (by simp)).cons "list" _ (by simp)).cons "oldest" _ (by simp)) d9

theorem good_prog2 (db : RDb) : Good (execB ar t [("KEYS", .table [.str kb]), ("ARGV", .table [])] prog2 db) := by
  refine (congrArg Good (run_local (db' := db) (v := .str kb) (by simp [evalE, M.bind, M.pure, indexF, Env.get]))).mpr ?_
  exact good_blocked rfl fun _ => good_pass

theorem good_prog1 (hx : ar.Exact) (db : RDb) :
    Good (execB ar t [("KEYS", .table [.str key, .str kb]), ("ARGV", .table [.str (dec cap), .str (dec win), .str (dec exp), .str (dec now), .str msg])]
      prog1 db) := by
  obtain ⟨cap', h1⟩ := hx.total cap
  obtain ⟨win', h2⟩ := hx.total win
  obtain ⟨exp', h3⟩ := hx.total exp
  obtain ⟨now', h4⟩ := hx.total now
  refine (congrArg Good (run_local (db' := db) (v := .str key) (by simp [evalE, M.bind, M.pure, indexF, Env.get]))).mpr ?_
  refine (congrArg Good (run_local (db' := db) (v := .str kb) (by simp [evalE, M.bind, M.pure, indexF, Env.get]))).mpr ?_
  refine (congrArg Good (run_local (db' := db) (v := .num cap') (by simp [evalE, evalA, args, M.bind, M.pure, indexF, Env.get, callF, h1]))).mpr ?_
  refine (congrArg Good (run_local (db' := db) (v := .num win') (by simp [evalE, evalA, args, M.bind, M.pure, indexF, Env.get, callF, h2]))).mpr ?_
  refine (congrArg Good (run_local (db' := db) (v := .num exp') (by simp [evalE, evalA, args, M.bind, M.pure, indexF, Env.get, callF, h3]))).mpr ?_
  refine (congrArg Good (run_local (db' := db) (v := .num now') (by simp [evalE, evalA, args, M.bind, M.pure, indexF, Env.get, callF, h4]))).mpr ?_
  refine (congrArg Good (run_local (db' := db) (v := .str msg) (by simp [evalE, M.bind, M.pure, indexF, Env.get]))).mpr ?_
  refine good_if (fun _ _ _ _ => .inl good_pass) fun d => ?_
  exact good_blocked rfl fun d => good_tail1 (key := key) (kb := kb) (cap := cap') (win := win') (exp := exp') (now := now') (msg := msg)
    ⟨rfl, rfl, rfl, rfl, rfl, rfl, rfl⟩ d

end

theorem good_result {r : RDb × Except RErr Ctl} (h : Good r) : goResult (match r with
    | (db', .ok (.ret (.table l))) => (M.pure (some (items l)) db' : RDb × Except RErr (Option (List Item)))
    | (db', .ok _) => (M.pure none db')
    | (db', .error e) => (db', .error e)).2 ≠ none := by
  obtain ⟨d, e | (env | v)⟩ := r
  · simp [goResult]
  · exact absurd h (by simp [Good])
  · obtain ⟨a, b, c, m, rfl⟩ := h
    simp [M.pure, items, Value.item, goResult]

/-- Whatever is stored in the database — by whomever, of whatever type — the type assertions of the Go code never panic. -/
theorem C105_no_panic (hx : ar.Exact) (db : RDb) (t : Int) (c : Call) : (goExec ar db t c).2 ≠ none := by
  cases c with
  | should tag pc pu key bk msg now =>
    simp only [goExec]
    unfold goShouldBlock2
    split
    · simp
    · simp only [compiled1, evalScript, M.bind, List.map_cons, List.map_nil]
      have h := good_result (good_prog1 (t := t) (key := listKey tag key) (kb := blockRKey tag bk) (cap := pu.capacity) (win := pu.window)
        (exp := pu.timeout) (now := now) (msg := msg) hx db)
      revert h
      rcases execB ar t _ prog1 db with ⟨d, e | (env | (_ | _ | _ | _ | _))⟩ <;> simp
  | isBlocked bk =>
    simp only [goExec]
    unfold goIsBlocked
    simp only [compiled2, evalScript, M.bind, List.map_cons, List.map_nil]
    have h := good_result (good_prog2 (ar := ar) (t := t) (kb := bk ++ sfx) db)
    revert h
    rcases execB ar t _ prog2 db with ⟨d, e | (env | (_ | _ | _ | _ | _))⟩ <;> simp
  | shouldDown pc => simp only [goExec]; split <;> simp [goResult]
  | isBlockedDown => simp [goExec, goResult]

/-! ## What the comment in the source (lines 28-47) says -/

/-- The seconds recorded for a key. -/
def listOf (db : RDb) (t : Int) (k : Str) : List Str :=
  match rlive db t k with
  | some ⟨.list l, _⟩ => l
  | _ => []

theorem live_lpopN (t : Int) (k : Str) (w : Option Int) : ∀ (n : Nat) (db : Db) (l : List Int), live db t k = some ⟨.list l, w⟩ → n < l.length →
    live (lpopN db t k n) t k = some ⟨.list (l.drop n), w⟩
  | 0, db, l, h, _ => h
  | n + 1, db, l, h, hn => by
    match l with
    | [] => simp at hn
    | [a] => simp at hn
    | a :: b :: l =>
      have hx : Entry.expired ⟨.list (b :: l), w⟩ t = false := by
        unfold live at h
        split at h
        · simp at h
        · split at h
          · simp at h
          · rename_i he
            simp at h
            subst h
            simpa [Entry.expired] using he
      have h1 : live (lpop db t k) t k = some ⟨.list (b :: l), w⟩ := by
        unfold lpop
        rw [h]
        simp only
        simp [live, Db.set, hx]
      exact live_lpopN t k w n _ _ h1 (by simp at hn ⊢; omega)

theorem live_rpush {db : Db} {t : Int} {k : Str} {l : List Int} {w : Option Int} (v : Int)
    (h : live db t k = some ⟨.list l, w⟩) : live (rpush db t k v) t k = some ⟨.list (l ++ [v]), w⟩ := by
  have hx : Entry.expired ⟨.list (l ++ [v]), w⟩ t = false := by
    unfold live at h
    split at h
    · simp at h
    · split at h
      · simp at h
      · rename_i he
        simp at h
        subst h
        simpa [Entry.expired] using he
  unfold rpush
  rw [h]
  simp [live, Db.set, hx]

theorem live_rpush_none {db : Db} {t : Int} {k : Str} (v : Int) (h : live db t k = none) : live (rpush db t k v) t k = some ⟨.list [v], none⟩ := by
  unfold rpush
  rw [h]
  simp [live, Db.set, Entry.expired]

theorem live_expire {db : Db} {t : Int} {k : Str} {e : Entry} {n : Int} (hn : 0 < n) (h : live db t k = some e) :
    live (expire db t k n) t k = some ⟨e.val, some (t + n * 1000)⟩ := by
  unfold expire
  rw [h]
  have : ¬ t + n * 1000 < t := by omega
  simp [live, Db.set, Entry.expired, this]

theorem live_ne {db db' : Db} {k : Str} (t : Int) (h : db' k = db k) : live db' t k = live db t k := by
  unfold live; rw [h]

/-- The effect and the result of `ShouldBlock2` on the stored strings, case by case as in the comment. -/
theorem C105_doc (hx : ar.Exact) (db : Db) (hfit : Fits db) (t : Int) (tag key bk msg : Str) (p : Params) (now : Int) (hp : p.set)
    (hsm : SmallCall t (.should tag p p key bk msg now))
    (hne : listKey tag key ≠ blockRKey tag bk) (hstr : ∀ s w, live db t (listKey tag key) ≠ some ⟨.str s, w⟩)
    (hlst : ∀ l w, live db t (blockRKey tag bk) ≠ some ⟨.list l, w⟩) :
    let d := abs db
    let r := goShouldBlock2 ar d t tag p p key bk msg now
    let l := listOf d t (listKey tag key)
    -- if exists(key:block) return true, false
    (∀ m w, rlive d t (blockRKey tag bk) = some ⟨.str m, w⟩ → r.1 = d ∧ ∃ n, r.2 = some ⟨true, false, n, m⟩) ∧
    (rlive d t (blockRKey tag bk) = none →
      -- if size < capacity: rpush key now; return false, false
      ((l.length : Int) < p.capacity → r.2 = some ⟨false, false, 0, []⟩ ∧
        rlive r.1 t (listKey tag key) = some ⟨.list (l ++ [dec now]), some (t + p.timeout * 2 * 1000)⟩ ∧ rlive r.1 t (blockRKey tag bk) = none) ∧
      (p.capacity ≤ (l.length : Int) → ∃ oldest rest, l.drop (l.length - p.capacity.toNat) = dec oldest :: rest ∧
        -- if now - oldest > window size: rpush key now; lpop key; return false, false
        (now - oldest > p.window → r.2 = some ⟨false, false, 0, []⟩ ∧
          rlive r.1 t (listKey tag key) = some ⟨.list (rest ++ [dec now]), some (t + p.timeout * 2 * 1000)⟩ ∧ rlive r.1 t (blockRKey tag bk) = none) ∧
        -- SET key:block 1 EX timeout NX; return true, true
        (now - oldest ≤ p.window → r.2 = some ⟨true, true, p.timeout, msg⟩ ∧ listOf r.1 t (listKey tag key) = dec oldest :: rest ∧
          rlive r.1 t (blockRKey tag bk) = some ⟨.str msg, some (t + p.timeout * 1000)⟩))) := by
  intro d r l
  obtain ⟨p1, p2, p3⟩ : 0 < p.capacity ∧ 0 < p.window ∧ 0 < p.timeout := by simpa [Params.set] using hp
  have hr : r = (abs (shouldBlock2 db t tag p p key bk msg now).1, some (shouldBlock2 db t tag p p key bk msg now).2) :=
    C105_should hx db hfit t tag p p key bk msg now hsm
  have hns : ¬ p.notSet := by unfold Params.notSet; omega
  have hcond : ¬ (p.capacity ≤ 0 ∨ p.window ≤ 0 ∨ p.timeout ≤ 0) := by omega
  rw [show shouldBlock2 db t tag p p key bk msg now =
    ((script1 db t (listKey tag key) (blockRKey tag bk) p.capacity p.window p.timeout now msg).1,
      .ofEval (script1 db t (listKey tag key) (blockRKey tag bk) p.capacity p.window p.timeout now msg).2) by
    unfold shouldBlock2; rw [if_neg hns]] at hr
  have hl0 : l = listOf d t (listKey tag key) := rfl
  clear_value l r
  generalize listKey tag key = K at *
  generalize blockRKey tag bk = B at *
  have hlive : rlive d t B = (live db t B).map absE := rlive_abs db t B
  have hl : l = match live db t K with | some ⟨.list l, _⟩ => l.map dec | _ => [] := by
    rw [hl0]
    unfold listOf
    rw [rlive_abs]
    rcases live db t K with _ | ⟨_ | l, w⟩ <;> rfl
  constructor
  · intro m w hb
    rw [hlive] at hb
    obtain ⟨e, he, heq⟩ := Option.map_eq_some_iff.1 hb
    obtain ⟨v, w'⟩ := e
    cases v with
    | list x => exact absurd he (hlst _ _)
    | str s =>
      simp [absE, absV] at heq
      obtain ⟨rfl, rfl⟩ := heq
      have hs : script1 db t K B p.capacity p.window p.timeout now msg = (db, .ok ⟨1, 0, ttl db t B, s⟩) := by
        unfold script1
        rw [if_neg hcond, if_pos (by simp [existsK, he])]
        simp [getStr, he]
      rw [hr, hs]
      exact ⟨rfl, _, rfl⟩
  · intro hb
    have hB : live db t B = none := by rw [hlive] at hb; simpa using hb
    have hex : existsK db t B = false := by simp [existsK, hB]
    constructor
    · intro hlen
      have hs : script1 db t K B p.capacity p.window p.timeout now msg =
          (expire (rpush db t K now) t K (p.timeout * 2), .ok .pass) := by
        unfold script1
        rw [if_neg hcond, hex]
        rcases hK : live db t K with _ | ⟨s | x, w⟩
        · simp only [llen, hK]
          rw [if_neg (by simp), if_pos (by omega)]
        · exact absurd hK (hstr _ _)
        · rw [hK] at hl
          have : l.length = x.length := by rw [hl]; simp
          simp only [llen, hK]
          rw [if_neg (by simp), if_pos (by omega)]
      rw [hr, hs]
      refine ⟨rfl, ?_, ?_⟩
      · simp only [rlive_abs]
        rcases hK : live db t K with _ | ⟨s | x, w⟩
        · rw [hK] at hl
          rw [live_expire (by omega) (live_rpush_none now hK), hl]
          rfl
        · exact absurd hK (hstr _ _)
        · rw [hK] at hl
          rw [live_expire (by omega) (live_rpush now hK), hl]
          simp [absE, absV]
      · simp only [rlive_abs]
        rw [live_ne t (expire_ne _ _ _ (Ne.symm hne)), live_ne t (rpush_ne _ _ _ (Ne.symm hne)), hB]
        rfl
    · intro hlen
      rcases hK : live db t K with _ | ⟨s | x, w⟩
      · rw [hK] at hl
        rw [hl] at hlen
        simp at hlen
        omega
      · exact absurd hK (hstr _ _)
      rw [hK] at hl
      have hxl : l.length = x.length := by rw [hl]; simp
      have hn : ((x.length : Int) - p.capacity).toNat = x.length - p.capacity.toNat := by omega
      have hlt : x.length - p.capacity.toNat < x.length := by omega
      have hp := live_lpopN t K w _ db x hK hlt
      obtain ⟨o, rest, ho⟩ : ∃ o rest, x.drop (x.length - p.capacity.toNat) = o :: rest :=
        List.exists_cons_of_length_pos (by rw [List.length_drop]; omega)
      rw [ho] at hp
      refine ⟨o, rest.map dec, ?_, ?_, ?_⟩
      · rw [hxl, hl, ← List.map_drop, ho]
        rfl
      · intro hw
        have hs : script1 db t K B p.capacity p.window p.timeout now msg =
            (expire (lpop (rpush (lpopN db t K (x.length - p.capacity.toNat)) t K now) t K) t K (p.timeout * 2), .ok .pass) := by
          unfold script1
          rw [if_neg hcond, hex, if_neg (by simp)]
          simp only [llen, hK]
          rw [if_neg (by omega), hn]
          simp only [lrange00, hp]
          rw [if_pos hw]
        rw [hr, hs]
        have h1 := live_rpush now hp
        have h2 : live (lpop (rpush (lpopN db t K (x.length - p.capacity.toNat)) t K now) t K) t K = some ⟨.list (rest ++ [now]), w⟩ :=
          live_lpopN t K w 1 _ _ h1 (by simp)
        refine ⟨rfl, ?_, ?_⟩
        · simp only [rlive_abs]
          rw [live_expire (by omega) h2]
          simp [absE, absV]
        · simp only [rlive_abs]
          rw [live_ne t (expire_ne _ _ _ (Ne.symm hne)), live_ne t (lpop_ne _ _ (Ne.symm hne)), live_ne t (rpush_ne _ _ _ (Ne.symm hne)),
            live_ne t (lpopN_ne _ _ _ (Ne.symm hne)), hB]
          rfl
      · intro hw
        have hs : script1 db t K B p.capacity p.window p.timeout now msg =
            (setExNx (lpopN db t K (x.length - p.capacity.toNat)) t B msg p.timeout, .ok ⟨1, 1, p.timeout, msg⟩) := by
          unfold script1
          rw [if_neg hcond, hex, if_neg (by simp)]
          simp only [llen, hK]
          rw [if_neg (by omega), hn]
          simp only [lrange00, hp]
          rw [if_neg (by omega)]
        rw [hr, hs]
        refine ⟨rfl, ?_, ?_⟩
        · unfold listOf
          simp only [rlive_abs]
          rw [live_ne t (setExNx_ne _ _ _ _ hne), hp]
          rfl
        · have hB' : live (lpopN db t K (x.length - p.capacity.toNat)) t B = none := by
            rw [live_ne t (lpopN_ne _ _ _ (Ne.symm hne)), hB]
          simp only [rlive_abs]
          unfold setExNx
          rw [hB']
          have : ¬ t + p.timeout * 1000 < t := by omega
          simp [live, Db.set, Entry.expired, this, absE, absV]

/-! ## Examples -/

/-- Integers of any size, for the examples. -/
def ints : Arith := ⟨signed, (· - ·), (· * ·), dec⟩

theorem ints_exact : ints.Exact := ⟨fun n => ⟨n, signed_dec n⟩, fun n _ _ => signed_dec n, fun _ _ _ _ => rfl, fun _ _ _ _ => rfl, fun _ _ _ => rfl⟩

/-- Three calls of a limiter of two per ten seconds: the texts let two pass and block the third, with the message. -/
example : ((goRun ints (fun _ => none) [(0, .should "t".toList ⟨2, 10, 20⟩ ⟨2, 10, 20⟩ "k".toList "k".toList "m".toList 1),
    (1, .should "t".toList ⟨2, 10, 20⟩ ⟨2, 10, 20⟩ "k".toList "k".toList "m".toList 1),
    (2, .should "t".toList ⟨2, 10, 20⟩ ⟨2, 10, 20⟩ "k".toList "k".toList "m".toList 2)]).map fun x => x.2.map fun e => (e.result.block, e.result.triggered)) =
    some [(false, false), (false, false), (true, true)] := by
  rw [show (fun _ => none : RDb) = abs Db.empty from rfl, C105_run ints_exact _ (by decide) _ fits_empty]
  decide

/-- The garbage of another program at the block key: no panic, and the call passes. -/
example : (goExec ints (fun _ => some ⟨.other [], none⟩) 0 (.should [] ⟨1, 1, 1⟩ ⟨1, 1, 1⟩ [] [] [] 0)).2 ≠ none := C105_no_panic ints_exact _ _ _

end Gears.TtlRedis.Lua
