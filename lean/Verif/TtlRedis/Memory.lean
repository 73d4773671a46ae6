import Verif.TtlRedis.Doubles
import Verif.TtlRedis.Admission
import Verif.SlidingWindow.Lemmas

/-
C150: what the limiters keep.  The redis limiter (ratelimiter/ttl_ratelimiter_redis.go:54-111) writes one list per key and one
string per block key; the sliding window (ratelimiter/slidingwindow.go:62-117) keeps a list of times.
-/

namespace Gears.TtlRedis

/-! ### The redis limiter -/

/-- What may be stored at a key that was last used at redis time `T`, with capacities up to `N` and timeouts up to `E`: a list
of at most `N` elements that lives at most `2 E` seconds longer, or a message that lives at most `E` seconds longer. -/
def Kept (N E T : Int) : Option Entry → Prop
  | none => True
  | some ⟨.list l, w⟩ => l ≠ [] ∧ (l.length : Int) ≤ N ∧ ∃ w', w = some w' ∧ w' ≤ T + 2000 * E
  | some ⟨.str _, w⟩ => ∃ w', w = some w' ∧ w' ≤ T + 1000 * E

/-- A call that uses the key `k` only at times up to `T`, with a capacity up to `N` and a timeout up to `E`; calls that do not
use `k` are free. -/
def Within (N E T : Int) (k : Str) (t : Int) : Call → Prop
  | .should tag _ pu key bk _ _ => (k = listKey tag key ∨ k = blockRKey tag bk) → t ≤ T ∧ pu.capacity ≤ N ∧ pu.timeout ≤ E
  | _ => True

theorem kept_live {N E T : Int} {db : Db} {t : Int} {k : Str} (h : Kept N E T (db k)) : Kept N E T (live db t k) := by
  unfold live
  split
  · trivial
  · rename_i e he
    rw [he] at h
    split
    · trivial
    · exact h

theorem kept_lpop {N E T : Int} {db : Db} {t : Int} {a k : Str} (h : Kept N E T (db k)) : Kept N E T (lpop db t a k) := by
  by_cases hk : k = a
  · subst hk
    have hl := kept_live (t := t) h
    rcases hx : live db t k with _ | ⟨_ | (_ | ⟨a, _ | ⟨b, l⟩⟩), e⟩ <;> simp only [lpop, hx]
    · exact h
    · exact h
    · rw [set_self]; trivial
    · rw [set_self]; trivial
    · rw [hx] at hl
      rw [set_self]
      obtain ⟨-, h2, h3⟩ := hl
      refine ⟨by simp, ?_, h3⟩
      simp at h2 ⊢
      omega
  · rw [lpop_ne _ _ hk]; exact h

theorem kept_lpopN {N E T : Int} {t : Int} {a k : Str} : ∀ (n : Nat) {db : Db}, Kept N E T (db k) → Kept N E T (lpopN db t a n k)
  | 0, _, h => h
  | n + 1, _, h => kept_lpopN n (kept_lpop h)

theorem llen_lpopN (t : Int) (k : Str) : ∀ (n : Nat) (db : Db), (∃ z, llen db t k = .ok z) → ∃ z, llen (lpopN db t k n) t k = .ok z
  | 0, _, h => h
  | n + 1, db, h => llen_lpopN t k n _ (Lua.llen_lpop db t k h)

/-- A list key is absent or a list. -/
theorem llen_cases {db : Db} {t : Int} {k : Str} {z : Int} (h : llen db t k = .ok z) :
    (live db t k = none ∧ z = 0) ∨ ∃ R w, live db t k = some ⟨.list R, w⟩ ∧ z = R.length := by
  unfold llen at h
  rcases hl : live db t k with _ | ⟨_ | R, w⟩ <;> rw [hl] at h <;> simp at h
  · exact .inl ⟨rfl, h.symm⟩
  · exact .inr ⟨R, w, rfl, h.symm⟩

theorem kept_push {N E T : Int} {db : Db} {t now exp : Int} {a k : Str} (h : Kept N E T (db k)) {z : Int} (hz : llen db t a = .ok z)
    (hN : k = a → z + 1 ≤ N ∧ t ≤ T ∧ exp ≤ E) (he : 0 < exp) : Kept N E T (expire (rpush db t a now) t a (exp * 2) k) := by
  by_cases hk : k = a
  · subst hk
    obtain ⟨h1, h2, h3⟩ := hN rfl
    rcases llen_cases hz with ⟨hl, rfl⟩ | ⟨R, w, hl, rfl⟩
    · rw [push_store db t k now (exp * 2) [] (by omega) (.inl ⟨hl, rfl⟩)]
      exact ⟨by simp, by simp; omega, _, rfl, by omega⟩
    · rw [push_store db t k now (exp * 2) R (by omega) (.inr ⟨w, hl⟩)]
      exact ⟨by simp, by simp; omega, _, rfl, by omega⟩
  · rw [expire_ne _ _ _ hk, rpush_ne _ _ _ hk]; exact h

theorem kept_script1 {N E T : Int} {db : Db} {k : Str} (h : Kept N E T (db k)) (t : Int) (key kb : Str) (cap win exp now : Int) (msg : Str)
    (hw : k = key ∨ k = kb → t ≤ T ∧ cap ≤ N ∧ exp ≤ E) : Kept N E T ((script1 db t key kb cap win exp now msg).1 k) := by
  unfold script1
  split
  · exact h
  rename_i hpos
  split
  · split <;> exact h
  split
  · exact h
  rename_i size hl
  split
  · rename_i hc
    exact kept_push h hl (fun e => by have := hw (.inl e); omega) (by omega)
  · simp only
    have h' := kept_lpopN (t := t) (a := key) (size - cap).toNat h
    obtain ⟨z, hz⟩ := llen_lpopN t key (size - cap).toNat db ⟨_, hl⟩
    generalize lpopN db t key (size - cap).toNat = db1 at h' hz
    split
    · rename_i ho
      have : z = 0 := by
        rcases llen_cases hz with ⟨-, rfl⟩ | ⟨R, w, hl, rfl⟩
        · rfl
        · cases R with
          | nil => rfl
          | cons a R => simp [lrange00, hl] at ho
      exact kept_push h' hz (fun e => by have := hw (.inl e); omega) (by omega)
    · rename_i oldest ho
      split
      · by_cases hk : k = key
        · subst hk
          have := hw (.inl rfl)
          rcases llen_cases hz with ⟨hl, rfl⟩ | ⟨R, w, hl, rfl⟩
          · simp [lrange00, hl] at ho
          · cases R with
            | nil => simp [lrange00, hl] at ho
            | cons a R =>
              show Kept N E T (expire (lpop (rpush db1 t k now) t k) t k (exp * 2) k)
              rw [shift_store db1 t k now (exp * 2) a R w hl]
              have h2 := kept_live (t := t) h'
              rw [hl] at h2
              refine ⟨by simp, ?_, _, rfl, by omega⟩
              have := h2.2.1
              simp at this ⊢
              omega
        · show Kept N E T (expire (lpop (rpush db1 t key now) t key) t key (exp * 2) k)
          rw [expire_ne _ _ _ hk, lpop_ne _ _ hk, rpush_ne _ _ _ hk]; exact h'
      · by_cases hk : k = kb
        · subst hk
          have := hw (.inr rfl)
          unfold setExNx
          split
          · exact h'
          · show Kept N E T (db1.set k _ k)
            rw [set_self]
            exact ⟨_, rfl, by omega⟩
        · show Kept N E T (setExNx db1 t kb msg exp k)
          rw [setExNx_ne _ _ _ _ hk]; exact h'

theorem kept_exec {N E T : Int} {db : Db} {k : Str} (h : Kept N E T (db k)) (t : Int) (c : Call) (hc : Within N E T k t c) :
    Kept N E T ((c.exec db t).1 k) := by
  cases c with
  | should tag pc pu key bk msg now =>
    simp only [Call.exec, shouldBlock2]
    split
    · exact h
    · exact kept_script1 h t _ _ _ _ _ _ _ hc
  | isBlocked bk => exact h
  | shouldDown pc => exact h
  | isBlockedDown => exact h

/-- **C150, partial**, the database: after any history, what is stored at a key is at most the greatest capacity used with it,
and expires at most two timeouts after its last use; no list is kept without expiry. -/
theorem C150_kept_partial (N E T : Int) (k : Str) (cs : List (Int × Call)) (hcs : ∀ x ∈ cs, Within N E T k x.1 x.2) : ∀ (db : Db),
    Kept N E T (db k) → Kept N E T ((run db cs).1 k) := by
  induction cs with
  | nil => intro db h; exact h
  | cons x cs ih =>
    intro db h
    exact ih (fun y hy => hcs y (by simp [hy])) _ (kept_exec h x.1 x.2 (hcs x (by simp)))

/-- Two timeouts after its last use nothing of it is left. -/
theorem kept_gone {N E T : Int} (hE : 0 ≤ E) {db : Db} {k : Str} (h : Kept N E T (db k)) (t : Int) (ht : T + 2000 * E < t) : live db t k = none := by
  unfold live
  rcases hx : db k with _ | ⟨_ | l, w⟩ <;> rw [hx] at h
  · obtain ⟨w', rfl, hw⟩ := h
    simp [Entry.expired]; omega
  · obtain ⟨-, -, w', rfl, hw⟩ := h
    simp [Entry.expired]; omega

theorem lpopN_len (t : Int) (k : Str) : ∀ (n : Nat) (db : Db) (z : Int), llen db t k = .ok z → n ≤ z →
    ∃ z', llen (lpopN db t k n) t k = .ok z' ∧ z' ≤ z - n
  | 0, db, z, h, _ => ⟨z, h, by simp⟩
  | n + 1, db, z, h, hn => by
    have : ∃ z', llen (lpop db t k) t k = .ok z' ∧ z' = z - 1 := by
      rcases llen_cases h with ⟨hl, rfl⟩ | ⟨R, w, hl, rfl⟩
      · omega
      · have hx := (live_some hl).2
        match R with
        | [] => simp at hn; omega
        | [a] =>
          have h1 : lpop db t k = db.set k none := by simp [lpop, hl]
          exact ⟨0, by rw [h1]; simp [llen, live, set_self], by simp⟩
        | a :: b :: R =>
          have hx' : Entry.expired ⟨.list (b :: R), w⟩ t = false := hx
          have h1 : lpop db t k = db.set k (some ⟨.list (b :: R), w⟩) := by simp [lpop, hl]
          exact ⟨((b :: R).length : Int), by rw [h1]; simp [llen, live, set_self, hx'], by simp⟩
    obtain ⟨z', h1, rfl⟩ := this
    obtain ⟨z'', h2, h3⟩ := lpopN_len t k n _ _ h1 (by omega)
    exact ⟨z'', h2, by omega⟩

/-- **C150, partial**, a reduced capacity: a call that is not blocked already leaves at most `capacity` elements, however many
there were. -/
theorem C150_trim_partial (db : Db) (t : Int) (tag : Str) (p : Params) (key bk msg : Str) (now : Int) (hne : listKey tag key ≠ blockRKey tag bk)
    (hset : ¬ p.notSet) (hb : live db t (blockRKey tag bk) = none) (hl : ∃ z, llen db t (listKey tag key) = .ok z) :
    ∃ z, llen (shouldBlock2 db t tag p p key bk msg now).1 t (listKey tag key) = .ok z ∧ z ≤ p.capacity := by
  unfold shouldBlock2
  rw [if_neg hset]
  unfold Params.notSet at hset
  simp only
  generalize listKey tag key = K at *
  generalize blockRKey tag bk = B at *
  obtain ⟨size, hl⟩ := hl
  have he : existsK db t B = false := by simp [existsK, hb]
  have store : ∀ (d : Db) (R : List Int), d K = some ⟨.list R, some (t + p.timeout * 2 * 1000)⟩ → llen d t K = .ok (R.length : Int) := by
    intro d R hd
    have : ¬ t + p.timeout * 2 * 1000 < t := by omega
    simp [llen, live, hd, Entry.expired, this]
  unfold script1
  rw [if_neg (by omega)]
  simp only [he, Bool.false_eq_true, if_false, hl]
  split
  · rename_i hc
    rcases llen_cases hl with ⟨h1, rfl⟩ | ⟨R, w, h1, rfl⟩
    · exact ⟨_, store _ _ (push_store db t K now (p.timeout * 2) [] (by omega) (.inl ⟨h1, rfl⟩)), by simp; omega⟩
    · exact ⟨_, store _ _ (push_store db t K now (p.timeout * 2) R (by omega) (.inr ⟨w, h1⟩)), by simp; omega⟩
  · rename_i hc
    obtain ⟨z, hz, hle⟩ := lpopN_len t K (size - p.capacity).toNat db size hl (by omega)
    generalize lpopN db t K (size - p.capacity).toNat = db1 at hz
    split
    · rename_i ho
      rcases llen_cases hz with ⟨h1, rfl⟩ | ⟨R, w, h1, rfl⟩
      · exact ⟨_, store _ _ (push_store db1 t K now (p.timeout * 2) [] (by omega) (.inl ⟨h1, rfl⟩)), by simp; omega⟩
      · cases R with
        | nil => exact ⟨_, store _ _ (push_store db1 t K now (p.timeout * 2) [] (by omega) (.inr ⟨w, h1⟩)), by simp; omega⟩
        | cons a R => simp [lrange00, h1] at ho
    · rename_i oldest ho
      rcases llen_cases hz with ⟨h1, rfl⟩ | ⟨R, w, h1, rfl⟩
      · simp [lrange00, h1] at ho
      · cases R with
        | nil => simp [lrange00, h1] at ho
        | cons a R =>
          split
          · refine ⟨_, store _ _ (shift_store db1 t K now (p.timeout * 2) a R w h1), ?_⟩
            simp at hle ⊢
            omega
          · refine ⟨((a :: R).length : Int), ?_, by omega⟩
            simp only
            have : live (setExNx db1 t B msg p.timeout) t K = live db1 t K := live_congr (setExNx_ne _ _ _ _ hne) t
            simp [llen, this, h1]

/-- Used: capacity 5 is reduced to 2. -/
example :
    let db := (run Db.empty (List.replicate 5 (1000, .should [] ⟨5, 10, 60⟩ ⟨5, 10, 60⟩ ['k'] ['k'] [] 1))).1
    llen db 2000 (listKey [] ['k']) = .ok 5 ∧ llen (shouldBlock2 db 2000 [] ⟨2, 10, 60⟩ ⟨2, 10, 60⟩ ['k'] ['k'] [] 2).1 2000 (listKey [] ['k']) = .ok 2 := by
  refine ⟨by rfl, by rfl⟩

namespace Lua

/-- **C150**, the claim: with any parameters, two timeouts after the last use of a key redis keeps nothing at it. -/
def C150Claim (ar : Arith) : Prop :=
  ∀ (N E T : Int) (k : Str) (cs : List (Int × Call)) (db : RDb) (evs : List Event), 0 ≤ E → (∀ x ∈ cs, Within N E T k x.1 x.2) →
    goRun ar (fun _ => none) cs = some (db, evs) → ∀ t, T + 2000 * E < t → rlive db t k = none

/-- **C150, partial**: it holds for parameters and times up to 2^52. -/
theorem C150_gone_partial {ar : Arith} (hx : ar.Exact) (N E T : Int) (k : Str) (cs : List (Int × Call)) (db : RDb) (evs : List Event) (hE : 0 ≤ E)
    (hs : ∀ x ∈ cs, SmallCall x.1 x.2) (hcs : ∀ x ∈ cs, Within N E T k x.1 x.2) (h : goRun ar (fun _ => none) cs = some (db, evs))
    (t : Int) (ht : T + 2000 * E < t) : rlive db t k = none := by
  have h1 := C105_run hx cs hs Db.empty fits_empty
  have h2 : some (db, evs) = some (abs (run Db.empty cs).1, (run Db.empty cs).2) := h.symm.trans h1
  simp only [Option.some.injEq, Prod.mk.injEq] at h2
  rw [h2.1, rlive_abs, kept_gone hE (C150_kept_partial N E T k cs hcs Db.empty trivial) t ht]
  rfl

/-- `EXPIRE` refuses the number of seconds: the script ends after `RPUSH`. -/
theorem renew_refused {ar : Arith} {t : Int} {env : Env} {key kb : Str} {cap win exp now : Int} {msg : Str} (hv : Vars env key kb cap win exp now msg)
    (hr : undec (ar.text (ar.mul exp 2)) = none ∨ ∃ m, undec (ar.text (ar.mul exp 2)) = some m ∧ tooFar t m = true) (db : RDb) :
    ∃ e, execB ar t env (block renew) db = (db, .error e) := by
  have h0 : evalE ar t env (.call "redis.call" (args [.str "EXPIRE", .var "key", .bin .mul (.var "exp") (.num 2)])) db =
      cEXPIRE t key (ar.text (ar.mul exp 2)) db := by
    rw [← command_EXPIRE]
    simp [evalE, evalA, args, M.bind, M.pure, callF, strings, hv.key, hv.exp, binF]
  have h1 : ∃ e, cEXPIRE t key (ar.text (ar.mul exp 2)) db = (db, .error e) := by
    unfold cEXPIRE
    rcases hr with hr | ⟨m, hr, hf⟩
    · rw [hr]; exact ⟨_, rfl⟩
    · rw [hr]; simp only [hf, if_true]; exact ⟨_, rfl⟩
  obtain ⟨e, h1⟩ := h1
  refine ⟨e, ?_⟩
  show execB ar t env (.cons (.call _ _) _) db = _
  simp only [execB, execS, M.bind]
  rw [h0, h1]

/-- The run ends with an error and this database. -/
def Fails (db : RDb) (r : RDb × Except RErr Ctl) : Prop := ∃ e, r = (db, .error e)

/-- **C150, violated**: a call with a timeout of 10^16 seconds or more writes the list of its key and then fails at `EXPIRE`; the
list has no expiry: it is there at all times, though nobody calls again. -/
theorem C150_stays_violated (p : Params) (t now : Int) (tag key bk msg : Str) (hc : Small p.capacity) (hc0 : 0 < p.capacity) (hw : Small p.window)
    (hw0 : 0 < p.window) (hT : 10 ^ 16 ≤ p.timeout) (ht : 0 ≤ t) (hn : Small now) :
    ∃ db, goRun ieee (fun _ => none) [(t, .should tag p p key bk msg now)] = some (db, [⟨t, .should tag p p key bk msg now, .zero⟩]) ∧
      ∀ t', rlive db t' (listKey tag key) = some ⟨.list [dec now], none⟩ := by
  have hx := ieee_exact
  have hread : ∀ n, Small n → ieee.read (dec n) = some n := fun n h => by unfold Small at h; exact hx.read n (by omega) (by omega)
  have hset : ¬ p.notSet := by unfold Params.notSet; omega
  have hbig : 9223372036854776 ≤ rndInt p.timeout := by
    have := rndNat_ge p.timeout.natAbs (by omega)
    unfold rndInt
    rw [if_neg (by omega)]
    omega
  generalize hL : listKey tag key = L
  generalize hB : blockRKey tag bk = B
  have key' : Fails (abs (rpush Db.empty t L now)) (execB ieee t [("KEYS", .table [.str L, .str B]), ("ARGV", .table [.str (dec p.capacity), .str (dec p.window), .str (dec p.timeout), .str (dec now), .str msg])]
      prog1 (abs Db.empty)) := by
    generalize hE : rndInt p.timeout = exp at hbig
    have hre : ieee.read (dec p.timeout) = some exp := by simp [ieee, signed_dec, hE]
    refine (congrArg (Fails _) (run_local (db' := abs Db.empty) (v := .str L) (by simp [evalE, M.bind, M.pure, indexF, Env.get]))).mpr ?_
    refine (congrArg (Fails _) (run_local (db' := abs Db.empty) (v := .str B) (by simp [evalE, M.bind, M.pure, indexF, Env.get]))).mpr ?_
    refine (congrArg (Fails _) (run_local (db' := abs Db.empty) (v := .num p.capacity) (by simp [evalE, evalA, args, M.bind, M.pure, indexF, Env.get, callF, hread _ hc]))).mpr ?_
    refine (congrArg (Fails _) (run_local (db' := abs Db.empty) (v := .num p.window) (by simp [evalE, evalA, args, M.bind, M.pure, indexF, Env.get, callF, hread _ hw]))).mpr ?_
    refine (congrArg (Fails _) (run_local (db' := abs Db.empty) (v := .num exp) (by simp [evalE, evalA, args, M.bind, M.pure, indexF, Env.get, callF, hre]))).mpr ?_
    refine (congrArg (Fails _) (run_local (db' := abs Db.empty) (v := .num now) (by simp [evalE, evalA, args, M.bind, M.pure, indexF, Env.get, callF, hread _ hn]))).mpr ?_
    refine (congrArg (Fails _) (run_local (db' := abs Db.empty) (v := .str msg) (by simp [evalE, M.bind, M.pure, indexF, Env.get]))).mpr ?_
    have hv : Vars [("msg", .str msg), ("now", .num now), ("exp", .num exp), ("win", .num p.window), ("cap", .num p.capacity), ("keyb", .str B), ("key", .str L),
        ("KEYS", .table [.str L, .str B]), ("ARGV", .table [.str (dec p.capacity), .str (dec p.window), .str (dec p.timeout), .str (dec now), .str msg])]
        L B p.capacity p.window exp now msg := ⟨rfl, rfl, rfl, rfl, rfl, rfl, rfl⟩
    generalize ([("msg", .str msg), ("now", .num now), ("exp", .num exp), ("win", .num p.window), ("cap", .num p.capacity), ("keyb", .str B), ("key", .str L),
        ("KEYS", .table [.str L, .str B]), ("ARGV", .table [.str (dec p.capacity), .str (dec p.window), .str (dec p.timeout), .str (dec now), .str msg])] : Env) = env at hv ⊢
    have hcond : evalE ieee t env (.bin .or (.bin .or (.bin .le (.var "cap") (.num 0)) (.bin .le (.var "win") (.num 0))) (.bin .le (.var "exp") (.num 0)))
        (abs Db.empty) = (abs Db.empty, .ok (.bool false)) := by
      have h1 : ¬ p.capacity ≤ 0 := by omega
      have h2 : ¬ p.window ≤ 0 := by omega
      have h3 : ¬ exp ≤ 0 := by omega
      simp [evalE, M.bind, M.pure, hv.cap, hv.win, hv.exp, binF, h1, h2, h3, Value.truthy]
    refine (congrArg (Fails _) (run_if_false hcond)).mpr ?_
    have hb := blocked_run (ar := ieee) (t := t) env tail1 Db.empty B hv.keyb
    rw [if_neg (by simp [existsK, live, Db.empty])] at hb
    have hlen : llen Db.empty t L = .ok 0 := by simp [llen, live, Db.empty]
    have h1 : evalE ieee t env (.call "redis.call" (args [.str "LLEN", .var "key"])) (abs Db.empty) = (abs Db.empty, .ok (.num 0)) := by
      rw [call1 _ _ _ _ hv.key, command_LLEN, llen_abs, hlen]; rfl
    have hv' := hv.cons "size" (.num 0) (by simp)
    have hc' : evalE ieee t (("size", .num 0) :: env) (.bin .lt (.var "size") (.var "cap")) (abs Db.empty) = (abs Db.empty, .ok (.bool true)) := by
      simp [evalE, M.bind, M.pure, binF, hv.cap, Env.get, hc0]
    obtain ⟨e, he⟩ := renew_refused (ar := ieee) (t := t) hv' (huge_refused (exp * 2) t (by omega) ht) (abs (rpush Db.empty t L now))
    refine ⟨e, hb.trans ((run_local h1).trans ((run_if_true hc').trans ?_))⟩
    rw [push_run hx hn hv' Db.empty _ ⟨_, hlen⟩, he]
  obtain ⟨e, key'⟩ := key'
  have hgo : goExec ieee (fun _ => none) t (.should tag p p key bk msg now) = (abs (rpush Db.empty t L now), some .zero) := by
    simp only [goExec]
    unfold goShouldBlock2
    rw [if_neg hset]
    simp only [compiled1, hL, hB, evalScript, List.map_cons, List.map_nil]
    have h0 : (fun _ => none : RDb) = abs Db.empty := rfl
    rw [h0]
    simp only [M.bind, key']
    rfl
  refine ⟨abs (rpush Db.empty t L now), ?_, ?_⟩
  · simp [goRun, hgo]
  · intro t'
    simp [rlive, abs, rpush, live, Db.empty, Db.set, absE, absV]

/-- So the claim is false. -/
theorem C150_violated : ¬ C150Claim ieee := by
  intro h
  obtain ⟨db, h1, h2⟩ := C150_stays_violated ⟨1, 1, 10 ^ 16⟩ 1 1 [] [] [] [] (by decide) (by decide) (by decide) (by decide) (by decide) (by decide) (by decide)
  have := h 1 (10 ^ 16) 1 (listKey [] []) _ db _ (by decide) (by simp [Within]) h1 (2 + 2000 * 10 ^ 16) (by decide)
  rw [h2] at this
  simp at this

/-- Used: a timeout of a minute; the list is there for two minutes. -/
example : ∃ db evs, goRun ieee (fun _ => none) [(1000, .should [] ⟨2, 10, 60⟩ ⟨2, 10, 60⟩ ['k'] ['k'] [] 1)] = some (db, evs) ∧
    rlive db 121000 (listKey [] ['k']) ≠ none ∧ rlive db 121001 (listKey [] ['k']) = none :=
  ⟨_, _, C105_run ieee_exact [(1000, .should [] ⟨2, 10, 60⟩ ⟨2, 10, 60⟩ ['k'] ['k'] [] 1)] (by decide) Db.empty fits_empty, by rw [rlive_abs]; decide, by rw [rlive_abs]; decide⟩

end Lua
end Gears.TtlRedis

/-! ### The sliding window -/

namespace Gears.SlidingWindow

/-- **C150, partial**, the sliding window: at every moment it holds at most as many records as its capacity is then, also when
the capacity is reduced; with capacity zero or less it holds none. -/
theorem C150_sliding_partial (c W : Int) (ops : List Op) (s : State) (h : History) (hr : run (new c W) ops = some (s, h)) :
    0 ≤ s.capacity ∧ (s.records.length : Int) ≤ s.capacity := by
  have step : ∀ (s : State) (now : Int) (s' : State) (b : Bool), 0 ≤ s.capacity ∧ (s.records.length : Int) ≤ s.capacity →
      acquire s now = some (s', b) → 0 ≤ s'.capacity ∧ (s'.records.length : Int) ≤ s'.capacity := by
    intro s now s' b hs ha
    unfold acquire at ha
    split at ha
    · simp at ha; rw [← ha.1]; exact hs
    · split at ha
      · simp at ha; rw [← ha.1]; refine ⟨hs.1, ?_⟩; simp; omega
      · split at ha
        · simp at ha
        · rename_i o r hrec
          split at ha
          · simp at ha; rw [← ha.1]; refine ⟨hs.1, ?_⟩
            have := hs.2
            rw [hrec] at this
            simpa using this
          · simp at ha; rw [← ha.1]; exact hs
  have all : ∀ (ops : List Op) (s0 s : State) (h : History), 0 ≤ s0.capacity ∧ (s0.records.length : Int) ≤ s0.capacity →
      run s0 ops = some (s, h) → 0 ≤ s.capacity ∧ (s.records.length : Int) ≤ s.capacity := by
    intro ops
    induction ops with
    | nil => intro s0 s h hs hr; simp [run] at hr; rw [← hr.1]; exact hs
    | cons op ops ih =>
      intro s0 s h hs hr
      cases op with
      | acquire now =>
        simp only [run] at hr
        split at hr
        · simp at hr
        · rename_i s1 b ha
          split at hr
          · simp at hr
          · rename_i s2 h2 hr2
            simp at hr
            rw [← hr.1]
            exact ih s1 s2 h2 (step _ _ _ _ hs ha) hr2
      | updateConfig c w =>
        simp only [run] at hr
        refine ih _ s h ?_ hr
        unfold updateConfig
        simp only
        split
        · exact ⟨by simp, shrink_length 0 (by simp) _⟩
        · rename_i hc
          exact ⟨by omega, shrink_length c (by omega) _⟩
  refine all ops (new c W) s h ?_ hr
  unfold new
  simp only
  split <;> (simp; try omega)

/-- Used: three records, then a capacity of one. -/
example : (run (new 3 10) [.acquire 0, .acquire 1, .acquire 2, .updateConfig 1 10]).map (·.1.records) = some [2] := by decide

end Gears.SlidingWindow
