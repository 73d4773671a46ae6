import Verif.TtlRedis.Props

/-!
Exactly which API keys of the redis limiter influence each other (C19), and what `IsBlocked` of a limiter for a cluster
can see (C20).

`mine p q db h` are the results of the requests on the keys `p` in a history in which requests on the keys `q` happen as
well; `Separate p q` says that the requests on `q` change none of them.
-/

namespace Gears.TtlRedis

/-- The hash tag of a limiter (empty: standalone) and the arguments `key` and `blockKey` of `ShouldBlock2`. -/
structure Pair where
  tag : Str
  key : Str
  bk  : Str
deriving Repr, DecidableEq

/-- The other arguments of a `ShouldBlock2`, the clock of the client and the time of redis. -/
structure Req where
  time : Int
  pc   : Params
  pu   : Params
  msg  : Str
  now  : Int
deriving Repr, DecidableEq

def Pair.call (p : Pair) (r : Req) : Call := .should p.tag r.pc r.pu p.key p.bk r.msg r.now

/-- The results of the requests on `p` (marked `true`) in a history that has requests on `q` (marked `false`), too. -/
def mine (p q : Pair) : Db → List (Bool × Req) → List Result
  | _, [] => []
  | db, (true, r) :: h => ((p.call r).exec db r.time).2 :: mine p q ((p.call r).exec db r.time).1 h
  | db, (false, r) :: h => mine p q ((q.call r).exec db r.time).1 h

/-- Without the requests on `q`, the requests on `p` get the same results. -/
def Separate (p q : Pair) : Prop := ∀ h, mine p q Db.empty h = mine p q Db.empty (h.filter (·.1))

/-- The two redis keys of a pair. -/
def Pair.lk (p : Pair) : Str := "_rl:".toList ++ p.key ++ p.tag
def Pair.bl (p : Pair) : Str := p.bk ++ ":bl".toList ++ p.tag

/-- The four redis keys of two pairs are apart. -/
def Apart (p q : Pair) : Prop := p.lk ≠ q.lk ∧ p.lk ≠ q.bl ∧ p.bl ≠ q.lk ∧ p.bl ≠ q.bl

/-! ### Apart implies separate -/

theorem call_rkeys (p : Pair) (r : Req) : (p.call r).rkeys = [p.lk, p.bl] := rfl

theorem mine_apart (p q : Pair) (ha : Apart p q) : ∀ (h : List (Bool × Req)) (db1 db2 : Db),
    db1 p.lk = db2 p.lk → db1 p.bl = db2 p.bl → mine p q db1 h = mine p q db2 (h.filter (·.1)) := by
  intro h
  induction h with
  | nil => intros; rfl
  | cons x h ih =>
    intro db1 db2 h1 h2
    obtain ⟨b, r⟩ := x
    cases b with
    | true =>
      obtain ⟨e1, e2⟩ := exec_congr db1 db2 r.time (p.call r) (by simp [call_rkeys, h1, h2])
      simp only [mine, List.filter_cons, if_true]
      rw [e1, ih _ _ (e2 _ h1) (e2 _ h2)]
    | false =>
      simp only [mine, List.filter_cons, Bool.false_eq_true, if_false]
      obtain ⟨a1, a2, a3, a4⟩ := ha
      refine ih _ _ ?_ ?_
      · rw [exec_frame _ _ _ _ (by simp [call_rkeys, a1, a2])]; exact h1
      · rw [exec_frame _ _ _ _ (by simp [call_rkeys, a3, a4])]; exact h2

/-! ### Not apart implies not separate -/

/-- The request that is used to show an influence: capacity 1, window 9 s, timeout 5 s, everything at time 0. -/
def probe : Req := ⟨0, ⟨1, 9, 5⟩, ⟨1, 9, 5⟩, [], 0⟩

theorem probe_exec (p : Pair) (db : Db) : (p.call probe).exec db 0 =
    ((script1 db 0 p.lk p.bl 1 9 5 0 []).1, .ofEval (script1 db 0 p.lk p.bl 1 9 5 0 []).2) := by
  have : ¬ (⟨1, 9, 5⟩ : Params).notSet := by decide
  simp only [Pair.call, probe, Call.exec, shouldBlock2, this, if_false]
  rfl

theorem probe_first (db : Db) (L B : Str) (hL : db L = none) (hB : db B = none) :
    script1 db 0 L B 1 9 5 0 [] = (db.set L (some ⟨.list [0], some 10000⟩), .ok .pass) := by
  simp [script1, existsK, live, hB, llen, hL, rpush, expire, set_self, set_set, Entry.expired]

theorem probe_second (db : Db) (L B : Str) (hL : db L = some ⟨.list [0], some 10000⟩) (hB : db B = none) :
    script1 db 0 L B 1 9 5 0 [] = (db.set B (some ⟨.str [], some 5000⟩), .ok ⟨1, 1, 5, []⟩) := by
  simp [script1, existsK, live, hB, llen, hL, Entry.expired, lpopN, lrange00, setExNx]

theorem probe_blocked (db : Db) (L B : Str) (hB : db B = some ⟨.str [], some 5000⟩) :
    script1 db 0 L B 1 9 5 0 [] = (db, .ok ⟨1, 0, 5, []⟩) := by
  simp [script1, existsK, live, hB, Entry.expired, getStr, ttl]
  decide

theorem probe_block_list (db : Db) (L B : Str) (hB : db B = some ⟨.list [0], some 10000⟩) :
    script1 db 0 L B 1 9 5 0 [] = (db, .error .wrongType) := by
  simp [script1, existsK, live, hB, Entry.expired, getStr]

theorem probe_list_str (db : Db) (L B : Str) (hB : db B = none) (hL : db L = some ⟨.str [], some 5000⟩) :
    script1 db 0 L B 1 9 5 0 [] = (db, .error .wrongType) := by
  simp [script1, existsK, live, hB, hL, Entry.expired, llen]

/-- Alone, the first probe passes and the second one starts a block. -/
theorem probe_alone (p q : Pair) (hp : p.lk ≠ p.bl) : mine p q Db.empty [(true, probe), (true, probe)] =
    [.zero, ⟨true, true, 5, []⟩] := by
  have e : probe.time = 0 := rfl
  simp only [mine, e, probe_exec]
  rw [probe_first _ _ _ rfl rfl]
  rw [probe_second _ _ _ (set_self ..) (set_ne _ _ hp.symm)]
  rfl

theorem not_apart (p q : Pair) (hp : p.lk ≠ p.bl) (hq : q.lk ≠ q.bl) (hs : Separate p q) : Apart p q := by
  have e : probe.time = 0 := rfl
  have hal := probe_alone p q hp
  -- after one probe, and after two
  have h1 := hs [(false, probe), (true, probe), (true, probe)]
  have h2 := hs [(false, probe), (false, probe), (true, probe), (true, probe)]
  simp only [List.filter_cons, List.filter_nil, Bool.false_eq_true, if_false, if_true, hal] at h1 h2
  simp only [mine, e, probe_exec] at h1 h2
  rw [probe_first Db.empty q.lk q.bl rfl rfl] at h1 h2
  rw [probe_second _ q.lk q.bl (set_self ..) (set_ne _ _ hq.symm)] at h2
  have hLB : p.lk ≠ q.lk := by
    intro c
    have hb : p.bl ≠ q.lk := fun x => hp (c.trans x.symm)
    rw [probe_second _ p.lk p.bl (by rw [c]; exact set_self ..) (set_ne _ _ hb)] at h1
    simp [Result.ofEval, Result.ofReply, Result.zero] at h1
  have hBL : p.bl ≠ q.lk := by
    intro c
    rw [probe_block_list _ p.lk p.bl (by rw [c]; exact set_self ..)] at h1
    simp only at h1
    rw [probe_block_list _ p.lk p.bl (by rw [c]; exact set_self ..)] at h1
    simp [Result.ofEval, Result.zero] at h1
  have hBB : p.bl ≠ q.bl := by
    intro c
    rw [probe_blocked _ p.lk p.bl (by rw [c]; exact set_self ..)] at h2
    simp [Result.ofEval, Result.ofReply, Result.zero] at h2
  refine ⟨hLB, ?_, hBL, hBB⟩
  intro c
  have hbn : (Db.set (Db.set Db.empty q.lk (some ⟨.list [0], some 10000⟩)) q.bl (some ⟨.str [], some 5000⟩)) p.bl
      = none := by
    rw [set_ne _ _ hBB, set_ne _ _ hBL]; rfl
  rw [probe_list_str _ p.lk p.bl hbn (by rw [c]; exact set_self ..)] at h2
  simp only at h2
  rw [probe_list_str _ p.lk p.bl hbn (by rw [c]; exact set_self ..)] at h2
  simp [Result.ofEval, Result.zero] at h2

/-- **C19** (partial, exact): for any two pairs of API keys, of standalone limiters or limiters for a cluster, whose own
two redis keys differ: requests on one never change a result of the other **if and only if** the four redis keys are
different. -/
theorem C19_exact_partial (p q : Pair) (hp : p.lk ≠ p.bl) (hq : q.lk ≠ q.bl) : Separate p q ↔ Apart p q :=
  ⟨not_apart p q hp hq, fun ha h => mine_apart p q ha h _ _ rfl rfl⟩

/-! ### In terms of the API keys -/

/-- The list key made of `key` and the block key made of `bk` are the same. -/
def Clash (key bk : Str) : Prop :=
  (∃ x, bk = "_rl:".toList ++ x ∧ key = x ++ ":bl".toList) ∨ (bk = "_rl".toList ∧ key = "bl".toList)

theorem clash_iff (key bk : Str) : "_rl:".toList ++ key = bk ++ ":bl".toList ↔ Clash key bk := by
  constructor
  · intro h
    rcases bk with _ | ⟨a, _ | ⟨b, _ | ⟨c, _ | ⟨d, x⟩⟩⟩⟩ <;> simp at h
    · obtain ⟨rfl, rfl, rfl, rfl⟩ := h
      exact Or.inr ⟨rfl, rfl⟩
    · obtain ⟨rfl, rfl, rfl, rfl, rfl⟩ := h
      exact Or.inl ⟨x, rfl, rfl⟩
  · rintro (⟨x, rfl, rfl⟩ | ⟨rfl, rfl⟩)
    · simp
    · rfl

theorem clash_self (key : Str) : ¬ Clash key key := by
  rintro (⟨x, h1, h2⟩ | ⟨h1, h2⟩)
  · have := congrArg List.length (h1.symm.trans h2)
    simp at this
  · exact absurd (h1.symm.trans h2) (by decide)

theorem apart_iff (tag key bk key' bk' : Str) : Apart ⟨tag, key, bk⟩ ⟨tag, key', bk'⟩ ↔
    key ≠ key' ∧ bk ≠ bk' ∧ ¬ Clash key bk' ∧ ¬ Clash key' bk := by
  rw [← clash_iff, ← clash_iff]
  simp only [Apart, Pair.lk, Pair.bl, ne_eq, List.append_cancel_left_eq, List.append_cancel_right_eq]
  constructor
  · rintro ⟨a, b, c, d⟩; exact ⟨a, d, b, fun x => c x.symm⟩
  · rintro ⟨a, b, c, d⟩; exact ⟨a, c, fun x => d x.symm, b⟩

/-- **C19** (partial, exact) in terms of the API keys: requests of one limiter (or of limiters with the same hash tag) on
`(key, bk)` and `(key', bk')` do not influence each other iff `key ≠ key'`, `bk ≠ bk'` and no block key is the other
key with its `:bl` moved to the front as `_rl:`. -/
theorem C19_keys_exact_partial (tag key bk key' bk' : Str) (h : ¬ Clash key bk) (h' : ¬ Clash key' bk') :
    Separate ⟨tag, key, bk⟩ ⟨tag, key', bk'⟩ ↔ key ≠ key' ∧ bk ≠ bk' ∧ ¬ Clash key bk' ∧ ¬ Clash key' bk := by
  rw [← apart_iff tag]
  refine C19_exact_partial _ _ ?_ ?_
  · intro c; exact h ((clash_iff key bk).mp (List.append_cancel_right c))
  · intro c; exact h' ((clash_iff key' bk').mp (List.append_cancel_right c))

/-- **C19** (partial, exact) for `ShouldBlock` with one key: different keys influence each other in exactly one case, one
is `x:bl` and the other `_rl:x`. -/
theorem C19_shouldBlock_exact_partial (tag key key' : Str) : Separate ⟨tag, key, key⟩ ⟨tag, key', key'⟩ ↔
    key ≠ key' ∧ ∀ x, ¬ (key = x ++ ":bl".toList ∧ key' = "_rl:".toList ++ x) ∧
      ¬ (key' = x ++ ":bl".toList ∧ key = "_rl:".toList ++ x) ∧
      ¬ (key = "bl".toList ∧ key' = "_rl".toList) ∧ ¬ (key' = "bl".toList ∧ key = "_rl".toList) := by
  rw [C19_keys_exact_partial _ _ _ _ _ (clash_self _) (clash_self _)]
  constructor
  · rintro ⟨a, _, c, d⟩
    exact ⟨a, fun x => ⟨fun e => c (Or.inl ⟨x, e.2, e.1⟩), fun e => d (Or.inl ⟨x, e.2, e.1⟩),
      fun e => c (Or.inr ⟨e.2, e.1⟩), fun e => d (Or.inr ⟨e.2, e.1⟩)⟩⟩
  · rintro ⟨a, b⟩
    refine ⟨a, a, ?_, ?_⟩
    · rintro (⟨x, e1, e2⟩ | ⟨e1, e2⟩)
      · exact (b x).1 ⟨e2, e1⟩
      · exact (b []).2.2.1 ⟨e2, e1⟩
    · rintro (⟨x, e1, e2⟩ | ⟨e1, e2⟩)
      · exact (b x).2.1 ⟨e2, e1⟩
      · exact (b []).2.2.2 ⟨e2, e1⟩

example : ¬ Separate ⟨[], "a:bl".toList, "a:bl".toList⟩ ⟨[], "_rl:a".toList, "_rl:a".toList⟩ := by
  rw [C19_shouldBlock_exact_partial]
  rintro ⟨_, h⟩
  exact (h ['a']).1 ⟨by decide, by decide⟩

example : Separate ⟨[], "ab".toList, "ab".toList⟩ ⟨[], "c".toList, "c".toList⟩ := by
  rw [C19_keys_exact_partial _ _ _ _ _ (clash_self _) (clash_self _)]
  refine ⟨by decide, by decide, ?_, ?_⟩ <;>
  · rintro (⟨x, e1, e2⟩ | ⟨e1, e2⟩)
    · simp at e1
    · simp at e1

/-! ### C20: IsBlocked of a limiter for a cluster -/

/-- The call is a `ShouldBlock2` of a limiter for a cluster, or writes nothing. -/
def Call.ofCluster : Call → Prop
  | .should tag _ _ _ _ _ _ => ∃ h, tag = clusterTag h
  | _ => True

theorem rkeys_cluster (c : Call) (hc : c.ofCluster) (db : Db) (t : Int) (bk : Str) :
    (c.exec db t).1 (bk ++ sfx) = db (bk ++ sfx) := by
  cases c with
  | should tag pc pu key b msg now =>
    obtain ⟨h, rfl⟩ := hc
    have e : (bk ++ sfx).getLast? = some 'l' := by simp [sfx]
    refine exec_frame _ _ _ _ ?_
    simp only [Call.rkeys, List.mem_cons, List.not_mem_nil, or_false, not_or]
    constructor
    · intro x; rw [x] at e; simp [listKey, clusterTag, List.getLast?_cons] at e
    · intro x; rw [x] at e; simp [blockRKey, clusterTag, List.getLast?_cons] at e
  | _ => rfl

/-- **C20** (violated) in full: whatever limiters for a cluster have done and whatever they block, `IsBlocked` reports
"not blocked", for every key at every time. -/
theorem C20_cluster_blind_violated (cs : List (Int × Call)) (hcs : ∀ x ∈ cs, x.2.ofCluster) (t : Int) (bk : Str) :
    isBlocked (run Db.empty cs).1 t bk = .zero := by
  have h : ∀ (db : Db), db (bk ++ sfx) = none → (run db cs).1 (bk ++ sfx) = none := by
    clear t
    induction cs with
    | nil => intro db h; exact h
    | cons x cs ih =>
      intro db h
      exact ih (fun y hy => hcs y (by simp [hy])) _ (by rw [rkeys_cluster _ (hcs x (by simp))]; exact h)
  have h0 := h Db.empty rfl
  simp [isBlocked, script2, existsK, live, h0]
  rfl

/-- Non-vacuity: with these calls the key is blocked. -/
example : (run Db.empty [(0, .should (clusterTag ['h']) ⟨1, 9, 5⟩ ⟨1, 9, 5⟩ ['k'] ['k'] ['m'] 0),
    (1, .should (clusterTag ['h']) ⟨1, 9, 5⟩ ⟨1, 9, 5⟩ ['k'] ['k'] ['m'] 0),
    (2, .should (clusterTag ['h']) ⟨1, 9, 5⟩ ⟨1, 9, 5⟩ ['k'] ['k'] ['m'] 0)]).2.map (·.result.block) =
    [false, true, true] := by decide

end Gears.TtlRedis
