import Verif.Conform.Redis
import Verif.TtlRedis.Retry

/-
A key of the redis limiter that was blocked gets through again (property C167): /repo/ratelimiter/ttl_ratelimiter_redis.go:54-233 with the comment
of `ShouldBlock2` in /repo/ratelimiter/ttl_ratelimiter.go:46-52 ("After `timeout` seconds, `blockKey` will be released and request `key` can be
passed again"), with the model of `Verif/TtlRedis/Model.lean`.
-/

namespace Gears.TtlRedis.Again
open Gears.Conform (Settings event_of only_should)

/-! ## Specification -/

/-- A call of `ShouldBlock` for list key `L`. -/
def OfKey (L : Str) : Call → Prop
  | .should tag _ _ key _ _ _ => listKey tag key = L
  | _ => False

/-- A call of `ShouldBlock` with block key `B`. -/
def OnBlock (B : Str) : Call → Prop
  | .should tag _ _ _ bk _ _ => blockRKey tag bk = B
  | _ => False

/-- The result of call `c`, made at `t` after the calls `cs`. -/
def resultOf (cs : List (Int × Call)) (t : Int) (c : Call) : Result := (c.exec (run Db.empty cs).1 t).2

/-- A call of key `L` passed between `lo` and `hi`. -/
def PassedIn (L : Str) (lo hi : Int) (cs : List (Int × Call)) : Prop :=
  ∃ pre t c post, cs = pre ++ (t, c) :: post ∧ OfKey L c ∧ lo ≤ t ∧ t ≤ hi ∧ (resultOf pre t c).block = false

/-- The situation: `c0` is a call of key `L` at `T` that begins a block on block key `B`, which only calls of `L` use; there is no call of the key
between the end of the block and `t`, when `c` is made. -/
structure First (L B : Str) (e : Int) (pre : List (Int × Call)) (T : Int) (c0 : Call) (mid : List (Int × Call)) (t : Int) (c : Call) : Prop where
  own   : ∀ x ∈ pre ++ (T, c0) :: mid ++ [(t, c)], OfKey L x.2 ↔ OnBlock B x.2
  key0  : OfKey L c0
  key   : OfKey L c
  begun : (resultOf pre T c0).triggered = true
  quiet : ∀ x ∈ mid, OfKey L x.2 → x.1 ≤ T + 1000 * e
  late  : T + 1000 * e < t

/-- **C167**, as the comment says it: the first call of the key after the end of a block passes. -/
def C167Claim : Prop := ∀ (BK : Str → Prop) (cap : Str → Nat) (win tmo : Str → Int) (δ : Int) (L B : Str) (pre : List (Int × Call)) (T : Int)
  (c0 : Call) (mid : List (Int × Call)) (t : Int) (c : Call),
  Settings BK cap win tmo δ 0 (pre ++ (T, c0) :: mid ++ [(t, c)]) → First L B (tmo L) pre T c0 mid t c →
  (resultOf (pre ++ (T, c0) :: mid) t c).block = false

/-! ## Proof -/

theorem mem_passedAt (L : Str) (a : Int × Int) : ∀ (evs : List Event), a ∈ passedAt L evs →
    ∃ ev ∈ evs, OfKey L ev.call ∧ ev.result.block = false ∧ a.1 = ev.time
  | [], h => by simp [passedAt] at h
  | ev :: evs, h => by
    have ih := mem_passedAt L a evs
    have up : (∃ ev ∈ evs, OfKey L ev.call ∧ ev.result.block = false ∧ a.1 = ev.time) →
        ∃ ev' ∈ ev :: evs, OfKey L ev'.call ∧ ev'.result.block = false ∧ a.1 = ev'.time :=
      fun ⟨ev', h1, h2⟩ => ⟨ev', List.mem_cons_of_mem _ h1, h2⟩
    obtain ⟨tm, call, res⟩ := ev
    cases call with
    | should tag pc pu key bk msg now =>
      simp only [passedAt] at h
      split at h
      · rename_i hc
        rcases List.mem_cons.1 h with rfl | h
        · exact ⟨_, List.mem_cons_self .., hc.1, hc.2, rfl⟩
        · exact up (ih h)
      · exact up (ih h)
    | isBlocked bk => exact up (ih h)
    | shouldDown pc => exact up (ih h)
    | isBlockedDown => exact up (ih h)

/-- What `C138_trigger` says, as `PassedIn`. -/
theorem trigger_passed {BK : Str → Prop} {cap : Str → Nat} {win tmo : Str → Int} {δ η : Int} (hη : 0 ≤ η) {cs post : List (Int × Call)} {t : Int} {c : Call}
    {L : Str} (hs : Settings BK cap win tmo δ η (cs ++ (t, c) :: post)) (hk : OfKey L c) (htr : (resultOf cs t c).triggered = true) :
    PassedIn L (t - 1000 * win L - 2 * η - 999) t cs := by
  obtain ⟨hsort, hpos, hok⟩ := hs
  obtain ⟨tag, pc, pu, key, bk, msg, now, rfl⟩ := only_should _ _ _ htr
  have hkey : listKey tag key = L := hk
  obtain ⟨p1, p2, p3⟩ := hpos L
  have e : cs ++ (t, Call.should tag pc pu key bk msg now) :: post = cs ++ [(t, Call.should tag pc pu key bk msg now)] ++ post := by simp
  have hL : ¬ BK L := hkey ▸ (hok L (t, Call.should tag pc pu key bk msg now) (by simp)).2.1
  have h1 := C138_trigger BK L hL (cap L) (win L) (tmo L) δ η p1 p2 p3 hη cs t tag pc pu key bk msg now
    (by rw [e, List.map_append] at hsort; exact (List.pairwise_append.1 hsort).1)
    (fun x hx => hok _ x (by rw [e]; exact List.mem_append_left _ hx)) hkey htr
  obtain ⟨a, ha, hr⟩ := List.countP_pos_iff.1 (Nat.lt_of_lt_of_le p1 h1)
  obtain ⟨ev, hev, h2, h3, h4⟩ := mem_passedAt L a _ ha
  obtain ⟨pre, t', c', post', e1, rfl⟩ := event_of cs Db.empty ev hev
  simp only [Bool.and_eq_true, decide_eq_true_eq] at hr
  exact ⟨pre, t', c', post', e1, h2, by rw [h4] at hr; exact hr.1, by rw [h4] at hr; exact hr.2, h3⟩

theorem sorted_split {pre post : List (Int × Call)} {x : Int × Call} (h : ((pre ++ x :: post).map (·.1)).Pairwise (· ≤ ·)) :
    (∀ y ∈ pre, y.1 ≤ x.1) ∧ ∀ y ∈ post, x.1 ≤ y.1 := by
  rw [List.map_append, List.map_cons, List.pairwise_append] at h
  exact ⟨fun y hy => h.2.2 y.1 (List.mem_map_of_mem hy) x.1 (by simp), fun y hy => (List.pairwise_cons.1 h.2.1).1 y.1 (List.mem_map_of_mem hy)⟩

/-- While a block lasts, every call with its block key is blocked and begins none. -/
theorem held {pre mid : List (Int × Call)} {T t e : Int} {c0 c : Call} {B : Str} (h0 : OnBlock B c0) (hc : OnBlock B c)
    (hp0 : ∀ tag pc pu key bk msg now, c0 = .should tag pc pu key bk msg now → pu.timeout = e)
    (hp : ∀ tag pc pu key bk msg now, c = .should tag pc pu key bk msg now → pc.set ∧ pu.set)
    (htr : (resultOf pre T c0).triggered = true) (hmid : ∀ x ∈ mid, x.1 ≤ T + 1000 * e) (ht : t ≤ T + 1000 * e) :
    (resultOf (pre ++ (T, c0) :: mid) t c).block = true ∧ (resultOf (pre ++ (T, c0) :: mid) t c).triggered = false := by
  obtain ⟨tag, pc, pu, key, bk, msg, now, rfl⟩ := only_should _ _ _ htr
  have he := hp0 _ _ _ _ _ _ _ rfl
  obtain ⟨_, _, hst⟩ := triggered_store _ T tag pc pu key bk msg now htr
  have hB : blockRKey tag bk = B := h0
  rw [hB, he] at hst
  have hst1 := run_keeps_str mid _ _ _ _ hst (fun x hx => by have := hmid x hx; omega)
  cases c with
  | should tag' pc' pu' key' bk' msg' now' =>
    obtain ⟨hs1, hs2⟩ := hp _ _ _ _ _ _ _ rfl
    have hB' : blockRKey tag' bk' = B := hc
    have hdb : (run Db.empty (pre ++ (T, Call.should tag pc pu key bk msg now) :: mid)).1 =
        (run (shouldBlock2 (run Db.empty pre).1 T tag pc pu key bk msg now).1 mid).1 := by
      rw [run_split]; rfl
    unfold resultOf
    rw [hdb]
    generalize (run (shouldBlock2 (run Db.empty pre).1 T tag pc pu key bk msg now).1 mid).1 = db at *
    obtain ⟨hx, hg, _⟩ := isBlocked_of_str db t _ _ _ hst1 (by omega)
    have hpar : ¬ (pu'.capacity ≤ 0 ∨ pu'.window ≤ 0 ∨ pu'.timeout ≤ 0) := by unfold Params.set at hs2; omega
    have : (shouldBlock2 db t tag' pc' pu' key' bk' msg' now').2 = ⟨true, false, ttl db t B, msg⟩ := by
      unfold shouldBlock2
      rw [if_neg (Params.set_notSet hs1), hB']
      simp only [script1, if_neg hpar, hx, if_true, hg, Result.ofEval, Result.ofReply]
      rfl
    show (shouldBlock2 db t tag' pc' pu' key' bk' msg' now').2.block = true ∧ (shouldBlock2 db t tag' pc' pu' key' bk' msg' now').2.triggered = false
    rw [this]; exact ⟨rfl, rfl⟩
  | isBlocked bk => exact hc.elim
  | shouldDown pc => exact hc.elim
  | isBlockedDown => exact hc.elim

/-- A call that is blocked begins the block, or a call before it began one on the same block key that lasts. -/
theorem blocked_by (cs : List (Int × Call)) (t : Int) (c : Call) (B : Str) (hB : OnBlock B c) (hb : (resultOf cs t c).block = true) :
    (resultOf cs t c).triggered = true ∨ ∃ pre T tag pc pu key bk msg now post,
      cs = pre ++ (T, .should tag pc pu key bk msg now) :: post ∧ blockRKey tag bk = B ∧
      (resultOf pre T (.should tag pc pu key bk msg now)).triggered = true ∧ t ≤ T + 1000 * pu.timeout := by
  cases c with
  | should tag pc pu key bk msg now =>
    have hj := run_justified cs [] Db.empty (by intro k m E h; simp [Db.empty] at h)
    rw [List.nil_append] at hj
    have hBk : blockRKey tag bk = B := hB
    unfold resultOf at hb ⊢
    have hev := fun ev => event_of cs Db.empty ev
    generalize (run Db.empty cs).1 = db at *
    simp only [Call.exec, shouldBlock2] at hb ⊢
    split at hb
    · simp [Result.zero] at hb
    · rename_i hn
      rw [if_neg hn]
      dsimp only at hb ⊢
      unfold script1 at hb ⊢
      split at hb
      · simp [Result.ofEval, Result.ofReply, Reply.pass] at hb
      · rename_i h1
        rw [if_neg h1]
        split at hb
        · rename_i hx
          right
          cases hg : getStr db t (blockRKey tag bk) with
          | error e => rw [hg] at hb; simp [Result.ofEval, Result.zero] at hb
          | ok m =>
            unfold getStr at hg
            split at hg
            · rename_i s E hl
              obtain ⟨hd, hexp⟩ := live_some hl
              obtain ⟨ev, hmem, tag', pc', pu', key', bk', now', h1, h2, h3, h4⟩ := hj _ _ _ hd
              obtain ⟨pre, T, c', post, e1, rfl⟩ := hev ev hmem
              simp only at h1
              subst h1
              refine ⟨pre, T, tag', pc', pu', key', bk', _, now', post, e1, by rw [h2, hBk], h3, ?_⟩
              rw [h4] at hexp
              simp only [Entry.expired, decide_eq_false_iff_not] at hexp
              omega
            · simp at hg
            · rename_i hl
              simp [existsK, hl] at hx
        · rename_i hx
          rw [if_neg hx]
          left
          split at hb
          · simp [Result.ofEval, Result.zero] at hb
          · rename_i size hs
            dsimp only at hb ⊢
            split at hb
            · simp [Result.ofEval, Result.ofReply, Reply.pass] at hb
            · rename_i h2
              rw [if_neg h2]
              split at hb
              · simp [Result.ofEval, Result.ofReply, Reply.pass] at hb
              · split at hb
                · simp [Result.ofEval, Result.ofReply, Reply.pass] at hb
                · rename_i h3
                  rw [if_neg h3]
                  rfl
  | isBlocked bk => exact hB.elim
  | shouldDown pc => exact hB.elim
  | isBlockedDown => exact hB.elim

/-! ### The list is gone two timeouts after the last call that passed -/

theorem expire_at {db : Db} {t : Int} {k : Str} {s : Int} {x : Val} {E : Option Int} (h : expire db t k s k = some ⟨x, E⟩)
    (hl : db k = none ∨ ∃ e, live db t k = some e) : E = some (t + s * 1000) := by
  unfold expire at h
  rcases hl with hl | ⟨e, hl⟩
  · simp [live, hl] at h
  · rw [hl] at h
    simp only [set_self, Option.some.injEq, Entry.mk.injEq] at h
    exact h.2.symm

theorem rpush_live (db : Db) (t : Int) (k : Str) (v : Int) : ∃ e, live (rpush db t k v) t k = some e := by
  unfold rpush
  split
  · exact ⟨_, live_set _ _ _ _ rfl⟩
  · rename_i hl
    exact ⟨_, live_set _ _ _ _ (by have := (live_some hl).2; simpa [Entry.expired] using this)⟩
  · rename_i hl; exact ⟨_, hl⟩

theorem lpop_live {db : Db} {t : Int} {k : Str} (h : ∃ e, live db t k = some e) : lpop db t k k = none ∨ ∃ e, live (lpop db t k) t k = some e := by
  unfold lpop
  rcases hl : live db t k with _ | ⟨_ | (_ | ⟨a, _ | ⟨b, l⟩⟩), E⟩
  · simp [hl] at h
  · exact .inr ⟨_, hl⟩
  · exact .inl (by simp [set_self])
  · exact .inl (by simp [set_self])
  · exact .inr ⟨_, live_set _ _ _ _ (by have := (live_some hl).2; simpa [Entry.expired] using this)⟩

theorem lpop_list {db : Db} {t : Int} {k : Str} {v : List Int} {E : Option Int} (h : lpop db t k k = some ⟨.list v, E⟩) :
    ∃ v', db k = some ⟨.list v', E⟩ := by
  unfold lpop at h
  rcases hl : live db t k with _ | ⟨_ | (_ | ⟨a, _ | ⟨b, l⟩⟩), E'⟩ <;> simp only [hl, set_self] at h
  · exact ⟨v, h⟩
  · exact ⟨v, h⟩
  · simp at h
  · simp at h
  · simp only [Option.some.injEq, Entry.mk.injEq] at h
    rw [← h.2]; exact ⟨_, (live_some hl).1⟩

theorem lpopN_list : ∀ (n : Nat) {db : Db} {t : Int} {k : Str} {v : List Int} {E : Option Int}, lpopN db t k n k = some ⟨.list v, E⟩ →
    ∃ v', db k = some ⟨.list v', E⟩
  | 0, _, _, _, v, _, h => ⟨v, h⟩
  | n + 1, _, _, _, _, _, h => by
    obtain ⟨v', h'⟩ := lpopN_list n h
    exact lpop_list h'

/-- The expiry of the list: as before, or set by a call that passes. -/
theorem script1_list (db : Db) (t : Int) (key keyb : Str) (hne : key ≠ keyb) (cap win exp now : Int) (msg : Str) (v : List Int) (E : Option Int)
    (h : (script1 db t key keyb cap win exp now msg).1 key = some ⟨.list v, E⟩) :
    (∃ v', db key = some ⟨.list v', E⟩) ∨ ((script1 db t key keyb cap win exp now msg).2 = .ok .pass ∧ E = some (t + exp * 2 * 1000)) := by
  unfold script1 at h ⊢
  split at h
  · exact .inl ⟨v, h⟩
  · rename_i h1
    rw [if_neg h1]
    split at h
    · left
      split at h <;> exact ⟨v, h⟩
    · rename_i h2
      rw [if_neg h2]
      split at h
      · exact .inl ⟨v, h⟩
      · rename_i size hs
        dsimp only at h ⊢
        split at h
        · rename_i h3
          rw [if_pos h3]
          exact .inr ⟨rfl, expire_at h (.inr (rpush_live ..))⟩
        · rename_i h3
          rw [if_neg h3]
          split at h
          · exact .inr ⟨rfl, expire_at h (.inr (rpush_live ..))⟩
          · rename_i oldest ho
            split at h
            · rename_i h4
              rw [if_pos h4]
              exact .inr ⟨rfl, expire_at h (lpop_live (rpush_live ..))⟩
            · rename_i h4
              dsimp only at h
              rw [setExNx_ne _ _ _ _ hne] at h
              exact .inl (lpopN_list _ h)

/-- A block begins only while the list is there. -/
theorem script1_begins (db : Db) (t : Int) (key keyb : Str) (cap win exp now : Int) (msg : Str) (r : Reply)
    (h : (script1 db t key keyb cap win exp now msg).2 = .ok r) (hr : r.triggered = 1) : ∃ v E, live db t key = some ⟨.list v, E⟩ := by
  unfold script1 at h
  split at h
  · simp at h; subst h; simp [Reply.pass] at hr
  · split at h
    · split at h
      · simp at h
      · simp at h; subst h; simp at hr
    · split at h
      · simp at h
      · rename_i size hs
        dsimp only at h
        split at h
        · simp at h; subst h; simp [Reply.pass] at hr
        · rename_i h3
          unfold llen at hs
          split at hs
          · simp at hs; omega
          · rename_i hl
            exact ⟨_, _, hl⟩
          · simp at hs

/-- The times of the calls that passed set the expiry of the list. -/
def Aged (L : Str) (e : Int) (cs : List (Int × Call)) : Prop :=
  ∀ v E, (run Db.empty cs).1 L = some ⟨.list v, E⟩ → ∃ T, E = some (T + 2000 * e) ∧ PassedIn L T T cs

theorem passedIn_append {L : Str} {lo hi : Int} {cs : List (Int × Call)} (ds : List (Int × Call)) (h : PassedIn L lo hi cs) : PassedIn L lo hi (cs ++ ds) := by
  obtain ⟨pre, t, c, post, e, g⟩ := h
  exact ⟨pre, t, c, post ++ ds, by rw [e]; simp, g⟩

theorem aged_snoc {BK : Str → Prop} {L : Str} (hL : ¬ BK L) {c w e δ η : Int} {cs : List (Int × Call)} {x : Int × Call} (h : Aged L e cs)
    (hok : CallSkewed BK L c w e δ η x.1 x.2) : Aged L e (cs ++ [x]) := by
  obtain ⟨t, d⟩ := x
  intro v E hv
  rw [run_snoc] at hv
  have old : (∃ v', (run Db.empty cs).1 L = some ⟨.list v', E⟩) → ∃ T, E = some (T + 2000 * e) ∧ PassedIn L T T (cs ++ [(t, d)]) := by
    rintro ⟨v', h'⟩
    obtain ⟨T, h1, h2⟩ := h v' E h'
    exact ⟨T, h1, passedIn_append _ h2⟩
  cases d with
  | should tag pc pu key bk msg now =>
    obtain ⟨hb, hnb, hsame⟩ := hok
    have hLb : L ≠ blockRKey tag bk := fun h' => hL (h' ▸ hb)
    simp only [Call.exec, shouldBlock2] at hv
    split at hv
    · exact old ⟨v, hv⟩
    · rename_i hn
      dsimp only at hv
      by_cases hkey : listKey tag key = L
      · subst hkey
        rcases script1_list _ _ _ _ hLb _ _ _ _ _ _ _ hv with h' | ⟨h1, h2⟩
        · exact old h'
        · obtain ⟨_, rfl, _⟩ := hsame rfl
          refine ⟨t, by rw [h2]; simp only [Option.some.injEq]; omega, cs, t, _, [], rfl, rfl, Int.le_refl _, Int.le_refl _, ?_⟩
          simp only [resultOf, Call.exec, shouldBlock2, if_neg hn, h1, Result.ofEval, Result.ofReply, Reply.pass]
          rfl
      · rw [script1_ne _ _ _ _ _ _ _ _ _ (fun h' => hkey h'.symm) hLb] at hv
        exact old ⟨v, hv⟩
  | isBlocked bk => exact old ⟨v, hv⟩
  | shouldDown pc => exact old ⟨v, hv⟩
  | isBlockedDown => exact old ⟨v, hv⟩

theorem aged {BK : Str → Prop} {L : Str} (hL : ¬ BK L) {c w e δ η : Int} : ∀ (post pre : List (Int × Call)), Aged L e pre →
    (∀ x ∈ post, CallSkewed BK L c w e δ η x.1 x.2) → Aged L e (pre ++ post)
  | [], pre, h, _ => by simpa using h
  | x :: post, pre, h, hok => by
    have := aged hL post (pre ++ [x]) (aged_snoc hL h (hok x (by simp))) (fun y hy => hok y (by simp [hy]))
    simpa using this

/-- A block begins only if a call of the key passed within two timeouts. -/
theorem trigger_recent {BK : Str → Prop} {cap : Str → Nat} {win tmo : Str → Int} {δ η : Int} {cs post : List (Int × Call)} {t : Int} {c : Call}
    {L : Str} (hs : Settings BK cap win tmo δ η (cs ++ (t, c) :: post)) (hk : OfKey L c) (htr : (resultOf cs t c).triggered = true) :
    PassedIn L (t - 2000 * tmo L) t cs := by
  obtain ⟨hsort, hpos, hok⟩ := hs
  obtain ⟨tag, pc, pu, key, bk, msg, now, rfl⟩ := only_should _ _ _ htr
  have hkey : listKey tag key = L := hk
  subst hkey
  have hL := (hok (listKey tag key) (t, Call.should tag pc pu key bk msg now) (by simp)).2.1
  have ha : Aged (listKey tag key) (tmo (listKey tag key)) cs := by
    have := aged hL cs [] (by intro v E h; simp [run, Db.empty] at h) (fun x hx => hok _ x (by simp [hx]))
    simpa using this
  unfold resultOf at htr
  simp only [Call.exec, shouldBlock2] at htr
  split at htr
  · simp [Result.zero] at htr
  · dsimp only at htr
    cases hr : (script1 (run Db.empty cs).1 t (listKey tag key) (blockRKey tag bk) pu.capacity pu.window pu.timeout now msg).2 with
    | error e => rw [hr] at htr; simp [Result.ofEval, Result.zero] at htr
    | ok r =>
      rw [hr] at htr
      simp only [Result.ofEval, Result.ofReply, beq_iff_eq] at htr
      obtain ⟨v, E, hl⟩ := script1_begins _ _ _ _ _ _ _ _ _ _ hr htr
      obtain ⟨hd, hexp⟩ := live_some hl
      obtain ⟨T, rfl, pre, tp, cp, q, e, h1, h2, h3, h4⟩ := ha v E hd
      simp only [Entry.expired, decide_eq_false_iff_not] at hexp
      have hle : tp ≤ t := (sorted_split hsort).1 (tp, cp) (by rw [e]; simp)
      exact ⟨pre, tp, cp, q, e, h1, by omega, hle, h4⟩

theorem params_of {BK : Str → Prop} {cap : Str → Nat} {win tmo : Str → Int} {δ η : Int} {cs : List (Int × Call)} {x : Int × Call} {L : Str}
    (hs : Settings BK cap win tmo δ η cs) (hx : x ∈ cs) (hk : OfKey L x.2) : ∀ tag pc pu key bk msg now, x.2 = .should tag pc pu key bk msg now →
    (pc.set ∧ pu.set) ∧ pu.timeout = tmo L := by
  intro tag pc pu key bk msg now hc
  have h := hs.2.2 L x hx
  have hp := hs.2.1 L
  rw [hc] at h hk
  obtain ⟨h1, h2, _⟩ := h.2.2 hk
  subst h1 h2
  exact ⟨⟨⟨by have := hp.1; simp only; omega, hp.2⟩, ⟨by have := hp.1; simp only; omega, hp.2⟩⟩, rfl⟩

/-- The events of a list of calls, split at one of them. -/
theorem split_at {pre mid p q : List (Int × Call)} {x y : Int × Call} (e : pre ++ x :: mid = p ++ y :: q) :
    (∃ q', pre = p ++ y :: q') ∨ (p = pre ∧ y = x) ∨ ∃ a b, mid = a ++ y :: b ∧ p = pre ++ x :: a := by
  rcases List.append_eq_append_iff.1 e with ⟨a', e1, e2⟩ | ⟨a', e1, e2⟩
  · cases a' with
    | nil =>
      simp only [List.nil_append, List.cons.injEq] at e2
      exact .inr (.inl ⟨by simpa using e1, e2.1.symm⟩)
    | cons z zs =>
      simp only [List.cons_append, List.cons.injEq] at e2
      exact .inr (.inr ⟨zs, q, e2.2, by rw [e1, e2.1]⟩)
  · cases a' with
    | nil =>
      simp only [List.nil_append, List.cons.injEq] at e2
      exact .inr (.inl ⟨by simpa using e1.symm, e2.1⟩)
    | cons z zs =>
      simp only [List.cons_append, List.cons.injEq] at e2
      exact .inl ⟨zs, by rw [e1, e2.1]⟩

/-- During the block all calls of the key are blocked, and begin none. -/
theorem during {BK : Str → Prop} {cap : Str → Nat} {win tmo : Str → Int} {δ η : Int} {L B : Str}
    {pre : List (Int × Call)} {T : Int} {c0 : Call} {mid : List (Int × Call)} {t : Int} {c : Call}
    (hs : Settings BK cap win tmo δ η (pre ++ (T, c0) :: mid ++ [(t, c)])) (hf : First L B (tmo L) pre T c0 mid t c)
    (a : List (Int × Call)) (y : Int × Call) (b : List (Int × Call)) (e : mid = a ++ y :: b) (hy : OfKey L y.2) :
    (resultOf (pre ++ (T, c0) :: a) y.1 y.2).block = true ∧ (resultOf (pre ++ (T, c0) :: a) y.1 y.2).triggered = false := by
  have mem0 : (T, c0) ∈ pre ++ (T, c0) :: mid ++ [(t, c)] := by simp
  have hm : y ∈ mid := by rw [e]; simp
  have memm : y ∈ pre ++ (T, c0) :: mid ++ [(t, c)] := by simp [hm]
  have hB0 : OnBlock B c0 := (hf.own _ mem0).1 hf.key0
  have hsort := hs.1
  have hq := hf.quiet y hm hy
  have hpw : ((pre ++ (T, c0) :: a) ++ y :: (b ++ [(t, c)])) = pre ++ (T, c0) :: mid ++ [(t, c)] := by rw [e]; simp
  rw [← hpw] at hsort
  refine held hB0 ((hf.own _ memm).1 hy) (fun tag pc pu key bk msg now h => (params_of hs mem0 hf.key0 tag pc pu key bk msg now h).2)
    (fun tag pc pu key bk msg now h => (params_of hs memm hy tag pc pu key bk msg now h).1) hf.begun ?_ hq
  intro x hx
  have := (sorted_split hsort).1 x (by simp [hx])
  omega

/-- If the first call after a block is blocked, it begins the next one. -/
theorem first_begins {BK : Str → Prop} {cap : Str → Nat} {win tmo : Str → Int} {δ η : Int} {L B : Str}
    {pre : List (Int × Call)} {T : Int} {c0 : Call} {mid : List (Int × Call)} {t : Int} {c : Call}
    (hs : Settings BK cap win tmo δ η (pre ++ (T, c0) :: mid ++ [(t, c)])) (hf : First L B (tmo L) pre T c0 mid t c)
    (hb : (resultOf (pre ++ (T, c0) :: mid) t c).block = true) : (resultOf (pre ++ (T, c0) :: mid) t c).triggered = true := by
  rcases blocked_by _ t c B ((hf.own (t, c) (by simp)).1 hf.key) hb with htr | ⟨p, T', tag, pc, pu, key, bk, msg, now, q, e, h1, h2, h3⟩
  · exact htr
  · exfalso
    have hm : (T', Call.should tag pc pu key bk msg now) ∈ pre ++ (T, c0) :: mid ++ [(t, c)] := by rw [e]; simp
    have hk : OfKey L (Call.should tag pc pu key bk msg now) := (hf.own _ hm).2 h1
    have htm := (params_of hs hm hk _ _ _ _ _ _ _ rfl).2
    have hlate := hf.late
    rw [htm] at h3
    rcases split_at e with ⟨q', e1⟩ | ⟨_, e1⟩ | ⟨a, b, e1, rfl⟩
    · have hsort := hs.1
      rw [List.append_assoc, List.cons_append] at hsort
      have := (sorted_split hsort).1 (T', Call.should tag pc pu key bk msg now) (by rw [e1]; simp)
      simp only at this
      omega
    · simp only [Prod.mk.injEq] at e1
      have := e1.1
      omega
    · have := (during hs hf a _ b e1 hk).2
      simp only at this
      rw [h2] at this; simp at this

/-- The calls of the key that passed are those before the block. -/
theorem first_passes {BK : Str → Prop} {cap : Str → Nat} {win tmo : Str → Int} {δ η : Int} {L B : Str}
    {pre : List (Int × Call)} {T : Int} {c0 : Call} {mid : List (Int × Call)} {t : Int} {c : Call}
    (hs : Settings BK cap win tmo δ η (pre ++ (T, c0) :: mid ++ [(t, c)])) (hf : First L B (tmo L) pre T c0 mid t c) {lo hi : Int}
    (h : PassedIn L lo hi (pre ++ (T, c0) :: mid)) : PassedIn L lo hi pre := by
  obtain ⟨p, tp, cp, q, e, hk, h1, h2, h3⟩ := h
  rcases split_at e with ⟨q', e1⟩ | ⟨rfl, e1⟩ | ⟨a, b, e1, rfl⟩
  · exact ⟨p, tp, cp, q', e1, hk, h1, h2, h3⟩
  · simp only [Prod.mk.injEq] at e1
    obtain ⟨rfl, rfl⟩ := e1
    have htr := hf.begun
    obtain ⟨tag, pc, pu, key, bk, msg, now, rfl⟩ := only_should _ _ _ htr
    have := (triggered_store _ _ _ _ _ _ _ _ _ htr).2.1
    simp only [resultOf, Call.exec] at h3
    rw [this] at h3; simp at h3
  · have := (during hs hf a (tp, cp) b e1 hk).1
    simp only at this
    rw [h3] at this; simp at this

theorem passed_before {L : Str} {lo hi : Int} {pre post : List (Int × Call)} {x : Int × Call}
    (hsort : ((pre ++ x :: post).map (·.1)).Pairwise (· ≤ ·)) (h : PassedIn L lo hi pre) : lo ≤ x.1 := by
  obtain ⟨p, tp, cp, q, e, _, h1, _⟩ := h
  have := (sorted_split hsort).1 (tp, cp) (by rw [e]; simp)
  simp only at this
  omega

/-- **C167.**  The first call of a key after the end of its block passes, if the timeout is longer than the window (by a second, and by the
difference of the clocks).  Missing: `C167Claim`, windows that are not shorter than the timeout. -/
theorem C167_first_call_partial (BK : Str → Prop) (cap : Str → Nat) (win tmo : Str → Int) (δ η : Int) (hη : 0 ≤ η) (L B : Str)
    (pre : List (Int × Call)) (T : Int) (c0 : Call) (mid : List (Int × Call)) (t : Int) (c : Call)
    (hs : Settings BK cap win tmo δ η (pre ++ (T, c0) :: mid ++ [(t, c)])) (hf : First L B (tmo L) pre T c0 mid t c)
    (hlong : 1000 * win L + 2 * η + 999 ≤ 1000 * tmo L) : (resultOf (pre ++ (T, c0) :: mid) t c).block = false := by
  cases hb : (resultOf (pre ++ (T, c0) :: mid) t c).block with
  | false => rfl
  | true =>
    exfalso
    have h := first_passes hs hf (trigger_passed hη hs hf.key (first_begins hs hf hb))
    have hsort := hs.1
    rw [List.append_assoc, List.cons_append] at hsort
    have := passed_before hsort h
    have := hf.late
    simp only at *
    omega

/-- **C167.**  Whatever the window: if the first call after a block is blocked again, the first call after this second block passes. -/
theorem C167_second_call (BK : Str → Prop) (cap : Str → Nat) (win tmo : Str → Int) (δ η : Int) (L B : Str)
    (pre : List (Int × Call)) (T : Int) (c0 : Call) (mid : List (Int × Call)) (T1 : Int) (c1 : Call) (mid1 : List (Int × Call)) (t : Int) (c : Call)
    (hs : Settings BK cap win tmo δ η ((pre ++ (T, c0) :: mid) ++ (T1, c1) :: mid1 ++ [(t, c)]))
    (hf : First L B (tmo L) pre T c0 mid T1 c1) (hf1 : First L B (tmo L) (pre ++ (T, c0) :: mid) T1 c1 mid1 t c) :
    (resultOf ((pre ++ (T, c0) :: mid) ++ (T1, c1) :: mid1) t c).block = false := by
  cases hb : (resultOf ((pre ++ (T, c0) :: mid) ++ (T1, c1) :: mid1) t c).block with
  | false => rfl
  | true =>
    exfalso
    have h := first_passes hs hf1 (trigger_recent hs hf1.key (first_begins hs hf1 hb))
    have e : (pre ++ (T, c0) :: mid) ++ (T1, c1) :: mid1 ++ [(t, c)] = (pre ++ (T, c0) :: mid ++ [(T1, c1)]) ++ (mid1 ++ [(t, c)]) := by simp
    rw [e] at hs
    have hs' : Settings BK cap win tmo δ η (pre ++ (T, c0) :: mid ++ [(T1, c1)]) :=
      ⟨by have := hs.1; rw [List.map_append] at this; exact (List.pairwise_append.1 this).1, hs.2.1,
        fun L x hx => hs.2.2 L x (List.mem_append_left _ hx)⟩
    have h' := first_passes hs' hf h
    have hsort := hs'.1
    rw [List.append_assoc, List.cons_append] at hsort
    have := passed_before hsort h'
    have := hf.late
    have := hf1.late
    simp only at *
    omega

/-- **C167.**  No key is shut out for longer than the timeout and the window (and a second, and the difference of the clocks), and never for longer
than three timeouts, even if it is called all the time.  A call that is blocked is preceded by one that passed, with the same block key, within that
time. -/
theorem C167_shut_out (BK : Str → Prop) (cap : Str → Nat) (win tmo : Str → Int) (δ η : Int) (hη : 0 ≤ η) (B : Str)
    (cs : List (Int × Call)) (t : Int) (c : Call) (hs : Settings BK cap win tmo δ η (cs ++ [(t, c)])) (hB : OnBlock B c)
    (hb : (resultOf cs t c).block = true) :
    ∃ L, (∃ x ∈ cs ++ [(t, c)], OfKey L x.2 ∧ OnBlock B x.2) ∧
      PassedIn L (t - 1000 * tmo L - min (1000 * win L + 2 * η + 999) (2000 * tmo L)) t cs := by
  -- a block that begins at `T` after `ds`
  have hbeg : ∀ ds T d post L, Settings BK cap win tmo δ η (ds ++ (T, d) :: post) → OfKey L d → (resultOf ds T d).triggered = true →
      PassedIn L (T - min (1000 * win L + 2 * η + 999) (2000 * tmo L)) T ds := by
    intro ds T d post L hs' hk htr
    rcases Int.le_total (1000 * win L + 2 * η + 999) (2000 * tmo L) with h | h
    · rw [Int.min_eq_left h, show T - (1000 * win L + 2 * η + 999) = T - 1000 * win L - 2 * η - 999 by omega]
      exact trigger_passed hη hs' hk htr
    · rw [Int.min_eq_right h]
      exact trigger_recent hs' hk htr
  rcases blocked_by cs t c B hB hb with htr | ⟨p, T', tag, pc, pu, key, bk, msg, now, q, e, h1, h2, h3⟩
  · obtain ⟨tag, pc, pu, key, bk, msg, now, rfl⟩ := only_should _ _ _ htr
    obtain ⟨p, tp, cp, q, e, hk, h1, h2, h3⟩ := hbeg cs t _ [] (listKey tag key) hs rfl htr
    have := (hs.2.1 (listKey tag key)).2.2
    exact ⟨listKey tag key, ⟨(t, .should tag pc pu key bk msg now), by simp, rfl, hB⟩, p, tp, cp, q, e, hk, by omega, h2, h3⟩
  · have hm : (T', Call.should tag pc pu key bk msg now) ∈ cs ++ [(t, c)] := by rw [e]; simp
    have htm := (params_of hs hm (L := listKey tag key) rfl _ _ _ _ _ _ _ rfl).2
    have hs' := hs
    rw [e, List.append_assoc, List.cons_append] at hs'
    obtain ⟨p', tp, cp, q', e', hk, g1, g2, g3⟩ := hbeg p T' _ _ (listKey tag key) hs' rfl h2
    have hle : T' ≤ t := (sorted_split hs'.1).2 (t, c) (by simp)
    rw [htm] at h3
    exact ⟨listKey tag key, ⟨_, hm, rfl, h1⟩, p', tp, cp, q' ++ (T', Call.should tag pc pu key bk msg now) :: q, by rw [e, e']; simp, hk,
      by omega, by omega, g3⟩

/-- **C167.**  So a key whose block key is its own passes at least once in any such time in which it is called at the end. -/
theorem C167_own_key (BK : Str → Prop) (cap : Str → Nat) (win tmo : Str → Int) (δ η : Int) (hη : 0 ≤ η) (L B : Str)
    (cs : List (Int × Call)) (t : Int) (c : Call) (hs : Settings BK cap win tmo δ η (cs ++ [(t, c)]))
    (hown : ∀ x ∈ cs ++ [(t, c)], OfKey L x.2 ↔ OnBlock B x.2) (hk : OfKey L c) :
    PassedIn L (t - 1000 * tmo L - min (1000 * win L + 2 * η + 999) (2000 * tmo L)) t (cs ++ [(t, c)]) := by
  cases hb : (resultOf cs t c).block with
  | false =>
    have h := hs.2.1 L
    exact ⟨cs, t, c, [], rfl, hk, by omega, Int.le_refl _, hb⟩
  | true =>
    obtain ⟨L', ⟨x, hx, h1, h2⟩, p, tp, cp, q, e, g⟩ := C167_shut_out BK cap win tmo δ η hη B cs t c hs ((hown (t, c) (by simp)).1 hk) hb
    have h3 : OfKey L x.2 := (hown x hx).2 h2
    have : L' = L := by
      generalize x.2 = d at *
      cases d with
      | should tag pc pu key bk msg now => exact Eq.trans (Eq.symm h1) h3
      | isBlocked bk => exact h1.elim
      | shouldDown pc => exact h1.elim
      | isBlockedDown => exact h1.elim
    subst this
    exact ⟨p, tp, cp, q ++ [(t, c)], by rw [e]; simp, g⟩

/-- The calls of the counterexample and of the examples: one key, capacity 1. -/
def callC (w e now : Int) : Call := .should [] ⟨1, w, e⟩ ⟨1, w, e⟩ ['k'] ['b'] ['m'] now

theorem settings_ex (w e : Int) (hw : 0 < w) (he : 0 < e) (ts : List (Int × Int)) (hsort : (ts.map (·.1)).Pairwise (· ≤ ·))
    (hnow : ∀ x ∈ ts, x.2 = x.1 / 1000) :
    Settings (fun k => k = blockRKey [] ['b']) (fun _ => 1) (fun _ => w) (fun _ => e) 0 0 (ts.map fun x => (x.1, callC w e x.2)) := by
  refine ⟨by simpa [Function.comp_def] using hsort, fun _ => ⟨by simp, hw, he⟩, ?_⟩
  intro L x hx
  obtain ⟨y, hy, rfl⟩ := List.mem_map.1 hx
  refine ⟨rfl, by decide, fun _ => ⟨rfl, rfl, ?_⟩⟩
  have := hnow y hy
  unfold Skewed
  simp only
  omega

/-- **C167 is violated** when the window is not shorter than the timeout: the calls that filled it still count when the block is over.  Capacity 1,
a window of ten seconds, a timeout of three seconds: calls after 1 and 2 seconds, and the first call after the block, after 6 seconds, is blocked again. -/
theorem C167_violated : ¬ C167Claim := by
  intro h
  have := h (fun k => k = blockRKey [] ['b']) (fun _ => 1) (fun _ => 10) (fun _ => 3) 0 (listKey [] ['k']) (blockRKey [] ['b'])
    [(1000, callC 10 3 1)] 2000 (callC 10 3 2) [] 6000 (callC 10 3 6)
    (settings_ex 10 3 (by omega) (by omega) [(1000, 1), (2000, 2), (6000, 6)] (by decide) (by decide))
    ⟨by
      intro x hx
      simp only [List.cons_append, List.nil_append, List.mem_cons, List.not_mem_nil, or_false] at hx
      rcases hx with rfl | rfl | rfl <;> exact ⟨fun _ => rfl, fun _ => rfl⟩, rfl, rfl, by decide +kernel, by simp, by omega⟩
  revert this
  decide +kernel

/-- Non-vacuity: with a window of one second and a timeout of three the call after the block passes. -/
example : Settings (fun k => k = blockRKey [] ['b']) (fun _ => 1) (fun _ => 1) (fun _ => 3) 0 0
      ([(1000, callC 1 3 1)] ++ (2000, callC 1 3 2) :: [(4000, callC 1 3 4)] ++ [(5001, callC 1 3 5)]) ∧
    First (listKey [] ['k']) (blockRKey [] ['b']) 3 [(1000, callC 1 3 1)] 2000 (callC 1 3 2) [(4000, callC 1 3 4)] 5001 (callC 1 3 5) ∧
    (resultOf ([(1000, callC 1 3 1)] ++ (2000, callC 1 3 2) :: [(4000, callC 1 3 4)]) 5001 (callC 1 3 5)).block = false := by
  refine ⟨settings_ex 1 3 (by omega) (by omega) [(1000, 1), (2000, 2), (4000, 4), (5001, 5)] (by decide) (by decide), ⟨?_, rfl, rfl, by decide +kernel,
    by simp, by omega⟩, by decide +kernel⟩
  intro x hx
  simp only [List.cons_append, List.nil_append, List.mem_cons, List.not_mem_nil, or_false] at hx
  rcases hx with rfl | rfl | rfl | rfl <;> exact ⟨fun _ => rfl, fun _ => rfl⟩

/-- Non-vacuity of `C167_second_call` and of the three timeouts in `C167_shut_out`: capacity 1, a window of a hundred seconds, a timeout of three
seconds.  Calls after 3 and 6.5 seconds begin blocks, the next may pass.  And: the call after 1 second passes, the one after 7 seconds begins a
block, just before the list expires, that still stops the one after 10 seconds, nine seconds after the call that passed. -/
example : Settings (fun k => k = blockRKey [] ['b']) (fun _ => 1) (fun _ => 100) (fun _ => 3) 0 0
      (([(1000, callC 100 3 1)] ++ (3000, callC 100 3 3) :: []) ++ (6500, callC 100 3 6) :: [] ++ [(9501, callC 100 3 9)]) ∧
    First (listKey [] ['k']) (blockRKey [] ['b']) 3 [(1000, callC 100 3 1)] 3000 (callC 100 3 3) [] 6500 (callC 100 3 6) ∧
    First (listKey [] ['k']) (blockRKey [] ['b']) 3 ([(1000, callC 100 3 1)] ++ (3000, callC 100 3 3) :: []) 6500 (callC 100 3 6) [] 9501
      (callC 100 3 9) ∧
    (resultOf [(1000, callC 100 3 1), (7000, callC 100 3 7)] 10000 (callC 100 3 10)).block = true ∧
    (resultOf [(1000, callC 100 3 1), (7000, callC 100 3 7)] 10001 (callC 100 3 10)).block = false := by
  have own : ∀ (x : Int × Call), (∃ t n, x = (t, callC 100 3 n)) → (OfKey (listKey [] ['k']) x.2 ↔ OnBlock (blockRKey [] ['b']) x.2) := by
    rintro x ⟨t, n, rfl⟩
    exact ⟨fun _ => rfl, fun _ => rfl⟩
  refine ⟨settings_ex 100 3 (by omega) (by omega) [(1000, 1), (3000, 3), (6500, 6), (9501, 9)] (by decide) (by decide),
    ⟨?_, rfl, rfl, by decide +kernel, by simp, by omega⟩, ⟨?_, rfl, rfl, by decide +kernel, by simp, by omega⟩, by decide +kernel, by decide +kernel⟩
  · intro x hx
    simp only [List.cons_append, List.nil_append, List.mem_cons, List.not_mem_nil, or_false] at hx
    rcases hx with rfl | rfl | rfl <;> exact own _ ⟨_, _, rfl⟩
  · intro x hx
    simp only [List.cons_append, List.nil_append, List.mem_cons, List.not_mem_nil, or_false] at hx
    rcases hx with rfl | rfl | rfl | rfl <;> exact own _ ⟨_, _, rfl⟩

end Gears.TtlRedis.Again
