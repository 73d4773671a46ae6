import Verif.TtlRedis.Retry

/-
C144: the redis limiter when replies are lost and commands are sent again.
-/

namespace Gears.TtlRedis

/-- **C144.**  Whatever is lost, delayed or sent again, the state of redis and its answers are those of the sequence of executed
commands, each of which is a command of the call it belongs to; a call is executed at most `R + 1` times. -/
theorem C144_history (R : Nat) (as : List RAct) (s : RState) (h : exec (rStep R) .init as = some s) :
    run Db.empty (s.log.map fun e => (e.ev.time, e.ev.call)) = (s.db, s.log.map (·.ev)) ∧
    (∀ e ∈ s.log, s.call e.id = some e.ev.call) ∧ ∀ i, s.log.countP (fun e => decide (e.id = i)) ≤ R + 1 := by
  have inv := rinv h
  refine ⟨inv.hist, fun e he => (inv.calls e he).1, fun i => ?_⟩
  refine Nat.le_trans (List.countP_mono_left fun e he hp => ?_) (count_id inv.dist i (R + 1))
  have h1 := (inv.calls e he).2
  have h2 := inv.few e.id
  simp only [Bool.and_eq_true, decide_eq_true_eq] at hp ⊢
  exact ⟨hp, by omega⟩

/-- **C144.**  A call returns the result of one execution of its command, or the zero result. -/
theorem C144_answers (R : Nat) (as : List RAct) (s : RState) (h : exec (rStep R) .init as = some s) (i : Nat) (o : Outcome)
    (ho : s.out i = some o) : o.result = Result.zero ∨ ∃ e ∈ s.log, e.id = i ∧ o.result = e.ev.result := by
  cases o with
  | got k r =>
    obtain ⟨e, he, h1, -, h3⟩ := (rinv h).got i k r ho
    exact .inr ⟨e, he, h1, h3.symm⟩
  | failed => exact .inl rfl
  | off => exact .inl rfl

/-- Redis' clock does not go back, the keys of lists and blocks differ, and the calls for list key `L` have the parameters
`c`, `w`, `e` and are executed when their client's clock reading is at most `η` ms off (a common offset `δ` aside). -/
def Band (BK : Str → Prop) (L : Str) (c w e δ η : Int) (s : RState) : Prop :=
  (s.log.map (·.ev.time)).Pairwise (· ≤ ·) ∧ ∀ x ∈ s.log, CallSkewed BK L c w e δ η x.ev.time x.ev.call

/-- A call for list key `L`, made when its client's clock shows `now`. -/
def For (L : Str) (now : Int) (c : Call) : Prop := ∃ tag pc pu key bk msg, c = .should tag pc pu key bk msg now ∧ listKey tag key = L

/-- The call ended with an answer of redis. -/
def answered : Option Outcome → Bool
  | some (.got _ _) => true
  | _ => false

/-- The answered calls among `ids`. -/
theorem answered_count {s : RState} {L : Str} {lo hi : Int} {R : Nat} (inv : RInv R s) (ids : List Nat) (hn : ids.Nodup)
    (hids : ∀ i ∈ ids, ∃ call now o, s.call i = some call ∧ For L now call ∧ lo ≤ now ∧ now ≤ hi ∧ s.out i = some o ∧ o.result.block = false ∧
      answered (s.out i) = true) :
    ids.length ≤ (s.log.map Ex.ev).countP (Event.passes L fun _ n => decide (lo ≤ n) && decide (n ≤ hi)) := by
  rw [List.countP_map]
  refine ids_count ids _ hn fun i hi => ?_
  obtain ⟨call, now, o, hc, ⟨tag, pc, pu, key, bk, msg, rfl, hL⟩, h1, h2, ho, hb, ha⟩ := hids i hi
  cases o with
  | got k r =>
    obtain ⟨e, he, rfl, -, hr⟩ := inv.got i k r ho
    refine ⟨e, he, rfl, ?_⟩
    have hcall : e.ev.call = .should tag pc pu key bk msg now := by
      have := (inv.calls e he).1
      rw [hc] at this
      exact (Option.some.inj this).symm
    have hb' : e.ev.result.block = false := by rw [hr]; exact hb
    simp [Function.comp, Event.passes, hcall, hL, hb', h1, h2]
  | failed => rw [ho] at ha; simp [answered] at ha
  | off => rw [ho] at ha; simp [answered] at ha

theorem length_split {α : Type} (q : α → Bool) (l : List α) : l.length = (l.filter q).length + l.countP (fun x => !q x) := by
  induction l with
  | nil => rfl
  | cons a l ih => cases h : q a <;> simp [h, ih] <;> omega

/-- **C144.**  Of the calls of a key that are let through, at most `c` fall in `v` seconds of client time, those without an answer
of redis aside: lost replies let no more calls through than failed calls. -/
theorem C144_admission (R : Nat) (as : List RAct) (s : RState) (h : exec (rStep R) .init as = some s) (BK : Str → Prop) (L : Str)
    (hL : ¬ BK L) (c : Nat) (w v e δ η : Int) (hc : 0 < c) (hw : 0 < w) (he : 0 < e) (hvw : v ≤ w)
    (hv : 1000 * v + 2 * η + 1000 ≤ 2000 * e) (hband : Band BK L c w e δ η s) (lo : Int) (ids : List Nat) (hn : ids.Nodup)
    (hids : ∀ i ∈ ids, ∃ call now o, s.call i = some call ∧ For L now call ∧ lo ≤ now ∧ now ≤ lo + v ∧ s.out i = some o ∧
      o.result.block = false) :
    ids.length ≤ c + ids.countP (fun i => !answered (s.out i)) := by
  have inv := rinv h
  have h1 := C138_bound_partial BK L hL c w v e δ η hc hw he hvw hv (s.log.map Ex.cmd) (by simpa [Ex.cmd, Function.comp_def] using hband.1)
    (by
      intro x hx
      obtain ⟨y, hy, rfl⟩ := List.mem_map.1 hx
      exact hband.2 y hy) lo
  rw [inv.hist, passedAt_countP L (fun _ n => decide (lo ≤ n) && decide (n ≤ lo + v))] at h1
  dsimp only at h1
  have h2 := answered_count (lo := lo) (hi := lo + v) (L := L) inv (ids.filter fun i => answered (s.out i)) (hn.filter _) (by
    intro i hi
    rw [List.mem_filter] at hi
    obtain ⟨call, now, o, a1, a2, a3, a4, a5, a6⟩ := hids i hi.1
    exact ⟨call, now, o, a1, a2, a3, a4, a5, a6, hi.2⟩)
  rw [length_split (fun i => answered (s.out i)) ids]
  omega

/-- The commands that passed before a block begins. -/
theorem before_trigger {R : Nat} {s : RState} (inv : RInv R s) {BK : Str → Prop} {L : Str} (hL : ¬ BK L) {c : Nat} {w e δ η : Int}
    (hc : 0 < c) (hw : 0 < w) (he : 0 < e) (hη : 0 ≤ η) (hband : Band BK L c w e δ η s) {pre post : List Ex} {x : Ex}
    (hlog : s.log = pre ++ x :: post) {now : Int} (hfor : For L now x.ev.call) (htr : x.ev.result.triggered = true) :
    c ≤ pre.countP (fun y => y.ev.passes L fun t _ => decide (x.ev.time - 1000 * w - 2 * η - 999 ≤ t) && decide (t ≤ x.ev.time)) := by
  obtain ⟨tag, pc, pu, key, bk, msg, hcall, hk⟩ := hfor
  have hist := inv.hist
  rw [hlog, List.map_append, List.map_cons, run_split] at hist
  have hpre : (run Db.empty (pre.map Ex.cmd)).2 = pre.map Ex.ev ∧
      x.ev.result = (x.ev.call.exec (run Db.empty (pre.map Ex.cmd)).1 x.ev.time).2 := by
    have h2 := congrArg Prod.snd hist
    simp only [List.map_append, List.map_cons, run] at h2
    have hlen : ∀ (cs : List (Int × Call)) (db : Db), (run db cs).2.length = cs.length := by
      intro cs
      induction cs with
      | nil => intro db; rfl
      | cons y cs ih => intro db; simp [run, ih]
    obtain ⟨h3, h4⟩ := List.append_inj h2 (by rw [hlen]; simp)
    refine ⟨h3, ?_⟩
    simp only [List.cons.injEq] at h4
    rw [← h4.1]
  obtain ⟨hb1, hb2⟩ := hband
  rw [hlog] at hb1 hb2
  have := C138_trigger BK L hL c w e δ η hc hw he hη (pre.map Ex.cmd) x.ev.time tag pc pu key bk msg now
    (by
      rw [List.map_append, List.map_cons] at hb1
      rw [List.map_append]
      have h5 : List.Pairwise (· ≤ ·) (pre.map (·.ev.time) ++ [x.ev.time]) := by
        refine List.Pairwise.sublist ?_ hb1
        exact (List.Sublist.refl _).append (List.Sublist.cons_cons _ (List.nil_sublist _))
      simpa [Ex.cmd, Function.comp_def] using h5)
    (by
      intro y hy
      rw [List.mem_append] at hy
      rcases hy with hy | hy
      · obtain ⟨z, hz, rfl⟩ := List.mem_map.1 hy
        exact hb2 z (by simp [hz])
      · rw [List.mem_singleton] at hy
        subst hy
        rw [← hcall]
        exact hb2 x (by simp))
    hk (by rw [← hcall, ← hpre.2]; exact htr)
  rw [hpre.1, passedAt_countP L (fun t _ => decide (x.ev.time - 1000 * w - 2 * η - 999 ≤ t) && decide (t ≤ x.ev.time)), List.countP_map] at this
  exact this

/-- **C144, partial.**  A block begins only after `c / (R + 1)` different calls of the key passed within the window (extended by the
difference of the clocks and a second).  Missing: `c` calls, since a call that is sent again is counted again
(`C144_self_violated`). -/
theorem C144_trigger_partial (R : Nat) (as : List RAct) (s : RState) (h : exec (rStep R) .init as = some s) (BK : Str → Prop) (L : Str)
    (hL : ¬ BK L) (c : Nat) (w e δ η : Int) (hc : 0 < c) (hw : 0 < w) (he : 0 < e) (hη : 0 ≤ η) (hband : Band BK L c w e δ η s)
    (pre post : List Ex) (x : Ex) (hlog : s.log = pre ++ x :: post) (now : Int) (hfor : For L now x.ev.call)
    (htr : x.ev.result.triggered = true) (ids : List Nat)
    (hids : ∀ y ∈ pre, ∀ now, For L now y.ev.call → y.ev.result.block = false → x.ev.time - 1000 * w - 2 * η - 999 ≤ y.ev.time →
      y.ev.time ≤ x.ev.time → y.id ∈ ids) :
    c ≤ (R + 1) * ids.length := by
  have inv := rinv h
  refine Nat.le_trans (before_trigger inv hL hc hw he hη hband hlog hfor htr) (count_ids ?_ ?_ ids _ fun y hy hp => ?_)
  · have := inv.dist
    rw [hlog, List.pairwise_append] at this
    exact this.1
  · intro y hy
    have h1 := (inv.calls y (by simp [hlog, hy])).2
    have h2 := inv.few y.id
    omega
  · unfold Event.passes at hp
    split at hp
    · rename_i tag pc pu key bk msg n hcall
      simp only [Bool.and_eq_true, decide_eq_true_eq, Bool.not_eq_true'] at hp
      exact hids y hy n ⟨tag, pc, pu, key, bk, msg, hcall, hp.1.1⟩ hp.1.2 hp.2.1 hp.2.2
    · simp at hp

/-- C144 (full statement): a call that is told it triggered a block comes after `c` other calls of the key that were not blocked. -/
def C144Claim (R : Nat) : Prop :=
  ∀ (BK : Str → Prop) (L : Str) (c : Nat) (w e δ η : Int) (as : List RAct) (s : RState) (i k : Nat) (r : Result) (call : Call) (now : Int),
    ¬ BK L → 0 < c → 0 < w → 0 < e → 0 ≤ η → exec (rStep R) .init as = some s → Band BK L c w e δ η s →
    s.call i = some call → For L now call → s.out i = some (.got k r) → r.triggered = true →
    ∀ ids : List Nat, (∀ j cj n, j ≠ i → s.call j = some cj → For L n cj → (∀ o, s.out j = some o → o.result.block = false) → j ∈ ids) →
    c ≤ ids.length

/-- **C144, partial.**  Without sending again (`MaxRetries` 0) a block begins only after `c` other calls
were not blocked, whether or not their replies arrived. -/
theorem C144_once_partial : C144Claim 0 := by
  intro BK L c w e δ η as s i k r call now hL hc hw he hη hex hband hcall hfor hout htr ids hids
  have inv := rinv hex
  obtain ⟨x, hx, rfl, hk, rfl⟩ := inv.got i k r hout
  obtain ⟨pre, post, hlog⟩ := List.append_of_mem hx
  have hxc : x.ev.call = call := by
    have := (inv.calls x hx).1
    rw [hcall] at this
    exact (Option.some.inj this).symm
  have hk0 : ∀ y ∈ s.log, y.k = 0 := by
    intro y hy
    have h1 := (inv.calls y hy).2
    have h2 := inv.few y.id
    omega
  have := C144_trigger_partial 0 as s hex BK L hL c w e δ η hc hw he hη hband pre post x hlog now (hxc ▸ hfor) htr ids (by
    intro y hy n hyf hyb _ _
    have hyl : y ∈ s.log := by simp [hlog, hy]
    have hd := inv.dist
    rw [hlog, List.pairwise_append] at hd
    refine hids y.id y.ev.call n ?_ (inv.calls y hyl).1 hyf ?_
    · intro hid
      exact hd.2.2 y hy x (by simp) ⟨hid, by rw [hk0 y hyl, hk0 x hx]⟩
    · intro o ho
      cases o with
      | got k' r' =>
        obtain ⟨z, hz, hzi, -, rfl⟩ := inv.got y.id k' r' ho
        rw [same_ex inv.dist hz hyl hzi (by rw [hk0 z hz, hk0 y hyl])]
        exact hyb
      | failed => rfl
      | off => rfl)
  omega

/-! ### A call that blocks itself -/

theorem rStep_mono {R R' : Nat} (h : R ≤ R') {s s' : RState} {a : RAct} (hs : rStep R s a = some s') : rStep R' s a = some s' := by
  cases a with
  | send id =>
    simp only [rStep, Option.ite_none_right_eq_some] at hs ⊢
    exact ⟨⟨hs.1.1, hs.1.2.1, by omega⟩, hs.2⟩
  | start id c => exact hs
  | run id k t => exact hs
  | deliver id r => exact hs
  | fail id => exact hs

theorem exec_mono {R R' : Nat} (h : R ≤ R') : ∀ (as : List RAct) (s s' : RState), exec (rStep R) s as = some s' → exec (rStep R') s as = some s'
  | [], s, s', hs => hs
  | a :: as, s, s', hs => by
    simp only [exec] at hs ⊢
    cases h1 : rStep R s a with
    | none => simp [h1] at hs
    | some s1 =>
      rw [h1] at hs
      rw [rStep_mono h h1]
      exact exec_mono h as s1 s' hs

/-- Only the started calls exist. -/
theorem started {R : Nat} (P : Nat → Prop) (as : List RAct) (hP : ∀ j c, .start j c ∈ as → P j) {s s' : RState}
    (hs : ∀ j, ¬ P j → s.call j = none) (h : exec (rStep R) s as = some s') : ∀ j, ¬ P j → s'.call j = none := by
  refine exec_inv_on (I := fun s => ∀ j, ¬ P j → s.call j = none) (P := fun a => ∀ j c, a = .start j c → P j) ?_ as s s' ?_ hs h
  · intro s a s' ha hI hst
    cases a with
    | start id c =>
      simp only [rStep, Option.ite_none_right_eq_some, Option.some.injEq] at hst
      obtain ⟨-, rfl⟩ := hst
      intro j hj
      have : j ≠ id := by rintro rfl; exact hj (ha j c rfl)
      simp [upd, this, hI j hj]
    | send id =>
      simp only [rStep, Option.ite_none_right_eq_some, Option.some.injEq] at hst
      obtain ⟨-, rfl⟩ := hst
      exact hI
    | run id k t =>
      simp only [rStep] at hst
      split at hst
      · simp at hst
      · simp only [Option.ite_none_right_eq_some, Option.some.injEq] at hst
        obtain ⟨-, rfl⟩ := hst
        exact hI
    | deliver id r =>
      simp only [rStep, Option.ite_none_right_eq_some, Option.some.injEq] at hst
      obtain ⟨-, rfl⟩ := hst
      exact hI
    | fail id =>
      simp only [rStep, Option.ite_none_right_eq_some, Option.some.injEq] at hst
      obtain ⟨-, rfl⟩ := hst
      exact hI
  · intro a ha j c h
    exact hP j c (h ▸ ha)

def one : Call := .should [] ⟨1, 10, 20⟩ ⟨1, 10, 20⟩ ['k'] ['b'] ['m'] 5

/-- The only call; the reply to its first transmission is lost. -/
def selfBlock : List RAct :=
  [.start 0 one, .send 0, .run 0 0 5000, .send 0, .run 0 1 5100, .deliver 0 ⟨true, true, 20, ['m']⟩]

theorem selfBlock_end : (exec (rStep 1) .init selfBlock).map (fun s => (s.out 0, s.call 0, s.log)) =
    some (some (.got 1 ⟨true, true, 20, ['m']⟩), some one,
      [⟨0, 0, ⟨5000, one, .zero⟩⟩, ⟨0, 1, ⟨5100, one, ⟨true, true, 20, ['m']⟩⟩⟩]) := by decide +kernel

/-- **C144 is violated** with any number of retries: the first call ever, on a limiter of capacity 1, whose first transmission is
executed but not answered, is executed again, finds itself in the list, triggers a block and is blocked. -/
theorem C144_self_violated (R : Nat) (hR : 1 ≤ R) : ¬ C144Claim R := by
  intro hcl
  have hend := selfBlock_end
  rw [Option.map_eq_some_iff] at hend
  obtain ⟨s, hs, heq⟩ := hend
  simp only [Prod.mk.injEq] at heq
  obtain ⟨h1, h2, h3⟩ := heq
  have hs' := exec_mono hR _ _ _ hs
  have hst := started (· = 0) selfBlock (by intro j c h; simp [selfBlock] at h; exact h.1) (by intros; rfl) hs
  have := hcl (fun k => k = blockRKey [] ['b']) (listKey [] ['k']) 1 10 20 0 1000 selfBlock s 0 1 ⟨true, true, 20, ['m']⟩ one 5
    (by decide) (by decide) (by decide) (by decide) (by decide) hs'
    ⟨by rw [h3]; decide, by
      intro x hx
      rw [h3] at hx
      simp only [List.mem_cons, List.not_mem_nil, or_false] at hx
      rcases hx with rfl | rfl <;> exact ⟨rfl, by decide, fun _ => ⟨rfl, rfl, by decide⟩⟩⟩
    h2 ⟨[], _, _, _, _, _, rfl, rfl⟩ h1 rfl []
    (by
      intro j cj n hj hc
      rw [hst j hj] at hc
      simp at hc)
  simp at this

/-! ### A block nobody is told about -/

/-- The redis key of the block a call asks for. -/
def Call.blockOf : Call → Option Str
  | .should tag _ _ _ bk _ _ => some (blockRKey tag bk)
  | .isBlocked bk => some (bk ++ sfx)
  | _ => none

/-- A blocked result comes from this call's own trigger or from an earlier one on the same block key. -/
theorem block_cause {h : List Event} {db : Db} (hj : Justified h db) {t : Int} {c : Call} {B : Str} (hB : c.blockOf = some B)
    (hb : (c.exec db t).2.block = true) :
    (c.exec db t).2.triggered = true ∨ ∃ ev ∈ h, ∃ tag pc pu key bk now,
      ev.call = .should tag pc pu key bk (c.exec db t).2.msg now ∧ blockRKey tag bk = B ∧ ev.result.triggered = true ∧
      t ≤ ev.time + pu.timeout * 1000 := by
  have key : ∀ m, getStr db t B = .ok m → existsK db t B = true → ∃ ev ∈ h, ∃ tag pc pu key bk now,
      ev.call = .should tag pc pu key bk m now ∧ blockRKey tag bk = B ∧ ev.result.triggered = true ∧ t ≤ ev.time + pu.timeout * 1000 := by
    intro m hg hx
    obtain ⟨E, hl⟩ := getStr_ok_live hx hg
    obtain ⟨hd, hexp⟩ := live_some hl
    obtain ⟨ev, hev, tag, pc, pu, key, bk, now, h1, h2, h3, rfl⟩ := hj _ _ _ hd
    refine ⟨ev, hev, tag, pc, pu, key, bk, now, h1, h2, h3, ?_⟩
    simp [Entry.expired] at hexp
    omega
  cases c with
  | should tag pc pu k bk msg now =>
    simp only [Call.blockOf, Option.some.injEq] at hB
    subst hB
    simp only [Call.exec, shouldBlock2] at hb ⊢
    split at hb
    · simp [Result.zero] at hb
    · rename_i hn
      rw [if_neg hn]
      cases hr : (script1 db t (listKey tag k) (blockRKey tag bk) pu.capacity pu.window pu.timeout now msg).2 with
      | error e => simp [hr, Result.ofEval, Result.zero] at hb
      | ok r =>
        simp only [Result.ofEval, hr] at hb ⊢
        rcases script1_reply _ _ _ _ _ _ _ _ _ _ hr with rfl | ⟨rfl, -⟩ | ⟨m, h1, h2, rfl⟩
        · simp [Result.ofReply, Reply.pass] at hb
        · left; rfl
        · right; exact key m h1 h2
  | isBlocked bk =>
    simp only [Call.blockOf, Option.some.injEq] at hB
    subst hB
    simp only [Call.exec, isBlocked, script2] at hb ⊢
    split at hb
    · rename_i hx
      rw [if_pos hx]
      cases hg : getStr db t (bk ++ sfx) with
      | error e => simp [hg, Result.ofEval, Result.zero] at hb
      | ok m =>
        simp only [Result.ofEval, Result.ofReply]
        right; exact key m hg hx
    · simp [Result.ofEval, Result.ofReply, Reply.pass] at hb
  | shouldDown pc => simp [Call.blockOf] at hB
  | isBlockedDown => simp [Call.blockOf] at hB

/-- C144 (full statement, reports): if a call is blocked, some call was told that it triggered a block. -/
def C144Reported (R : Nat) : Prop :=
  ∀ (as : List RAct) (s : RState) (i : Nat) (o : Outcome), exec (rStep R) .init as = some s → s.out i = some o → o.result.block = true →
    ∃ j o', s.out j = some o' ∧ o'.result.triggered = true

/-- **C144, partial.**  If a call is blocked, an executed command on the same block key triggered the block, not longer ago than its
timeout; its call was told so unless the answer to that command was lost. -/
theorem C144_reported_partial (R : Nat) (as : List RAct) (s : RState) (i : Nat) (o : Outcome) (call : Call) (B : Str)
    (h : exec (rStep R) .init as = some s) (ho : s.out i = some o) (hb : o.result.block = true) (hcall : s.call i = some call)
    (hB : call.blockOf = some B) :
    ∃ x ∈ s.log, ∃ tag pc pu key bk now, x.ev.call = .should tag pc pu key bk o.result.msg now ∧ blockRKey tag bk = B ∧
      x.ev.result.triggered = true ∧ (∃ y ∈ s.log, y.id = i ∧ y.ev.result = o.result ∧ y.ev.time ≤ x.ev.time + pu.timeout * 1000) ∧
      ((∃ o', s.out x.id = some o' ∧ o'.result.triggered = true) ∨ ∀ r, s.out x.id ≠ some (.got x.k r)) := by
  have inv := rinv h
  cases o with
  | failed => simp [Outcome.result, Result.zero] at hb
  | off => simp [Outcome.result, Result.zero] at hb
  | got k r =>
    simp only [Outcome.result] at hb
    obtain ⟨y, hy, rfl, rfl, rfl⟩ := inv.got i k r ho
    have told : ∀ x ∈ s.log, x.ev.result.triggered = true →
        ((∃ o', s.out x.id = some o' ∧ o'.result.triggered = true) ∨ ∀ r, s.out x.id ≠ some (.got x.k r)) := by
      intro x hx htr
      by_cases hg : ∃ r, s.out x.id = some (.got x.k r)
      · obtain ⟨r, hr⟩ := hg
        obtain ⟨z, hz, hzi, hzk, rfl⟩ := inv.got x.id x.k r hr
        cases same_ex inv.dist hz hx hzi hzk
        exact .inl ⟨_, hr, htr⟩
      · exact .inr fun r hr => hg ⟨r, hr⟩
    have hyc : y.ev.call = call := by
      have := (inv.calls y hy).1
      rw [hcall] at this
      exact (Option.some.inj this).symm
    obtain ⟨pre, post, hlog⟩ := List.append_of_mem hy
    have hist := inv.hist
    rw [hlog, List.map_append, List.map_cons, run_split] at hist
    have hpre : (run Db.empty (pre.map Ex.cmd)).2 = pre.map Ex.ev ∧
        y.ev.result = (y.ev.call.exec (run Db.empty (pre.map Ex.cmd)).1 y.ev.time).2 := by
      have h2 := congrArg Prod.snd hist
      simp only [List.map_append, List.map_cons, run] at h2
      have hlen : ∀ (cs : List (Int × Call)) (db : Db), (run db cs).2.length = cs.length := by
        intro cs
        induction cs with
        | nil => intro db; rfl
        | cons y cs ih => intro db; simp [run, ih]
      obtain ⟨h3, h4⟩ := List.append_inj h2 (by rw [hlen]; simp)
      refine ⟨h3, ?_⟩
      simp only [List.cons.injEq] at h4
      rw [← h4.1]
    have hj := run_justified (pre.map Ex.cmd) [] Db.empty (by intro k m E h; simp [Db.empty] at h)
    rw [List.nil_append, hpre.1] at hj
    have hb' := hb
    rw [hpre.2] at hb'
    rcases block_cause hj (hyc ▸ hB) hb' with htr | ⟨ev, hev, tag, pc, pu, key, bk, now, h1, h2, h3, h4⟩
    · rw [← hpre.2] at htr
      have hc2 := htr
      rw [hpre.2] at hc2
      -- the call itself triggered
      cases hcc : y.ev.call with
      | should tag pc pu key bk msg now =>
        have hm : (y.ev.result.msg = msg ∧ 0 < pu.timeout) ∧ blockRKey tag bk = B := by
          rw [← hyc, hcc] at hB
          simp only [Call.blockOf, Option.some.injEq] at hB
          refine ⟨?_, hB⟩
          rw [hpre.2, hcc]
          rw [hcc] at hc2
          simp only [Call.exec, shouldBlock2] at hc2 ⊢
          split at hc2
          · simp [Result.zero] at hc2
          · rename_i hn
            rw [if_neg hn]
            cases hr : (script1 (run Db.empty (pre.map Ex.cmd)).1 y.ev.time (listKey tag key) (blockRKey tag bk) pu.capacity pu.window pu.timeout now msg).2 with
            | error e => simp [hr, Result.ofEval, Result.zero] at hc2
            | ok r =>
              simp only [hr, Result.ofEval] at hc2 ⊢
              rcases script1_reply _ _ _ _ _ _ _ _ _ _ hr with rfl | ⟨rfl, hexp⟩ | ⟨m, -, -, rfl⟩
              · simp [Result.ofReply, Reply.pass] at hc2
              · exact ⟨rfl, hexp⟩
              · simp [Result.ofReply] at hc2
        exact ⟨y, hy, tag, pc, pu, key, bk, now, by rw [hcc]; simp [Outcome.result, hm.1.1], hm.2, htr,
          ⟨y, hy, rfl, rfl, by have := hm.1.2; omega⟩, told y hy htr⟩
      | isBlocked bk =>
        rw [hcc] at hc2
        simp only [Call.exec, isBlocked, script2] at hc2
        split at hc2
        · split at hc2 <;> simp [Result.ofEval, Result.zero, Result.ofReply] at hc2
        · simp [Result.ofEval, Result.ofReply, Reply.pass] at hc2
      | shouldDown pc => rw [← hyc, hcc] at hB; simp [Call.blockOf] at hB
      | isBlockedDown => rw [← hyc, hcc] at hB; simp [Call.blockOf] at hB
    · obtain ⟨x, hx, rfl⟩ := List.mem_map.1 hev
      rw [← hpre.2] at h1
      exact ⟨x, by simp [hlog, hx], tag, pc, pu, key, bk, now, h1, h2, h3, ⟨y, hy, rfl, rfl, h4⟩, told x (by simp [hlog, hx]) h3⟩

/-- Capacity 1: the first call passes, the reply to the second, which begins the block, is lost, the third is blocked. -/
def silentBlock : List RAct :=
  [.start 0 one, .send 0, .run 0 0 5000, .deliver 0 .zero, .start 1 one, .send 1, .run 1 0 5100, .fail 1,
   .start 2 one, .send 2, .run 2 0 5200, .deliver 2 ⟨true, false, 20, ['m']⟩]

theorem silentBlock_end : (exec (rStep 0) .init silentBlock).map (fun s => (s.out 0, s.out 1, s.out 2)) =
    some (some (.got 0 .zero), some .failed, some (.got 0 ⟨true, false, 20, ['m']⟩)) := by decide +kernel

/-- **C144 is violated** for reports, with or without retries: the second call is let through with an error in the log, the third
is blocked, and no call was told that it triggered the block. -/
theorem C144_silent_violated (R : Nat) : ¬ C144Reported R := by
  intro hcl
  have hend := silentBlock_end
  rw [Option.map_eq_some_iff] at hend
  obtain ⟨s, hs, heq⟩ := hend
  simp only [Prod.mk.injEq] at heq
  obtain ⟨h0, h1, h2⟩ := heq
  have hs' := exec_mono (Nat.zero_le R) _ _ _ hs
  have hst := started (· < 3) silentBlock (by
    intro j c h
    simp [silentBlock] at h
    rcases h with h | h | h <;> (rw [h.1]; decide)) (by intros; rfl) hs
  obtain ⟨j, o, ho, htr⟩ := hcl silentBlock s 2 _ hs' h2 rfl
  by_cases hj : j < 3
  · have : j = 0 ∨ j = 1 ∨ j = 2 := by omega
    rcases this with rfl | rfl | rfl
    · rw [h0] at ho; cases ho; simp [Outcome.result, Result.zero] at htr
    · rw [h1] at ho; cases ho; simp [Outcome.result, Result.zero] at htr
    · rw [h2] at ho; cases ho; simp [Outcome.result] at htr
  · have := ((rinv hs).none_ j (hst j hj)).2
    rw [this] at ho
    simp at ho

/-- Non-vacuity of the admission bound: capacity 1, two calls let through in one window, one of them without an answer. -/
example : (exec (rStep 0) .init silentBlock).map (fun s =>
    ([0, 1].countP (fun i => !answered (s.out i)), (s.out 1).map Outcome.result, s.log.length)) = some (1, some Result.zero, 3) := by decide +kernel

end Gears.TtlRedis
