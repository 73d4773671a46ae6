import Verif.TtlRedis.Props

/-
Clients of one redis whose clocks differ (/repo/ratelimiter/ttl_ratelimiter_redis.go:209: the time in the list is the
client's).  Each call carries the clock of its client, which may differ from the clock of redis by up to `η` ms besides a
common offset `δ`, in any direction and differently for every call.
-/

namespace Gears.TtlRedis

open SlidingWindow (Spaced)

/-- Redis time and client time of the calls on list key `L` that were not blocked. -/
def passedAt (L : Str) : List Event → List (Int × Int)
  | [] => []
  | ev :: h =>
    match ev.call with
    | .should tag _ _ key _ _ now =>
      if listKey tag key = L ∧ ev.result.block = false then (ev.time, now) :: passedAt L h else passedAt L h
    | _ => passedAt L h

/-- The client clock shows `now` seconds when redis' clock shows `t` ms. -/
def Skewed (δ η t now : Int) : Prop := (t + δ - η) / 1000 ≤ now ∧ now ≤ (t + δ + η) / 1000

instance (δ η t now : Int) : Decidable (Skewed δ η t now) := by unfold Skewed; infer_instance

/-- Hypotheses on one call, at redis time `t`: the two kinds of redis keys do not collide, and if it is for list key `L` its
parameters are `(c, w, e)` and the clock of its client is off by at most `η` ms. -/
def CallSkewed (BK : Str → Prop) (L : Str) (c w e δ η : Int) (t : Int) : Call → Prop
  | .should tag pc pu key bk _ now =>
    BK (blockRKey tag bk) ∧ ¬ BK (listKey tag key) ∧
    (listKey tag key = L → pc = ⟨c, w, e⟩ ∧ pu = ⟨c, w, e⟩ ∧ Skewed δ η t now)
  | _ => True

/-- The invariant of one list key: `A` are the calls that passed so far. -/
def SkewInv (c : Nat) (v e δ η : Int) (L : Str) (A : List (Int × Int)) (tl : Int) (db : Db) : Prop :=
  Spaced c v (A.map (·.2)) ∧ A.Pairwise (fun x y => x.1 ≤ y.1) ∧ (∀ x ∈ A, Skewed δ η x.1 x.2 ∧ x.1 ≤ tl) ∧
  ((db L = none ∧ A = []) ∨
   ∃ P R T, db L = some ⟨.list (R.map (·.2)), some (T + e * 2 * 1000)⟩ ∧ A = P ++ R ∧ R ≠ [] ∧ R.length ≤ c ∧
     (R.length < c → ∀ p ∈ P, ∃ t0, p.1 + e * 2 * 1000 < t0 ∧ t0 ≤ T) ∧ (∀ a ∈ A, a.1 ≤ T) ∧ T ≤ tl)

theorem far_apart {v e δ η : Int} (hv : 1000 * v + 2 * η + 1000 ≤ 2000 * e) {t1 n1 t2 n2 : Int} (h1 : Skewed δ η t1 n1)
    (h2 : Skewed δ η t2 n2) (h : t1 + e * 2 * 1000 < t2) : n2 - n1 > v := by
  unfold Skewed at h1 h2; omega

/-- One ShouldBlock2 for list key `L`. -/
theorem skew_step {BK : Str → Prop} {c : Nat} (hc : 0 < c) {w v e δ η : Int} (hw : 0 < w) (he : 0 < e) (hvw : v ≤ w)
    (hv : 1000 * v + 2 * η + 1000 ≤ 2000 * e) {L keyb : Str} (hL : ¬ BK L) (hb : BK keyb) {A : List (Int × Int)} {tl : Int} {db : Db}
    (ht : Typed BK db) (inv : SkewInv c v e δ η L A tl db) (t now : Int) (htl : tl ≤ t) (hnow : Skewed δ η t now) (msg : Str) :
    ∃ r, (script1 db t L keyb c w e now msg).2 = .ok r ∧
      SkewInv c v e δ η L (A ++ (if r.block = 0 then [(t, now)] else [])) t (script1 db t L keyb c w e now msg).1 ∧
      (r.triggered = 1 → ∃ P R, A = P ++ R ∧ R.length = c ∧ ∀ x ∈ R, t - 1000 * w - 2 * η - 999 ≤ x.1) := by
  obtain ⟨hsp, hsort, hall, hdb⟩ := inv
  have hne : L ≠ keyb := by rintro rfl; exact hL hb
  have hpar : ¬ ((c : Int) ≤ 0 ∨ w ≤ 0 ∨ e ≤ 0) := by omega
  have hall' : ∀ x ∈ A, Skewed δ η x.1 x.2 ∧ x.1 ≤ t := fun x hx => ⟨(hall x hx).1, by have := (hall x hx).2; omega⟩
  -- what pushing the call keeps
  have hsort' : (A ++ [(t, now)]).Pairwise (fun x y => x.1 ≤ y.1) := by
    refine List.pairwise_append.2 ⟨hsort, by simp, fun x hx y hy => ?_⟩
    simp only [List.mem_singleton] at hy
    subst hy
    exact (hall' x hx).2
  have hall2 : ∀ x ∈ A ++ [(t, now)], Skewed δ η x.1 x.2 ∧ x.1 ≤ t := by
    intro x hx
    rcases List.mem_append.1 hx with h | h
    · exact hall' x h
    · simp only [List.mem_singleton] at h; subst h; exact ⟨hnow, Int.le_refl _⟩
  have hle2 : ∀ x ∈ A ++ [(t, now)], x.1 ≤ t := fun x hx => (hall2 x hx).2
  unfold script1
  rw [if_neg hpar]
  have inv_later : ∀ db', db' L = db L → SkewInv c v e δ η L A t db' := by
    intro db' h'
    refine ⟨hsp, hsort, hall', ?_⟩
    rw [h']
    rcases hdb with h | ⟨P, R, T, h1, h2, h3, h4, h5, h6, h7⟩
    · exact Or.inl h
    · exact Or.inr ⟨P, R, T, h1, h2, h3, h4, h5, h6, by omega⟩
  by_cases hx : existsK db t keyb = true
  · rw [if_pos hx]
    cases hg : getStr db t keyb with
    | error er =>
      exfalso
      unfold getStr at hg
      split at hg
      · simp at hg
      · rename_i l E hl
        exact ht.hlist _ _ _ (live_some hl).1 hb
      · simp at hg
    | ok m =>
      refine ⟨_, rfl, ?_, by simp⟩
      simpa using inv_later db rfl
  · rw [if_neg hx]
    -- the visible list
    have hvis : (live db t L = none ∧ ∀ a ∈ A, a.1 + e * 2 * 1000 < t) ∨
        ∃ P R T, live db t L = some ⟨.list (R.map (·.2)), some (T + e * 2 * 1000)⟩ ∧ A = P ++ R ∧ R ≠ [] ∧ R.length ≤ c ∧
          (R.length < c → ∀ p ∈ P, ∃ t0, p.1 + e * 2 * 1000 < t0 ∧ t0 ≤ t) := by
      rcases hdb with ⟨h, hA⟩ | ⟨P, R, T, h1, h2, h3, h4, h5, h6, h7⟩
      · left; exact ⟨by simp [live, h], by simp [hA]⟩
      · by_cases hexp : T + e * 2 * 1000 < t
        · left
          refine ⟨by simp [live, h1, Entry.expired, hexp], fun a ha => ?_⟩
          have := h6 a ha
          omega
        · right
          refine ⟨P, R, T, by simp [live, h1, Entry.expired, hexp], h2, h3, h4, fun hl p hp => ?_⟩
          obtain ⟨t0, h8, h9⟩ := h5 hl p hp
          exact ⟨t0, h8, by omega⟩
    rcases hvis with ⟨hl, hA⟩ | ⟨P, R, T, hl, hAeq, hRne, hRlen, hold⟩
    · have hlen : llen db t L = .ok 0 := by simp [llen, hl]
      have hlt : (0 : Int) < c := by omega
      rw [hlen]
      simp only
      rw [if_pos hlt]
      refine ⟨_, rfl, ?_, by simp [Reply.pass]⟩
      simp only [Reply.pass, if_true]
      have hst := push_store db t L now (e * 2) [] (by omega) (Or.inl ⟨hl, rfl⟩)
      refine ⟨?_, hsort', hall2, Or.inr ⟨A, [(t, now)], t, by simpa using hst, rfl, by simp, by simp; omega, ?_, hle2, Int.le_refl _⟩⟩
      · rw [List.map_append]
        apply hsp.snoc hc
        intro a _ ha
        obtain ⟨x, hx, rfl⟩ := List.mem_map.1 (List.mem_of_getElem? ha)
        exact far_apart hv (hall x hx).1 hnow (hA x hx)
      · intro _ p hp
        exact ⟨t, hA p hp, Int.le_refl _⟩
    · have hlen : llen db t L = .ok R.length := by simp [llen, hl]
      rw [hlen]
      simp only
      by_cases hlt : (R.length : Int) < c
      · rw [if_pos hlt]
        refine ⟨_, rfl, ?_, by simp [Reply.pass]⟩
        simp only [Reply.pass, if_true]
        have hst := push_store db t L now (e * 2) (R.map (·.2)) (by omega) (Or.inr ⟨_, hl⟩)
        refine ⟨?_, hsort', hall2, Or.inr ⟨P, R ++ [(t, now)], t, by simpa using hst, by rw [hAeq]; simp, by simp, by simp; omega, ?_, hle2,
          Int.le_refl _⟩⟩
        · rw [List.map_append]
          apply hsp.snoc hc
          intro a hle ha
          rw [List.length_map] at hle ha
          have hlenA : A.length = P.length + R.length := by rw [hAeq, List.length_append]
          rw [hAeq, List.map_append, List.getElem?_append_left (by rw [List.length_map, List.length_append]; omega)] at ha
          obtain ⟨x, hx, rfl⟩ := List.mem_map.1 (List.mem_of_getElem? ha)
          obtain ⟨t0, h1, h2⟩ := hold (by omega) x hx
          exact far_apart hv (hall x (by rw [hAeq]; simp [hx])).1 hnow (by omega)
        · intro _ p hp
          exact hold (by omega) p hp
      · rw [if_neg hlt]
        have hz : ((R.length : Int) - c).toNat = 0 := by omega
        have hRc : R.length = c := by omega
        rw [hz]
        simp only [lpopN]
        cases R with
        | nil => exact absurd rfl hRne
        | cons a R =>
          have hlr : lrange00 db t L = some a.2 := by simp [lrange00, hl]
          rw [hlr]
          simp only
          by_cases hwin : now - a.2 > w
          · rw [if_pos hwin]
            refine ⟨_, rfl, ?_, by simp [Reply.pass]⟩
            simp only [Reply.pass, if_true]
            have hst := shift_store db t L now (e * 2) a.2 (R.map Prod.snd) _ (by simpa using hl)
            refine ⟨?_, hsort', hall2, Or.inr ⟨P ++ [a], R ++ [(t, now)], t, by simpa using hst, by rw [hAeq]; simp, by simp,
              by simp at hRc ⊢; omega, ?_, hle2, Int.le_refl _⟩⟩
            · rw [List.map_append]
              apply hsp.snoc hc
              intro x hle hx'
              rw [List.length_map] at hx'
              have hpos : A.length - c = P.length := by rw [hAeq, List.length_append]; omega
              rw [hpos, hAeq] at hx'
              simp at hx'; show now - x > v; omega
            · intro hcon
              simp at hcon hRc; omega
          · rw [if_neg hwin]
            refine ⟨_, rfl, ?_, fun _ => ⟨P, a :: R, hAeq, hRc, ?_⟩⟩
            · simp only [Int.one_ne_zero, if_false, List.append_nil]
              exact inv_later _ (setExNx_ne _ _ _ _ hne)
            · have ha := (hall a (by rw [hAeq]; simp)).1
              have h1 : t - 1000 * w - 2 * η - 999 ≤ a.1 := by unfold Skewed at ha hnow; omega
              intro x hx
              rcases List.mem_cons.1 hx with rfl | hx
              · exact h1
              · rw [hAeq] at hsort
                have := (List.pairwise_cons.1 (List.pairwise_append.1 hsort).2.1).1 x hx
                omega

/-- The calls of other keys, and queries, leave the invariant of `L`. -/
theorem skew_other {BK : Str → Prop} {c : Nat} {w v e δ η : Int} {L : Str} (hL : ¬ BK L) {A : List (Int × Int)} {tl : Int} {db : Db}
    (ht : Typed BK db) (inv : SkewInv c v e δ η L A tl db) {t : Int} (htl : tl ≤ t) {call : Call} (hok : CallSkewed BK L c w e δ η t call)
    (hno : ∀ tag pc pu key bk msg now, call = .should tag pc pu key bk msg now → listKey tag key ≠ L) :
    Typed BK (call.exec db t).1 ∧ SkewInv c v e δ η L A t (call.exec db t).1 := by
  have later : ∀ db', db' L = db L → SkewInv c v e δ η L A t db' := by
    intro db' h'
    obtain ⟨hsp, hsort, hall, hdb⟩ := inv
    refine ⟨hsp, hsort, fun x hx => ⟨(hall x hx).1, by have := (hall x hx).2; omega⟩, ?_⟩
    rw [h']
    rcases hdb with h | ⟨P, R, T, h1, h2, h3, h4, h5, h6, h7⟩
    · exact Or.inl h
    · exact Or.inr ⟨P, R, T, h1, h2, h3, h4, h5, h6, by omega⟩
  cases call with
  | should tag pc pu key bk msg now =>
    obtain ⟨hb, hnb, -⟩ := hok
    have hkey := hno tag pc pu key bk msg now rfl
    have hLne : L ≠ blockRKey tag bk := by rintro rfl; exact hL hb
    constructor
    · simp only [Call.exec, shouldBlock2]
      split
      · exact ht
      · exact typed_script1 ht hnb hb _ _ _ _ _ _
    · apply later
      simp only [Call.exec, shouldBlock2]
      split
      · rfl
      · exact script1_ne _ _ _ _ _ _ _ _ _ (fun h => hkey h.symm) hLne
  | isBlocked bk => exact ⟨ht, later _ rfl⟩
  | shouldDown pc => exact ⟨ht, later _ rfl⟩
  | isBlockedDown => exact ⟨ht, later _ rfl⟩

theorem passedAt_cons (L : Str) (ev : Event) (h : List Event) : passedAt L (ev :: h) = passedAt L [ev] ++ passedAt L h := by
  simp only [passedAt]
  split
  · split <;> simp
  · simp

/-- One call, with its event. -/
theorem skew_call {BK : Str → Prop} {c : Nat} (hc : 0 < c) {w v e δ η : Int} (hw : 0 < w) (he : 0 < e) (hvw : v ≤ w)
    (hv : 1000 * v + 2 * η + 1000 ≤ 2000 * e) {L : Str} (hL : ¬ BK L) {A : List (Int × Int)} {tl : Int} {db : Db}
    (ht : Typed BK db) (inv : SkewInv c v e δ η L A tl db) (t : Int) (htl : tl ≤ t) (call : Call) (hok : CallSkewed BK L c w e δ η t call) :
    Typed BK (call.exec db t).1 ∧ SkewInv c v e δ η L (A ++ passedAt L [⟨t, call, (call.exec db t).2⟩]) t (call.exec db t).1 ∧
      (∀ tag pc pu key bk msg now, call = .should tag pc pu key bk msg now → listKey tag key = L → (call.exec db t).2.triggered = true →
        ∃ P R, A = P ++ R ∧ R.length = c ∧ ∀ x ∈ R, t - 1000 * w - 2 * η - 999 ≤ x.1) := by
  by_cases hyes : ∃ tag pc pu key bk msg now, call = .should tag pc pu key bk msg now ∧ listKey tag key = L
  · obtain ⟨tag, pc, pu, key, bk, msg, now, rfl, hkey⟩ := hyes
    obtain ⟨hb, hnb, hsame⟩ := hok
    obtain ⟨rfl, rfl, hnow⟩ := hsame hkey
    obtain ⟨r, hr, inv', htr⟩ := skew_step (BK := BK) hc hw he hvw hv hL hb ht inv t now htl hnow msg
    have hty := typed_script1 ht hnb hb t c w e now msg
    have hns : ¬ (⟨c, w, e⟩ : Params).notSet := by unfold Params.notSet; simp only; omega
    have hex : (Call.should tag ⟨c, w, e⟩ ⟨c, w, e⟩ key bk msg now).exec db t =
        ((script1 db t L (blockRKey tag bk) c w e now msg).1, Result.ofReply r) := by
      simp only [Call.exec, shouldBlock2, if_neg hns, hkey, hr, Result.ofEval]
    rw [hkey] at hty
    have hblk : (Result.ofReply r).block = false ↔ r.block = 0 := by
      rcases script1_reply _ _ _ _ _ _ _ _ _ _ hr with h | ⟨h, _⟩ | ⟨m, _, _, h⟩ <;> subst h <;> simp [Result.ofReply, Reply.pass]
    rw [hex]
    refine ⟨hty, ?_, ?_⟩
    · have hp : passedAt L [⟨t, .should tag ⟨c, w, e⟩ ⟨c, w, e⟩ key bk msg now, Result.ofReply r⟩] = if r.block = 0 then [(t, now)] else [] := by
        simp only [passedAt, hkey, true_and]
        by_cases h0 : r.block = 0
        · rw [if_pos (hblk.2 h0), if_pos h0]
        · rw [if_neg (fun h => h0 (hblk.1 h)), if_neg h0]
      simp only
      rw [hp]
      exact inv'
    · intro _ _ _ _ _ _ _ _ _ h
      apply htr
      simpa [Result.ofReply] using h
  · have hno : ∀ tag pc pu key bk msg now, call = .should tag pc pu key bk msg now → listKey tag key ≠ L :=
      fun tag pc pu key bk msg now h1 h2 => hyes ⟨tag, pc, pu, key, bk, msg, now, h1, h2⟩
    obtain ⟨h1, h2⟩ := skew_other hL ht inv htl hok hno
    have hp : ∀ r, passedAt L [⟨t, call, r⟩] = [] := by
      intro r
      cases call with
      | should tag pc pu key bk msg now =>
        have := hno tag pc pu key bk msg now rfl
        simp [passedAt, this]
      | isBlocked bk => rfl
      | shouldDown pc => rfl
      | isBlockedDown => rfl
    rw [hp, List.append_nil]
    exact ⟨h1, h2, fun tag pc pu key bk msg now h3 h4 => absurd h4 (hno tag pc pu key bk msg now h3)⟩

theorem skew_run {BK : Str → Prop} {c : Nat} (hc : 0 < c) {w v e δ η : Int} (hw : 0 < w) (he : 0 < e) (hvw : v ≤ w)
    (hv : 1000 * v + 2 * η + 1000 ≤ 2000 * e) {L : Str} (hL : ¬ BK L) : ∀ (cs : List (Int × Call)) (A : List (Int × Int)) (tl : Int) (db : Db),
    Typed BK db → SkewInv c v e δ η L A tl db → (∀ x ∈ cs, tl ≤ x.1) → (cs.map (·.1)).Pairwise (· ≤ ·) →
    (∀ x ∈ cs, CallSkewed BK L c w e δ η x.1 x.2) →
    ∃ tl', Typed BK (run db cs).1 ∧ SkewInv c v e δ η L (A ++ passedAt L (run db cs).2) tl' (run db cs).1 ∧
      (tl' = tl ∨ ∃ x ∈ cs, tl' = x.1)
  | [], A, tl, db, ht, inv, _, _, _ => ⟨tl, ht, by simpa [run, passedAt] using inv, .inl rfl⟩
  | (t, call) :: cs, A, tl, db, ht, inv, htl, hsort, hok => by
    rw [List.map_cons, List.pairwise_cons] at hsort
    obtain ⟨h1, h2, -⟩ := skew_call hc hw he hvw hv hL ht inv t (htl (t, call) (by simp)) call (hok (t, call) (by simp))
    obtain ⟨tl', h3, h4, h5⟩ := skew_run hc hw he hvw hv hL cs _ t _ h1 h2
      (fun x hx => hsort.1 x.1 (List.mem_map_of_mem hx)) hsort.2 (fun x hx => hok x (by simp [hx]))
    refine ⟨tl', h3, ?_, ?_⟩
    · simp only [run]
      rw [passedAt_cons, ← List.append_assoc]
      exact h4
    · rcases h5 with rfl | ⟨x, hx, rfl⟩
      · exact .inr ⟨(tl', call), by simp, rfl⟩
      · exact .inr ⟨x, by simp [hx], rfl⟩

theorem skew_empty (c : Nat) (v e δ η : Int) (L : Str) (tl : Int) : SkewInv c v e δ η L [] tl Db.empty :=
  ⟨by intro i a b h; simp at h, by simp, by simp, .inl ⟨rfl, rfl⟩⟩

theorem skew_run_empty {BK : Str → Prop} {c : Nat} (hc : 0 < c) {w v e δ η : Int} (hw : 0 < w) (he : 0 < e) (hvw : v ≤ w)
    (hv : 1000 * v + 2 * η + 1000 ≤ 2000 * e) {L : Str} (hL : ¬ BK L) (cs : List (Int × Call)) (hsort : (cs.map (·.1)).Pairwise (· ≤ ·))
    (hok : ∀ x ∈ cs, CallSkewed BK L c w e δ η x.1 x.2) (t : Int) (ht : ∀ x ∈ cs, x.1 ≤ t) :
    ∃ tl, tl ≤ t ∧ Typed BK (run Db.empty cs).1 ∧ SkewInv c v e δ η L (passedAt L (run Db.empty cs).2) tl (run Db.empty cs).1 := by
  cases cs with
  | nil => exact ⟨t, Int.le_refl _, typed_empty BK, skew_empty c v e δ η L t⟩
  | cons x cs =>
    have hs := hsort
    rw [List.map_cons, List.pairwise_cons] at hs
    obtain ⟨tl, h1, h2, h3⟩ := skew_run hc hw he hvw hv hL (x :: cs) [] x.1 Db.empty (typed_empty BK) (skew_empty c v e δ η L x.1)
      (fun y hy => by
        rcases List.mem_cons.1 hy with rfl | hy
        · exact Int.le_refl _
        · exact hs.1 y.1 (List.mem_map_of_mem hy)) hsort hok
    refine ⟨tl, ?_, h1, by simpa using h2⟩
    rcases h3 with rfl | ⟨y, hy, rfl⟩
    · exact ht x (by simp)
    · exact ht y hy

/-- C138 (full statement): for all parameters and client clocks within `η` ms of redis' (up to a common offset), at most `c`
calls of a key pass in any `w` seconds of client time. -/
def C138Claim : Prop :=
  ∀ (BK : Str → Prop) (L : Str) (c : Nat) (w e δ η : Int) (cs : List (Int × Call)) (lo : Int), ¬ BK L → 0 < c → 0 < w → 0 < e → 0 ≤ η →
    (cs.map (·.1)).Pairwise (· ≤ ·) → (∀ x ∈ cs, CallSkewed BK L c w e δ η x.1 x.2) →
    (passedAt L (run Db.empty cs).2).countP (fun a => decide (lo ≤ a.2) && decide (a.2 ≤ lo + w)) ≤ c

/-- **C138, partial.**  With client clocks that differ by up to `2η` ms: in any `v` seconds of client time, for `v` up to the
window and shorter than twice the timeout by the difference of the clocks and a second, at most `c` calls of a key pass.
Missing: windows of twice the timeout and more, since the list expires (`C138_violated`). -/
theorem C138_bound_partial (BK : Str → Prop) (L : Str) (hL : ¬ BK L) (c : Nat) (w v e δ η : Int) (hc : 0 < c) (hw : 0 < w) (he : 0 < e)
    (hvw : v ≤ w) (hv : 1000 * v + 2 * η + 1000 ≤ 2000 * e) (cs : List (Int × Call)) (hsort : (cs.map (·.1)).Pairwise (· ≤ ·))
    (hok : ∀ x ∈ cs, CallSkewed BK L c w e δ η x.1 x.2) (lo : Int) :
    (passedAt L (run Db.empty cs).2).countP (fun a => decide (lo ≤ a.2) && decide (a.2 ≤ lo + v)) ≤ c := by
  obtain ⟨M, hM⟩ : ∃ M, ∀ x ∈ cs, x.1 ≤ M := by
    clear hsort hok
    induction cs with
    | nil => exact ⟨0, by simp⟩
    | cons x cs ih =>
      obtain ⟨M, hM⟩ := ih
      refine ⟨max M x.1, fun y hy => ?_⟩
      rcases List.mem_cons.1 hy with rfl | hy
      · omega
      · have := hM y hy; omega
  obtain ⟨tl, -, -, inv⟩ := skew_run_empty hc hw he hvw hv hL cs hsort hok M hM
  have h := inv.1.count_le hc lo
  rw [List.countP_map] at h
  exact h

/-- **C138, partial**, by the clock of redis: at most `c` calls of a key pass in any `1000 v - 2η` ms. -/
theorem C138_redis_partial (BK : Str → Prop) (L : Str) (hL : ¬ BK L) (c : Nat) (w v e δ η : Int) (hc : 0 < c) (hw : 0 < w) (he : 0 < e)
    (hvw : v ≤ w) (hv : 1000 * v + 2 * η + 1000 ≤ 2000 * e) (cs : List (Int × Call)) (hsort : (cs.map (·.1)).Pairwise (· ≤ ·))
    (hok : ∀ x ∈ cs, CallSkewed BK L c w e δ η x.1 x.2) (lo hi : Int) (hlen : hi - lo ≤ 1000 * v - 2 * η) :
    (passedAt L (run Db.empty cs).2).countP (fun a => decide (lo ≤ a.1) && decide (a.1 ≤ hi)) ≤ c := by
  have h := C138_bound_partial BK L hL c w v e δ η hc hw he hvw hv cs hsort hok ((lo + δ - η) / 1000)
  refine Nat.le_trans (List.countP_mono_left fun a ha hp => ?_) h
  have hsk : Skewed δ η a.1 a.2 := by
    clear h
    revert ha
    generalize Db.empty = db
    clear hsort
    induction cs generalizing db with
    | nil => intro ha; simp [run, passedAt] at ha
    | cons x cs ih =>
      intro ha
      obtain ⟨t, call⟩ := x
      simp only [run] at ha
      rw [passedAt_cons, List.mem_append] at ha
      rcases ha with ha | ha
      · have := hok (t, call) (by simp)
        cases call with
        | should tag pc pu key bk msg now =>
          simp only [passedAt] at ha
          split at ha
          · rename_i hk
            simp only [List.mem_singleton] at ha
            subst ha
            exact (this.2.2 hk.1).2.2
          · simp at ha
        | isBlocked bk => simp [passedAt] at ha
        | shouldDown pc => simp [passedAt] at ha
        | isBlockedDown => simp [passedAt] at ha
      · exact ih (fun y hy => hok y (by simp [hy])) _ ha
  simp only [Bool.and_eq_true, decide_eq_true_eq] at hp ⊢
  unfold Skewed at hsk
  omega

/-- **C138.**  A block begins only if `c` calls of the key passed within the window before, extended by the difference of the
clocks and a second. -/
theorem C138_trigger (BK : Str → Prop) (L : Str) (hL : ¬ BK L) (c : Nat) (w e δ η : Int) (hc : 0 < c) (hw : 0 < w) (he : 0 < e)
    (hη : 0 ≤ η) (cs : List (Int × Call)) (t : Int) (tag : Str) (pc pu : Params) (key bk msg : Str) (now : Int)
    (hsort : ((cs ++ [(t, Call.should tag pc pu key bk msg now)]).map (·.1)).Pairwise (· ≤ ·))
    (hok : ∀ x ∈ cs ++ [(t, Call.should tag pc pu key bk msg now)], CallSkewed BK L c w e δ η x.1 x.2) (hkey : listKey tag key = L)
    (htr : ((Call.should tag pc pu key bk msg now).exec (run Db.empty cs).1 t).2.triggered = true) :
    c ≤ (passedAt L (run Db.empty cs).2).countP (fun a => decide (t - 1000 * w - 2 * η - 999 ≤ a.1) && decide (a.1 ≤ t)) := by
  rw [List.map_append, List.pairwise_append] at hsort
  have hle : ∀ x ∈ cs, x.1 ≤ t := fun x hx => hsort.2.2 x.1 (List.mem_map_of_mem hx) t (by simp)
  have hv : 1000 * (min w (-2 * η - 1)) + 2 * η + 1000 ≤ 2000 * e := by omega
  obtain ⟨tl, htl, hty, inv⟩ := skew_run_empty hc hw he (Int.min_le_left _ _) hv hL cs hsort.1 (fun x hx => hok x (by simp [hx])) t hle
  obtain ⟨-, -, h⟩ := skew_call hc hw he (Int.min_le_left _ _) hv hL hty inv t htl _ (hok (t, Call.should tag pc pu key bk msg now) (by simp))
  obtain ⟨P, R, hA, hR, hx⟩ := h tag pc pu key bk msg now rfl hkey htr
  have hall := inv.2.2.1
  rw [hA] at hall ⊢
  rw [List.countP_append]
  have : R.countP (fun a => decide (t - 1000 * w - 2 * η - 999 ≤ a.1) && decide (a.1 ≤ t)) = R.length := by
    rw [List.countP_eq_length]
    intro a ha
    have h1 := hx a ha
    have h2 := (hall a (by simp [ha])).2
    simp only [Bool.and_eq_true, decide_eq_true_eq]
    omega
  omega

/-- A window of ten seconds with a timeout of three: the list expires after six seconds of quiet, and three calls pass within
eight seconds where two are allowed. -/
theorem C138_violated : ¬ C138Claim := by
  intro h
  have := h (fun k => k = blockRKey [] ['b']) (listKey [] ['k']) 2 10 3 0 0
    [(0, .should [] ⟨2, 10, 3⟩ ⟨2, 10, 3⟩ ['k'] ['b'] ['m'] 0), (7000, .should [] ⟨2, 10, 3⟩ ⟨2, 10, 3⟩ ['k'] ['b'] ['m'] 7),
     (8000, .should [] ⟨2, 10, 3⟩ ⟨2, 10, 3⟩ ['k'] ['b'] ['m'] 8)] 0 (by decide) (by decide) (by decide) (by decide) (by decide) (by decide)
    (by
      intro x hx
      simp only [List.mem_cons, List.not_mem_nil, or_false] at hx
      rcases hx with rfl | rfl | rfl <;> exact ⟨rfl, by decide, fun _ => ⟨rfl, rfl, by decide⟩⟩)
  revert this
  decide +kernel

/-- Non-vacuity: clients whose clocks are a second ahead or behind; two pass, and the third call begins a block. -/
example :
    let cs : List (Int × Call) := [(5000, .should [] ⟨2, 3, 9⟩ ⟨2, 3, 9⟩ ['k'] ['b'] ['m'] 6), (5500, .should [] ⟨2, 3, 9⟩ ⟨2, 3, 9⟩ ['k'] ['b'] ['m'] 4)]
    passedAt (listKey [] ['k']) (run Db.empty cs).2 = [(5000, 6), (5500, 4)] ∧ Skewed 0 1000 5000 6 ∧ Skewed 0 1000 5500 4 ∧
    Skewed 0 1000 6000 6 ∧ ((Call.should [] ⟨2, 3, 9⟩ ⟨2, 3, 9⟩ ['k'] ['b'] ['m'] 6).exec (run Db.empty cs).1 6000).2.triggered = true := by decide

end Gears.TtlRedis
