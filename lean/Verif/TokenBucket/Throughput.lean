import Verif.TokenBucket.Lemmas

/-!
C116: how many calls a bucket admits while it is asked for more than it has (tokenbucket.go:71-104).

A rejected call says that the bucket was empty.  `issueIfNecessary` issues for whole seconds only, and then takes the
time of the call as the time of the last issue (103), so that the rest of the elapsed time is lost.
-/

namespace Gears.TokenBucket

/-! ## Specification -/

/-- In `h`, at most `δ` lies between a rejected call and the next rejected one. -/
def RejectsEvery (δ : Int) (h : History) : Prop :=
  ∀ a x b y d, h = a ++ (x, false) :: b ++ (y, false) :: d → (∀ e ∈ b, e.2 = true) → y ≤ x + δ

/-- The full claim: a bucket that rejects at least once in every second issues its rate: between two rejected calls
`n` seconds apart, at least `r·(n-1)` calls are admitted. -/
def C116Claim : Prop :=
  ∀ (c r t0 : Int), 1 ≤ r → r ≤ c → ∀ (ts : List Int), NonDecreasing (t0 :: ts) →
    ∀ h1 s h2 s' h3, (run (new c r t0) ts).2 = h1 ++ (s, false) :: h2 ++ (s', false) :: h3 →
      RejectsEvery 1000000000 ((s, false) :: h2 ++ [(s', false)]) →
      r * ((s' - s) / 1000000000 - 1) ≤ admitted h2

/-! ## Lemmas -/

/-- From an empty bucket to a rejection at least a second after the last issue. -/
theorem empty_to_reject (s : State) (ts : List Int) (s' : Int) (wf : WF s) (ht : s.tokens = 0) (hr : 1 ≤ s.rate)
    (hm : NonDecreasing (s.last :: (ts ++ [s']))) (hs : s.last + 1000000000 ≤ s')
    (hrej : (acquire (run s ts).1 s').2 = false) : min s.rate s.capacity ≤ (admitted (run s ts).2 : Int) := by
  induction ts generalizing s with
  | nil =>
    simp only [run, admitted_nil] at hrej ⊢
    have hc := wf.cap
    rcases issue_cases s s' (by omega) (by omega) wf.hi with ⟨-, h | h⟩ | ⟨t, h, h1, h2, -, -⟩
    · simp only [Int.ofNat_zero]; omega
    · have hq : 1 ≤ (s' - s.last) / second := by unfold second; omega
      have := Int.mul_le_mul hq hr (by omega) (by omega)
      omega
    · unfold acquire at hrej
      rw [h] at hrej
      simp only [show t > 0 by omega, if_true] at hrej
      cases hrej
  | cons t ts ih =>
    have h1 := List.pairwise_cons.1 hm
    have h2 := List.pairwise_cons.1 h1.2
    have hl : s.last ≤ t := h1.1 t (by simp)
    rcases issue_cases s t hl (by omega) wf.hi with ⟨h, -⟩ | ⟨k, h, -, h3, h4, h5⟩
    · have he : acquire s t = (s, false) := by
        unfold acquire; rw [h]; simp [ht]
      simp only [run, he, admitted_cons] at hrej ⊢
      have := ih s wf ht hr (List.pairwise_cons.2 ⟨fun x hx => h1.1 x (by simp at hx ⊢; tauto), h2.2⟩) hs hrej
      simpa using this
    · have hk : min s.rate s.capacity ≤ k := by
        rw [h5, ht]
        have hq : 1 ≤ (t - s.last) / second := by
          have h0 : 0 ≤ (t - s.last) / second := Int.ediv_nonneg (by omega) (by decide)
          rcases Int.lt_or_eq_of_le h0 with h6 | h6
          · omega
          · rw [← h6] at h5; omega
        have := Int.mul_le_mul_of_nonneg_right hq (show 0 ≤ s.rate by omega)
        omega
      obtain ⟨awf, acap, arate, al1, al2, -, -, -⟩ := acquire_spec s t wf hl
      have hat : (acquire s t).2 = true ∧ (acquire s t).1.tokens = k - 1 := by
        unfold acquire; rw [h]; simp [show k > 0 by omega]
      have hm' : NonDecreasing ((acquire s t).1.last :: (ts ++ [s'])) :=
        List.pairwise_cons.2 ⟨fun x hx => Int.le_trans al2 (h2.1 x hx), h2.2⟩
      have hp := List.pairwise_append.1 (show List.Pairwise (· ≤ ·) (((acquire s t).1.last :: ts) ++ [s']) from hm')
      obtain ⟨w, -, -, -, l2, -, lb⟩ := run_bound (acquire s t).1 ts awf hp.1 s' (hp.2.2 _ (by simp) _ (by simp))
        (fun x hx => hp.2.2 x (by simp [hx]) _ (by simp))
      simp only [run, admitted_cons, hat.1, if_true] at hrej ⊢
      obtain ⟨-, -, -, -, -, -, alb, az⟩ := acquire_spec _ s' w l2
      have hz := az hrej
      rw [hrej, hz] at alb
      simp at alb
      rw [hat.2] at lb
      push_cast
      omega

/-- A history is cut where the calls are cut. -/
theorem run_split (s : State) (ts : List Int) (h1 h2 : History) (h : (run s ts).2 = h1 ++ h2) :
    ∃ t1 t2, ts = t1 ++ t2 ∧ (run s t1).2 = h1 ∧ (run (run s t1).1 t2).2 = h2 := by
  refine ⟨ts.take h1.length, ts.drop h1.length, (List.take_append_drop _ _).symm, ?_⟩
  have hl : h1.length ≤ ts.length := by
    have := congrArg List.length h
    rw [run_length, List.length_append] at this; omega
  have e := run_append s (ts.take h1.length) (ts.drop h1.length)
  rw [List.take_append_drop] at e
  rw [e] at h
  simp only at h
  exact List.append_inj h (by rw [run_length, List.length_take]; omega)

theorem run_cons_inv (s : State) (ts : List Int) (t : Int) (b : Bool) (h : History)
    (hr : (run s ts).2 = (t, b) :: h) : ∃ ts', ts = t :: ts' ∧ (acquire s t).2 = b ∧ (run (acquire s t).1 ts').2 = h := by
  cases ts with
  | nil => simp [run] at hr
  | cons u ts' =>
    simp only [run, List.cons.injEq, Prod.mk.injEq] at hr
    obtain ⟨⟨rfl, h1⟩, h2⟩ := hr
    exact ⟨ts', rfl, h1, h2⟩

/-! ## C116 -/

/-- **C116.**  Between two rejected calls that are a second or more apart, at least `min r c` calls are admitted. -/
theorem C116_between (c r t0 : Int) (hc : 0 ≤ c) (hr : 1 ≤ r) (ts : List Int) (hm : NonDecreasing (t0 :: ts))
    (h1 h2 h3 : History) (s s' : Int) (h : (run (new c r t0) ts).2 = h1 ++ (s, false) :: h2 ++ (s', false) :: h3)
    (hs : s + 1000000000 ≤ s') : min r c ≤ (admitted h2 : Int) := by
  rw [List.append_assoc] at h
  obtain ⟨t1, t2, rfl, -, e2⟩ := run_split _ _ _ _ h
  obtain ⟨t3, rfl, e3, e4⟩ := run_cons_inv _ _ _ _ _ e2
  obtain ⟨t4, t5, rfl, e5, e6⟩ := run_split _ _ _ _ e4
  obtain ⟨t6, rfl, e7, -⟩ := run_cons_inv _ _ _ _ _ e6
  -- the state at the first rejection
  have hpm := List.pairwise_append.1 (show List.Pairwise (· ≤ ·) ((t0 :: t1) ++ (s :: (t4 ++ s' :: t6))) from hm)
  obtain ⟨w1, cap1, rate1, -, l2, -, -⟩ := run_bound (new c r t0) t1 (new_wf hc (by omega)) hpm.1 s
    (hpm.2.2 t0 (by simp) s (by simp)) (fun x hx => hpm.2.2 x (by simp [hx]) s (by simp))
  obtain ⟨w2, cap2, rate2, -, l3, -, -, hz⟩ := acquire_spec _ s w1 l2
  have hz := hz e3
  have hsm := List.pairwise_cons.1 hpm.2.1
  have hm2 : NonDecreasing ((acquire (run (new c r t0) t1).1 s).1.last :: (t4 ++ [s'])) := by
    refine List.pairwise_cons.2 ⟨fun x hx => Int.le_trans l3 (hsm.1 x ?_), ?_⟩
    · simp only [List.mem_append, List.mem_cons, List.not_mem_nil, or_false] at hx ⊢; tauto
    · have := hsm.2
      rw [show t4 ++ s' :: t6 = (t4 ++ [s']) ++ t6 by simp] at this
      exact (List.pairwise_append.1 this).1
  have hnc : (new c r t0).capacity = c := rfl
  have hnr : (new c r t0).rate = r := rfl
  have := empty_to_reject _ t4 s' w2 hz (by rw [rate2, rate1]; exact hr) hm2 (by omega) e7
  rw [e5, cap2, cap1, rate2, rate1] at this
  exact this

/-- **C116** (partial: the rate `r` per second is not reached, see `C116_violated`).  If the bucket rejects at least
every `δ`, then between two rejected calls at `s` and `s'` it admits at least `min r c` calls for every `1s + δ`. -/
theorem C116_rate_partial (c r t0 : Int) (hc : 0 ≤ c) (hr : 1 ≤ r) (ts : List Int) (hm : NonDecreasing (t0 :: ts))
    (δ : Int) (hδ : 0 ≤ δ) : ∀ (h1 h2 h3 : History) (s s' : Int),
    (run (new c r t0) ts).2 = h1 ++ (s, false) :: h2 ++ (s', false) :: h3 →
    RejectsEvery δ ((s, false) :: h2 ++ [(s', false)]) →
    min r c * ((s' - s) / (1000000000 + δ)) ≤ admitted h2 := by
  intro h1 h2
  generalize hn : h2.length = n
  induction n using Nat.strongRecOn generalizing h1 h2 with
  | _ n ih =>
    intro h3 s s' h hR
    have hmn : 0 ≤ min r c := by omega
    by_cases hlt : s' - s < 1000000000 + δ
    · have hq : (s' - s) / (1000000000 + δ) ≤ 0 := by
        have : (s' - s) / (1000000000 + δ) < 1 := (Int.ediv_lt_iff_lt_mul (by omega)).2 (by omega)
        omega
      have := Int.mul_le_mul_of_nonneg_left hq hmn
      simp at this
      omega
    · -- the first rejection a second or more after `s`
      obtain ⟨e, he⟩ : ∃ e, (h2 ++ [(s', false)]).find? (fun e => !e.2 && decide (s + 1000000000 ≤ e.1)) = some e := by
        rw [← Option.isSome_iff_exists, List.find?_isSome]
        exact ⟨(s', false), by simp, by simp; omega⟩
      obtain ⟨hp, as, bs, hab, has⟩ := List.find?_eq_some_iff_append.1 he
      obtain ⟨u, b⟩ := e
      simp only [Bool.and_eq_true, Bool.not_eq_eq_eq_not, Bool.not_true, decide_eq_true_eq] at hp
      obtain ⟨rfl, hu⟩ := hp
      -- the rejection before it
      obtain ⟨e, he⟩ : ∃ e, ((s, false) :: as).reverse.find? (fun e => !e.2) = some e := by
        rw [← Option.isSome_iff_exists, List.find?_isSome]
        exact ⟨(s, false), by simp, by simp⟩
      obtain ⟨hp, cs, ds, hcd, hcs⟩ := List.find?_eq_some_iff_append.1 he
      obtain ⟨p, b⟩ := e
      simp only [Bool.not_eq_eq_eq_not, Bool.not_true] at hp
      subst hp
      have hcd' : (s, false) :: as = ds.reverse ++ (p, false) :: cs.reverse := by
        have := congrArg List.reverse hcd
        simpa using this
      have hpu : u ≤ p + δ := by
        refine hR ds.reverse p cs.reverse u bs ?_ ?_
        · rw [List.cons_append, hab, ← List.cons_append, hcd']
        · intro e he
          have := hcs e (List.mem_reverse.1 he)
          simpa using this
      have hpX : p < s + 1000000000 := by
        have : (p, false) ∈ (s, false) :: as := by rw [hcd']; simp
        rcases List.mem_cons.1 this with h' | h'
        · simp only [Prod.mk.injEq] at h'; omega
        · have := has _ h'
          simpa using this
      -- it is not the last one
      rcases List.eq_nil_or_concat bs with rfl | ⟨bs', x, rfl⟩
      · have := (List.append_inj' hab rfl).2
        simp at this
        omega
      · rw [List.concat_eq_append] at hab
        have hab' : h2 ++ [(s', false)] = (as ++ (u, false) :: bs') ++ [x] := by rw [hab]; simp
        obtain ⟨rfl, hx⟩ := List.append_inj' hab' rfl
        simp only [List.cons.injEq, and_true] at hx
        subst hx
        have ha := C116_between c r t0 hc hr ts hm h1 as (bs' ++ (s', false) :: h3) s u (by rw [h]; simp) hu
        have hb := ih bs'.length (by rw [← hn]; simp; omega) (h1 ++ (s, false) :: as) bs' rfl h3 u s' (by rw [h]; simp)
          (fun a x b y d e hb => hR ((s, false) :: as ++ a) x b y d (by
            have : (s, false) :: (as ++ (u, false) :: bs') ++ [(s', false)] =
              (s, false) :: as ++ ((u, false) :: bs' ++ [(s', false)]) := by simp
            rw [this, e]; simp) hb)
        rw [admitted_append, admitted_cons]
        have hq : (s' - s) / (1000000000 + δ) ≤ 1 + (s' - u) / (1000000000 + δ) := by
          have : (s' - s) / (1000000000 + δ) ≤ ((s' - u) + (1000000000 + δ)) / (1000000000 + δ) :=
            Int.ediv_le_ediv (by omega) (by omega)
          rw [Int.add_ediv_of_dvd_right ⟨1, by omega⟩, Int.ediv_self (by omega)] at this
          omega
        have := Int.mul_le_mul_of_nonneg_left hq hmn
        rw [Int.mul_add, Int.mul_one] at this
        push_cast
        omega

/-- `RejectsEvery` by looking at the history; `p` is the last rejection before it. -/
def gapsOk (δ : Int) : Option Int → History → Bool
  | _, [] => true
  | p, (_, true) :: h => gapsOk δ p h
  | p, (t, false) :: h => (match p with | none => true | some x => decide (t ≤ x + δ)) && gapsOk δ (some t) h

theorem gapsOk_skip (δ : Int) (p : Int) (y : Int) (d : History) : ∀ b : History, (∀ e ∈ b, e.2 = true) →
    gapsOk δ (some p) (b ++ (y, false) :: d) = true → y ≤ p + δ
  | [], _, h => by simp [gapsOk] at h; exact h.1
  | (t, true) :: b, hb, h => gapsOk_skip δ p y d b (fun e he => hb e (by simp [he])) (by simpa [gapsOk] using h)
  | (t, false) :: b, hb, _ => by have := hb (t, false) (by simp); cases this

theorem rejectsEvery_of (δ : Int) : ∀ (h : History) (p : Option Int), gapsOk δ p h = true → RejectsEvery δ h
  | [], _, _ => fun a x b y d e _ => by simp at e
  | (t, o) :: h, p, hg => by
    have hh : RejectsEvery δ h := by
      cases o with
      | true => exact rejectsEvery_of δ h p (by simpa [gapsOk] using hg)
      | false => exact rejectsEvery_of δ h (some t) (by simp [gapsOk] at hg; exact hg.2)
    intro a x b y d e hb
    cases a with
    | nil =>
      simp only [List.nil_append, List.cons_append, List.cons.injEq, Prod.mk.injEq] at e
      obtain ⟨⟨rfl, rfl⟩, rfl⟩ := e
      simp [gapsOk] at hg
      exact gapsOk_skip δ t y d b hb hg.2
    | cons e' a =>
      simp only [List.cons_append, List.cons.injEq] at e
      exact hh a x b y d (by rw [e.2]) hb

/-- The claim is false: with calls every 0.75 s (and one more after each admitted call), a bucket with rate 1 admits
one call every 1.5 s, although it rejects a call at least every 0.75 s. -/
theorem C116_violated : ¬ C116Claim := by
  intro h
  have := h 1 1 0 (by decide) (by decide)
    [0, 100000000, 750000000, 1500000000, 1600000000, 2250000000, 3000000000, 3100000000, 3750000000,
      4500000000, 4600000000, 5250000000, 6000000000, 6100000000]
    (by decide) [(0, true)] 100000000
    [(750000000, false), (1500000000, true), (1600000000, false), (2250000000, false), (3000000000, true),
      (3100000000, false), (3750000000, false), (4500000000, true), (4600000000, false), (5250000000, false),
      (6000000000, true)] 6100000000 [] (by decide) ?_
  · revert this; decide
  · exact rejectsEvery_of _ _ none (by decide)

/-- Non-vacuity of `C116_between` and `C116_rate_partial`. -/
example : (run (new 1 1 0) [0, 100000000, 750000000, 1500000000, 1600000000]).2 =
    [(0, true)] ++ (100000000, false) :: [(750000000, false), (1500000000, true)] ++ (1600000000, false) :: [] ∧
    RejectsEvery 850000000 ((100000000, false) :: [(750000000, false), (1500000000, true)] ++ [(1600000000, false)]) :=
  ⟨by decide, rejectsEvery_of _ _ none (by decide)⟩

end Gears.TokenBucket
