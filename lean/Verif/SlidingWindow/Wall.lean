import Verif.SlidingWindow.Props
import Verif.Common.Wall

/-
C146 for the sliding window (ratelimiter/slidingwindow.go:62-87): a wall clock that is set.
-/

namespace Gears.SlidingWindow

/-- The answers to calls made at given moments. -/
def answers (c W : Int) (ws : List Wall) : Option History :=
  (run (new c W) (acquires (ws.map Wall.reading))).map (·.2)

/-- **C146**, the first part of the claim: in real time, no window has more admitted calls than the capacity. -/
def C146BoundClaim : Prop :=
  ∀ (c W : Int) (ws : List Wall) (h : History) (lo : Int), 0 < c → InOrder ws → answers c W ws = some h →
    (admittedReal ws h lo (lo + W) : Int) ≤ c

/-- **C146**, the second part: a call is admitted if no call was admitted in the window before it. -/
def C146RecoverClaim : Prop :=
  ∀ (c W : Int) (ws : List Wall) (w : Wall) (h : History), 0 < c → InOrder (ws ++ [w]) →
    answers c W (ws ++ [w]) = some h → (∀ p ∈ ws.zip h, p.2.2 = true → p.1.real + W < w.real) →
    h.getLast? = some (w.reading, true)

/-- **C146, partial**: with settings that differ by at most `B`, the bound holds for real intervals that are shorter than
the window by `B`. -/
theorem C146_sliding_bound_partial (c W B : Int) (hc : 0 < c) (ws : List Wall) (hB : Within B ws) (lo : Int) :
    ∃ h, answers c W ws = some h ∧ (admittedReal ws h lo (lo + W - B) : Int) ≤ c := by
  obtain ⟨o, ho⟩ := hB
  obtain ⟨s, h, hr, hm, hb⟩ := C08_window_bound c W hc (ws.map Wall.reading) (lo + o)
  refine ⟨h, by simp [answers, hr], ?_⟩
  have := admittedReal_le B o lo (lo + W - B) ws h ho hm
  have e : lo + W - B + o + B = lo + o + W := by omega
  rw [e] at this
  omega

theorem run_append {s s1 : State} {h1 : History} : ∀ (as bs : List Op), run s as = some (s1, h1) →
    run s (as ++ bs) = (run s1 bs).map (fun r => (r.1, h1 ++ r.2))
  | [], bs, h => by
    simp only [run, Option.some.injEq, Prod.mk.injEq] at h
    obtain ⟨rfl, rfl⟩ := h
    simp
  | .acquire now :: as, bs, h => by
    simp only [List.cons_append, run] at h ⊢
    cases ha : acquire s now with
    | none => rw [ha] at h; simp at h
    | some r =>
      obtain ⟨s2, b⟩ := r
      rw [ha] at h
      simp only at h ⊢
      cases hr : run s2 as with
      | none => rw [hr] at h; simp at h
      | some r2 =>
        obtain ⟨s3, h3⟩ := r2
        rw [hr] at h
        simp only [Option.some.injEq, Prod.mk.injEq] at h
        obtain ⟨rfl, rfl⟩ := h
        rw [run_append as bs hr]
        cases run s3 bs <;> simp
  | .updateConfig c w :: as, bs, h => by
    simp only [List.cons_append, run] at h ⊢
    exact run_append as bs h

theorem admittedTimes_zip : ∀ (ws : List Wall) (h : History), h.map (·.1) = ws.map Wall.reading → ∀ x ∈ admittedTimes h,
    ∃ p ∈ ws.zip h, p.2.2 = true ∧ p.1.reading = x
  | [], h, hm, x, hx => by
    have : h = [] := by simpa using hm
    subst this; simp [admittedTimes] at hx
  | w :: ws, [], hm, _, _ => by simp at hm
  | w :: ws, e :: h, hm, x, hx => by
    simp only [List.map_cons, List.cons.injEq] at hm
    obtain ⟨t, b⟩ := e
    have hx' : (b = true ∧ x = t) ∨ x ∈ admittedTimes h := by
      cases b
      · right; simpa [admittedTimes] using hx
      · have : x = t ∨ x ∈ admittedTimes h := by simpa [admittedTimes] using hx
        rcases this with h1 | h1
        · exact .inl ⟨rfl, h1⟩
        · exact .inr h1
    rcases hx' with ⟨h1, h2⟩ | h1
    · exact ⟨(w, t, b), by simp, h1, by rw [h2]; exact hm.1.symm⟩
    · obtain ⟨p, hp, h2, h3⟩ := admittedTimes_zip ws h hm.2 x h1
      exact ⟨p, by simp [hp], h2, h3⟩

/-- **C146, partial**: a call is admitted when every admitted call was made more than a window and `B` before it, `B` being
at least what the clock was set back since.  So a clock that is never set back (`B = 0`) satisfies the second part. -/
theorem C146_sliding_recovers_partial (c W B : Int) (hc : 0 < c) (ws : List Wall) (w : Wall) :
    ∃ h, answers c W (ws ++ [w]) = some h ∧
      ((∀ p ∈ ws.zip h, p.2.2 = true → p.1.real + W + B < w.real ∧ p.1.off ≤ w.off + B) →
        h.getLast? = some (w.reading, true)) := by
  obtain ⟨n, rfl⟩ := Int.eq_ofNat_of_zero_le (Int.le_of_lt hc)
  have hn : 0 < n := by omega
  obtain ⟨s, h, hr, inv, hm⟩ := run_acquires_inv hn (ws.map Wall.reading) [] (new n W) (new_inv W)
  obtain ⟨s', b, ha, _⟩ := acquire_inv hn inv w.reading
  have hrun : run (new n W) (acquires ((ws ++ [w]).map Wall.reading)) = some (s', h ++ [(w.reading, b)]) := by
    have e : acquires ((ws ++ [w]).map Wall.reading) = acquires (ws.map Wall.reading) ++ [.acquire w.reading] := by
      simp [acquires]
    rw [e, run_append _ _ hr]
    simp [run, ha]
  refine ⟨h ++ [(w.reading, b)], by unfold answers; rw [hrun]; rfl, ?_⟩
  intro hold
  have hz : ws.zip (h ++ [(w.reading, b)]) = ws.zip h := by
    have hl : ws.length = h.length := by
      have := congrArg List.length hm
      simpa using this.symm
    rw [show ws = ws ++ [] by simp, List.zip_append (by simpa using hl)]
    simp
  rw [hz] at hold
  have hbt : b = true := by
    unfold acquire at ha
    rw [if_neg (by have := inv.hcap; omega)] at ha
    split at ha
    · simp at ha; exact ha.2
    · cases hrec : s.records with
      | nil => rw [hrec] at ha; simp at ha
      | cons old rest =>
        rw [hrec] at ha
        obtain ⟨P, hP, _⟩ := inv.hsuf
        have hmem : old ∈ admittedTimes h := by
          rw [List.nil_append] at hP
          rw [← hP, hrec]; simp
        obtain ⟨p, hp, h1, h2⟩ := admittedTimes_zip ws h hm old hmem
        have h3 := hold p hp h1
        have hw := inv.hwin
        unfold Wall.reading at h2 ha
        simp only at ha
        rw [if_pos (by omega)] at ha
        simp at ha; exact ha.2
  simp [hbt]

theorem fill_new (c W b : Int) : ∀ (m j : Nat), ((j + m : Nat) : Int) ≤ c →
    run ⟨c, W, List.replicate j b⟩ (acquires (List.replicate m b)) =
      some (⟨c, W, List.replicate (j + m) b⟩, List.replicate m (b, true))
  | 0, j, _ => by simp [acquires, run]
  | m + 1, j, h => by
    have ih := fill_new c W b m (j + 1) (by omega)
    have ha : acquire ⟨c, W, List.replicate j b⟩ b = some (⟨c, W, List.replicate (j + 1) b⟩, true) := by
      unfold acquire
      rw [if_neg (by simp only; omega), if_pos (by simp only [List.length_replicate]; omega)]
      simp [List.replicate_succ']
    simp only [List.replicate_succ, acquires, List.map_cons, run, ha] at ih ⊢
    rw [ih]
    simp [show j + 1 + m = j + (m + 1) by omega]

theorem fill_old (W a b : Int) (hab : b - a > W) : ∀ (m j : Nat), 0 < j + m →
    run ⟨((j + m : Nat) : Int), W, List.replicate m a ++ List.replicate j b⟩ (acquires (List.replicate m b)) =
      some (⟨((j + m : Nat) : Int), W, List.replicate (j + m) b⟩, List.replicate m (b, true))
  | 0, j, _ => by simp [acquires, run]
  | m + 1, j, h => by
    have ih := fill_old W a b hab m (j + 1) (by omega)
    have ha : acquire ⟨((j + (m + 1) : Nat) : Int), W, List.replicate (m + 1) a ++ List.replicate j b⟩ b =
        some (⟨((j + (m + 1) : Nat) : Int), W, List.replicate m a ++ List.replicate (j + 1) b⟩, true) := by
      unfold acquire
      rw [if_neg (by simp only; omega), if_neg (by simp; omega)]
      simp only [List.replicate_succ (n := m), List.cons_append]
      rw [if_pos hab]
      simp [List.replicate_succ']
    have e : j + 1 + m = j + (m + 1) := by omega
    rw [e] at ih
    simp only [List.replicate_succ (a := b) (n := m), acquires, List.map_cons, run, ha] at ih ⊢
    rw [ih]
    simp [List.replicate_succ]

/-- `n` calls at one moment for each of `k + 1` settings of the clock, each a window further ahead. -/
def bursts (n : Nat) (W : Int) : Nat → List Wall
  | 0 => List.replicate n ⟨0, 0⟩
  | k + 1 => bursts n W k ++ List.replicate n ⟨0, ((k + 1 : Nat) : Int) * (W + 1)⟩

theorem bursts_run (n : Nat) (hn : 0 < n) (W : Int) (k : Nat) :
    ∃ h, run (new n W) (acquires ((bursts n W k).map Wall.reading)) =
      some (⟨n, W, List.replicate n ((k : Int) * (W + 1))⟩, h) ∧ (∀ e ∈ h, e.2 = true) ∧ h.length = (k + 1) * n := by
  induction k with
  | zero =>
    have h0 := fill_new n W 0 n 0 (by omega)
    have e : new n W = ⟨n, W, List.replicate 0 0⟩ := by simp [new]; omega
    refine ⟨_, by rw [e]; simpa [bursts, Wall.reading] using h0, by simp, by simp⟩
  | succ k ih =>
    obtain ⟨h, hr, ht, hl⟩ := ih
    have h1 := fill_old W ((k : Int) * (W + 1)) (((k + 1 : Nat) : Int) * (W + 1))
      (by push_cast; rw [Int.add_mul]; omega) n 0 (by omega)
    simp only [Nat.zero_add, List.replicate_zero, List.append_nil] at h1
    have e : acquires ((bursts n W (k + 1)).map Wall.reading) = acquires ((bursts n W k).map Wall.reading) ++
        acquires (List.replicate n (((k + 1 : Nat) : Int) * (W + 1))) := by
      simp [bursts, acquires, Wall.reading]
    refine ⟨_, by rw [e, run_append _ _ hr, h1]; rfl, ?_, ?_⟩
    · intro x hx
      simp only [List.mem_append, List.mem_replicate] at hx
      rcases hx with hx | ⟨_, rfl⟩
      · exact ht x hx
      · rfl
    · simp [hl, Nat.add_mul]

theorem bursts_real (n : Nat) (W : Int) (k : Nat) : (∀ w ∈ bursts n W k, w.real = 0) ∧ (bursts n W k).length = (k + 1) * n := by
  induction k with
  | zero => simp [bursts]
  | succ k ih =>
    refine ⟨?_, by simp [bursts, ih.2, Nat.add_mul]⟩
    intro w hw
    simp only [bursts, List.mem_append, List.mem_replicate] at hw
    rcases hw with hw | ⟨_, rfl⟩
    · exact ih.1 w hw
    · rfl

theorem countP_zip_all (p : Wall × Int × Bool → Bool) : ∀ (ws : List Wall) (h : History), ws.length = h.length →
    (∀ w ∈ ws, ∀ e ∈ h, p (w, e) = true) → (ws.zip h).countP p = ws.length
  | [], _, _, _ => by simp
  | w :: ws, [], hl, _ => by simp at hl
  | w :: ws, e :: h, hl, hp => by
    have ih := countP_zip_all p ws h (by simpa using hl)
      (fun v hv x hx => hp v (List.mem_cons_of_mem _ hv) x (List.mem_cons_of_mem _ hx))
    simp [ih, hp w List.mem_cons_self e List.mem_cons_self]

/-- **C146 is violated**: a clock that is set ahead `k` times, by a window and a nanosecond, lets `k + 1` times the capacity
pass at one moment. -/
theorem C146_sliding_bound_violated (n : Nat) (hn : 0 < n) (W : Int) (k : Nat) :
    ∃ ws h, InOrder ws ∧ answers n W ws = some h ∧ admittedReal ws h 0 0 = (k + 1) * n := by
  obtain ⟨h, hr, ht, hl⟩ := bursts_run n hn W k
  obtain ⟨hreal, hlen⟩ := bursts_real n W k
  refine ⟨bursts n W k, h, ?_, by simp [answers, hr], ?_⟩
  · unfold InOrder
    rw [List.pairwise_iff_forall_sublist]
    intro v w hs
    have := hs.subset
    rw [hreal v (this (by simp)), hreal w (this (by simp))]
    exact Int.le_refl 0
  · unfold admittedReal
    rw [countP_zip_all _ _ _ (by rw [hlen, hl]), hlen]
    intro w hw e he
    simp [hreal w hw, ht e he]

/-- The first part of the claim does not hold. -/
theorem C146_sliding_bound_claim_violated : ¬ C146BoundClaim := by
  intro hcl
  obtain ⟨ws, h, h1, h2, h3⟩ := C146_sliding_bound_violated 1 (by omega) 5 1
  have := hcl 1 5 ws h 0 (by omega) h1 h2
  have hle : admittedReal ws h 0 0 ≤ admittedReal ws h 0 (0 + 5) := by
    unfold admittedReal
    apply List.countP_mono_left
    intro p _ hp
    simp only [Bool.and_eq_true, decide_eq_true_eq] at hp ⊢
    exact ⟨hp.1, by omega⟩
  omega

theorem refuse_all (n : Nat) (hn : 0 < n) (W b : Int) : ∀ ts : List Int, (∀ t ∈ ts, t ≤ b + W) →
    run ⟨n, W, List.replicate n b⟩ (acquires ts) = some (⟨n, W, List.replicate n b⟩, ts.map (·, false))
  | [], _ => by simp [acquires, run]
  | t :: ts, h => by
    have ih := refuse_all n hn W b ts (fun x hx => h x (List.mem_cons_of_mem _ hx))
    have ht := h t List.mem_cons_self
    have ha : acquire ⟨n, W, List.replicate n b⟩ t = some (⟨n, W, List.replicate n b⟩, false) := by
      obtain ⟨m, rfl⟩ := Nat.exists_eq_succ_of_ne_zero (Nat.pos_iff_ne_zero.1 hn)
      unfold acquire
      rw [if_neg (by simp only; omega), if_neg (by simp)]
      simp only [List.replicate_succ]
      rw [if_neg (by omega)]
    simp only [acquires, List.map_cons, run, ha] at ih ⊢
    rw [ih]

/-- **C146 is violated**: after a burst that fills the capacity, a clock that is set back by `B` makes the limiter refuse
every call for the window and `B` more, however many calls are made. -/
theorem C146_sliding_refuses_violated (n : Nat) (hn : 0 < n) (W B : Int) (rs : List Int) (hr : ∀ r ∈ rs, r ≤ W + B) :
    answers n W (List.replicate n ⟨0, 0⟩ ++ rs.map (fun r => ⟨r, -B⟩)) =
      some (List.replicate n (0, true) ++ rs.map (fun r => (r - B, false))) := by
  have h0 := fill_new n W 0 n 0 (by omega)
  have e : new n W = ⟨n, W, List.replicate 0 0⟩ := by simp [new]; omega
  have h1 := refuse_all n hn W 0 (rs.map (fun r => r - B)) (by
    intro t ht
    obtain ⟨r, hr1, rfl⟩ := List.mem_map.1 ht
    have := hr r hr1
    omega)
  have e2 : acquires ((List.replicate n (⟨0, 0⟩ : Wall) ++ rs.map (fun r => (⟨r, -B⟩ : Wall))).map Wall.reading) =
      acquires (List.replicate n 0) ++ acquires (rs.map (fun r => r - B)) := by
    simp [acquires, Wall.reading, Int.sub_eq_add_neg]
  simp only [Nat.zero_add] at h0
  unfold answers
  rw [e, e2, run_append _ _ h0, h1]
  simp

/-- The second part of the claim does not hold. -/
theorem C146_sliding_recover_claim_violated : ¬ C146RecoverClaim := by
  intro hcl
  have h := C146_sliding_refuses_violated 1 (by omega) 5 10 [15] (by decide)
  have := hcl 1 5 [⟨0, 0⟩] ⟨15, -10⟩ _ (by omega) (by decide) h (by
    intro p hp _
    have : p = (⟨0, 0⟩, (0, true)) := by simpa using hp
    subst this; decide)
  simp at this

-- The partial statements are not vacuous: three calls, one setting back.
example : answers 1 5 [⟨0, 0⟩, ⟨8, -3⟩, ⟨9, -3⟩] = some [(0, true), (5, false), (6, true)] := by decide
example : Within 3 [⟨0, 0⟩, ⟨8, -3⟩, ⟨9, -3⟩] := ⟨-3, by decide⟩

end Gears.SlidingWindow
