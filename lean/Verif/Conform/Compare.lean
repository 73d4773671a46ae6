import Verif.Conform.Props
import Verif.TtlRedis.Change

/-
Two settings compared, and a limiter compared with any other that keeps the same bound (properties C169 and C170): the limiters of
/repo/ratelimiter.

The models are those of `Verif/TokenBucket/Model.lean` (/repo/ratelimiter/tokenbucket.go:67-104), `Verif/AtomicBucket/Model.lean`
(tokenbucket.go:106-177), `Verif/SlidingWindow/Model.lean` (slidingwindow.go:42-87), `Verif/FixedWindow/Model.lean`
(fixedwindow.go:46-104) and `Verif/TtlRedis/Model.lean` (ttl_ratelimiter_redis.go:54-233).  No new model.
-/

namespace Gears.Conform

/-! ## Specification -/

/-- Another limiter for the same calls: the same times, any answers. -/
def SameCalls (g h : History) : Prop := g.map (·.1) = h.map (·.1)

/-- Each call that is admitted in `h` is admitted in `h'`. -/
def Covers (h h' : History) : Prop := ∀ (i : Nat) (t : Int), h[i]? = some (t, true) → h'[i]? = some (t, true)

/-- How many calls of the redis limiter are not blocked, for one key: capacity `c`, window `w` and timeout `e` in seconds, times in ms. -/
def redisPassed (c w e : Int) (ts : List Int) : Nat :=
  (TtlRedis.run TtlRedis.Db.empty (TtlRedis.Change.callsP (ts.map fun t => (t, c, w, e)))).2.countP fun ev => !ev.result.block

/-- **C169** for the fixed window: with a higher capacity or a shorter window no fewer calls are admitted. -/
def C169Fixed : Prop := ∀ (c c' w w' : Int), 1 ≤ c → c ≤ c' → 1 ≤ w' → w' ≤ w → ∀ ts, NonDecreasing (0 :: ts) →
  admitted (FixedWindow.run (FixedWindow.new c w) ts).2 ≤ admitted (FixedWindow.run (FixedWindow.new c' w') ts).2

/-- **C169** for the redis limiter: with a higher capacity no fewer calls pass. -/
def C169Redis : Prop := ∀ (c c' w e : Int), 1 ≤ c → c ≤ c' → 1 ≤ w → 1 ≤ e → ∀ ts, NonDecreasing (0 :: ts) →
  redisPassed c w e ts ≤ redisPassed c' w e ts

/-- **C170** for a token bucket: no other limiter that admits no more than a burst of the capacity, and the rate for each whole second, admits
more of the same calls. -/
def C170Bucket : Prop := ∀ (c r t0 : Int), 1 ≤ c → 1 ≤ r → ∀ ts, NonDecreasing (t0 :: ts) →
  ∀ g, SameCalls g (TokenBucket.run (TokenBucket.new c r t0) ts).2 → (∀ a d, 0 ≤ d → (admittedIn g a (a + d) : Int) ≤ c + r * (d / 1000000000)) →
  admitted g ≤ admitted (TokenBucket.run (TokenBucket.new c r t0) ts).2

/-- **C170** for the fixed window: no other limiter that admits no more than the capacity in each interval `((k-1)w, kw]` admits more of the same
calls. -/
def C170Fixed : Prop := ∀ (c w : Int), 1 ≤ c → 1 ≤ w → ∀ ts, NonDecreasing (0 :: ts) →
  ∀ g, SameCalls g (FixedWindow.run (FixedWindow.new c w) ts).2 → (∀ k, (admittedIn g ((k - 1) * w + 1) (k * w) : Int) ≤ c) →
  admitted g ≤ admitted (FixedWindow.run (FixedWindow.new c w) ts).2

/-! ## Two limiters, one call after another -/

/-- One call and the answers of two limiters. -/
abbrev Two := Int × Bool × Bool

def cnt1 (lo hi : Int) (G : List Two) : Nat := G.countP fun e => e.2.1 && decide (lo ≤ e.1) && decide (e.1 ≤ hi)

def cnt2 (lo hi : Int) (G : List Two) : Nat := G.countP fun e => e.2.2 && decide (lo ≤ e.1) && decide (e.1 ≤ hi)

/-- Calls in the order of time are cut at a time. -/
theorem two_cut (lo : Int) : ∀ (G : List Two), (G.map (·.1)).Pairwise (· ≤ ·) →
    ∃ a m, G = a ++ m ∧ (∀ e ∈ a, e.1 < lo) ∧ ∀ e ∈ m, lo ≤ e.1
  | [], _ => ⟨[], [], rfl, by simp, by simp⟩
  | x :: G, h => by
    by_cases hx : x.1 < lo
    · obtain ⟨a, m, e, h1, h2⟩ := two_cut lo G (List.pairwise_cons.1 h).2
      exact ⟨x :: a, m, by rw [e]; rfl, by simpa [hx] using h1, h2⟩
    · refine ⟨[], x :: G, rfl, by simp, ?_⟩
      intro e he
      rcases List.mem_cons.1 he with rfl | he
      · omega
      · have : x.1 ≤ e.1 := (List.pairwise_cons.1 h).1 e.1 (List.mem_map_of_mem he)
        omega

/-- If at each call that the first limiter refuses there is a time up to now in which the second has admitted, this call included, no more than
the first, then the second has admitted no more altogether. -/
theorem greedy (n : Nat) : ∀ (G : List Two), G.length = n → (G.map (·.1)).Pairwise (· ≤ ·) →
    (∀ pre t b post, G = pre ++ (t, false, b) :: post → ∃ lo, lo ≤ t ∧ cnt2 lo t (pre ++ [(t, false, b)]) ≤ cnt1 lo t pre) →
    G.countP (·.2.2) ≤ G.countP (·.2.1) := by
  induction n using Nat.strongRecOn with
  | _ n ih =>
    intro G hn hs hrej
    by_cases h0 : G = []
    · subst h0; simp
    obtain ⟨pre, ⟨t, b1, b2⟩, rfl⟩ : ∃ pre x, G = pre ++ [x] := ⟨G.dropLast, G.getLast h0, (List.dropLast_append_getLast _).symm⟩
    simp only [List.length_append, List.length_cons, List.length_nil] at hn
    have hs' := hs
    rw [List.map_append, List.pairwise_append] at hs'
    obtain ⟨hp, _, hlast⟩ := hs'
    cases b1 with
    | true =>
      have := ih pre.length (by omega) pre rfl hp (fun a u b post e => hrej a u b (post ++ [(t, true, b2)]) (by rw [e]; simp))
      simp only [List.countP_append, List.countP_cons, List.countP_nil]
      split <;> simp <;> omega
    | false =>
      obtain ⟨lo, hlo, hc⟩ := hrej pre t b2 [] rfl
      obtain ⟨a, m, rfl, ha, hm⟩ := two_cut lo pre hp
      have hle : ∀ e ∈ a ++ m, e.1 ≤ t := fun e he => hlast e.1 (List.mem_map_of_mem he) t (by simp)
      have hia := ih a.length (by simp only [List.length_append] at hn; omega) a rfl (by rw [List.map_append] at hp; exact (List.pairwise_append.1 hp).1)
        (fun x u b post e => hrej x u b (post ++ m ++ [(t, false, b2)]) (by rw [e]; simp))
      have h1 : cnt1 lo t (a ++ m) = m.countP (·.2.1) := by
        rw [cnt1, List.countP_append, List.countP_eq_zero.2, Nat.zero_add]
        · apply List.countP_congr
          intro e he
          have := hm e he
          have := hle e (List.mem_append_right a he)
          simp [*]
        · intro e he
          have := ha e he
          simp; omega
      have h2 : cnt2 lo t (a ++ m ++ [(t, false, b2)]) = m.countP (·.2.2) + if b2 then 1 else 0 := by
        rw [cnt2, List.countP_append, List.countP_append, List.countP_eq_zero.2, Nat.zero_add]
        · congr 1
          · apply List.countP_congr
            intro e he
            have := hm e he
            have := hle e (List.mem_append_right a he)
            simp [*]
          · cases b2 <;> simp [hlo]
        · intro e he
          have := ha e he
          simp; omega
      rw [h1, h2] at hc
      simp only [List.countP_append, List.countP_cons, List.countP_nil]
      cases b2 <;> simp at hc ⊢ <;> omega

/-- Two histories of the same calls. -/
theorem zipped : ∀ (h g : History), SameCalls g h → ∃ G : List Two, h = G.map (fun e => (e.1, e.2.1)) ∧ g = G.map (fun e => (e.1, e.2.2))
  | [], [], _ => ⟨[], rfl, rfl⟩
  | [], _ :: _, e => by simp [SameCalls] at e
  | _ :: _, [], e => by simp [SameCalls] at e
  | (t, b) :: h, (u, b') :: g, e => by
    simp only [SameCalls, List.map_cons, List.cons.injEq] at e
    obtain ⟨rfl, e⟩ := e
    obtain ⟨G, rfl, rfl⟩ := zipped h g e
    exact ⟨(u, b, b') :: G, rfl, rfl⟩

/-- `greedy` for histories. -/
theorem no_more {h g : History} (hs : SameCalls g h) (hm : NonDecreasing (h.map (·.1)))
    (hrej : ∀ pre t post, h = pre ++ (t, false) :: post → ∃ lo, lo ≤ t ∧ ∀ g1 b g2, g = g1 ++ (t, b) :: g2 → g1.length = pre.length →
      admittedIn (g1 ++ [(t, b)]) lo t ≤ admittedIn pre lo t) : admitted g ≤ admitted h := by
  obtain ⟨G, rfl, rfl⟩ := zipped h g hs
  have hm' : (G.map (·.1)).Pairwise (· ≤ ·) := by
    have e : (G.map fun e => (e.1, e.2.1)).map (·.1) = G.map (·.1) := by simp [Function.comp_def]
    rw [← e]; exact hm
  have := greedy _ G rfl hm' (fun pre t b post e => by
    obtain ⟨lo, hlo, hx⟩ := hrej (pre.map fun e => (e.1, e.2.1)) t (post.map fun e => (e.1, e.2.1)) (by rw [e]; simp)
    refine ⟨lo, hlo, ?_⟩
    have := hx (pre.map fun e => (e.1, e.2.2)) b (post.map fun e => (e.1, e.2.2)) (by rw [e]; simp) (by simp)
    simpa [admittedIn, cnt1, cnt2, List.countP_map, List.countP_append, Function.comp_def] using this)
  simpa [admitted, List.countP_map, Function.comp_def] using this

theorem admittedIn_mono {h : History} {a b a' b' : Int} (h1 : a' ≤ a) (h2 : b ≤ b') : admittedIn h a b ≤ admittedIn h a' b' := by
  apply List.countP_mono_left
  intro e _ he
  simp at he ⊢
  exact ⟨⟨he.1.1, by omega⟩, by omega⟩

theorem admittedIn_prefix (g1 g2 : History) (e : Int × Bool) (a b : Int) : admittedIn (g1 ++ [e]) a b ≤ admittedIn (g1 ++ e :: g2) a b := by
  simp only [admittedIn, List.countP_append, List.countP_cons, List.countP_nil]
  omega

/-! ## Sliding window -/

section Sliding
open SlidingWindow

theorem sliding_split : ∀ (ts : List Int) (s s' : State) (h : History), run s (acquires ts) = some (s', h) →
    ∀ pre t b post, h = pre ++ (t, b) :: post → ∃ ts1 ts2 s1 s2, ts = ts1 ++ t :: ts2 ∧ run s (acquires ts1) = some (s1, pre) ∧ acquire s1 t = some (s2, b)
  | [], s, s', h, hr, pre, t, b, post, e => by
    simp [acquires, run] at hr
    rw [hr.2] at e
    cases pre <;> cases e
  | u :: ts, s, s', h, hr, pre, t, b, post, e => by
    simp only [acquires, List.map_cons, run] at hr
    split at hr
    · cases hr
    · rename_i s1 b1 ha
      split at hr
      · cases hr
      · rename_i s2 h2 hr2
        cases hr
        cases pre with
        | nil =>
          cases e
          exact ⟨[], ts, s, s1, rfl, rfl, ha⟩
        | cons x pre =>
          cases e
          obtain ⟨ts1, ts2, s3, s4, e1, e2, e3⟩ := sliding_split ts s1 _ _ hr2 pre t b post rfl
          refine ⟨u :: ts1, ts2, s3, s4, by rw [e1]; rfl, ?_, e3⟩
          simp only [acquires] at e2
          simp only [acquires, List.map_cons, run, ha, e2]

/-- **C170** for the sliding window: it keeps the bound, and no other limiter that keeps it admits more of the same calls. -/
theorem C170_sliding (c w : Int) (hc : 1 ≤ c) (hw : 0 ≤ w) (ts : List Int) (hm : NonDecreasing ts) :
    ∃ s h, run (new c w) (acquires ts) = some (s, h) ∧ h.map (·.1) = ts ∧ (∀ a, (admittedIn h a (a + w) : Int) ≤ c) ∧
      ∀ g, SameCalls g h → (∀ a, (admittedIn g a (a + w) : Int) ≤ c) → admitted g ≤ admitted h := by
  obtain ⟨s, h, hr⟩ : ∃ s h, run (new c w) (acquires ts) = some (s, h) := by
    obtain ⟨k, rfl⟩ := Int.eq_ofNat_of_zero_le (show 0 ≤ c by omega)
    obtain ⟨s0, h0, hr0, _⟩ := run_acquires_inv (n := k) (by omega) (W := w) ts [] (new k w) (new_inv w)
    exact ⟨s0, h0, hr0⟩
  have ht := sliding_times ts _ _ _ hr
  refine ⟨s, h, hr, ht, ?_, ?_⟩
  · intro a
    obtain ⟨s1, h1, hr1, _, hb⟩ := C08_window_bound c w (by omega) ts a
    rw [hr] at hr1
    cases hr1
    exact hb
  · intro g hs hg
    refine no_more hs (by rw [ht]; exact hm) ?_
    intro pre t post e
    obtain ⟨ts1, ts2, s1, s2, e1, e2, e3⟩ := sliding_split ts _ _ _ hr pre t false post e
    have hm1 : NonDecreasing (ts1 ++ [t]) := by
      rw [e1, show ts1 ++ t :: ts2 = (ts1 ++ [t]) ++ ts2 by simp] at hm
      exact (List.pairwise_append.1 hm).1
    obtain ⟨s3, b, f1, f2⟩ := C09_exact_log c w (by omega) ts1 t hm1 s1 pre e2
    rw [e3] at f1
    cases f1
    refine ⟨t - w, by omega, ?_⟩
    intro g1 b g2 eg _
    have h1 := hg (t - w)
    rw [eg, show t - w + w = t by omega] at h1
    have h2 := admittedIn_prefix g1 g2 (t, b) (t - w) t
    have h3 : ¬ (admittedIn pre (t - w) t : Int) < c := fun hh => by cases f2.2 hh
    omega

/-- **C169** for the sliding window: with a higher capacity or a shorter window no fewer of the same calls are admitted. -/
theorem C169_sliding (c c' w w' : Int) (hc : 1 ≤ c) (hcc : c ≤ c') (hw : 0 ≤ w') (hww : w' ≤ w) (ts : List Int) (hm : NonDecreasing ts) :
    ∃ s h s' h', run (new c w) (acquires ts) = some (s, h) ∧ run (new c' w') (acquires ts) = some (s', h') ∧ admitted h ≤ admitted h' := by
  obtain ⟨s, h, r1, t1, b1, _⟩ := C170_sliding c w hc (by omega) ts hm
  obtain ⟨s', h', r2, t2, _, o2⟩ := C170_sliding c' w' (by omega) hw ts hm
  refine ⟨s, h, s', h', r1, r2, o2 h (by rw [SameCalls, t1, t2]) ?_⟩
  intro a
  have := b1 a
  have := admittedIn_mono (h := h) (a := a) (b := a + w') (a' := a) (b' := a + w) (by omega) (by omega)
  omega

/-- The calls that only the second admits. -/
def extra (lo hi : Int) (G : List Two) : Nat := G.countP fun e => !e.2.1 && e.2.2 && decide (lo ≤ e.1) && decide (e.1 ≤ hi)

theorem cnt_extra (lo hi : Int) : ∀ (G : List Two), (∀ e ∈ G, e.2.1 = true → e.2.2 = true) → cnt2 lo hi G = cnt1 lo hi G + extra lo hi G
  | [], _ => rfl
  | (t, b1, b2) :: G, h => by
    have ih := cnt_extra lo hi G (fun e he => h e (List.mem_cons_of_mem _ he))
    have h0 := h (t, b1, b2) (List.mem_cons_self ..)
    simp only [cnt1, cnt2, extra, List.countP_cons] at ih ⊢
    rw [ih]
    cases b1 <;> cases b2 <;> simp at h0 ⊢ <;> omega

/-- Two logs of the same calls with the same window: the second, with the higher capacity, admits what the first admits, and in addition no more
than the difference within the window. -/
theorem logs (c c' w : Int) (hcc : c ≤ c') (n : Nat) : ∀ (G : List Two), G.length = n → (G.map (·.1)).Pairwise (· ≤ ·) →
    (∀ pre t b1 b2 post, G = pre ++ (t, b1, b2) :: post → (b1 = true ↔ (cnt1 (t - w) t pre : Int) < c) ∧ (b2 = true ↔ (cnt2 (t - w) t pre : Int) < c')) →
    (∀ e ∈ G, e.2.1 = true → e.2.2 = true) ∧ ∀ t, (∀ e ∈ G, e.1 ≤ t) → (extra (t - w) t G : Int) ≤ c' - c := by
  induction n with
  | zero =>
    intro G hn _ _
    cases List.length_eq_zero_iff.1 hn
    refine ⟨by simp, fun t _ => ?_⟩
    simp [extra]; omega
  | succ n ih =>
    intro G hn hs hG
    obtain ⟨pre, ⟨u, b1, b2⟩, rfl⟩ : ∃ pre x, G = pre ++ [x] :=
      ⟨G.dropLast, G.getLast (by intro h; rw [h] at hn; cases hn), (List.dropLast_append_getLast _).symm⟩
    rw [List.map_append, List.pairwise_append] at hs
    have hu : ∀ e ∈ pre, e.1 ≤ u := fun e he => hs.2.2 e.1 (List.mem_map_of_mem he) u (by simp)
    obtain ⟨i1, i2⟩ := ih pre (by simpa using hn) hs.1 (fun a t x y post e => hG a t x y (post ++ [(u, b1, b2)]) (by rw [e]; simp))
    obtain ⟨d1, d2⟩ := hG pre u b1 b2 [] rfl
    have hx := cnt_extra (u - w) u pre i1
    have hd := i2 u hu
    refine ⟨?_, ?_⟩
    · intro e he
      rcases List.mem_append.1 he with he | he
      · exact i1 e he
      · simp only [List.mem_singleton] at he
        subst he
        dsimp only
        intro hb
        have := d1.1 hb
        exact d2.2 (by omega)
    · intro t ht
      have hut : u ≤ t := ht (u, b1, b2) (by simp)
      have hmono : extra (t - w) t pre ≤ extra (u - w) u pre := by
        apply List.countP_mono_left
        intro e he hh
        have := hu e he
        simp at hh ⊢
        exact ⟨⟨hh.1.1, by omega⟩, by omega⟩
      have hl : extra (t - w) t (pre ++ [(u, b1, b2)]) ≤ extra (t - w) t pre + (if b1 = false ∧ b2 = true then 1 else 0) := by
        simp only [extra, List.countP_append, List.countP_cons, List.countP_nil]
        cases b1 <;> cases b2 <;> simp
        split <;> omega
      by_cases hb : b1 = false ∧ b2 = true
      · rw [if_pos hb] at hl
        have h1 := d2.1 hb.2
        have h2 : ¬ (cnt1 (u - w) u pre : Int) < c := fun hh => by have := d1.2 hh; rw [hb.1] at this; cases this
        omega
      · rw [if_neg hb] at hl
        omega

/-- What `C09` says of a whole history. -/
theorem sliding_log (c w : Int) (hc : 1 ≤ c) (ts : List Int) (hm : NonDecreasing ts) (s : State) (h : History) (hr : run (new c w) (acquires ts) = some (s, h))
    (pre : History) (t : Int) (b : Bool) (post : History) (e : h = pre ++ (t, b) :: post) : b = true ↔ (admittedIn pre (t - w) t : Int) < c := by
  obtain ⟨ts1, ts2, s1, s2, e1, e2, e3⟩ := sliding_split ts _ _ _ hr pre t b post e
  have hm1 : NonDecreasing (ts1 ++ [t]) := by
    rw [e1, show ts1 ++ t :: ts2 = (ts1 ++ [t]) ++ ts2 by simp] at hm
    exact (List.pairwise_append.1 hm).1
  obtain ⟨s3, b', f1, f2⟩ := C09_exact_log c w (by omega) ts1 t hm1 s1 pre e2
  rw [e3] at f1
  cases f1
  exact f2

/-- **C169** for the sliding window, the capacity: each call that is admitted with a capacity is admitted with a higher one. -/
theorem C169_sliding_capacity (c c' w : Int) (hc : 1 ≤ c) (hcc : c ≤ c') (ts : List Int) (hm : NonDecreasing ts) :
    ∃ s h s' h', run (new c w) (acquires ts) = some (s, h) ∧ run (new c' w) (acquires ts) = some (s', h') ∧ Covers h h' := by
  have ex : ∀ d : Int, 1 ≤ d → ∃ s h, run (new d w) (acquires ts) = some (s, h) := by
    intro d hd
    obtain ⟨k, rfl⟩ := Int.eq_ofNat_of_zero_le (show 0 ≤ d by omega)
    obtain ⟨s0, h0, hr0, _⟩ := run_acquires_inv (n := k) (by omega) (W := w) ts [] (new k w) (new_inv w)
    exact ⟨s0, h0, hr0⟩
  obtain ⟨s, h, r1⟩ := ex c hc
  obtain ⟨s', h', r2⟩ := ex c' (by omega)
  refine ⟨s, h, s', h', r1, r2, ?_⟩
  have l1 := sliding_log c w hc ts hm s h r1
  have l2 := sliding_log c' w (by omega) ts hm s' h' r2
  have t1 := sliding_times ts _ _ _ r1
  have t2 := sliding_times ts _ _ _ r2
  clear r1 r2 ex
  obtain ⟨G, rfl, rfl⟩ := zipped h h' (by rw [SameCalls, t1, t2])
  have hs : (G.map (·.1)).Pairwise (· ≤ ·) := by
    have e : (G.map fun e => (e.1, e.2.1)).map (·.1) = G.map (·.1) := by simp [Function.comp_def]
    rw [← e, t1]; exact hm
  have key := (logs c c' w hcc _ G rfl hs (fun pre t b1 b2 post e => by
    have a1 := l1 (pre.map fun e => (e.1, e.2.1)) t b1 (post.map fun e => (e.1, e.2.1)) (by rw [e]; simp)
    have a2 := l2 (pre.map fun e => (e.1, e.2.2)) t b2 (post.map fun e => (e.1, e.2.2)) (by rw [e]; simp)
    refine ⟨?_, ?_⟩
    · simpa [admittedIn, cnt1, List.countP_map, Function.comp_def] using a1
    · simpa [admittedIn, cnt2, List.countP_map, Function.comp_def] using a2)).1
  intro i t hi
  rw [List.getElem?_map, Option.map_eq_some_iff] at hi
  obtain ⟨⟨u, b1, b2⟩, e1, e2⟩ := hi
  simp only [Prod.mk.injEq] at e2
  obtain ⟨rfl, rfl⟩ := e2
  rw [List.getElem?_map, e1]
  have := key _ (List.mem_of_getElem? e1) rfl
  dsimp only at this
  subst this
  rfl

/-- Not with a shorter window: the call at 105 is admitted with a window of 100 and refused with one of 90, as the one at 95 was admitted.  (As many
are admitted altogether.) -/
example : (run (new 1 100) (acquires [0, 95, 105])).map (·.2) = some [(0, true), (95, false), (105, true)] ∧
    (run (new 1 90) (acquires [0, 95, 105])).map (·.2) = some [(0, true), (95, true), (105, false)] := by
  decide

/-- Non-vacuity: capacity 2, window 10: 0, 1 and 11 are admitted, 2 and 10 not. -/
example : (run (new 2 10) (acquires [0, 1, 2, 10, 11])).map (·.2) = some [(0, true), (1, true), (2, false), (10, false), (11, true)] ∧
    (run (new 2 9) (acquires [0, 1, 2, 10, 11])).map (·.2) = some [(0, true), (1, true), (2, false), (10, true), (11, true)] := by
  decide

end Sliding

/-! ## Fixed window -/

section Fixed
open FixedWindow

theorem fixed_split : ∀ (ts : List Int) (s : State) (pre : History) (t : Int) (b : Bool) (post : History), (run s ts).2 = pre ++ (t, b) :: post →
    ∃ ts1 ts2, ts = ts1 ++ t :: ts2 ∧ (run s ts1).2 = pre ∧ (acquire (run s ts1).1 t).2 = b
  | [], s, pre, t, b, post, e => by
    simp [run] at e
  | u :: ts, s, pre, t, b, post, e => by
    simp only [run] at e
    cases pre with
    | nil =>
      simp only [List.nil_append, List.cons.injEq, Prod.mk.injEq] at e
      obtain ⟨⟨rfl, e⟩, _⟩ := e
      exact ⟨[], ts, rfl, rfl, e⟩
    | cons x pre =>
      simp only [List.cons_append, List.cons.injEq] at e
      obtain ⟨rfl, e⟩ := e
      obtain ⟨ts1, ts2, e1, e2, e3⟩ := fixed_split ts _ pre t b post e
      exact ⟨u :: ts1, ts2, by rw [e1]; rfl, by simp only [run, e2], e3⟩

theorem clockOk_nondec {W : Int} : ∀ {ts : List Int}, ClockOk W ts → NonDecreasing ts
  | [], _ => List.Pairwise.nil
  | t :: ts, h => by
    have : ∀ (us : List Int) (p : Int), Steady p us → NonDecreasing (p :: us) := by
      intro us
      induction us with
      | nil => intro p _; simp [NonDecreasing]
      | cons v us ih =>
        intro p h
        have hv := ih v h.2.2
        refine List.pairwise_cons.2 ⟨?_, hv⟩
        intro x hx
        rcases List.mem_cons.1 hx with rfl | hx
        · exact h.1
        · exact Int.le_trans h.1 ((List.pairwise_cons.1 hv).1 x hx)
    exact this ts t h.2.2

theorem inInterval_eq (h : History) (W k : Int) : admittedInInterval h W k = admittedIn h ((k - 1) * W + 1) (k * W) := by
  unfold admittedInInterval admittedIn
  congr 1

/-- **C170** for the fixed window, clock restricted as in C13: no other limiter that admits no more than the capacity in each interval
`((k-1)W, kW]` admits more of the same calls.  Missing: `C170Fixed`. -/
theorem C170_fixed_partial (c W : Int) (hc : 0 ≤ c) (hW : 0 < W) (hW2 : W < 2 ^ 53) (ts : List Int) (hok : ClockOk W ts) (g : History)
    (hs : SameCalls g (run (new c W) ts).2) (hg : ∀ k, (admittedIn g ((k - 1) * W + 1) (k * W) : Int) ≤ c) :
    admitted g ≤ admitted (run (new c W) ts).2 := by
  refine no_more hs (by rw [fixed_times]; exact clockOk_nondec hok) ?_
  intro pre t post e
  obtain ⟨ts1, ts2, rfl, e2, e3⟩ := fixed_split ts _ pre t false post e
  obtain ⟨k, hk1, hk2⟩ := exists_ceil t W hW
  have hrej := (C13_reject_iff_used_up_partial c W hW hW2 ts1 t k (clockOk_prefix hok) hk1 hk2).1 e3
  refine ⟨(k - 1) * W + 1, by omega, ?_⟩
  intro g1 b g2 eg _
  have h1 := hg k
  rw [eg] at h1
  have h2 := admittedIn_prefix g1 g2 (t, b) ((k - 1) * W + 1) (k * W)
  have h3 := admittedIn_mono (h := g1 ++ [(t, b)]) (a := (k - 1) * W + 1) (a' := (k - 1) * W + 1) (Int.le_refl _) hk2
  rw [e2, inInterval_eq] at hrej
  have h4 : admittedIn pre ((k - 1) * W + 1) t = admittedIn pre ((k - 1) * W + 1) (k * W) := by
    apply List.countP_congr
    intro x hx
    have : x.1 ≤ t := by
      have hm := clockOk_nondec hok
      rw [← fixed_times (new c W) (ts1 ++ t :: ts2), e, List.map_append] at hm
      exact (List.pairwise_append.1 hm).2.2 x.1 (List.mem_map_of_mem hx) t (by simp)
    simp
    omega
  omega

/-- The states of two fixed windows that differ in the capacity only, after the same calls. -/
def Alike (s s' : State) : Prop := s.capacity ≤ s'.capacity ∧ s'.windowSize = s.windowSize ∧ s'.till = s.till ∧ s.count ≤ s'.count ∧
  (s.count < s.capacity → s'.count = s.count)

theorem alike_step (s s' : State) (t : Int) (h : Alike s s') :
    Alike (acquire s t).1 (acquire s' t).1 ∧ ((acquire s t).2 = true → (acquire s' t).2 = true) := by
  obtain ⟨c, w, u, n⟩ := s
  obtain ⟨c', w', u', n'⟩ := s'
  simp only [Alike] at h
  obtain ⟨h1, rfl, rfl, h5, h6⟩ := h
  simp only [acquire, contains, reset]
  by_cases ht : u' ≥ t
  · simp only [ht, not_true, if_false]
    by_cases h7 : n < c
    · have := h6 h7
      subst this
      rw [if_pos h7, if_pos (show n' < c' by omega)]
      simp [Alike, h1]
    · rw [if_neg h7]
      split <;> simp [Alike] <;> omega
  · simp only [ht, not_false_eq_true, if_true, if_false]
    by_cases h7 : 0 < c
    · rw [if_pos h7, if_pos (show 0 < c' by omega)]
      simp [Alike, h1]
    · rw [if_neg h7]
      split <;> simp [Alike] <;> omega

theorem alike_run : ∀ (ts : List Int) (s s' : State), Alike s s' → Covers (run s ts).2 (run s' ts).2
  | [], s, s', _ => by intro i t h; simp [run] at h
  | u :: ts, s, s', h => by
    obtain ⟨a, b⟩ := alike_step s s' u h
    have ih := alike_run ts _ _ a
    intro i t hi
    cases i with
    | zero =>
      simp only [run, List.getElem?_cons_zero, Option.some.injEq, Prod.mk.injEq] at hi ⊢
      exact ⟨hi.1, b hi.2⟩
    | succ i =>
      simp only [run, List.getElem?_cons_succ] at hi ⊢
      exact ih i t hi

/-- **C169** for the fixed window, the capacity, whatever the clock shows: each call that is admitted with a capacity is admitted with a higher
one.  Missing: the shorter window (`C169Fixed`). -/
theorem C169_fixed_capacity_partial (c c' W : Int) (hcc : c ≤ c') (ts : List Int) : Covers (run (new c W) ts).2 (run (new c' W) ts).2 :=
  alike_run ts _ _ (by simp [Alike, new, hcc])

/-- **C169 is violated** by the fixed window: a shorter window may let fewer pass.  Capacity 1, calls at 3 and 4: a window of 3 ns puts them in
`(0, 3]` and `(3, 6]`, one of 2 ns both in `(2, 4]`. -/
theorem C169_fixed_violated : ¬ C169Fixed := by
  intro h
  have := h 1 1 3 2 (by decide) (by decide) (by decide) (by decide) [3, 4] (by decide)
  revert this
  decide +kernel

/-- **C170 is violated** by the fixed window, at the times of today: the first interval is not computed exactly (C13).  Capacity 1, a window of a
ninth of a second; of two calls that are a whole window apart the second is refused. -/
theorem C170_fixed_violated : ¬ C170Fixed := by
  intro h
  have hw : ∀ k : Int, (admittedIn [(1700000000522222219, true), (1700000000633333330, true)] ((k - 1) * 111111111 + 1) (k * 111111111) : Int) ≤ 1 := by
    intro k
    simp only [admittedIn, List.countP_cons, List.countP_nil, Bool.and_eq_true, decide_eq_true_eq]
    split <;> split <;> omega
  have h1 := h 1 111111111 (by decide) (by decide) [1700000000522222219, 1700000000633333330] (by decide) _
    (by simp [SameCalls, run]) hw
  simp [run, acquire, new, contains, reset, goCeilDiv_sample3, admitted] at h1

/-- Non-vacuity of C170: capacity 1, window 10; another limiter may refuse 3 and let 4 pass, but not more. -/
example : ClockOk 10 [3, 4, 13] ∧ (run (new 1 10) [3, 4, 13]).2 = [(3, true), (4, false), (13, true)] ∧
    SameCalls [(3, false), (4, true), (13, true)] (run (new 1 10) [3, 4, 13]).2 := by
  refine ⟨?_, by decide +kernel, by unfold SameCalls; decide +kernel⟩
  simp [ClockOk, FirstOk, Steady]

/-- Non-vacuity: capacities 1 and 2, window 10. -/
example : (run (new 1 10) [3, 4, 5, 13]).2 = [(3, true), (4, false), (5, false), (13, true)] ∧
    (run (new 2 10) [3, 4, 5, 13]).2 = [(3, true), (4, true), (5, false), (13, true)] := by
  decide +kernel

end Fixed

/-! ## Token buckets -/

section Bucket
open TokenBucket

/-- Two buckets of the same start after the same calls. -/
structure Ahead (s s' : State) : Prop where
  wf  : WF s
  wf' : WF s'
  r   : 1 ≤ s.rate
  rr  : s.rate ≤ s'.rate
  cc  : s.capacity ≤ s'.capacity
  c1  : 1 ≤ s.capacity
  l   : s'.last = s.last
  f   : (s.tokens = s.capacity ∧ s'.tokens = s'.capacity) ∨ (s.tokens < s.capacity ∧ s'.tokens < s'.capacity)
  ge  : s.tokens ≤ s'.tokens

/-- What `Acquire` does after the issue. -/
def take (s : State) : State × Bool := if s.tokens > 0 then ({ s with tokens := s.tokens - 1 }, true) else (s, false)

theorem take_ahead (s s' : State) (wf : WF s) (wf' : WF s') (r : 1 ≤ s.rate) (rr : s.rate ≤ s'.rate) (cc : s.capacity ≤ s'.capacity)
    (c1 : 1 ≤ s.capacity) (l : s'.last = s.last) (ge : s.tokens ≤ s'.tokens) : Ahead (take s).1 (take s').1 ∧ ((take s).2 = true → (take s').2 = true) := by
  obtain ⟨w1, w2, w3, w4⟩ := wf
  obtain ⟨v1, v2, v3, v4⟩ := wf'
  unfold take
  by_cases h1 : s.tokens > 0
  · have h2 : s'.tokens > 0 := by omega
    rw [if_pos h1, if_pos h2]
    exact ⟨⟨⟨w1, w2, by dsimp only; omega, by dsimp only; omega⟩, ⟨v1, v2, by dsimp only; omega, by dsimp only; omega⟩, r, rr, cc, c1, l,
      .inr ⟨by dsimp only; omega, by dsimp only; omega⟩, by dsimp only; omega⟩, fun _ => rfl⟩
  · rw [if_neg h1]
    by_cases h2 : s'.tokens > 0
    · rw [if_pos h2]
      exact ⟨⟨⟨w1, w2, w3, w4⟩, ⟨v1, v2, by dsimp only; omega, by dsimp only; omega⟩, r, rr, cc, c1, l,
        .inr ⟨by dsimp only; omega, by dsimp only; omega⟩, by dsimp only; omega⟩, fun _ => rfl⟩
    · rw [if_neg h2]
      exact ⟨⟨⟨w1, w2, w3, w4⟩, ⟨v1, v2, v3, v4⟩, r, rr, cc, c1, l,
        .inr ⟨by dsimp only; omega, by dsimp only; omega⟩, ge⟩, id⟩

theorem ahead_step (s s' : State) (t : Int) (h : Ahead s s') (hl : s.last ≤ t) :
    (Ahead (acquire s t).1 (acquire s' t).1 ∧ ((acquire s t).2 = true → (acquire s' t).2 = true)) ∧ (acquire s t).1.last ≤ t := by
  obtain ⟨wf, wf', r, rr, cc, c1, l, f, ge⟩ := h
  refine ⟨?_, (acquire_spec s t wf hl).2.2.2.2.1⟩
  have hk0 : 0 ≤ (t - s.last) / second := Int.ediv_nonneg (by omega) (by decide)
  show Ahead (take (issueIfNecessary s t)).1 (take (issueIfNecessary s' t)).1 ∧ ((take (issueIfNecessary s t)).2 = true → (take (issueIfNecessary s' t)).2 = true)
  rcases f with ⟨f1, f2⟩ | ⟨f1, f2⟩
  · have e1 : issueIfNecessary s t = s := by unfold issueIfNecessary; rw [if_pos (by omega)]
    have e2 : issueIfNecessary s' t = s' := by unfold issueIfNecessary; rw [if_pos (by omega)]
    rw [e1, e2]
    exact take_ahead s s' wf wf' r rr cc c1 l ge
  · have i1 := issue_cases s t hl (by omega) (by omega)
    have i2 := issue_cases s' t (by omega) (by omega) (by omega)
    rw [l] at i2
    by_cases hk : (t - s.last) / second = 0
    · rw [hk, Int.zero_mul, Int.add_zero] at i1
      rw [hk, Int.zero_mul, Int.add_zero] at i2
      have e1 : issueIfNecessary s t = s := by
        rcases i1 with ⟨e, _⟩ | ⟨x, _, _, h1, h2, h3⟩
        · exact e
        · omega
      have e2 : issueIfNecessary s' t = s' := by
        rcases i2 with ⟨e, _⟩ | ⟨x, _, _, h1, h2, h3⟩
        · exact e
        · omega
      rw [e1, e2]
      exact take_ahead s s' wf wf' r rr cc c1 l ge
    · have p1 : 1 ≤ (t - s.last) / second * s.rate := by
        have := Int.mul_le_mul (show 1 ≤ (t - s.last) / second by omega) r (by omega) hk0
        omega
      have p2 : (t - s.last) / second * s.rate ≤ (t - s.last) / second * s'.rate := Int.mul_le_mul_of_nonneg_left rr hk0
      generalize (t - s.last) / second * s.rate = q at *
      generalize (t - s.last) / second * s'.rate = q' at *
      rcases i1 with ⟨_, h0⟩ | ⟨x, e1, _, h1, h2, h3⟩
      · omega
      rcases i2 with ⟨_, h0⟩ | ⟨x', e2, _, h1', h2', h3'⟩
      · omega
      rw [e1, e2]
      have w3 := wf.lo
      have v3 := wf'.lo
      exact take_ahead { s with tokens := x, last := t } { s' with tokens := x', last := t } ⟨wf.cap, wf.rate, by dsimp only; omega, h2⟩
        ⟨wf'.cap, wf'.rate, by dsimp only; omega, h2'⟩ r rr cc c1 rfl (by dsimp only; omega)

theorem ahead_run : ∀ (ts : List Int) (s s' : State), Ahead s s' → NonDecreasing (s.last :: ts) → Covers (run s ts).2 (run s' ts).2
  | [], s, s', h, _ => by intro i t h; simp [run] at h
  | u :: ts, s, s', h, hm => by
    have hm2 := (List.pairwise_cons.1 hm)
    obtain ⟨⟨a1, a2⟩, a3⟩ := ahead_step s s' u h (hm2.1 u (by simp))
    have hm3 : NonDecreasing ((acquire s u).1.last :: ts) := by
      refine List.pairwise_cons.2 ⟨?_, (List.pairwise_cons.1 hm2.2).2⟩
      intro x hx
      exact Int.le_trans a3 ((List.pairwise_cons.1 hm2.2).1 x hx)
    have ih := ahead_run ts _ _ a1 hm3
    intro i t hi
    cases i with
    | zero =>
      simp only [run, List.getElem?_cons_zero, Option.some.injEq, Prod.mk.injEq] at hi ⊢
      exact ⟨hi.1, a2 hi.2⟩
    | succ i =>
      simp only [run, List.getElem?_cons_succ] at hi ⊢
      exact ih i t hi

/-- **C169** for the token bucket: each call that is admitted with a capacity and a rate is admitted with a higher capacity and a higher rate. -/
theorem C169_bucket (c c' r r' t0 : Int) (hc : 1 ≤ c) (hcc : c ≤ c') (hr : 1 ≤ r) (hrr : r ≤ r') (ts : List Int) (hm : NonDecreasing (t0 :: ts)) :
    Covers (run (new c r t0) ts).2 (run (new c' r' t0) ts).2 :=
  ahead_run ts (new c r t0) (new c' r' t0)
    ⟨new_wf (by omega) (by omega), new_wf (by omega) (by omega), hr, hrr, hcc, hc, rfl, .inl ⟨rfl, rfl⟩, hcc⟩ hm

/-- **C169** for the atomic token bucket, called sequentially at the same times. -/
theorem C169_atomic (c c' r r' t0 : Int) (hc : 1 ≤ c) (hcc : c ≤ c') (hr : 1 ≤ r) (hrr : r ≤ r') (n n' : Nat) (cs cs' : List (Int × Nat))
    (s s' : AtomicBucket.State) (h : AtomicBucket.SeqExec (AtomicBucket.init c r t0 n) cs s) (h' : AtomicBucket.SeqExec (AtomicBucket.init c' r' t0 n') cs' s')
    (hs : AtomicBucket.readings t0 cs' = AtomicBucket.readings t0 cs) (hm : NonDecreasing (t0 :: AtomicBucket.readings t0 cs)) :
    ∀ i : Nat, s.log[i]? = some true → s'.log[i]? = some true := by
  rw [AtomicBucket.C05_sequential_equals_sync c r t0 n cs s h, AtomicBucket.C05_sequential_equals_sync c' r' t0 n' cs' s' h', hs]
  intro i hi
  rw [List.getElem?_map, Option.map_eq_some_iff] at hi
  obtain ⟨⟨t, b⟩, e1, e2⟩ := hi
  dsimp only at e2
  subst e2
  rw [List.getElem?_map, C169_bucket c c' r r' t0 hc hcc hr hrr _ hm i t e1]
  rfl

/-- Non-vacuity: with capacity 2 the second call at 0 is admitted too. -/
example : (run (new 1 1 0) [0, 0, 1900000000, 2000000000]).2 = [(0, true), (0, false), (1900000000, true), (2000000000, false)] ∧
    (run (new 2 1 0) [0, 0, 1900000000, 2000000000]).2 = [(0, true), (0, true), (1900000000, true), (2000000000, false)] := by
  decide

/-- **C170 is violated** by the token buckets: capacity 3, rate 2, three calls at 0, two at 1.9 s, one at 2.0 s; another limiter may let all of
them pass, the bucket refuses the last. -/
theorem C170_bucket_violated : ¬ C170Bucket := by
  intro h
  have hw : ∀ a d, 0 ≤ d → (admittedIn [(0, true), (0, true), (0, true), (1900000000, true), (1900000000, true), (2000000000, true)] a (a + d) : Int) ≤
      3 + 2 * (d / 1000000000) := by
    intro a d hd
    simp only [admittedIn, List.countP_cons, List.countP_nil, Bool.and_eq_true, decide_eq_true_eq]
    by_cases h1 : a ≤ 0 <;> by_cases h2 : a ≤ 1900000000 <;> by_cases h3 : a ≤ 2000000000 <;>
      by_cases h4 : 0 ≤ a + d <;> by_cases h5 : 1900000000 ≤ a + d <;> by_cases h6 : 2000000000 ≤ a + d <;> simp [h1, h2, h3, h4, h5, h6] <;> omega
  have := h 3 2 0 (by decide) (by decide) [0, 0, 0, 1900000000, 1900000000, 2000000000] (by decide) _ (by unfold SameCalls; decide) hw
  revert this
  decide

end Bucket

/-! ## Redis -/

/-- **C169 is violated** by the redis limiter: what is blocked depends on who begins the block.  Window one second, timeout ten seconds.  Three calls
at 0, one at 0.999 s, two at 10.5 s: with capacity 2 the third call begins the block and the last two pass, four in all; with capacity 3 the fourth
begins it and the last two are blocked, three in all. -/
theorem C169_redis_violated : ¬ C169Redis := by
  intro h
  have := h 2 3 1 10 (by decide) (by decide) (by decide) (by decide) [0, 0, 0, 999, 10500, 10500] (by decide)
  revert this
  decide +kernel

/-- Non-vacuity: what the two pass. -/
example : redisPassed 2 1 10 [0, 0, 0, 999, 10500, 10500] = 4 ∧ redisPassed 3 1 10 [0, 0, 0, 999, 10500, 10500] = 3 := by
  decide +kernel

end Gears.Conform
