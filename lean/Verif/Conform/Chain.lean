import Verif.TokenBucket.Props
import Verif.SlidingWindow.Props
import Verif.FixedWindow.Start

/-
Several limiters asked one after the other (C175): the interface of /repo/ratelimiter/interface.go:22-28 has no call that
gives a permit back, and no limiter that combines others, so a caller with several limits (per second and per hour, say)
writes

    for _, l := range limiters { if !l.Acquire() { return false } }; return true

Every `Acquire` reads the clock for itself, so a request is given by one reading per limiter; one goroutine.  The limiters
are those of TokenBucket/Model.lean (tokenbucket.go:71-104), SlidingWindow/Model.lean (slidingwindow.go:62-87) and
FixedWindow/Model.lean (fixedwindow.go:66-104).
-/

namespace Gears.Conform.Chain

open Gears

/-- A limiter of the package. -/
inductive Lim where
  | bucket (s : TokenBucket.State)
  | sliding (s : SlidingWindow.State)
  | fixed (s : FixedWindow.State)

/-- `Acquire`; the panic of slidingwindow.go:79 does not occur (C08), and would be a refusal here. -/
def Lim.acquire : Lim → Int → Lim × Bool
  | .bucket s, t => ((.bucket (TokenBucket.acquire s t).1 : Lim), (TokenBucket.acquire s t).2)
  | .sliding s, t =>
    match SlidingWindow.acquire s t with
    | some (s', b) => (.sliding s', b)
    | none => (.sliding s, false)
  | .fixed s, t => (.fixed (FixedWindow.acquire s t).1, (FixedWindow.acquire s t).2)

/-- A limiter and what it has answered. -/
abbrev Cell := Lim × History

/-- One request: the clock reading for each limiter. -/
def ask : List Cell → Nat → (Nat → Int) → List Cell × Bool
  | [], _, _ => ([], true)
  | (l, h) :: cs, j, r =>
    let a := l.acquire (r j)
    let c : Cell := (a.1, h ++ [(r j, a.2)])
    if a.2 then
      let q := ask cs (j + 1) r
      (c :: q.1, q.2)
    else (c :: cs, false)

/-- Requests one after the other; the requests that passed all limiters. -/
def serve : List Cell → List (Nat → Int) → List Cell × List (Nat → Int)
  | cs, [] => (cs, [])
  | cs, r :: rs =>
    let q := ask cs 0 r
    let q2 := serve q.1 rs
    (q2.1, if q.2 then r :: q2.2 else q2.2)

def fresh (ls : List Lim) : List Cell := ls.map fun l => (l, [])

/-- The limiter alone. -/
def alone : Lim → List Int → Lim × History
  | l, [] => (l, [])
  | l, t :: ts =>
    let a := l.acquire t
    let q := alone a.1 ts
    (q.1, (t, a.2) :: q.2)

/-! ### What each limiter sees -/

/-- A cell after a request: asked, or not reached because one before it refused. -/
theorem ask_cell : ∀ (cs : List Cell) (j : Nat) (r : Nat → Int) (k : Nat) (l : Lim) (h : History), cs[k]? = some (l, h) →
    ((ask cs j r).1[k]? = some ((l.acquire (r (j + k))).1, h ++ [(r (j + k), (l.acquire (r (j + k))).2)]) ∧
      ((ask cs j r).2 = true → (l.acquire (r (j + k))).2 = true) ∧
      (k + 1 = cs.length → (ask cs j r).2 = (l.acquire (r (j + k))).2)) ∨
    ((ask cs j r).1[k]? = some (l, h) ∧ (ask cs j r).2 = false) := by
  intro cs
  induction cs with
  | nil => intro j r k l h hk; simp at hk
  | cons c cs ih =>
    intro j r k l h hk
    obtain ⟨l0, h0⟩ := c
    cases k with
    | zero =>
      simp only [List.getElem?_cons_zero, Option.some.injEq, Prod.mk.injEq] at hk
      obtain ⟨rfl, rfl⟩ := hk
      left
      simp only [ask, Nat.add_zero]
      split
      · next ht =>
        refine ⟨by simp [ht], fun _ => ht, fun hl => ?_⟩
        have : cs = [] := by
          cases cs with
          | nil => rfl
          | cons a b => simp at hl
        subst this
        simp [ask, ht]
      · next ht => exact ⟨by simp, by simp, fun _ => by simpa using ht⟩
    | succ k =>
      simp only [List.getElem?_cons_succ] at hk
      simp only [ask]
      split
      · have := ih (j + 1) r k l h hk
        rw [show j + 1 + k = j + (k + 1) by omega] at this
        simpa using this
      · right
        simpa using hk

theorem ask_length : ∀ (cs : List Cell) (j : Nat) (r : Nat → Int), (ask cs j r).1.length = cs.length := by
  intro cs
  induction cs with
  | nil => intro j r; rfl
  | cons c cs ih =>
    intro j r
    simp only [ask]
    split
    · simp [ih]
    · simp

theorem serve_cell : ∀ (rs : List (Nat → Int)) (cs : List Cell) (k : Nat) (l : Lim) (h : History), cs[k]? = some (l, h) →
    ∃ l' h', (serve cs rs).1[k]? = some (l', h ++ h') ∧ alone l (h'.map (·.1)) = (l', h') ∧
      (h'.map (·.1)).Sublist (rs.map (· k)) ∧ ((serve cs rs).2.map (· k)).Sublist (admittedTimes h') ∧
      (k + 1 = cs.length → (serve cs rs).2.map (· k) = admittedTimes h') := by
  intro rs
  induction rs with
  | nil => intro cs k l h hk; exact ⟨l, [], by simpa [serve] using hk, rfl, by simp, by simp [serve], by simp [serve, admittedTimes]⟩
  | cons r rs ih =>
    intro cs k l h hk
    have hl := ask_length cs 0 r
    rcases ask_cell cs 0 r k l h hk with ⟨h1, h2, h3⟩ | ⟨h1, h2⟩
    · rw [Nat.zero_add] at h1 h2 h3
      obtain ⟨l', h', e1, e2, e3, e4, e5⟩ := ih _ k _ _ h1
      refine ⟨l', (r k, (l.acquire (r k)).2) :: h', ?_, ?_, ?_, ?_, ?_⟩
      · simpa [serve] using e1
      · simp only [List.map_cons, alone, e2]
      · simpa using e3
      · simp only [serve]
        cases hb : (ask cs 0 r).2 with
        | false =>
          simp only [Bool.false_eq_true, if_false]
          refine e4.trans ?_
          simp only [admittedTimes, List.filter_cons]
          split
          · simp only [List.map_cons]; exact List.sublist_cons_self _ _
          · exact List.Sublist.refl _
        | true =>
          have := h2 hb
          simpa [admittedTimes, this] using e4
      · intro hlen
        have hb := h3 hlen
        have e := e5 (by rw [hl]; exact hlen)
        simp only [serve]
        cases ha : (l.acquire (r k)).2 with
        | false =>
          rw [ha] at hb
          simpa [hb, admittedTimes] using e
        | true =>
          rw [ha] at hb
          simpa [hb, admittedTimes] using e
    · obtain ⟨l', h', e1, e2, e3, e4, e5⟩ := ih _ k _ _ h1
      refine ⟨l', h', by simpa [serve] using e1, e2, e3.trans (by simp), by simpa [serve, h2] using e4, fun hlen => ?_⟩
      have e := e5 (by rw [hl]; exact hlen)
      simpa [serve, h2] using e

/-! ### C175 -/

/-- **C175.** Each limiter answers as it would alone if it were asked exactly when those before it let the request pass;
every request that passes has been let pass by each; the last limiter has let pass exactly the requests that pass. -/
theorem C175_each (ls : List Lim) (rs : List (Nat → Int)) (k : Nat) (l : Lim) (hk : ls[k]? = some l) :
    ∃ l' h, (serve (fresh ls) rs).1[k]? = some (l', h) ∧ alone l (h.map (·.1)) = (l', h) ∧
      (h.map (·.1)).Sublist (rs.map (· k)) ∧ ((serve (fresh ls) rs).2.map (· k)).Sublist (admittedTimes h) ∧
      (k + 1 = ls.length → (serve (fresh ls) rs).2.map (· k) = admittedTimes h) := by
  obtain ⟨l', h', e1, e2, e3, e4, e5⟩ := serve_cell rs (fresh ls) k l [] (by simp [fresh, hk])
  exact ⟨l', h', by simpa using e1, e2, e3, e4, fun hl => e5 (by simpa [fresh] using hl)⟩

theorem alone_bucket (ts : List Int) : ∀ s, alone (.bucket s) ts =
    (.bucket (TokenBucket.run s ts).1, (TokenBucket.run s ts).2) := by
  induction ts with
  | nil => intro s; rfl
  | cons t ts ih => intro s; simp only [alone, Lim.acquire, ih, TokenBucket.run]

theorem alone_sliding (ts : List Int) : ∀ s s' h, SlidingWindow.run s (SlidingWindow.acquires ts) = some (s', h) →
    alone (.sliding s) ts = (.sliding s', h) := by
  induction ts with
  | nil =>
    intro s s' h e
    simp only [SlidingWindow.acquires, List.map_nil, SlidingWindow.run, Option.some.injEq, Prod.mk.injEq] at e
    obtain ⟨rfl, rfl⟩ := e
    rfl
  | cons t ts ih =>
    intro s s' h e
    simp only [SlidingWindow.acquires, List.map_cons, SlidingWindow.run] at e
    split at e
    · cases e
    · next s1 b ha =>
      split at e
      · cases e
      · next s2 h2 hr =>
        simp only [Option.some.injEq, Prod.mk.injEq] at e
        obtain ⟨rfl, rfl⟩ := e
        have := ih s1 s2 h2 hr
        simp only [alone, Lim.acquire, ha, this]

theorem passed_le (ps : List (Nat → Int)) (k : Nat) (h : History) (hs : (ps.map (· k)).Sublist (admittedTimes h)) (lo hi : Int) :
    ps.countP (fun r => decide (lo ≤ r k) && decide (r k ≤ hi)) ≤ admittedIn h lo hi := by
  have h1 := hs.countP_le (p := fun t => decide (lo ≤ t) && decide (t ≤ hi))
  rw [List.countP_map] at h1
  refine Nat.le_trans h1 ?_
  simp only [admittedTimes, List.countP_map, List.countP_filter, admittedIn]
  apply Nat.le_of_eq
  congr 1
  funext e
  cases e.2 <;> simp

/-- **C175**, sliding window: wherever it stands in the chain, at most its capacity of requests pass in any window. -/
theorem C175_sliding (ls : List Lim) (k : Nat) (c W : Int) (hc : 0 < c) (hk : ls[k]? = some (.sliding (SlidingWindow.new c W)))
    (rs : List (Nat → Int)) (lo : Int) :
    ((serve (fresh ls) rs).2.countP (fun r => decide (lo ≤ r k) && decide (r k ≤ lo + W)) : Int) ≤ c := by
  obtain ⟨l', h, _, e2, _, e4, _⟩ := C175_each ls rs k _ hk
  obtain ⟨s, h', r1, r2, r3⟩ := SlidingWindow.C08_window_bound c W hc (h.map (·.1)) lo
  have := alone_sliding _ _ _ _ r1
  rw [e2] at this
  cases this
  have := passed_le _ k h e4 lo (lo + W)
  omega

/-- **C175**, token bucket: wherever it stands in the chain, the requests that pass keep to its total bound. -/
theorem C175_bucket (ls : List Lim) (k : Nat) (c r t0 : Int) (hc : 0 ≤ c) (hr : 0 ≤ r)
    (hk : ls[k]? = some (.bucket (TokenBucket.new c r t0))) (rs : List (Nat → Int)) (hm : NonDecreasing (t0 :: rs.map (· k)))
    (t : Int) (ht0 : t0 ≤ t) (ht : ∀ q ∈ rs, q k ≤ t) :
    ((serve (fresh ls) rs).2.length : Int) ≤ c + r * ((t - t0) / 1000000000) := by
  obtain ⟨l', h, _, e2, e3, e4, _⟩ := C175_each ls rs k _ hk
  rw [alone_bucket] at e2
  have hh : (TokenBucket.run (TokenBucket.new c r t0) (h.map (·.1))).2 = h := by
    have := congrArg Prod.snd e2; exact this
  have hb := TokenBucket.C01_total_bound c r t0 hc hr (h.map (·.1)) (List.Pairwise.sublist (e3.cons_cons t0) hm) t ht0 (by
    intro x hx
    obtain ⟨q, hq, rfl⟩ := List.mem_map.1 (e3.subset hx)
    exact ht q hq)
  rw [hh] at hb
  have hl := e4.length_le
  have : (admittedTimes h).length = admitted h := by simp [admittedTimes, admitted, List.countP_eq_length_filter]
  simp only [List.length_map] at hl
  omega

theorem alone_fixed (ts : List Int) : ∀ s, alone (.fixed s) ts = (.fixed (FixedWindow.run s ts).1, (FixedWindow.run s ts).2) := by
  induction ts with
  | nil => intro s; rfl
  | cons t ts ih => intro s; simp only [alone, Lim.acquire, ih, FixedWindow.run]

theorem steady_of_close (a : Int) (ts : List Int) : ∀ p, NonDecreasing (p :: ts) → a ≤ p → (∀ t ∈ ts, t < a + 2 ^ 52) →
    FixedWindow.Steady p ts := by
  induction ts with
  | nil => intro p _ _ _; trivial
  | cons t ts ih =>
    intro p hm hp ht
    have hm' := List.pairwise_cons.1 hm
    have h1 : p ≤ t := hm'.1 t (by simp)
    have h2 := ht t (by simp)
    exact ⟨h1, by omega, ih t hm'.2 (by omega) (fun x hx => ht x (by simp [hx]))⟩

/-- **C175**, fixed window: wherever it stands in the chain, the requests that pass keep to its bound for bursts (C12).  The
readings are positive, do not go back and span less than `2 ^ 52` ns (52 days). -/
theorem C175_fixed (ls : List Lim) (k : Nat) (c W : Int) (hW : 0 < W) (hW2 : W < 2 ^ 53)
    (hk : ls[k]? = some (.fixed (FixedWindow.new c W))) (rs : List (Nat → Int)) (hm : NonDecreasing (rs.map (· k)))
    (a : Int) (ha : 0 < a) (ha2 : a + 2 ^ 52 ≤ 2 ^ 63) (hr : ∀ q ∈ rs, a ≤ q k ∧ q k < a + 2 ^ 52)
    (lo hi : Int) (hlen : hi - lo < W) :
    ((serve (fresh ls) rs).2.countP (fun r => decide (lo ≤ r k) && decide (r k ≤ hi)) : Int) ≤ 2 * max c 0 + 1 := by
  obtain ⟨l', h, _, e2, e3, e4, _⟩ := C175_each ls rs k _ hk
  rw [alone_fixed] at e2
  have hh : (FixedWindow.run (FixedWindow.new c W) (h.map (·.1))).2 = h := congrArg Prod.snd e2
  have hp := passed_le _ k h e4 lo hi
  have hin : ∀ x ∈ h.map (·.1), a ≤ x ∧ x < a + 2 ^ 52 := by
    intro x hx
    obtain ⟨q, hq, rfl⟩ := List.mem_map.1 (e3.subset hx)
    exact hr q hq
  have hs : NonDecreasing (h.map (·.1)) := List.Pairwise.sublist e3 hm
  generalize h.map (·.1) = ts at hh hin hs
  cases ts with
  | nil =>
    have : h = [] := by rw [← hh]; rfl
    subst this
    simp only [admittedIn, List.countP_nil] at hp
    omega
  | cons t1 ts =>
    have h1 := hin t1 (by simp)
    have hb := FixedWindow.C12_burst_bound_any_start c W hW hW2 t1 ts (by omega) (by omega)
      (steady_of_close a ts t1 hs h1.1 (fun x hx => (hin x (by simp [hx])).2)) lo hi hlen
    rw [hh] at hb
    omega

/-! ### Refused requests are counted -/

/-- One request, if the limiters before the one that refuses did not count it. -/
def askIdeal : List Cell → Nat → (Nat → Int) → List Cell × Bool
  | [], _, _ => ([], true)
  | (l, h) :: cs, j, r =>
    let a := l.acquire (r j)
    let c : Cell := (a.1, h ++ [(r j, a.2)])
    if a.2 then
      let q := askIdeal cs (j + 1) r
      (if q.2 then c :: q.1 else (l, h) :: q.1, q.2)
    else (c :: cs, false)

def serveIdeal : List Cell → List (Nat → Int) → List Cell × List (Nat → Int)
  | cs, [] => (cs, [])
  | cs, r :: rs =>
    let q := askIdeal cs 0 r
    let q2 := serveIdeal q.1 rs
    (q2.1, if q.2 then r :: q2.2 else q2.2)

/-- The claim: a request that is refused does not count against the limits. -/
def C175Claim : Prop :=
  ∀ (ls : List Lim) (rs : List (Nat → Int)), (serve (fresh ls) rs).2.length = (serveIdeal (fresh ls) rs).2.length

theorem ideal_of_pass : ∀ (cs : List Cell) (j : Nat) (r : Nat → Int), (ask cs j r).2 = true → askIdeal cs j r = ask cs j r := by
  intro cs
  induction cs with
  | nil => intro j r _; rfl
  | cons c cs ih =>
    intro j r h
    obtain ⟨l, h0⟩ := c
    simp only [ask] at h
    simp only [ask, askIdeal]
    split at h
    · next ht =>
      have h' : (ask cs (j + 1) r).2 = true := h
      simp only [ht, if_true]
      rw [ih (j + 1) r h']
      simp only [h', if_true]
    · cases h

/-- Every refusal comes from the first limiter. -/
def FirstRefuses : List Cell → List (Nat → Int) → Prop
  | _, [] => True
  | cs, r :: rs =>
    ((ask cs 0 r).2 = true ∨ ∃ l h cs', cs = (l, h) :: cs' ∧ (l.acquire (r 0)).2 = false) ∧ FirstRefuses (ask cs 0 r).1 rs

/-- **C175**, partial: the claim if all refusals come from the first limiter; in particular for one limiter. -/
theorem C175_first_partial (rs : List (Nat → Int)) : ∀ (cs : List Cell), FirstRefuses cs rs → serve cs rs = serveIdeal cs rs := by
  induction rs with
  | nil => intro cs _; rfl
  | cons r rs ih =>
    intro cs hf
    have e : askIdeal cs 0 r = ask cs 0 r := by
      rcases hf.1 with h | ⟨l, h, cs', rfl, hl⟩
      · exact ideal_of_pass cs 0 r h
      · simp [ask, askIdeal, hl]
    simp only [serve, serveIdeal, e, ih _ hf.2]

theorem C175_one_partial (l : Lim) (rs : List (Nat → Int)) : serve (fresh [l]) rs = serveIdeal (fresh [l]) rs := by
  have key : ∀ (rs : List (Nat → Int)) (c : Cell), FirstRefuses [c] rs := by
    intro rs
    induction rs with
    | nil => intro c; trivial
    | cons r rs ih =>
      intro c
      obtain ⟨l, h⟩ := c
      cases ha : (l.acquire (r 0)).2 with
      | false => exact ⟨.inr ⟨l, h, [], rfl, ha⟩, by simpa [ask, ha] using ih _⟩
      | true => exact ⟨.inl (by simp [ask, ha]), by simpa [ask, ha] using ih _⟩
  exact C175_first_partial rs _ (key rs _)

/-- Two requests in ten seconds, and one per second. -/
def both : List Lim := [.sliding (SlidingWindow.new 2 10000000000), .bucket (TokenBucket.new 1 1 0)]

/-- Requests at 0, at 0 again (refused by the bucket, but recorded by the window), and at 2 seconds. -/
def thrice : List (Nat → Int) := [fun _ => 0, fun _ => 0, fun _ => 2000000000]

/-- **C175**, violated: the third request is refused although only one has passed in the ten seconds. -/
theorem C175_violated : ¬ C175Claim := by
  intro h
  have := h both thrice
  revert this
  decide

example : (serve (fresh both) thrice).2.length = 1 ∧ (serveIdeal (fresh both) thrice).2.length = 2 := by decide

/-- The other way round the window is asked only about requests that the bucket lets pass, and the third passes. -/
example : (serve (fresh both.reverse) thrice).2.length = 2 := by decide

theorem serve_append (rs rs' : List (Nat → Int)) : ∀ cs, (serve cs (rs ++ rs')).2 =
    (serve cs rs).2 ++ (serve (serve cs rs).1 rs').2 := by
  induction rs with
  | nil => intro cs; rfl
  | cons r rs ih =>
    intro cs
    simp only [List.cons_append, serve, ih]
    split <;> simp

/-- The bucket is empty and the window has `i` records, all at 0. -/
def Spent (c : Nat) (W : Int) (i : Nat) (cs : List Cell) : Prop :=
  ∃ h h', cs = [(.sliding ⟨c, W, List.replicate i 0⟩, h), (.bucket ⟨1, 0, 1, 0⟩, h')]

theorem spent_step (c : Nat) (W : Int) (i : Nat) (hi : i < c) (cs : List Cell) (hs : Spent c W i cs) :
    Spent c W (i + 1) (ask cs 0 (fun _ => 0)).1 ∧ (ask cs 0 (fun _ => 0)).2 = false := by
  obtain ⟨h, h', rfl⟩ := hs
  have ha : SlidingWindow.acquire ⟨c, W, List.replicate i 0⟩ 0 = some (⟨c, W, List.replicate (i + 1) 0⟩, true) := by
    have h0 : ¬ c = 0 := by omega
    have h1 : (i : Int) < c := by omega
    simp [SlidingWindow.acquire, h0, h1, List.replicate_succ']
  have hb : TokenBucket.acquire ⟨1, 0, 1, 0⟩ 0 = (⟨1, 0, 1, 0⟩, false) := by decide
  simp only [ask, Lim.acquire, ha, hb, if_true, Bool.false_eq_true, if_false]
  exact ⟨⟨_, _, rfl⟩, trivial⟩

theorem spent_fill (c : Nat) (W : Int) (m : Nat) : ∀ i cs, i + m = c → Spent c W i cs →
    Spent c W c (serve cs (List.replicate m (fun _ => 0))).1 ∧ (serve cs (List.replicate m (fun _ => 0))).2 = [] := by
  induction m with
  | zero => intro i cs h hs; obtain rfl : i = c := by omega
            exact ⟨hs, rfl⟩
  | succ m ih =>
    intro i cs h hs
    have h1 := spent_step c W i (by omega) cs hs
    have h2 := ih (i + 1) _ (by omega) h1.1
    simp only [List.replicate_succ, serve, h1.2, Bool.false_eq_true, if_false]
    exact h2

theorem spent_full (c : Nat) (hc : 1 ≤ c) (W : Int) (rs : List (Nat → Int)) : ∀ cs, (∀ r ∈ rs, r 0 ≤ W) → Spent c W c cs →
    (serve cs rs).2 = [] := by
  induction rs with
  | nil => intro cs _ _; rfl
  | cons r rs ih =>
    intro cs hr hs
    obtain ⟨h, h', rfl⟩ := hs
    have ha : SlidingWindow.acquire ⟨c, W, List.replicate c 0⟩ (r 0) = some (⟨c, W, List.replicate c 0⟩, false) := by
      obtain ⟨n, rfl⟩ : ∃ n, c = n + 1 := ⟨c - 1, by omega⟩
      have h0 : ¬ ((n + 1 : Nat) : Int) = 0 := by omega
      have h1 : ¬ (((List.replicate (n + 1) (0 : Int)).length : Nat) : Int) < ((n + 1 : Nat) : Int) := by simp
      have h2 : ¬ r 0 - 0 > W := by have := hr r (by simp); omega
      simp only [SlidingWindow.acquire, h0, h1, if_false]
      simp only [List.replicate_succ, h2, if_false]
    simp only [serve, ask, Lim.acquire, ha, Bool.false_eq_true, if_false]
    exact ih _ (fun r h => hr r (by simp [h])) ⟨_, _, rfl⟩

/-- **C175**, violated for every capacity: a window of `c` requests asked before a bucket of one per second, and `c` attempts
at once.  One passes; the others are refused by the bucket but fill the window, and then, whatever is tried later, nothing
passes until the window of `W` is over, though the bucket has had a token from the first second on. -/
theorem C175_retries_violated (c : Nat) (hc : 1 ≤ c) (W : Int) (rs : List (Nat → Int)) (hr : ∀ r ∈ rs, r 0 ≤ W) :
    (serve (fresh [.sliding (SlidingWindow.new c W), .bucket (TokenBucket.new 1 1 0)])
      (List.replicate c (fun _ => 0) ++ rs)).2.length = 1 := by
  obtain ⟨n, rfl⟩ : ∃ n, c = n + 1 := ⟨c - 1, by omega⟩
  have h0 : ¬ ((n + 1 : Nat) : Int) = 0 := by omega
  have h1 : ¬ ((n + 1 : Nat) : Int) < 0 := by omega
  have h2 : (0 : Int) < ((n + 1 : Nat) : Int) := by omega
  have ha : SlidingWindow.acquire (SlidingWindow.new (n + 1 : Nat) W) 0 = some (⟨(n + 1 : Nat), W, List.replicate 1 0⟩, true) := by
    simp only [SlidingWindow.acquire, SlidingWindow.new, h0, h1, if_false, List.length_nil, Int.natCast_zero, h2, if_true]
    rfl
  have hb : TokenBucket.acquire (TokenBucket.new 1 1 0) 0 = (⟨1, 0, 1, 0⟩, true) := by decide
  have hf := fun h h' => spent_fill (n + 1) W n 1 [(.sliding ⟨(n + 1 : Nat), W, List.replicate 1 0⟩, h), (.bucket ⟨1, 0, 1, 0⟩, h')]
    (by omega) ⟨h, h', rfl⟩
  rw [serve_append, List.replicate_succ]
  simp only [fresh, List.map_cons, List.map_nil, serve, ask, Lim.acquire, ha, hb, if_true]
  rw [(hf _ _).2, spent_full (n + 1) hc W rs _ hr (hf _ _).1]
  rfl

end Gears.Conform.Chain
