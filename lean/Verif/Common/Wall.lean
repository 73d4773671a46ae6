import Verif.Common.History

/-
A wall clock that somebody sets.  `SysNow` (util/time/now.go:26-28) is `time.Now`, whose value also has a monotonic reading, but
the limiters and the breaker keep `UnixNano()`, which is the wall clock alone (ratelimiter/fixedwindow.go:66-82,
ratelimiter/slidingwindow.go:62-87, ratelimiter/tokenbucket.go:71-104, circuitbreaker/circuitbreaker.go:91-111).  A
reading of it is the real time plus the setting of the clock at that moment; an administrator or a time service may change
the setting at any time by any amount.
-/

namespace Gears

/-- A reading of a wall clock: the real time and by how much the clock is ahead of it. -/
structure Wall where
  real : Int
  off  : Int
deriving Repr, DecidableEq

/-- What the program sees. -/
def Wall.reading (w : Wall) : Int := w.real + w.off

/-- The settings of the clock differ by at most `B`. -/
def Within (B : Int) (ws : List Wall) : Prop := ∃ o, ∀ w ∈ ws, o ≤ w.off ∧ w.off ≤ o + B

/-- Real time does not go back. -/
def InOrder (ws : List Wall) : Prop := ws.Pairwise (fun v w => v.real ≤ w.real)

instance (ws : List Wall) : Decidable (InOrder ws) := by unfold InOrder; infer_instance

/-- Number of admitted calls in the real interval `[lo, hi]`, for calls `ws` answered by the history `h`. -/
def admittedReal (ws : List Wall) (h : History) (lo hi : Int) : Nat :=
  (ws.zip h).countP (fun p => p.2.2 && decide (lo ≤ p.1.real) && decide (p.1.real ≤ hi))

/-- A real interval is an interval of readings, longer by the differences of the settings. -/
theorem admittedReal_le (B o : Int) (lo hi : Int) : ∀ (ws : List Wall) (h : History),
    (∀ w ∈ ws, o ≤ w.off ∧ w.off ≤ o + B) → h.map (·.1) = ws.map Wall.reading →
    admittedReal ws h lo hi ≤ admittedIn h (lo + o) (hi + o + B)
  | [], h, _, _ => by simp [admittedReal]
  | w :: ws, [], _, hm => by simp at hm
  | w :: ws, e :: h, hb, hm => by
    simp only [List.map_cons, List.cons.injEq] at hm
    have ih := admittedReal_le B o lo hi ws h (fun v hv => hb v (List.mem_cons_of_mem _ hv)) hm.2
    have hw := hb w List.mem_cons_self
    have he := hm.1
    unfold Wall.reading at he
    simp only [admittedReal, admittedIn, List.zip_cons_cons, List.countP_cons] at ih ⊢
    have : (e.2 && decide (lo ≤ w.real) && decide (w.real ≤ hi)) = true →
        (e.2 && decide (lo + o ≤ e.1) && decide (e.1 ≤ hi + o + B)) = true := by
      simp only [Bool.and_eq_true, decide_eq_true_eq]
      intro ⟨⟨h1, h2⟩, h3⟩
      exact ⟨⟨h1, by omega⟩, by omega⟩
    split <;> split <;> first | omega | (exfalso; simp_all)

end Gears
