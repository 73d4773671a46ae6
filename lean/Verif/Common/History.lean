/-
Specification vocabulary shared by the rate limiters.  A history is the list of observable events of a
limiter: the clock reading of each request and whether it was admitted, in decision order.
-/

namespace Gears

/-- Observable history of a rate limiter: (clock reading, admitted?) in decision order. -/
abbrev History := List (Int × Bool)

/-- Number of admitted requests in a history. -/
def admitted (h : History) : Nat := h.countP (fun e => e.2)

/-- Clock readings of the admitted requests, in decision order. -/
def admittedTimes (h : History) : List Int := (h.filter (fun e => e.2)).map (fun e => e.1)

/-- Number of admitted requests whose clock reading lies in the closed interval `[lo, hi]`. -/
def admittedIn (h : History) (lo hi : Int) : Nat :=
  h.countP (fun e => e.2 && decide (lo ≤ e.1) && decide (e.1 ≤ hi))

/-- A clock that never goes backwards. -/
def NonDecreasing (ts : List Int) : Prop := ts.Pairwise (· ≤ ·)

instance (ts : List Int) : Decidable (NonDecreasing ts) := by unfold NonDecreasing; infer_instance

end Gears
