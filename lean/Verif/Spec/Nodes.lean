import Mathlib.Data.Real.Basic
import Mathlib.Data.Finset.Card
import Mathlib.Order.Interval.Finset.Nat

/-!
# Nodes of a function on a grid
-/

namespace QS.Spec

/-- The number of nodes of a function on the points `0, 1, …, n + 1`: inner points where it is zero, and pairs of
neighbouring points between which it changes its sign. -/
noncomputable def nodes (n : ℕ) (r : ℕ → ℝ) : ℕ :=
  open Classical in ((Finset.Icc 1 n).filter fun i => r i = 0).card
    + ((Finset.range (n + 1)).filter fun i => r i * r (i + 1) < 0).card

end QS.Spec
