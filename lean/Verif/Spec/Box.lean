import Mathlib.Analysis.Calculus.Deriv.Basic
import Mathlib.MeasureTheory.Integral.IntervalIntegral.Basic
import Mathlib.Analysis.Complex.Basic

/-!
# The Schrödinger equation in a box
-/

namespace QS.Spec

/-- `ψ` is not zero, vanishes at the walls `±L` and solves `-½ ψ'' + V ψ = e ψ` on `[-L, L]`. -/
def BoxState (V : ℝ → ℝ) (L e : ℝ) (ψ : ℝ → ℝ) : Prop :=
  ψ (-L) = 0 ∧ ψ L = 0 ∧ (∃ x ∈ Set.Icc (-L) L, ψ x ≠ 0) ∧ ∃ ψ' ψ'' : ℝ → ℝ, ∀ x ∈ Set.Icc (-L) L,
    HasDerivWithinAt ψ (ψ' x) (Set.Icc (-L) L) x ∧ HasDerivWithinAt ψ' (ψ'' x) (Set.Icc (-L) L) x ∧
      -(1 / 2) * ψ'' x + V x * ψ x = e * ψ x

/-- `e` is an energy of the box. -/
def BoxLevel (V : ℝ → ℝ) (L e : ℝ) : Prop := ∃ ψ, BoxState V L e ψ

end QS.Spec
