import Mathlib.MeasureTheory.Integral.IntervalIntegral.Basic
import Mathlib.Analysis.Calculus.Deriv.Basic
import Mathlib.Analysis.Complex.Basic
import Mathlib.Analysis.SpecialFunctions.Trigonometric.Basic
import Mathlib.MeasureTheory.Measure.Lebesgue.Basic

/-!
# Functions on the plane in polar coordinates
-/

namespace QS.Spec

/-- `∫₀^∞ ∫₀^{2π} F(r, t) r dt dr`, the integral over the plane in polar coordinates. -/
noncomputable def planeIntegral (F : ℝ → ℝ → ℂ) : ℂ :=
  ∫ r in Set.Ioi (0 : ℝ), (∫ t in (0 : ℝ)..2 * Real.pi, F r t) * (r : ℂ)

/-- The inner product of two functions on the plane. -/
noncomputable def planeInner (f g : ℝ → ℝ → ℂ) : ℂ :=
  planeIntegral fun r t => (starRingEnd ℂ) (f r t) * g r t

/-- The Laplace operator in polar coordinates. -/
noncomputable def polarLaplacian (f : ℝ → ℝ → ℂ) (r t : ℝ) : ℂ :=
  deriv (deriv fun r => f r t) r + 1 / (r : ℂ) * deriv (fun r => f r t) r
    + 1 / (r : ℂ) ^ 2 * deriv (deriv fun t => f r t) t

/-- The Hamilton operator `-1/(2m) Δ + V` of a particle of mass `m` in the plane. -/
noncomputable def planeHamiltonian (mass : ℝ) (V : ℝ → ℝ → ℝ) (f : ℝ → ℝ → ℂ) (r t : ℝ) : ℂ :=
  -(1 / (2 * (mass : ℂ))) * polarLaplacian f r t + (V r t : ℂ) * f r t

end QS.Spec
