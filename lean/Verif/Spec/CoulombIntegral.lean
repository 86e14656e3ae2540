import Verif.Spec.Polar
import Mathlib.Analysis.SpecialFunctions.Complex.Arg
import Mathlib.MeasureTheory.Measure.Lebesgue.Complex

/-!
# The Coulomb interaction of two particles in the plane

Points of the plane are complex numbers `x + iy`, with the Lebesgue measure of the plane.
-/

namespace QS.Spec

/-- The value at a point of a function of polar coordinates. -/
noncomputable def atPoint (f : ℝ → ℝ → ℂ) (z : ℂ) : ℂ := f ‖z‖ z.arg

/-- `a*(z₁) b*(z₂) (1/|z₁ - z₂|) c(z₁) d(z₂)`. -/
noncomputable def coulombIntegrand (a b c d : ℂ → ℂ) (z : ℂ × ℂ) : ℂ :=
  (starRingEnd ℂ) (a z.1) * (starRingEnd ℂ) (b z.2) * ((1 / ‖z.1 - z.2‖ : ℝ) : ℂ) * c z.1 * d z.2

/-- `⟨ab|1/r₁₂|cd⟩`, the integral over the positions of both particles. -/
noncomputable def coulombIntegral (a b c d : ℂ → ℂ) : ℂ := ∫ z : ℂ × ℂ, coulombIntegrand a b c d z

end QS.Spec
