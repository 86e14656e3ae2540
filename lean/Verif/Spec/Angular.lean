import Mathlib.MeasureTheory.Integral.IntervalIntegral.Basic
import Mathlib.Analysis.SpecialFunctions.Trigonometric.Basic
import Mathlib.MeasureTheory.Measure.Lebesgue.Basic

/-!
# Matrix elements between angular functions
-/

namespace QS.Spec

/-- `∫₀^{2π} e^{-i m_p t} f(t) e^{i m_q t} dt`. -/
noncomputable def angular (f : ℝ → ℝ) (mp mq : ℤ) : ℂ :=
  ∫ t in (0 : ℝ)..2 * Real.pi,
    Complex.exp (-(Complex.I * mp * t)) * (f t : ℂ) * Complex.exp (Complex.I * mq * t)

end QS.Spec
