import Mathlib.Analysis.SpecialFunctions.Trigonometric.Sinc
import Mathlib.Analysis.Analytic.IsolatedZeros
import Mathlib.Analysis.Calculus.Deriv.Shift
import Mathlib.Analysis.SpecialFunctions.Trigonometric.Deriv
import Mathlib.Analysis.Calculus.ContDiff.Basic
import Mathlib.Analysis.SpecialFunctions.Complex.Analytic
import Verif.Model.SincDvr

/-!
# The second derivative of the sinc function at the integers
-/

namespace QS.SincDvr

open Real

theorem analyticAt_sinc (x : ℝ) : AnalyticAt ℝ sinc x := by
  by_cases hx : x = 0
  · subst hx
    obtain ⟨p, hp⟩ := (analyticAt_sin (x := (0 : ℝ)))
    rw [sinc_eq_dslope]
    exact hp.has_fpower_series_dslope_fslope.analyticAt
  · have h : AnalyticAt ℝ (fun y => sin y / y) x := analyticAt_sin.div analyticAt_id hx
    refine h.congr ?_
    filter_upwards [isOpen_ne.mem_nhds hx] with y hy
    exact (sinc_of_ne_zero hy).symm

theorem npSinc_eq (x : ℝ) : npSinc x = sinc (π * x) := by
  unfold npSinc
  by_cases h : x = 0
  · simp [h]
  · rw [if_neg h, sinc_of_ne_zero (mul_ne_zero pi_ne_zero h)]

theorem analyticAt_npSinc (x : ℝ) : AnalyticAt ℝ npSinc x := by
  have : npSinc = fun x => sinc (π * x) := funext npSinc_eq
  rw [this]
  exact (analyticAt_sinc (π * x)).comp (analyticAt_const.mul analyticAt_id)

theorem mul_npSinc (x : ℝ) : π * x * npSinc x = sin (π * x) := by
  unfold npSinc
  by_cases h : x = 0
  · simp [h]
  · rw [if_neg h]
    have := mul_ne_zero pi_ne_zero h
    field_simp

theorem npSinc_deriv1 (x : ℝ) : π * npSinc x + π * x * deriv npSinc x = π * cos (π * x) := by
  have h1 : HasDerivAt (fun x => π * x * npSinc x) (π * npSinc x + π * x * deriv npSinc x) x := by
    have := ((hasDerivAt_id x).const_mul π).fun_mul (analyticAt_npSinc x).differentiableAt.hasDerivAt
    simpa using this
  have h2 : HasDerivAt (fun x => sin (π * x)) (π * cos (π * x)) x := by
    have := ((hasDerivAt_id x).const_mul π).sin
    simpa [mul_comm] using this
  rw [show (fun x => π * x * npSinc x) = fun x => sin (π * x) from funext mul_npSinc] at h1
  exact h1.unique h2

theorem npSinc_deriv2 (x : ℝ) :
    2 * π * deriv npSinc x + π * x * deriv (deriv npSinc) x = -(π ^ 2 * sin (π * x)) := by
  have h1 : HasDerivAt (fun x => π * npSinc x + π * x * deriv npSinc x)
      (2 * π * deriv npSinc x + π * x * deriv (deriv npSinc) x) x := by
    have a := (analyticAt_npSinc x).differentiableAt.hasDerivAt.const_mul π
    have b := ((hasDerivAt_id x).const_mul π).fun_mul (analyticAt_npSinc x).deriv.differentiableAt.hasDerivAt
    have := a.fun_add b
    simp only [id, mul_one] at this
    exact this.congr_deriv (by ring)
  have h2 : HasDerivAt (fun x => π * cos (π * x)) (-(π ^ 2 * sin (π * x))) x := by
    have := (((hasDerivAt_id x).const_mul π).cos).const_mul π
    simp only [id, mul_one] at this
    exact this.congr_deriv (by ring)
  rw [show (fun x => π * npSinc x + π * x * deriv npSinc x) = fun x => π * cos (π * x) from
    funext npSinc_deriv1] at h1
  exact h1.unique h2

theorem npSinc_deriv3 :
    3 * π * deriv (deriv npSinc) 0 = -π ^ 3 := by
  have h1 : HasDerivAt (fun x => 2 * π * deriv npSinc x + π * x * deriv (deriv npSinc) x)
      (2 * π * deriv (deriv npSinc) 0 + (π * deriv (deriv npSinc) 0 + π * 0 * deriv (deriv (deriv npSinc)) 0))
      0 := by
    have a := (analyticAt_npSinc 0).deriv.differentiableAt.hasDerivAt.const_mul (2 * π)
    have b := ((hasDerivAt_id (0 : ℝ)).const_mul π).fun_mul
      (analyticAt_npSinc 0).deriv.deriv.differentiableAt.hasDerivAt
    have := a.fun_add b
    simp only [id, mul_one] at this
    exact this
  have h2 : HasDerivAt (fun x => -(π ^ 2 * sin (π * x))) (-(π ^ 2 * (cos (π * 0) * π))) 0 := by
    have := ((((hasDerivAt_id (0 : ℝ)).const_mul π).sin).const_mul (π ^ 2)).fun_neg
    simp only [id, mul_one] at this
    exact this
  rw [show (fun x => 2 * π * deriv npSinc x + π * x * deriv (deriv npSinc) x) = fun x => -(π ^ 2 * sin (π * x))
    from funext npSinc_deriv2] at h1
  have := h1.unique h2
  simp only [mul_zero, cos_zero] at this
  linarith

theorem npSinc_int (n : ℤ) : npSinc n = if n = 0 then 1 else 0 := by
  unfold npSinc
  by_cases h : n = 0
  · simp [h]
  · rw [if_neg (by exact_mod_cast h), if_neg h, mul_comm, sin_int_mul_pi, zero_div]

theorem deriv2_npSinc_zero : deriv (deriv npSinc) 0 = -(π ^ 2 / 3) := by
  have := npSinc_deriv3
  have hp := pi_ne_zero
  have : π * (deriv (deriv npSinc) 0) = π * (-(π ^ 2 / 3)) := by linarith
  exact mul_left_cancel₀ hp this

theorem deriv2_npSinc_int {n : ℤ} (hn : n ≠ 0) :
    deriv (deriv npSinc) n = -(2 * (-1) ^ n / (n : ℝ) ^ 2) := by
  have h1 := npSinc_deriv1 n
  have h2 := npSinc_deriv2 n
  rw [npSinc_int, if_neg hn, mul_comm π (n : ℝ), cos_int_mul_pi] at h1
  rw [mul_comm π (n : ℝ), sin_int_mul_pi] at h2
  have hp := pi_ne_zero
  have hn' : (n : ℝ) ≠ 0 := by exact_mod_cast hn
  have e1 : (n : ℝ) * deriv npSinc n = (-1) ^ n := by
    apply mul_left_cancel₀ hp
    linarith
  have e2 : 2 * deriv npSinc n + n * deriv (deriv npSinc) n = 0 := by
    apply mul_left_cancel₀ hp
    linarith
  have e3 : (n : ℝ) ^ 2 * deriv (deriv npSinc) n = -(2 * (-1) ^ n) := by
    rw [← e1]
    linear_combination n * e2
  rw [← neg_div, ← e3]
  field_simp

end QS.SincDvr
