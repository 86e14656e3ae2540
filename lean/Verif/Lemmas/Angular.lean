import Verif.Model.TwoDim
import Mathlib.Analysis.SpecialFunctions.Integrals.Basic
import Mathlib.MeasureTheory.Integral.IntervalIntegral.Periodic

/-!
# Angular integrals
-/

namespace QS.TwoDim

open Complex intervalIntegral
open MeasureTheory (volume)

/-- `∫₀^{2π} e^{ikt} dt`. -/
theorem integral_exp_int (k : ℤ) :
    ∫ t in (0 : ℝ)..2 * Real.pi, exp (I * k * t) = if k = 0 then 2 * Real.pi else 0 := by
  by_cases h : k = 0
  · subst h; simp
  · have hk : (I * (k : ℂ)) ≠ 0 := mul_ne_zero I_ne_zero (by exact_mod_cast h)
    rw [if_neg h, integral_exp_mul_complex hk]
    have : exp (I * k * ((2 * Real.pi : ℝ) : ℂ)) = 1 := by
      rw [show I * (k : ℂ) * ((2 * Real.pi : ℝ) : ℂ) = k * (2 * Real.pi * I) by push_cast; ring]
      exact exp_int_mul_two_pi_mul_I k
    rw [this]
    simp

theorem cont_exp (k : ℤ) : Continuous fun t : ℝ => exp (I * k * t) := by fun_prop

theorem int_exp (k : ℤ) (a b : ℝ) : IntervalIntegrable (fun t : ℝ => exp (I * k * t)) volume a b :=
  (cont_exp k).intervalIntegrable a b

theorem braket_exp (mp mq : ℤ) (f : ℂ) (t : ℝ) :
    exp (-(I * mp * t)) * f * exp (I * mq * t) = f * exp (I * ((mq - mp : ℤ) : ℂ) * t) := by
  rw [mul_comm (exp (-(I * mp * t))), mul_assoc, ← exp_add]
  congr 2
  push_cast
  ring

theorem cos_exp (t : ℝ) (k : ℤ) : (Real.cos t : ℂ) * exp (I * k * t)
    = 1 / 2 * exp (I * ((k + 1 : ℤ) : ℂ) * t) + 1 / 2 * exp (I * ((k - 1 : ℤ) : ℂ) * t) := by
  rw [ofReal_cos, Complex.cos,
    show I * ((k + 1 : ℤ) : ℂ) * t = t * I + I * k * t by push_cast; ring,
    show I * ((k - 1 : ℤ) : ℂ) * t = -t * I + I * k * t by push_cast; ring, exp_add, exp_add]
  ring

theorem sin_exp (t : ℝ) (k : ℤ) : (Real.sin t : ℂ) * exp (I * k * t)
    = -I / 2 * exp (I * ((k + 1 : ℤ) : ℂ) * t) + I / 2 * exp (I * ((k - 1 : ℤ) : ℂ) * t) := by
  rw [ofReal_sin, Complex.sin,
    show I * ((k + 1 : ℤ) : ℂ) * t = t * I + I * k * t by push_cast; ring,
    show I * ((k - 1 : ℤ) : ℂ) * t = -t * I + I * k * t by push_cast; ring, exp_add, exp_add]
  ring

theorem integral_cos_exp (k : ℤ) : ∫ t in (0 : ℝ)..2 * Real.pi, (Real.cos t : ℂ) * exp (I * k * t)
    = if |k| = 1 then (Real.pi : ℂ) else 0 := by
  simp_rw [cos_exp]
  rw [integral_add ((int_exp _ _ _).const_mul _) ((int_exp _ _ _).const_mul _), integral_const_mul,
    integral_const_mul, integral_exp_int, integral_exp_int]
  by_cases h1 : k = 1
  · subst h1; simp
  by_cases h2 : k = -1
  · subst h2; simp
  · rw [if_neg (by omega), if_neg (by omega), if_neg (by rw [abs_eq (by norm_num)]; tauto)]
    simp

theorem integral_sin_exp (k : ℤ) : ∫ t in (0 : ℝ)..2 * Real.pi, (Real.sin t : ℂ) * exp (I * k * t)
    = if |k| = 1 then (k : ℂ) * I * (Real.pi : ℂ) else 0 := by
  simp_rw [sin_exp]
  rw [integral_add ((int_exp _ _ _).const_mul _) ((int_exp _ _ _).const_mul _), integral_const_mul,
    integral_const_mul, integral_exp_int, integral_exp_int]
  by_cases h1 : k = 1
  · subst h1; simp; ring
  by_cases h2 : k = -1
  · subst h2; simp; ring
  · rw [if_neg (by omega), if_neg (by omega), if_neg (by rw [abs_eq (by norm_num)]; tauto)]
    simp

/-! ## Absolute values -/

theorem exp_pi (k : ℤ) : exp (I * k * Real.pi) = (-1) ^ k := by
  rw [show I * (k : ℂ) * Real.pi = k * (Real.pi * I) by ring, exp_int_mul, exp_pi_mul_I]

/-- `∫_{-π/2}^{π/2} e^{ikt} dt = 2 sin(kπ/2)/k`. -/
theorem integral_exp_half {k : ℤ} (h : k ≠ 0) :
    ∫ t in (-(Real.pi / 2))..(Real.pi / 2), exp (I * k * t)
      = 2 * (Real.sin (k * (Real.pi / 2)) : ℂ) / k := by
  have hk : (I * (k : ℂ)) ≠ 0 := mul_ne_zero I_ne_zero (by exact_mod_cast h)
  have hk' : (k : ℂ) ≠ 0 := by exact_mod_cast h
  rw [integral_exp_mul_complex hk, ofReal_sin, Complex.sin]
  push_cast
  rw [show I * (k : ℂ) * (Real.pi / 2) = k * (Real.pi / 2) * I by ring,
    show I * (k : ℂ) * -(Real.pi / 2) = -(k * (Real.pi / 2)) * I by ring]
  field_simp
  ring_nf
  simp [I_sq]
  ring

theorem integral_abscos_exp (k : ℤ) :
    ∫ t in (0 : ℝ)..2 * Real.pi, ((|Real.cos t| : ℝ) : ℂ) * exp (I * k * t)
      = (1 + (-1) ^ k) * ∫ t in (-(Real.pi / 2))..(Real.pi / 2), (Real.cos t : ℂ) * exp (I * k * t) := by
  have hc : Continuous fun t : ℝ => ((|Real.cos t| : ℝ) : ℂ) * exp (I * k * t) := by fun_prop
  have hp : Function.Periodic (fun t : ℝ => ((|Real.cos t| : ℝ) : ℂ) * exp (I * k * t)) (2 * Real.pi) := by
    intro t
    simp only [Real.cos_add_two_pi]
    congr 1
    rw [show I * (k : ℂ) * ((t + 2 * Real.pi : ℝ) : ℂ) = I * k * t + k * (2 * Real.pi * I) by
      push_cast; ring, exp_add, exp_int_mul_two_pi_mul_I, mul_one]
  have h0 := hp.intervalIntegral_add_eq 0 (-(Real.pi / 2))
  rw [zero_add] at h0
  rw [h0, ← integral_add_adjacent_intervals (b := Real.pi / 2) (hc.intervalIntegrable _ _)
    (hc.intervalIntegrable _ _)]
  have e1 : ∫ t in (-(Real.pi / 2))..(Real.pi / 2), ((|Real.cos t| : ℝ) : ℂ) * exp (I * k * t)
      = ∫ t in (-(Real.pi / 2))..(Real.pi / 2), (Real.cos t : ℂ) * exp (I * k * t) := by
    refine integral_congr fun t ht => ?_
    rw [Set.uIcc_of_le (by linarith [Real.pi_pos])] at ht
    beta_reduce
    rw [abs_of_nonneg (Real.cos_nonneg_of_mem_Icc ht)]
  have e2 : ∫ t in (Real.pi / 2)..(-(Real.pi / 2) + 2 * Real.pi), ((|Real.cos t| : ℝ) : ℂ) * exp (I * k * t)
      = (-1) ^ k * ∫ t in (-(Real.pi / 2))..(Real.pi / 2), ((|Real.cos t| : ℝ) : ℂ) * exp (I * k * t) := by
    rw [← integral_const_mul]
    have := integral_comp_add_right (a := -(Real.pi / 2)) (b := Real.pi / 2)
      (fun t : ℝ => ((|Real.cos t| : ℝ) : ℂ) * exp (I * k * t)) Real.pi
    rw [show -(Real.pi / 2) + Real.pi = Real.pi / 2 by ring,
      show Real.pi / 2 + Real.pi = -(Real.pi / 2) + 2 * Real.pi by ring] at this
    rw [← this]
    refine integral_congr fun t _ => ?_
    beta_reduce
    rw [Real.cos_add_pi, abs_neg, show I * (k : ℂ) * ((t + Real.pi : ℝ) : ℂ)
      = I * k * Real.pi + I * k * t by push_cast; ring, exp_add, exp_pi]
    ring
  rw [e2, e1]
  ring

theorem sin_half_succ (j : ℤ) : Real.sin (((2 * j + 1 : ℤ) : ℝ) * (Real.pi / 2)) = (-1) ^ j := by
  rw [show ((2 * j + 1 : ℤ) : ℝ) * (Real.pi / 2) = j * Real.pi + Real.pi / 2 by push_cast; ring,
    Real.sin_add_pi_div_two, Real.cos_int_mul_pi]

theorem integral_abscos (k : ℤ) :
    ∫ t in (0 : ℝ)..2 * Real.pi, ((|Real.cos t| : ℝ) : ℂ) * exp (I * k * t)
      = if k % 2 = 1 then 0 else (-1) ^ (k / 2) * 4 / (1 - (k : ℂ) ^ 2) := by
  rw [integral_abscos_exp]
  by_cases h : k % 2 = 1
  · rw [if_pos h, (Int.odd_iff.2 h).neg_one_zpow]; ring
  · rw [if_neg h, (Int.even_iff.2 (by omega)).neg_one_zpow]
    obtain ⟨j, rfl⟩ : ∃ j, k = 2 * j := ⟨k / 2, by omega⟩
    simp_rw [cos_exp]
    rw [integral_add ((int_exp _ _ _).const_mul _) ((int_exp _ _ _).const_mul _), integral_const_mul,
      integral_const_mul, integral_exp_half (by omega), integral_exp_half (by omega), sin_half_succ,
      show (2 * j - 1 : ℤ) = 2 * (j - 1) + 1 by ring, sin_half_succ, show 2 * j / 2 = j by omega]
    have h1 : (((2 * j + 1 : ℤ)) : ℂ) ≠ 0 := by exact_mod_cast (by omega : (2 * j + 1 : ℤ) ≠ 0)
    have h2 : (((2 * (j - 1) + 1 : ℤ)) : ℂ) ≠ 0 := by
      exact_mod_cast (by omega : (2 * (j - 1) + 1 : ℤ) ≠ 0)
    rw [show (1 : ℂ) - ((2 * j : ℤ) : ℂ) ^ 2
        = -(((2 * j + 1 : ℤ) : ℂ) * ((2 * (j - 1) + 1 : ℤ) : ℂ)) by push_cast; ring,
      zpow_sub_one₀ (by norm_num : (-1 : ℝ) ≠ 0)]
    have h3 : ((2 * j + 1 : ℤ) : ℂ) = ((2 * (j - 1) + 1 : ℤ) : ℂ) + 2 := by push_cast; ring
    rw [h3] at h1 ⊢
    generalize ((2 * (j - 1) + 1 : ℤ) : ℂ) = z at *
    push_cast
    field_simp
    ring

theorem integral_abssin (k : ℤ) :
    ∫ t in (0 : ℝ)..2 * Real.pi, ((|Real.sin t| : ℝ) : ℂ) * exp (I * k * t)
      = if k % 2 = 1 then 0 else 4 / (1 - (k : ℂ) ^ 2) := by
  have hp : Function.Periodic (fun t : ℝ => ((|Real.sin t| : ℝ) : ℂ) * exp (I * k * t)) (2 * Real.pi) := by
    intro t
    simp only [Real.sin_add_two_pi]
    congr 1
    rw [show I * (k : ℂ) * ((t + 2 * Real.pi : ℝ) : ℂ) = I * k * t + k * (2 * Real.pi * I) by
      push_cast; ring, exp_add, exp_int_mul_two_pi_mul_I, mul_one]
  have h0 := hp.intervalIntegral_add_eq 0 (Real.pi / 2)
  have h1 := integral_comp_add_right (a := 0) (b := 2 * Real.pi)
    (fun t : ℝ => ((|Real.sin t| : ℝ) : ℂ) * exp (I * k * t)) (Real.pi / 2)
  rw [zero_add] at h0 h1
  rw [h0, show Real.pi / 2 + 2 * Real.pi = 2 * Real.pi + Real.pi / 2 by ring, ← h1]
  have e : ∀ t : ℝ, ((|Real.sin (t + Real.pi / 2)| : ℝ) : ℂ) * exp (I * k * ((t + Real.pi / 2 : ℝ) : ℂ))
      = exp (I * k * (Real.pi / 2)) * (((|Real.cos t| : ℝ) : ℂ) * exp (I * k * t)) := by
    intro t
    rw [Real.sin_add_pi_div_two, show I * (k : ℂ) * ((t + Real.pi / 2 : ℝ) : ℂ)
      = I * k * (Real.pi / 2) + I * k * t by push_cast; ring, exp_add]
    ring
  simp_rw [e]
  rw [integral_const_mul, integral_abscos]
  by_cases h : k % 2 = 1
  · simp [h]
  · rw [if_neg h, if_neg h]
    obtain ⟨j, rfl⟩ : ∃ j, k = 2 * j := ⟨k / 2, by omega⟩
    rw [show I * ((2 * j : ℤ) : ℂ) * (Real.pi / 2) = I * j * Real.pi by push_cast; ring, exp_pi,
      show 2 * j / 2 = j by omega, mul_div_assoc, ← mul_assoc, ← mul_zpow]
    norm_num

end QS.TwoDim

namespace QS.TwoDim

open Complex intervalIntegral

/-! ## Squares and fourth powers -/

theorem integral_fun_cos_exp {f : ℝ → ℝ} (hf : Continuous f) (k : ℤ) :
    ∫ t in (0 : ℝ)..2 * Real.pi, ((f t * Real.cos t : ℝ) : ℂ) * exp (I * k * t)
      = 1 / 2 * (∫ t in (0 : ℝ)..2 * Real.pi, (f t : ℂ) * exp (I * ((k + 1 : ℤ) : ℂ) * t))
        + 1 / 2 * (∫ t in (0 : ℝ)..2 * Real.pi, (f t : ℂ) * exp (I * ((k - 1 : ℤ) : ℂ) * t)) := by
  rw [← integral_const_mul, ← integral_const_mul, ← integral_add]
  · refine integral_congr fun t _ => ?_
    beta_reduce
    rw [ofReal_mul, mul_assoc, cos_exp]
    ring
  all_goals exact Continuous.intervalIntegrable (by fun_prop) _ _

theorem integral_fun_sin_exp {f : ℝ → ℝ} (hf : Continuous f) (k : ℤ) :
    ∫ t in (0 : ℝ)..2 * Real.pi, ((f t * Real.sin t : ℝ) : ℂ) * exp (I * k * t)
      = -I / 2 * (∫ t in (0 : ℝ)..2 * Real.pi, (f t : ℂ) * exp (I * ((k + 1 : ℤ) : ℂ) * t))
        + I / 2 * (∫ t in (0 : ℝ)..2 * Real.pi, (f t : ℂ) * exp (I * ((k - 1 : ℤ) : ℂ) * t)) := by
  rw [← integral_const_mul, ← integral_const_mul, ← integral_add]
  · refine integral_congr fun t _ => ?_
    beta_reduce
    rw [ofReal_mul, mul_assoc, sin_exp]
    ring
  all_goals exact Continuous.intervalIntegrable (by fun_prop) _ _

theorem integral_cos2_exp (k : ℤ) :
    ∫ t in (0 : ℝ)..2 * Real.pi, ((Real.cos t ^ 2 : ℝ) : ℂ) * exp (I * k * t)
      = if k = 0 then (Real.pi : ℂ) else if |k| = 2 then Real.pi / 2 else 0 := by
  simp_rw [pow_two]
  rw [integral_fun_cos_exp Real.continuous_cos, integral_cos_exp, integral_cos_exp]
  simp only [abs_eq (zero_le_one' ℤ), abs_eq (zero_le_two : (0 : ℤ) ≤ 2)]
  split_ifs <;> first | omega | ring

theorem integral_sin2_exp (k : ℤ) :
    ∫ t in (0 : ℝ)..2 * Real.pi, ((Real.sin t ^ 2 : ℝ) : ℂ) * exp (I * k * t)
      = if k = 0 then (Real.pi : ℂ) else if |k| = 2 then -(Real.pi / 2) else 0 := by
  simp_rw [pow_two]
  rw [integral_fun_sin_exp Real.continuous_sin, integral_sin_exp, integral_sin_exp]
  simp only [abs_eq (zero_le_one' ℤ), abs_eq (zero_le_two : (0 : ℤ) ≤ 2)]
  by_cases h0 : k = 0
  · subst h0; simp <;> ring_nf <;> simp <;> ring
  by_cases h2 : k = 2
  · subst h2; simp <;> ring_nf <;> simp <;> ring
  by_cases h3 : k = -2
  · subst h3; simp <;> ring_nf <;> simp <;> ring
  · rw [if_neg (by omega), if_neg (by omega), if_neg h0, if_neg (by omega)]; simp

theorem integral_cos4_exp (k : ℤ) :
    ∫ t in (0 : ℝ)..2 * Real.pi, ((Real.cos t ^ 4 : ℝ) : ℂ) * exp (I * k * t)
      = if k = 0 then (3 * Real.pi / 4 : ℂ) else if |k| = 2 then Real.pi / 2
        else if |k| = 4 then Real.pi / 8 else 0 := by
  simp_rw [pow_succ _ 3]
  rw [integral_fun_cos_exp (by fun_prop)]
  simp_rw [pow_succ _ 2]
  rw [integral_fun_cos_exp (by fun_prop), integral_fun_cos_exp (by fun_prop)]
  simp only [integral_cos2_exp]
  simp only [abs_eq (zero_le_two : (0 : ℤ) ≤ 2), abs_eq (by norm_num : (0 : ℤ) ≤ 4)]
  split_ifs <;> first | omega | ring

theorem integral_sin4_exp (k : ℤ) :
    ∫ t in (0 : ℝ)..2 * Real.pi, ((Real.sin t ^ 4 : ℝ) : ℂ) * exp (I * k * t)
      = if k = 0 then (3 * Real.pi / 4 : ℂ) else if |k| = 2 then -(Real.pi / 2)
        else if |k| = 4 then Real.pi / 8 else 0 := by
  simp_rw [pow_succ _ 3]
  rw [integral_fun_sin_exp (by fun_prop)]
  simp_rw [pow_succ _ 2]
  rw [integral_fun_sin_exp (by fun_prop), integral_fun_sin_exp (by fun_prop)]
  simp only [integral_sin2_exp]
  simp only [abs_eq (zero_le_two : (0 : ℤ) ≤ 2), abs_eq (by norm_num : (0 : ℤ) ≤ 4)]
  split_ifs <;> first | omega | (ring_nf; done) | (ring_nf; simp only [I_sq]; done) | (ring_nf; simp only [I_sq]; ring)

end QS.TwoDim
