import Mathlib.Analysis.SpecialFunctions.Integrals.Basic
import Mathlib.MeasureTheory.Integral.IntervalIntegral.FundThmCalculus

/-!
# The kinetic-energy matrix of the sinc functions is positive

Its elements are the Fourier coefficients of `k²` on `[-π, π]`.
-/

namespace QS.SincKinetic

open Finset Complex intervalIntegral

theorem exp_pi_int (n : ℤ) : exp (I * n * Real.pi) = (((-1 : ℝ) ^ n : ℝ) : ℂ) := by
  rw [show I * n * Real.pi = n * (Real.pi * I) by ring, exp_int_mul, exp_pi_mul_I]
  push_cast
  rfl

theorem exp_neg_pi_int (n : ℤ) : exp (I * n * (-Real.pi : ℝ)) = (((-1 : ℝ) ^ n : ℝ) : ℂ) := by
  rw [show I * n * ((-Real.pi : ℝ) : ℂ) = ((-n : ℤ) : ℂ) * (Real.pi * I) by push_cast; ring, exp_int_mul, exp_pi_mul_I,
    zpow_neg]
  push_cast
  rw [← inv_zpow, inv_neg, inv_one]

theorem integral_sq_exp {n : ℤ} (hn : n ≠ 0) :
    ∫ k in (-Real.pi)..Real.pi, (k : ℂ) ^ 2 * exp (I * n * k)
      = ((4 * Real.pi * ((-1 : ℝ) ^ n / (n : ℝ) ^ 2) : ℝ) : ℂ) := by
  have hc : (I * n : ℂ) ≠ 0 := mul_ne_zero I_ne_zero (by exact_mod_cast hn)
  have hd : ∀ k ∈ Set.uIcc (-Real.pi) Real.pi, HasDerivAt (fun k : ℝ => exp (I * n * k)
      * ((k : ℂ) ^ 2 / (I * n) - 2 * k / (I * n) ^ 2 + 2 / (I * n) ^ 3)) ((k : ℂ) ^ 2 * exp (I * n * k)) k := by
    intro k _
    have h0 : HasDerivAt (fun k : ℝ => (k : ℂ)) 1 k := ofRealCLM.hasDerivAt
    have h1 := (h0.const_mul (I * n : ℂ)).cexp
    have h2 := (((h0.pow 2).div_const (I * n : ℂ)).sub ((h0.const_mul 2).div_const ((I * n : ℂ) ^ 2))).add_const
      (2 / (I * n : ℂ) ^ 3)
    refine (h1.mul h2).congr_deriv ?_
    simp only [Pi.sub_apply, Pi.pow_apply]
    generalize exp (I * n * k) = e
    generalize (I * n : ℂ) = c at hc
    push_cast
    field_simp
    ring
  rw [integral_eq_sub_of_hasDerivAt hd (Continuous.intervalIntegrable (by fun_prop) _ _)]
  simp only [exp_pi_int, exp_neg_pi_int]
  have hI : (I * n : ℂ) ^ 2 = -(n : ℂ) ^ 2 := by rw [mul_pow, I_sq]; ring
  have hn' : (n : ℂ) ≠ 0 := by exact_mod_cast hn
  rw [hI]
  push_cast
  generalize (I * n : ℂ) = c at *
  field_simp
  ring

theorem integral_sq : ∫ k in (-Real.pi)..Real.pi, (k : ℂ) ^ 2 = ((2 * Real.pi ^ 3 / 3 : ℝ) : ℂ) := by
  have : ∫ k in (-Real.pi)..Real.pi, (k : ℂ) ^ 2 = ((∫ k in (-Real.pi)..Real.pi, k ^ 2 : ℝ) : ℂ) := by
    rw [← intervalIntegral.integral_ofReal]
    push_cast
    rfl
  rw [this, integral_pow]
  congr 1
  norm_num
  ring

/-- The kinetic-energy element between the sinc functions at `p` and `q`, with unit spacing. -/
noncomputable def kin (p q : ℕ) : ℝ :=
  if p = q then Real.pi ^ 2 / 6 else (-1 : ℝ) ^ ((p : ℤ) - q) / ((p : ℝ) - q) ^ 2

theorem kin_integral (p q : ℕ) :
    (kin p q : ℂ) = ((1 / (4 * Real.pi) : ℝ) : ℂ) * ∫ k in (-Real.pi)..Real.pi,
      (k : ℂ) ^ 2 * exp (I * ((p : ℤ) - q : ℤ) * k) := by
  unfold kin
  have hpi := Real.pi_ne_zero
  by_cases h : p = q
  · subst h
    rw [if_pos rfl]
    simp only [sub_self, Int.cast_zero, mul_zero, zero_mul, exp_zero, mul_one]
    rw [integral_sq, ← ofReal_mul]
    congr 1
    field_simp
    norm_num
  · rw [if_neg h, integral_sq_exp (by omega), ← ofReal_mul]
    congr 1
    push_cast
    field_simp

/-- The quadratic form of the kinetic energy is a weighted integral of a square. -/
theorem kin_form (l : ℕ) (v : ℕ → ℂ) :
    ∑ p ∈ range l, ∑ q ∈ range l, star (v p) * (kin p q : ℂ) * v q
      = ((1 / (4 * Real.pi) * ∫ k in (-Real.pi)..Real.pi,
          k ^ 2 * ‖∑ q ∈ range l, exp (-(I * q * k)) * v q‖ ^ 2 : ℝ) : ℂ) := by
  rw [ofReal_mul, ← intervalIntegral.integral_ofReal]
  have h1 : ∀ k : ℝ, ((k ^ 2 * ‖∑ q ∈ range l, exp (-(I * q * k)) * v q‖ ^ 2 : ℝ) : ℂ)
      = ∑ p ∈ range l, ∑ q ∈ range l, star (v p) * ((k : ℂ) ^ 2 * exp (I * ((p : ℤ) - q : ℤ) * k)) * v q := by
    intro k
    rw [ofReal_mul, ofReal_pow, ofReal_pow, ← conj_mul', map_sum, sum_mul_sum, mul_sum]
    refine sum_congr rfl fun p _ => ?_
    rw [mul_sum]
    refine sum_congr rfl fun q _ => ?_
    rw [map_mul, ← exp_conj]
    simp only [map_neg, map_mul, conj_I, conj_ofReal, map_natCast]
    have : exp (I * ((p : ℤ) - q : ℤ) * k) = exp (-(-I * p * k)) * exp (-(I * q * k)) := by
      rw [← exp_add]
      congr 1
      push_cast
      ring
    rw [this]
    change _ = (starRingEnd ℂ) (v p) * _ * _
    ring
  simp only [h1]
  rw [intervalIntegral.integral_finsetSum fun p _ => Continuous.intervalIntegrable (by fun_prop) _ _, mul_sum]
  refine sum_congr rfl fun p _ => ?_
  rw [intervalIntegral.integral_finsetSum fun q _ => Continuous.intervalIntegrable (by fun_prop) _ _, mul_sum]
  refine sum_congr rfl fun q _ => ?_
  rw [intervalIntegral.integral_mul_const, intervalIntegral.integral_const_mul, kin_integral]
  ring

theorem kin_nonneg (l : ℕ) (v : ℕ → ℂ) :
    0 ≤ (∑ p ∈ range l, ∑ q ∈ range l, star (v p) * (kin p q : ℂ) * v q).re := by
  rw [kin_form, ofReal_re]
  exact mul_nonneg (by positivity) (integral_nonneg (by linarith [Real.pi_pos]) fun k _ => by positivity)

end QS.SincKinetic
