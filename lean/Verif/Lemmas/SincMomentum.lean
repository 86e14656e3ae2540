import Verif.Lemmas.SincKinetic

/-!
# The momentum matrix of the sinc functions is bounded by `π`

Its elements are the Fourier coefficients of `k` on `[-π, π]`.
-/

namespace QS.SincKinetic

open Finset Complex intervalIntegral

theorem integral_id_exp {n : ℤ} (hn : n ≠ 0) :
    ∫ k in (-Real.pi)..Real.pi, (k : ℂ) * exp (I * n * k) = 2 * Real.pi * (-I * (((-1 : ℝ) ^ n / n : ℝ) : ℂ)) := by
  have hc : (I * n : ℂ) ≠ 0 := mul_ne_zero I_ne_zero (by exact_mod_cast hn)
  have hd : ∀ k ∈ Set.uIcc (-Real.pi) Real.pi, HasDerivAt (fun k : ℝ => exp (I * n * k) * ((k : ℂ) / (I * n) - 1 / (I * n) ^ 2))
      ((k : ℂ) * exp (I * n * k)) k := by
    intro k _
    have h0 : HasDerivAt (fun k : ℝ => (k : ℂ)) 1 k := ofRealCLM.hasDerivAt
    have h1 := (h0.const_mul (I * n : ℂ)).cexp
    have h2 := (h0.div_const (I * n : ℂ)).sub_const (1 / (I * n : ℂ) ^ 2)
    refine (h1.mul h2).congr_deriv ?_
    generalize exp (I * n * k) = e
    generalize (I * n : ℂ) = c at hc
    field_simp
    ring
  rw [integral_eq_sub_of_hasDerivAt hd (Continuous.intervalIntegrable (by fun_prop) _ _)]
  simp only [exp_pi_int, exp_neg_pi_int]
  have hn' : (n : ℂ) ≠ 0 := by exact_mod_cast hn
  push_cast
  field_simp
  linear_combination (2 * (Real.pi : ℂ) * I * n) * I_sq

theorem integral_exp_int {n : ℤ} (hn : n ≠ 0) : ∫ k in (-Real.pi)..Real.pi, exp (I * n * k) = 0 := by
  have hc : (I * n : ℂ) ≠ 0 := mul_ne_zero I_ne_zero (by exact_mod_cast hn)
  rw [integral_exp_mul_complex hc, exp_pi_int, exp_neg_pi_int, sub_self, zero_div]

/-- The momentum element between the sinc functions at `p` and `q`, with unit spacing. -/
noncomputable def mom (p q : ℕ) : ℂ := if p = q then 0 else -I * (((-1 : ℝ) ^ ((p : ℤ) - q) / ((p : ℝ) - q) : ℝ) : ℂ)

/-- Weighted integrals of squares, for functions with spin. -/
theorem weight_form (l : ℕ) {g : ℝ → ℝ} (hg : Continuous g) (v : Fin (2 * l) → ℂ) :
    ∑ p, ∑ q, star (v p) * (if p.1 % 2 = q.1 % 2 then ∫ k in (-Real.pi)..Real.pi, (g k : ℂ) *
      exp (I * (((p.1 / 2 : ℕ) : ℤ) - (q.1 / 2 : ℕ) : ℤ) * k) else 0) * v q
      = ((∫ k in (-Real.pi)..Real.pi, g k * ∑ σ ∈ range 2, ‖∑ q : Fin (2 * l), if q.1 % 2 = σ then
          exp (-(I * (q.1 / 2 : ℕ) * k)) * v q else 0‖ ^ 2 : ℝ) : ℂ) := by
  rw [← intervalIntegral.integral_ofReal]
  have h1 : ∀ k : ℝ, ((g k * ∑ σ ∈ range 2, ‖∑ q : Fin (2 * l), if q.1 % 2 = σ then
      exp (-(I * (q.1 / 2 : ℕ) * k)) * v q else 0‖ ^ 2 : ℝ) : ℂ) = ∑ p : Fin (2 * l), ∑ q : Fin (2 * l),
        star (v p) * (if p.1 % 2 = q.1 % 2 then (g k : ℂ) * exp (I * (((p.1 / 2 : ℕ) : ℤ) - (q.1 / 2 : ℕ) : ℤ) * k) else 0) * v q := by
    intro k
    rw [ofReal_mul, ofReal_sum]
    simp only [ofReal_pow, ← conj_mul', map_sum, sum_mul_sum]
    rw [sum_comm, mul_sum]
    refine sum_congr rfl fun p _ => ?_
    rw [sum_comm, mul_sum]
    refine sum_congr rfl fun q _ => ?_
    have h1 : p.1 % 2 < 2 := Nat.mod_lt _ two_pos
    rw [sum_eq_single (p.1 % 2)]
    · rw [if_pos rfl, map_mul, ← exp_conj]
      simp only [map_neg, map_mul, conj_I, conj_ofReal, map_natCast, eq_comm (a := q.1 % 2)]
      have : exp (I * (((p.1 / 2 : ℕ) : ℤ) - (q.1 / 2 : ℕ) : ℤ) * k) = exp (-(-I * (p.1 / 2 : ℕ) * k)) * exp (-(I * (q.1 / 2 : ℕ) * k)) := by
        rw [← exp_add]
        congr 1
        rw [Int.cast_sub, Int.cast_natCast, Int.cast_natCast]
        ring
      rw [this]
      change _ = (starRingEnd ℂ) (v p) * _ * _
      split_ifs <;> ring
    · intro σ _ hσ
      rw [if_neg fun e => hσ e.symm, map_zero, zero_mul]
    · exact fun h => absurd (mem_range.2 h1) h
  have hc : ∀ p q : Fin (2 * l), Continuous fun k : ℝ => star (v p) * (if p.1 % 2 = q.1 % 2 then (g k : ℂ) *
      exp (I * (((p.1 / 2 : ℕ) : ℤ) - (q.1 / 2 : ℕ) : ℤ) * k) else 0) * v q := fun p q => by
    split_ifs <;> fun_prop
  simp only [h1]
  rw [intervalIntegral.integral_finsetSum fun p _ => Continuous.intervalIntegrable
    (continuous_finsetSum _ fun q _ => hc p q) _ _]
  refine sum_congr rfl fun p _ => ?_
  rw [intervalIntegral.integral_finsetSum fun q _ => (hc p q).intervalIntegrable _ _]
  refine sum_congr rfl fun q _ => ?_
  rw [intervalIntegral.integral_mul_const, intervalIntegral.integral_const_mul]
  split_ifs
  · rfl
  · simp

theorem weight_nonneg (l : ℕ) {g : ℝ → ℝ} (hg : Continuous g) (h0 : ∀ k ∈ Set.Icc (-Real.pi) Real.pi, 0 ≤ g k) (v : Fin (2 * l) → ℂ) :
    0 ≤ (∑ p, ∑ q, star (v p) * (if p.1 % 2 = q.1 % 2 then ∫ k in (-Real.pi)..Real.pi, (g k : ℂ) *
      exp (I * (((p.1 / 2 : ℕ) : ℤ) - (q.1 / 2 : ℕ) : ℤ) * k) else 0) * v q).re := by
  rw [weight_form l hg, ofReal_re]
  exact integral_nonneg (by linarith [Real.pi_pos]) fun k hk => mul_nonneg (h0 k hk) (sum_nonneg fun _ _ => sq_nonneg _)

/-- No momentum is larger than `π`, in either direction (`s = ±1`). -/
theorem mom_le (l : ℕ) {s : ℝ} (hs : |s| ≤ 1) (v : Fin (2 * l) → ℂ) :
    (∑ p, ∑ q, star (v p) * (if p.1 % 2 = q.1 % 2 then s * mom (p.1 / 2) (q.1 / 2) else 0) * v q).re ≤ Real.pi * ∑ p, ‖v p‖ ^ 2 := by
  have hpi := Real.pi_pos
  have k := weight_nonneg l (g := fun k => Real.pi - s * k) (by fun_prop) (fun k hk => by
    have h1 : |s * k| ≤ 1 * Real.pi := by
      rw [abs_mul]
      exact mul_le_mul hs (abs_le.2 hk) (abs_nonneg _) zero_le_one
    linarith [le_abs_self (s * k)]) v
  have e : ∀ p q : Fin (2 * l), (if p.1 % 2 = q.1 % 2 then ∫ k in (-Real.pi)..Real.pi, ((Real.pi - s * k : ℝ) : ℂ) *
      exp (I * (((p.1 / 2 : ℕ) : ℤ) - (q.1 / 2 : ℕ) : ℤ) * k) else 0) = 2 * Real.pi * ((if p = q then (Real.pi : ℂ) else 0) -
        if p.1 % 2 = q.1 % 2 then s * mom (p.1 / 2) (q.1 / 2) else 0) := fun p q => by
    have split : ∀ n : ℤ, ∫ k in (-Real.pi)..Real.pi, ((Real.pi - s * k : ℝ) : ℂ) * exp (I * n * k) =
        Real.pi * (∫ k in (-Real.pi)..Real.pi, exp (I * n * k)) - s * ∫ k in (-Real.pi)..Real.pi, (k : ℂ) * exp (I * n * k) := fun n => by
      rw [← intervalIntegral.integral_const_mul, ← intervalIntegral.integral_const_mul, ← intervalIntegral.integral_sub
        (Continuous.intervalIntegrable (by fun_prop) _ _) (Continuous.intervalIntegrable (by fun_prop) _ _)]
      refine intervalIntegral.integral_congr fun k _ => ?_
      push_cast
      ring
    by_cases hσ : p.1 % 2 = q.1 % 2
    · rw [if_pos hσ, if_pos hσ, split]
      by_cases hpq : p = q
      · subst hpq
        rw [if_pos rfl, mom, if_pos rfl, sub_self]
        have z : ∫ k in (-Real.pi)..Real.pi, (k : ℂ) = 0 := by
          rw [intervalIntegral.integral_ofReal, integral_id]
          norm_num
        simp only [Int.cast_zero, mul_zero, zero_mul, exp_zero, mul_one, z, intervalIntegral.integral_const, real_smul]
        push_cast
        ring
      · have hne : p.1 / 2 ≠ q.1 / 2 := fun e => hpq (Fin.ext (by omega))
        have hn : ((p.1 / 2 : ℕ) : ℤ) - (q.1 / 2 : ℕ) ≠ 0 := by omega
        rw [if_neg hpq, integral_exp_int hn, integral_id_exp hn, mom, if_neg hne]
        rw [Int.cast_sub, Int.cast_natCast, Int.cast_natCast]
        ring
    · rw [if_neg hσ, if_neg hσ, if_neg fun e => hσ (by rw [e])]
      ring
  simp only [e] at k
  have e2 : ∑ p, ∑ q, star (v p) * (2 * Real.pi * ((if p = q then (Real.pi : ℂ) else 0) -
      if p.1 % 2 = q.1 % 2 then s * mom (p.1 / 2) (q.1 / 2) else 0)) * v q = ((2 * Real.pi : ℝ) : ℂ) * (((Real.pi * ∑ p, ‖v p‖ ^ 2 : ℝ) : ℂ) -
        ∑ p, ∑ q, star (v p) * (if p.1 % 2 = q.1 % 2 then s * mom (p.1 / 2) (q.1 / 2) else 0) * v q) := by
    have e3 : ((Real.pi * ∑ p, ‖v p‖ ^ 2 : ℝ) : ℂ) = ∑ p, ∑ q, star (v p) * (if p = q then (Real.pi : ℂ) else 0) * v q := by
      rw [ofReal_mul, ofReal_sum, mul_sum]
      refine sum_congr rfl fun p _ => ?_
      rw [sum_eq_single p (fun q _ hq => by rw [if_neg (Ne.symm hq)]; ring) (fun h => absurd (mem_univ _) h), if_pos rfl, ofReal_pow,
        ← conj_mul']
      change _ = (starRingEnd ℂ) (v p) * _ * _
      ring
    rw [e3, ← sum_sub_distrib, mul_sum]
    refine sum_congr rfl fun p _ => ?_
    rw [← sum_sub_distrib, mul_sum]
    refine sum_congr rfl fun q _ => ?_
    push_cast
    ring
  rw [e2, re_ofReal_mul, sub_re, ofReal_re] at k
  have := nonneg_of_mul_nonneg_right k (by positivity)
  linarith

end QS.SincKinetic
