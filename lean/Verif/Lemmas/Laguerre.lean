import Verif.Model.TwoDim
import Mathlib.Algebra.Group.ForwardDiff
import Mathlib.MeasureTheory.Integral.Gamma
import Mathlib.Analysis.SpecialFunctions.Gaussian.GaussianIntegral

/-!
# Laguerre polynomials and radial integrals
-/

namespace QS.TwoDim

open Finset

/-- The coefficient of `x^i` in `L_n^{(k)}(x)`. -/
noncomputable def lagCoeff (n k i : ℕ) : ℝ := (-1) ^ i * ((n + k).choose (n - i) : ℝ) / i.factorial

theorem assocLaguerre_eq (x : ℝ) (n k : ℕ) :
    assocLaguerre x n k = ∑ i ∈ range (n + 1), lagCoeff n k i * x ^ i := rfl

/-- The `n`-th difference of `x ↦ C(x, j)` for `j ≤ n`. -/
theorem choose_difference (n j y : ℕ) (hj : j ≤ n) :
    ∑ i ∈ range (n + 1), (-1 : ℤ) ^ (n - i) * n.choose i * ((y + i).choose j : ℤ)
      = if j = n then 1 else 0 := by
  have h := fwdDiff_iter_eq_sum_shift (1 : ℕ) (fun x : ℕ => ((x.choose j : ℕ) : ℤ)) n y
  have hz : (fwdDiff (1 : ℕ))^[n] (fun x : ℕ => ((x.choose j : ℕ) : ℤ)) y = if j = n then 1 else 0 := by
    obtain ⟨m, rfl⟩ := Nat.exists_eq_add_of_le hj
    have h1 := fwdDiff_iter_choose 0 j
    simp only [add_zero, Nat.choose_zero_right, Nat.cast_one] at h1
    rw [Nat.add_comm j m, Function.iterate_add_apply, h1]
    cases m with
    | zero => simp
    | succ m =>
      rw [Function.iterate_succ_apply, fwdDiff_const, if_neg (by omega)]
      have : ∀ m, (fwdDiff (1 : ℕ))^[m] (fun _ : ℕ => (0 : ℤ)) = fun _ => 0 := by
        intro m
        induction m with
        | zero => rfl
        | succ m ih => rw [Function.iterate_succ_apply, fwdDiff_const, ih]
      rw [this]
  rw [← hz, h]
  refine sum_congr rfl fun i _ => ?_
  simp

/-- `∫ x^{k+j} L_n^{(k)}(x) e^{-x} dx` for `j ≤ n`, as a sum of factorials. -/
theorem lag_moment (n k j : ℕ) (hj : j ≤ n) :
    ∑ i ∈ range (n + 1), lagCoeff n k i * ((k + i + j).factorial : ℝ)
      = if j = n then (-1) ^ n * ((n + k).factorial : ℝ) else 0 := by
  have h := choose_difference n j (k + j) hj
  have hr : ∑ i ∈ range (n + 1), (-1 : ℝ) ^ (n - i) * n.choose i * ((k + j + i).choose j : ℝ)
      = if j = n then 1 else 0 := by
    have := congrArg (fun z : ℤ => (z : ℝ)) h
    push_cast at this
    rw [this]
  have : ∀ i ∈ range (n + 1), lagCoeff n k i * ((k + i + j).factorial : ℝ)
      = ((-1) ^ n * ((n + k).factorial : ℝ) * j.factorial / n.factorial)
        * ((-1 : ℝ) ^ (n - i) * n.choose i * ((k + j + i).choose j : ℝ)) := by
    intro i hi
    have hi' : i ≤ n := by simpa [Nat.lt_succ_iff] using hi
    have e1 : ((n + k).choose (n - i) : ℝ) = (n + k).factorial / ((n - i).factorial * (k + i).factorial) := by
      rw [Nat.cast_choose ℝ (by omega), show n + k - (n - i) = k + i by omega]
    have e2 : ((k + j + i).choose j : ℝ) = (k + i + j).factorial / (j.factorial * (k + i).factorial) := by
      rw [Nat.cast_choose ℝ (by omega), show k + j + i - j = k + i by omega,
        show k + j + i = k + i + j by omega]
    have e3 : (n.choose i : ℝ) = n.factorial / (i.factorial * (n - i).factorial) :=
      Nat.cast_choose ℝ hi'
    have e4 : (-1 : ℝ) ^ n * (-1) ^ (n - i) = (-1) ^ i := by
      rw [← pow_add, show n + (n - i) = i + 2 * (n - i) by omega, pow_add, pow_mul]; norm_num
    rw [lagCoeff, e1, e2, e3, ← e4]
    have f (m : ℕ) : (m.factorial : ℝ) ≠ 0 := by positivity
    have := f n; have := f i; have := f j; have := f (n - i); have := f (k + i)
    field_simp
  rw [sum_congr rfl this, ← mul_sum, hr]
  split_ifs with he
  · subst he
    have : (j.factorial : ℝ) ≠ 0 := by positivity
    field_simp
  · simp

/-- Orthogonality of the Laguerre polynomials, as a sum of factorials. -/
theorem lag_orthogonal (n n' k : ℕ) :
    ∑ j ∈ range (n' + 1), ∑ i ∈ range (n + 1),
        lagCoeff n k i * lagCoeff n' k j * ((k + i + j).factorial : ℝ)
      = if n = n' then ((n + k).factorial : ℝ) / n.factorial else 0 := by
  have main : ∀ n n' : ℕ, n' ≤ n → ∑ j ∈ range (n' + 1), ∑ i ∈ range (n + 1),
        lagCoeff n k i * lagCoeff n' k j * ((k + i + j).factorial : ℝ)
      = if n = n' then ((n + k).factorial : ℝ) / n.factorial else 0 := by
    intro n n' hn
    have e : ∀ j ∈ range (n' + 1), ∑ i ∈ range (n + 1),
        lagCoeff n k i * lagCoeff n' k j * ((k + i + j).factorial : ℝ)
        = lagCoeff n' k j * (if j = n then (-1) ^ n * ((n + k).factorial : ℝ) else 0) := by
      intro j hj
      rw [← lag_moment n k j (by have := mem_range.1 hj; omega), mul_sum]
      exact sum_congr rfl fun i _ => by ring
    rw [sum_congr rfl e]
    split_ifs with h
    · subst h
      rw [sum_range_succ, sum_eq_zero fun j hj => by rw [if_neg (by have := mem_range.1 hj; omega), mul_zero],
        if_pos rfl, lagCoeff]
      simp only [Nat.sub_self, Nat.choose_zero_right, Nat.cast_one, mul_one, zero_add]
      rw [div_mul_eq_mul_div, ← mul_assoc, ← pow_add, Even.neg_one_pow ⟨n, rfl⟩, one_mul]
    · exact sum_eq_zero fun j hj => by rw [if_neg (by have := mem_range.1 hj; omega), mul_zero]
  rcases le_total n' n with h | h
  · exact main n n' h
  · have := main n' n h
    rw [sum_comm] at this
    rw [show (if n = n' then ((n + k).factorial : ℝ) / n.factorial else 0)
      = (if n' = n then ((n' + k).factorial : ℝ) / n'.factorial else 0) by
        by_cases e : n = n'
        · subst e; rfl
        · rw [if_neg e, if_neg (fun h => e h.symm)], ← this]
    exact sum_congr rfl fun i _ => sum_congr rfl fun j _ => by
      rw [show k + j + i = k + i + j by omega]; ring

/-! ## Gaussian integrals -/

theorem gauss_integrable {b : ℝ} (hb : 0 < b) (s : ℕ) :
    MeasureTheory.IntegrableOn (fun r : ℝ => r ^ s * Real.exp (-b * r ^ 2)) (Set.Ioi 0) := by
  have := integrableOn_rpow_mul_exp_neg_mul_sq hb (s := (s : ℝ)) (by
    have : (0 : ℝ) ≤ s := Nat.cast_nonneg s
    linarith)
  simpa only [Real.rpow_natCast] using this

/-- `∫₀^∞ r^{2j+1} e^{-b r²} dr = j!/(2 b^{j+1})`. -/
theorem gauss_integral {b : ℝ} (hb : 0 < b) (j : ℕ) :
    ∫ r in Set.Ioi (0 : ℝ), r ^ (2 * j + 1) * Real.exp (-b * r ^ 2)
      = (j.factorial : ℝ) / (2 * b ^ (j + 1)) := by
  have h := integral_rpow_mul_exp_neg_mul_rpow (p := 2) (q := ((2 * j + 1 : ℕ) : ℝ)) (b := b) two_pos
    (by have : (0 : ℝ) ≤ ((2 * j + 1 : ℕ) : ℝ) := Nat.cast_nonneg _
        linarith) hb
  simp only [Real.rpow_natCast, Real.rpow_two] at h
  rw [h, show (((2 * j + 1 : ℕ) : ℝ) + 1) / 2 = (j : ℝ) + 1 by push_cast; ring,
    Real.Gamma_nat_eq_factorial, show -(((2 * j + 1 : ℕ) : ℝ) + 1) / 2 = -((j + 1 : ℕ) : ℝ) by
      push_cast; ring, Real.rpow_neg hb.le, Real.rpow_natCast]
  field_simp

end QS.TwoDim
