import Verif.Model.OneDim
import Verif.Spec.OneDim
import Mathlib.Analysis.SpecialFunctions.Gaussian.GaussianIntegral
import Mathlib.MeasureTheory.Integral.IntegralEqImproper
import Mathlib.Algebra.Polynomial.AlgebraMap
import Mathlib.MeasureTheory.Measure.Haar.NormedSpace

/-!
# Hermite polynomials and oscillator functions on the line
-/

namespace QS.OneDim

open MeasureTheory Spec

theorem hermite_succ_succ (n : ℕ) (x : ℝ) :
    hermite (n + 2) x = 2 * x * hermite (n + 1) x - 2 * (n + 1) * hermite n x := rfl

theorem hermite_deriv (n : ℕ) (x : ℝ) :
    HasDerivAt (hermite n) (2 * n * hermite (n - 1) x) x ∧
    HasDerivAt (hermite (n + 1)) (2 * (n + 1) * hermite n x) x := by
  induction n with
  | zero =>
    refine ⟨?_, ?_⟩
    · have : hermite 0 = fun _ => 1 := by funext y; rfl
      rw [this]
      simpa using hasDerivAt_const x (1 : ℝ)
    · have : hermite 1 = fun y => 2 * y := by funext y; rfl
      rw [zero_add, this]
      have := (hasDerivAt_id x).const_mul (2 : ℝ)
      refine this.congr_deriv ?_
      simp [hermite]
  | succ n ih =>
    refine ⟨by have := ih.2; push_cast; simpa using this, ?_⟩
    have e : hermite (n + 1 + 1) = fun y => 2 * y * hermite (n + 1) y - 2 * (n + 1) * hermite n y := by
      funext y; rfl
    rw [e]
    have h1 := (((hasDerivAt_id x).const_mul 2).mul ih.2).sub (ih.1.const_mul (2 * ((n : ℝ) + 1)))
    refine h1.congr_deriv ?_
    push_cast
    rcases n with _ | n
    · simp [hermite]; ring
    · have := hermite_succ_succ n x
      simp only [Nat.add_sub_cancel, id]
      push_cast
      rw [this]
      push_cast
      ring

theorem hermite_hasDeriv (n : ℕ) (x : ℝ) : HasDerivAt (hermite n) (2 * n * hermite (n - 1) x) x :=
  (hermite_deriv n x).1

/-- `H_{n+1} = 2 x H_n - H_n'`. -/
theorem hermite_rec (n : ℕ) (x : ℝ) :
    hermite (n + 1) x = 2 * x * hermite n x - 2 * n * hermite (n - 1) x := by
  rcases n with _ | n
  · simp [hermite]
  · rw [hermite_succ_succ]
    push_cast
    simp

theorem hermite_poly (n : ℕ) : ∃ P : Polynomial ℝ, ∀ x, hermite n x = P.eval x := by
  have : (∃ P : Polynomial ℝ, ∀ x, hermite n x = P.eval x) ∧
      (∃ P : Polynomial ℝ, ∀ x, hermite (n + 1) x = P.eval x) := by
    induction n with
    | zero => exact ⟨⟨1, fun x => by simp [hermite]⟩, ⟨2 * Polynomial.X, fun x => by simp [hermite]⟩⟩
    | succ n ih =>
      refine ⟨ih.2, ?_⟩
      obtain ⟨⟨P, hP⟩, ⟨Q, hQ⟩⟩ := ih
      refine ⟨2 * Polynomial.X * Q - Polynomial.C (2 * ((n : ℝ) + 1)) * P, fun x => ?_⟩
      rw [hermite_succ_succ, hP, hQ]
      simp
  exact this.1

theorem gauss_pow_integrable (k : ℕ) : Integrable fun x : ℝ => x ^ k * Real.exp (-x ^ 2) := by
  have h := integrable_rpow_mul_exp_neg_mul_sq (b := 1) one_pos (s := k)
    (lt_of_lt_of_le (by norm_num) (Nat.cast_nonneg k))
  simpa using h

theorem gauss_poly_integrable (P : Polynomial ℝ) : Integrable fun x : ℝ => P.eval x * Real.exp (-x ^ 2) := by
  induction P using Polynomial.induction_on' with
  | add P Q hP hQ =>
    have := hP.add hQ
    refine this.congr (Filter.Eventually.of_forall fun x => ?_)
    simp [add_mul]
  | monomial k c =>
    have := (gauss_pow_integrable k).const_mul c
    refine this.congr (Filter.Eventually.of_forall fun x => ?_)
    simp [mul_assoc]

theorem hermite_integrable (P : Polynomial ℝ) (n m : ℕ) :
    Integrable fun x : ℝ => P.eval x * hermite n x * hermite m x * Real.exp (-x ^ 2) := by
  obtain ⟨Q, hQ⟩ := hermite_poly n
  obtain ⟨R, hR⟩ := hermite_poly m
  refine (gauss_poly_integrable (P * Q * R)).congr (Filter.Eventually.of_forall fun x => ?_)
  simp [hQ, hR]

theorem hermite_integrable' (n m : ℕ) :
    Integrable fun x : ℝ => hermite n x * hermite m x * Real.exp (-x ^ 2) := by
  simpa using hermite_integrable 1 n m

/-- `(H_n e^{-x²})' = -H_{n+1} e^{-x²}`. -/
theorem hermite_gauss_deriv (n : ℕ) (x : ℝ) :
    HasDerivAt (fun x => hermite n x * Real.exp (-x ^ 2)) (-(hermite (n + 1) x * Real.exp (-x ^ 2))) x := by
  have h1 : HasDerivAt (fun x : ℝ => Real.exp (-x ^ 2)) (Real.exp (-x ^ 2) * (-(2 * x))) x := by
    have := ((hasDerivAt_pow 2 x).fun_neg).exp
    refine this.congr_deriv ?_
    push_cast
    ring
  refine ((hermite_hasDeriv n x).mul h1).congr_deriv ?_
  rw [hermite_rec]
  ring

/-- `∫ H_n H_m e^{-x²}`. -/
noncomputable def hermiteInt (n m : ℕ) : ℝ := ∫ x : ℝ, hermite n x * hermite m x * Real.exp (-x ^ 2)

theorem hermiteInt_comm (n m : ℕ) : hermiteInt n m = hermiteInt m n := by
  unfold hermiteInt
  congr 1
  funext x
  ring

theorem hermiteInt_succ (n m : ℕ) : hermiteInt (n + 1) m = 2 * m * hermiteInt n (m - 1) := by
  have hv : ∀ x, HasDerivAt (fun x => hermite n x * Real.exp (-x ^ 2))
      (-(hermite (n + 1) x * Real.exp (-x ^ 2))) x := hermite_gauss_deriv n
  have hu : ∀ x, HasDerivAt (hermite m) (2 * m * hermite (m - 1) x) x := hermite_hasDeriv m
  have i1 : Integrable (fun x => hermite m x * (-(hermite (n + 1) x * Real.exp (-x ^ 2)))) := by
    refine (hermite_integrable' (n + 1) m).neg.congr (Filter.Eventually.of_forall fun x => ?_)
    simp only [Pi.neg_apply]; ring
  have i2 : Integrable (fun x => 2 * m * hermite (m - 1) x * (hermite n x * Real.exp (-x ^ 2))) := by
    refine ((hermite_integrable' n (m - 1)).const_mul (2 * (m : ℝ))).congr
      (Filter.Eventually.of_forall fun x => ?_)
    simp only; ring
  have i3 : Integrable (fun x => hermite m x * (hermite n x * Real.exp (-x ^ 2))) := by
    refine (hermite_integrable' n m).congr (Filter.Eventually.of_forall fun x => ?_)
    simp only; ring
  have h := integral_mul_deriv_eq_deriv_mul_of_integrable (u := hermite m)
    (v := fun x => hermite n x * Real.exp (-x ^ 2)) (fun x _ => hu x) (fun x _ => hv x) i1 i2 i3
  unfold hermiteInt
  have e1 : ∫ x, hermite m x * (-(hermite (n + 1) x * Real.exp (-x ^ 2)))
      = - ∫ x, hermite (n + 1) x * hermite m x * Real.exp (-x ^ 2) := by
    rw [← integral_neg]
    congr 1; funext x; ring
  have e2 : ∫ x, 2 * m * hermite (m - 1) x * (hermite n x * Real.exp (-x ^ 2))
      = 2 * m * ∫ x, hermite n x * hermite (m - 1) x * Real.exp (-x ^ 2) := by
    rw [← integral_const_mul]
    congr 1; funext x; ring
  rw [e1, e2] at h
  linarith

/-- Orthogonality of the Hermite polynomials. -/
theorem hermiteInt_eq (n m : ℕ) :
    hermiteInt n m = if n = m then 2 ^ n * n.factorial * Real.sqrt Real.pi else 0 := by
  induction n generalizing m with
  | zero =>
    rcases m with _ | m
    · rw [if_pos rfl]
      unfold hermiteInt
      have := integral_gaussian 1
      simp only [neg_mul, one_mul, div_one] at this
      simpa [hermite] using this
    · rw [hermiteInt_comm, hermiteInt_succ, if_neg (by omega)]
      simp
  | succ n ih =>
    rcases m with _ | m
    · rw [hermiteInt_succ, if_neg (by omega)]
      simp
    · rw [hermiteInt_succ, Nat.add_sub_cancel, ih]
      by_cases h : n = m
      · subst h
        rw [if_pos rfl, if_pos rfl, Nat.factorial_succ]
        push_cast
        ring
      · rw [if_neg h, if_neg (by omega), mul_zero]

/-- `x H_m = ½ H_{m+1} + m H_{m-1}`. -/
theorem hermite_mul_x (m : ℕ) (x : ℝ) :
    x * hermite m x = 1 / 2 * hermite (m + 1) x + m * hermite (m - 1) x := by
  rw [hermite_rec]; ring

theorem hermiteInt_x (n m : ℕ) :
    ∫ x : ℝ, x * hermite n x * hermite m x * Real.exp (-x ^ 2)
      = 1 / 2 * hermiteInt n (m + 1) + m * hermiteInt n (m - 1) := by
  unfold hermiteInt
  rw [← integral_const_mul, ← integral_const_mul,
    ← integral_add ((hermite_integrable' n (m + 1)).const_mul _) ((hermite_integrable' n (m - 1)).const_mul _)]
  congr 1
  funext x
  have := hermite_mul_x m x
  linear_combination hermite n x * Real.exp (-x ^ 2) * this

theorem hermiteInt_x2 (n m : ℕ) :
    ∫ x : ℝ, x ^ 2 * hermite n x * hermite m x * Real.exp (-x ^ 2)
      = 1 / 4 * hermiteInt (n + 1) (m + 1) + m / 2 * hermiteInt (n + 1) (m - 1)
        + n / 2 * hermiteInt (n - 1) (m + 1) + n * m * hermiteInt (n - 1) (m - 1) := by
  unfold hermiteInt
  rw [← integral_const_mul, ← integral_const_mul, ← integral_const_mul, ← integral_const_mul]
  have i1 := (hermite_integrable' (n + 1) (m + 1)).const_mul (1 / 4)
  have i2 := (hermite_integrable' (n + 1) (m - 1)).const_mul ((m : ℝ) / 2)
  have i3 := (hermite_integrable' (n - 1) (m + 1)).const_mul ((n : ℝ) / 2)
  have i4 := (hermite_integrable' (n - 1) (m - 1)).const_mul ((n : ℝ) * m)
  rw [← integral_add i1 i2, ← integral_add (by exact i1.add i2) i3,
    ← integral_add (by exact (i1.add i2).add i3) i4]
  congr 1
  funext x
  have h1 := hermite_mul_x m x
  have h2 := hermite_mul_x n x
  have : x ^ 2 * hermite n x * hermite m x * Real.exp (-x ^ 2)
      = (x * hermite n x) * (x * hermite m x) * Real.exp (-x ^ 2) := by ring
  rw [this, h1, h2]
  ring

/-! ## The oscillator functions -/

theorem ho_scale {omega : ℝ} (ho : 0 < omega) (P : ℝ → ℝ) (n m : ℕ) :
    ∫ x, P (Real.sqrt omega * x) * hoFunction omega n x * hoFunction omega m x
      = normalization omega n * normalization omega m / Real.sqrt omega
        * ∫ x, P x * hermite n x * hermite m x * Real.exp (-x ^ 2) := by
  have hs : 0 < Real.sqrt omega := Real.sqrt_pos.2 ho
  have h := Measure.integral_comp_mul_left
    (fun x => P x * hermite n x * hermite m x * Real.exp (-x ^ 2)) (Real.sqrt omega)
  rw [abs_of_pos (inv_pos.2 hs), smul_eq_mul] at h
  rw [div_mul_eq_mul_div, mul_div_assoc, div_eq_inv_mul, ← h, ← integral_const_mul]
  congr 1
  funext x
  unfold hoFunction
  have e : Real.exp (-(Real.sqrt omega * x) ^ 2)
      = Real.exp (-(1 / 2) * omega * x ^ 2) * Real.exp (-(1 / 2) * omega * x ^ 2) := by
    rw [← Real.exp_add, mul_pow, Real.sq_sqrt ho.le]
    congr 1
    ring
  rw [e]
  ring

theorem ho_norm_sq {omega : ℝ} (ho : 0 < omega) (n : ℕ) :
    normalization omega n * normalization omega n / Real.sqrt omega
      * (2 ^ n * n.factorial * Real.sqrt Real.pi) = 1 := by
  have h2 : (0 : ℝ) < 2 ^ n * n.factorial := by positivity
  have hp := Real.pi_pos
  have hq : (omega / Real.pi) ^ (1 / 4 : ℝ) * (omega / Real.pi) ^ (1 / 4 : ℝ)
      = Real.sqrt omega / Real.sqrt Real.pi := by
    rw [← Real.rpow_add (by positivity), ← Real.sqrt_div ho.le, Real.sqrt_eq_rpow]
    norm_num
  have hr : Real.sqrt (2 ^ n * n.factorial) * Real.sqrt (2 ^ n * n.factorial) = 2 ^ n * n.factorial :=
    Real.mul_self_sqrt h2.le
  have hs : Real.sqrt (2 ^ n * n.factorial) ≠ 0 := (Real.sqrt_pos.2 h2).ne'
  have hN := hr.symm
  have hso : Real.sqrt omega ≠ 0 := (Real.sqrt_pos.2 ho).ne'
  have hsp : Real.sqrt Real.pi ≠ 0 := (Real.sqrt_pos.2 hp).ne'
  unfold normalization
  have : 1 / Real.sqrt (2 ^ n * n.factorial) * (omega / Real.pi) ^ (1 / 4 : ℝ)
      * (1 / Real.sqrt (2 ^ n * n.factorial) * (omega / Real.pi) ^ (1 / 4 : ℝ))
      = 1 / (2 ^ n * n.factorial) * (Real.sqrt omega / Real.sqrt Real.pi) := by
    rw [← hq]
    set r := Real.sqrt (2 ^ n * n.factorial)
    rw [hN]
    field_simp
  rw [this]
  field_simp

/-- The oscillator functions are orthonormal on the line. -/
theorem ho_orthonormal {omega : ℝ} (ho : 0 < omega) (n m : ℕ) :
    lineInner (hoFunction omega n) (hoFunction omega m) = if n = m then 1 else 0 := by
  have h := ho_scale ho (fun _ => 1) n m
  simp only [one_mul] at h
  unfold lineInner
  rw [h]
  show _ * hermiteInt n m = _
  rw [hermiteInt_eq]
  by_cases hnm : n = m
  · subst hnm
    rw [if_pos rfl, if_pos rfl, ho_norm_sq ho]
  · rw [if_neg hnm, if_neg hnm, mul_zero]

theorem ho_deriv (omega : ℝ) (n : ℕ) (x : ℝ) :
    HasDerivAt (hoFunction omega n) (normalization omega n * Real.exp (-(1 / 2) * omega * x ^ 2)
      * (-(omega * x) * hermite n (Real.sqrt omega * x)
        + Real.sqrt omega * (2 * n * hermite (n - 1) (Real.sqrt omega * x)))) x := by
  have h1 : HasDerivAt (fun x : ℝ => Real.exp (-(1 / 2) * omega * x ^ 2))
      (Real.exp (-(1 / 2) * omega * x ^ 2) * (-(omega * x))) x := by
    have := (((hasDerivAt_pow 2 x).const_mul (-(1 / 2) * omega))).exp
    refine this.congr_deriv ?_
    push_cast
    ring
  have h2 : HasDerivAt (fun x : ℝ => hermite n (Real.sqrt omega * x))
      (2 * n * hermite (n - 1) (Real.sqrt omega * x) * Real.sqrt omega) x := by
    have := (hermite_hasDeriv n (Real.sqrt omega * x)).comp x ((hasDerivAt_id x).const_mul (Real.sqrt omega))
    refine this.congr_deriv ?_
    simp
  refine ((h1.const_mul (normalization omega n)).mul h2).congr_deriv ?_
  ring

/-- The oscillator functions are eigenfunctions of the oscillator. -/
theorem ho_eigen {omega : ℝ} (ho : 0 < omega) (n : ℕ) (x : ℝ) :
    lineHamiltonian (fun x => 1 / 2 * omega ^ 2 * x ^ 2) (hoFunction omega n) x
      = omega * (n + 1 / 2) * hoFunction omega n x := by
  have hs := Real.mul_self_sqrt ho.le
  have d1 : deriv (hoFunction omega n) = fun x => normalization omega n * Real.exp (-(1 / 2) * omega * x ^ 2)
      * (-(omega * x) * hermite n (Real.sqrt omega * x)
        + Real.sqrt omega * (2 * n * hermite (n - 1) (Real.sqrt omega * x))) :=
    funext fun x => (ho_deriv omega n x).deriv
  have h1 : HasDerivAt (fun x : ℝ => Real.exp (-(1 / 2) * omega * x ^ 2))
      (Real.exp (-(1 / 2) * omega * x ^ 2) * (-(omega * x))) x := by
    have := (((hasDerivAt_pow 2 x).const_mul (-(1 / 2) * omega))).exp
    refine this.congr_deriv ?_
    push_cast
    ring
  have h2 : ∀ m : ℕ, HasDerivAt (fun x : ℝ => hermite m (Real.sqrt omega * x))
      (2 * m * hermite (m - 1) (Real.sqrt omega * x) * Real.sqrt omega) x := by
    intro m
    have := (hermite_hasDeriv m (Real.sqrt omega * x)).comp x ((hasDerivAt_id x).const_mul (Real.sqrt omega))
    refine this.congr_deriv ?_
    simp
  have h3 : HasDerivAt (fun x : ℝ => -(omega * x)) (-omega) x := by
    simpa using ((hasDerivAt_id x).const_mul omega).fun_neg
  have d2 := ((h1.const_mul (normalization omega n)).fun_mul
    ((h3.fun_mul (h2 n)).fun_add (((h2 (n - 1)).const_mul (2 * (n : ℝ))).const_mul (Real.sqrt omega)))).deriv
  unfold lineHamiltonian
  rw [d1]
  have d2' : deriv (fun x => normalization omega n * Real.exp (-(1 / 2) * omega * x ^ 2)
      * (-(omega * x) * hermite n (Real.sqrt omega * x)
        + Real.sqrt omega * (2 * n * hermite (n - 1) (Real.sqrt omega * x)))) x = _ := d2
  rw [d2']
  unfold hoFunction
  rcases n with _ | n
  · simp [hermite]
    ring
  · have hr := hermite_rec n (Real.sqrt omega * x)
    simp only [Nat.add_sub_cancel]
    push_cast
    set H0 := hermite (n - 1) (Real.sqrt omega * x)
    set H1 := hermite n (Real.sqrt omega * x)
    rw [hr]
    set c := Real.sqrt omega
    rw [← hs]
    ring

end QS.OneDim
