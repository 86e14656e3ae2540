import Verif.Spec.Rotation
import Verif.Lemmas.Continuity
import Mathlib.Analysis.SpecialFunctions.ExpDeriv

/-!
# Lemmas on rotated wave functions (C152)
-/

namespace QS

open Finset NDArray

variable {N L : ℕ}

theorem turnedWave_eq (c : Fin L → ℂ) (Ψ : Wave ℂ N L) : turnedWave c Ψ = prodOp (fun _ => Matrix.diagonal c) Ψ := by
  funext x
  unfold turnedWave prodOp
  rw [sum_eq_single_of_mem x (mem_univ x) fun y _ hy => ?_]
  · simp only [Matrix.diagonal_apply_eq]
  · obtain ⟨i, hi⟩ := Function.ne_iff.1 hy
    rw [prod_eq_zero (mem_univ i) (Matrix.diagonal_apply_ne c (Ne.symm hi)), zero_mul]

theorem unit_prod {c : Fin L → ℂ} (hc : ∀ p, star (c p) * c p = 1) (x : Fin N → Fin L) :
    star (∏ i, c (x i)) * ∏ i, c (x i) = 1 := by
  rw [star_prod, ← prod_mul_distrib]
  exact prod_eq_one fun i _ => hc _

theorem turnedWave_inner {c : Fin L → ℂ} (hc : ∀ p, star (c p) * c p = 1) (Φ Ψ : Wave ℂ N L) :
    waveInner (turnedWave c Φ) (turnedWave c Ψ) = waveInner Φ Ψ := by
  unfold waveInner turnedWave
  refine sum_congr rfl fun x _ => ?_
  rw [star_mul']
  linear_combination (star (Φ x) * Ψ x) * unit_prod hc x

/-- The Hamilton operator of the turned elements. -/
theorem hamiltonOp_turned {h h' : Fin L → Fin L → ℂ} {u u' : Fin L → Fin L → Fin L → Fin L → ℂ} {c : Fin L → ℂ}
    (hc : ∀ p, star (c p) * c p = 1) (e1 : ∀ p q, h p q = star (c p) * h' p q * c q)
    (e2 : ∀ p q r s, u p q r s = star (c p) * star (c q) * u' p q r s * c r * c s) (Ψ : Wave ℂ N L) :
    hamiltonOp h' u' (turnedWave c Ψ) = turnedWave c (hamiltonOp h u Ψ) := by
  have hC : (Matrix.diagonal c).conjTranspose * Matrix.diagonal c = 1 := by
    rw [Matrix.diagonal_conjTranspose, Matrix.diagonal_mul_diagonal, ← Matrix.diagonal_one]
    congr 1
    funext p
    exact hc p
  have hC' := mul_eq_one_comm.1 hC
  have k := congrArg (prodOp fun _ => Matrix.diagonal c) (hamiltonOp_sandwich hC h' u' Ψ)
  rw [prodOp_inverse hC', ← turnedWave_eq, ← turnedWave_eq] at k
  rw [k]
  congr 2
  · funext p q
    rw [e1, Matrix.diagonal_conjTranspose, Matrix.mul_diagonal, Matrix.diagonal_mul]
    rfl
  · funext p q r s
    rw [e2, sum_eq_single_of_mem p (mem_univ p) fun a _ ha => ?_]
    · rw [sum_eq_single_of_mem q (mem_univ q) fun a _ ha => ?_]
      · rw [sum_eq_single_of_mem r (mem_univ r) fun a _ ha => ?_]
        · rw [sum_eq_single_of_mem s (mem_univ s) fun a _ ha => ?_]
          · simp [Matrix.diagonal_conjTranspose]
          · rw [Matrix.diagonal_apply_ne c ha, mul_zero]
        · exact sum_eq_zero fun _ _ => by rw [Matrix.diagonal_apply_ne c ha, mul_zero, zero_mul]
      · rw [Matrix.diagonal_conjTranspose, Matrix.diagonal_apply_ne _ (Ne.symm ha)]
        simp
    · rw [Matrix.diagonal_conjTranspose, Matrix.diagonal_apply_ne _ (Ne.symm ha)]
      simp

/-- An operator that is diagonal. -/
theorem oneBodyOp_diagonal (δ : Fin L → ℂ) (Ψ : Wave ℂ N L) (x : Fin N → Fin L) :
    oneBodyOp (fun p q => if p = q then δ p else 0) Ψ x = (∑ i, δ (x i)) * Ψ x := by
  unfold oneBodyOp
  rw [sum_mul]
  refine sum_congr rfl fun i _ => ?_
  dsimp only
  rw [sum_eq_single_of_mem (x i) (mem_univ _) fun y _ hy => by rw [if_neg (Ne.symm hy), zero_mul], if_pos rfl,
    Function.update_eq_self]

theorem hamiltonOp_diagonal (h : Fin L → Fin L → ℂ) (u : Fin L → Fin L → Fin L → Fin L → ℂ) (δ : Fin L → ℂ) (a : ℂ) (Ψ : Wave ℂ N L)
    (x : Fin N → Fin L) : hamiltonOp (fun p q => h p q + a * if p = q then δ p else 0) u Ψ x =
      hamiltonOp h u Ψ x + a * ((∑ i, δ (x i)) * Ψ x) := by
  rw [← oneBodyOp_diagonal]
  unfold hamiltonOp oneBodyOp
  simp only [add_mul, sum_add_distrib, mul_sum, mul_assoc]
  ring

/-- Wave functions in a frame that turns. -/
theorem Evolves.turned {h h' : ℝ → Fin L → Fin L → ℂ} {u u' : ℝ → Fin L → Fin L → Fin L → Fin L → ℂ} {φ φ' : ℝ → ℝ} {m : Fin L → ℤ}
    (hφ : ∀ t, HasDerivAt φ (φ' t) t) {c : ℝ → Fin L → ℂ} (ec : ∀ t p, c t p = Complex.exp (-Complex.I * (φ t * m p)))
    (e1 : ∀ t p q, h t p q = star (c t p) * h' t p q * c t q)
    (e2 : ∀ t p q r s, u t p q r s = star (c t p) * star (c t q) * u' t p q r s * c t r * c t s)
    {Ψ : ℝ → Wave ℂ N L} (S : Evolves h u Ψ) :
    Evolves (fun t p q => h' t p q + φ' t * if p = q then (m p : ℂ) else 0) u' fun t => turnedWave (c t) (Ψ t) := by
  intro t x
  have unit : ∀ p, star (c t p) * c t p = 1 := fun p => by
    rw [ec, Complex.star_def, ← Complex.exp_conj, ← Complex.exp_add]
    simp [Complex.conj_ofReal]
  rw [hamiltonOp_diagonal, hamiltonOp_turned unit (e1 t) (e2 t)]
  have ep : ∀ t, ∏ i, c t (x i) = Complex.exp (-Complex.I * (φ t * ∑ i, (m (x i) : ℂ))) := fun t => by
    rw [mul_sum, mul_sum, Complex.exp_sum]
    exact prod_congr rfl fun i _ => ec t _
  have k1 : HasDerivAt (fun t => ∏ i, c t (x i))
      (Complex.exp (-Complex.I * (φ t * ∑ i, (m (x i) : ℂ))) * (-Complex.I * (φ' t * ∑ i, (m (x i) : ℂ)))) t := by
    simp only [ep]
    exact ((((hφ t).ofReal_comp).mul_const _).const_mul (-Complex.I)).cexp
  refine (k1.fun_mul (S t x)).congr_deriv ?_
  unfold turnedWave
  simp only [ep]
  generalize ∑ i, (m (x i) : ℂ) = K
  ring

theorem turnPhase_unit (m : ℕ → ℤ) (l : ℕ) (φ : ℝ) (p : Fin (2 * l)) : star (turnPhase m l φ p) * turnPhase m l φ p = 1 := by
  unfold turnPhase
  rw [Complex.star_def, ← Complex.exp_conj, ← Complex.exp_add]
  simp [Complex.conj_ofReal]

/-- The phases of the elements of an operator that changes the angular momentum by `a - b`. -/
theorem rotation_phase (φ : ℝ) (a b : ℤ) : star (Complex.exp (-Complex.I * (φ * a))) * Complex.exp (-Complex.I * (φ * b)) =
    Complex.exp (Complex.I * (φ * (a - b : ℤ))) := by
  rw [Complex.star_def, ← Complex.exp_conj, ← Complex.exp_add]
  congr 1
  simp [Complex.conj_ofReal]
  ring

theorem vector_phase (φ : ℝ) {k : ℤ} (hk : |k| = 1) : Complex.exp (Complex.I * (φ * k)) = Real.cos φ + Complex.I * k * Real.sin φ := by
  rcases (abs_eq zero_le_one).1 hk with rfl | rfl
  · rw [mul_comm, show ((φ : ℂ) * ((1 : ℤ) : ℂ)) = (φ : ℂ) by push_cast; ring, Complex.exp_mul_I]
    push_cast
    ring
  · rw [mul_comm, show ((φ : ℂ) * ((-1 : ℤ) : ℂ)) = ((-φ : ℝ) : ℂ) by push_cast; ring, Complex.exp_mul_I, ← Complex.ofReal_cos,
      ← Complex.ofReal_sin, Real.cos_neg, Real.sin_neg]
    push_cast
    ring

end QS
