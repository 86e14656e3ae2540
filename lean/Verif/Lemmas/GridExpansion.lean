import Verif.Lemmas.GridStates
import Mathlib.Data.Matrix.Mul
import Mathlib.LinearAlgebra.Matrix.NonsingularInverse
import Mathlib.LinearAlgebra.Matrix.ConjTranspose

/-!
# Expansion in the states of a grid
-/

namespace QS.GridLimit

open Spec Finset

variable {V : ℝ → ℝ} {L : ℝ} {num : ℕ} {w : ℕ → ℝ} {f : ℕ → ℕ → ℂ}

/-- The component of `z` along the state `p`. -/
noncomputable def coeff (L : ℝ) (num : ℕ) (f : ℕ → ℕ → ℂ) (z : ℕ → ℂ) (p : ℕ) : ℂ :=
  (dx L num : ℂ) * ∑ k ∈ range (num - 2), (starRingEnd ℂ) (f p (k + 1)) * z (k + 1)

theorem Fam.complete (F : Fam V L num w f) {j k : ℕ} (hj : j < num - 2) (hk : k < num - 2) :
    (dx L num : ℂ) * ∑ p ∈ range (num - 2), f p (j + 1) * (starRingEnd ℂ) (f p (k + 1)) = if j = k then 1 else 0 := by
  set n := num - 2 with hn
  let A : Matrix (Fin n) (Fin n) ℂ := fun p k => (dx L num : ℂ) * (starRingEnd ℂ) (f p (k + 1))
  let B : Matrix (Fin n) (Fin n) ℂ := fun k q => f q (k + 1)
  have hAB : A * B = 1 := by
    ext p q
    rw [Matrix.mul_apply, Matrix.one_apply]
    have := F.orth p q p.2 q.2
    rw [mul_sum, ← hn, sum_range] at this
    simp only [Fin.ext_iff]
    rw [← this]
    exact sum_congr rfl fun k _ => by simp only [A, B]; ring
  have hBA := mul_eq_one_comm.1 hAB
  have := congrFun (congrFun hBA ⟨j, hj⟩) ⟨k, hk⟩
  rw [Matrix.mul_apply, Matrix.one_apply] at this
  simp only [Fin.ext_iff] at this
  rw [← this, mul_sum, sum_range]
  exact sum_congr rfl fun p _ => by simp only [A, B]; ring

theorem Fam.parseval (F : Fam V L num w f) (z : ℕ → ℂ) :
    ∑ p ∈ range (num - 2), ‖coeff L num f z p‖ ^ 2 = dx L num * ∑ k ∈ range (num - 2), ‖z (k + 1)‖ ^ 2 := by
  set n := num - 2
  set d := dx L num
  have e : ∀ z : ℂ, (starRingEnd ℂ) z * z = ((‖z‖ ^ 2 : ℝ) : ℂ) := fun z => by
    rw [Complex.conj_mul']
    push_cast
    rfl
  have key : ∑ p ∈ range n, (starRingEnd ℂ) (coeff L num f z p) * coeff L num f z p
      = d * ∑ k ∈ range n, (starRingEnd ℂ) (z (k + 1)) * z (k + 1) := by
    calc _ = ∑ p ∈ range n, ∑ j ∈ range n, ∑ k ∈ range n, (d : ℂ) * (starRingEnd ℂ) (z (j + 1)) * z (k + 1)
          * (d * (f p (j + 1) * (starRingEnd ℂ) (f p (k + 1)))) := by
          refine sum_congr rfl fun p _ => ?_
          unfold coeff
          simp only [map_mul, map_sum, Complex.conj_conj, Complex.conj_ofReal]
          rw [mul_mul_mul_comm, sum_mul_sum, mul_sum]
          refine sum_congr rfl fun j _ => ?_
          rw [mul_sum]
          refine sum_congr rfl fun k _ => ?_
          ring
      _ = ∑ j ∈ range n, ∑ k ∈ range n, (d : ℂ) * (starRingEnd ℂ) (z (j + 1)) * z (k + 1)
          * (d * ∑ p ∈ range n, f p (j + 1) * (starRingEnd ℂ) (f p (k + 1))) := by
          rw [sum_comm]
          refine sum_congr rfl fun j _ => ?_
          rw [sum_comm]
          refine sum_congr rfl fun k _ => ?_
          rw [mul_sum, mul_sum]
      _ = _ := by
          rw [mul_sum]
          refine sum_congr rfl fun j hj => ?_
          rw [sum_congr rfl fun k hk => by rw [F.complete (mem_range.1 hj) (mem_range.1 hk)]]
          simp only [mul_ite, mul_one, mul_zero, sum_ite_eq, if_pos hj]
          ring
  simp only [e] at key
  exact_mod_cast key

theorem Fam.green (F : Fam V L num w f) (h2 : 2 ≤ num) {y : ℕ → ℂ} (h0 : y 0 = 0) (h1 : y (num - 1) = 0) (e : ℝ) {p : ℕ}
    (hp : p < num - 2) :
    coeff L num f (fun i => gridHamiltonian (dx L num) (fun i => -L + i * dx L num) V y i - e * y i) p
      = (w p - e) * coeff L num f y p := by
  obtain ⟨n, rfl⟩ : ∃ n, num = n + 2 := ⟨num - 2, by omega⟩
  set d := dx L (n + 2) with hd
  unfold coeff
  rw [show n + 2 - 2 = n by omega] at *
  rw [show n + 2 - 1 = n + 1 by omega] at h1
  have hr : f p (n + 1) = 0 := F.right p (by omega)
  have hl : f p 0 = 0 := F.left p (by omega)
  set g : ℕ → ℂ := fun i => (starRingEnd ℂ) (f p i) with hg
  have hE : ∀ k < n, gridHamiltonian d (fun i => -L + i * d) V g (k + 1) = w p * g (k + 1) := by
    intro k hk
    have := congrArg (starRingEnd ℂ) (F.eigen p (by omega) (k + 1) (by omega) (by omega))
    rw [map_mul, Complex.conj_ofReal] at this
    rw [hg]
    dsimp only
    rw [← this]
    unfold gridHamiltonian
    simp only [map_add, map_mul, map_sub, map_div₀, map_neg, map_one, map_pow, Complex.conj_ofReal, map_ofNat]
    rfl
  have htel : ∑ k ∈ range n, (g (k + 1) * gridHamiltonian d (fun i => -L + i * d) V y (k + 1)
      - gridHamiltonian d (fun i => -L + i * d) V g (k + 1) * y (k + 1)) = 0 := by
    have e1 : ∀ k ∈ range n, g (k + 1) * gridHamiltonian d (fun i => -L + i * d) V y (k + 1)
        - gridHamiltonian d (fun i => -L + i * d) V g (k + 1) * y (k + 1)
        = -(1 / 2) / (d : ℂ) ^ 2 * ((g (k + 1) * y (k + 1 + 1) - y (k + 1) * g (k + 1 + 1))
          - (g k * y (k + 1) - y k * g (k + 1))) := by
      intro k _
      unfold gridHamiltonian
      rw [Nat.add_sub_cancel]
      ring
    rw [sum_congr rfl e1, ← mul_sum, sum_range_sub (fun k => g k * y (k + 1) - y k * g (k + 1))]
    have : g (n + 1) = 0 := by simp only [hg, hr, map_zero]
    have h3 : g 0 = 0 := by simp only [hg, hl, map_zero]
    rw [this, h1, h0, h3]
    ring
  rw [sum_sub_distrib, sub_eq_zero] at htel
  have h4 : ∑ k ∈ range n, gridHamiltonian d (fun i => -L + i * d) V g (k + 1) * y (k + 1)
      = w p * ∑ k ∈ range n, g (k + 1) * y (k + 1) := by
    rw [mul_sum]
    refine sum_congr rfl fun k hk => ?_
    rw [hE k (mem_range.1 hk)]
    ring
  have h5 : ∑ k ∈ range n, g (k + 1) * (gridHamiltonian d (fun i => -L + i * d) V y (k + 1) - e * y (k + 1))
      = (w p - e) * ∑ k ∈ range n, g (k + 1) * y (k + 1) := by
    simp only [mul_sub, sum_sub_distrib]
    rw [htel, h4, sub_mul]
    congr 1
    rw [mul_sum]
    exact sum_congr rfl fun k _ => by ring
  rw [h5]
  ring

/-- A vector with a small residual at an isolated energy is nearly a multiple of the state. -/
theorem Fam.isolated (F : Fam V L num w f) (h2 : 2 ≤ num) {y : ℕ → ℂ} (h0 : y 0 = 0) (h1 : y (num - 1) = 0) {e g : ℝ}
    {n : ℕ} (hn : n < num - 2) (hg0 : 0 < g) (hg : ∀ p < num - 2, p ≠ n → g ≤ |w p - e|) :
    g ^ 2 * (dx L num * ∑ k ∈ range (num - 2), ‖y (k + 1) - coeff L num f y n * f n (k + 1)‖ ^ 2)
        ≤ dx L num * ∑ k ∈ range (num - 2),
          ‖gridHamiltonian (dx L num) (fun i => -L + i * dx L num) V y (k + 1) - e * y (k + 1)‖ ^ 2 ∧
      dx L num * ∑ k ∈ range (num - 2), ‖y (k + 1)‖ ^ 2 = ‖coeff L num f y n‖ ^ 2
        + dx L num * ∑ k ∈ range (num - 2), ‖y (k + 1) - coeff L num f y n * f n (k + 1)‖ ^ 2 := by
  set a := coeff L num f y n with ha
  have hc : ∀ p < num - 2, coeff L num f (fun i => y i - a * f n i) p = if p = n then 0 else coeff L num f y p := by
    intro p hp
    have h3 : coeff L num f (fun i => y i - a * f n i) p = coeff L num f y p - a * (if p = n then 1 else 0) := by
      rw [← F.orth p n hp hn]
      unfold coeff
      rw [mul_left_comm, ← mul_sub, mul_sum _ _ a, ← sum_sub_distrib]
      congr 1
      exact sum_congr rfl fun k _ => by ring
    rw [h3]
    by_cases h : p = n
    · rw [if_pos h, if_pos h, h, ← ha]
      ring
    · rw [if_neg h, if_neg h]
      ring
  have hz := F.parseval fun i => y i - a * f n i
  rw [← hz]
  refine ⟨?_, ?_⟩
  · have hr := F.parseval fun i => gridHamiltonian (dx L num) (fun i => -L + i * dx L num) V y i - e * y i
    rw [← hr, mul_sum]
    refine sum_le_sum fun p hp => ?_
    have hp := mem_range.1 hp
    rw [hc p hp, F.green h2 h0 h1 e hp, norm_mul, mul_pow, ← Complex.ofReal_sub, Complex.norm_real, Real.norm_eq_abs]
    by_cases h : p = n
    · rw [if_pos h, norm_zero, zero_pow two_ne_zero, mul_zero]
      positivity
    · rw [if_neg h]
      exact mul_le_mul_of_nonneg_right (pow_le_pow_left₀ hg0.le (hg p hp h) 2) (by positivity)
  · rw [← F.parseval y, ← add_sum_erase _ _ (mem_range.2 hn)]
    congr 1
    rw [← add_sum_erase (range (num - 2)) (fun p => ‖coeff L num f (fun i => y i - a * f n i) p‖ ^ 2) (mem_range.2 hn),
      hc n hn, if_pos rfl, norm_zero, sq, zero_mul, zero_add]
    refine sum_congr rfl fun p hp => ?_
    have := mem_erase.1 hp
    rw [hc p (mem_range.1 this.2), if_neg this.1]

end QS.GridLimit
