import Verif.Lemmas.ManyBodyPositive
import Verif.Spec.Stark

/-! # Sums of the lowest energies (helper file) -/

namespace QS

open Finset Function

variable {N L : ℕ}

/-- A weighted mean of ascending numbers with weights at most `1` is at least the sum of the lowest. -/
theorem weighted_sum_ge {D m : ℕ} (hm : m ≤ D) {E w : ℕ → ℝ} (hE : ∀ i j, i ≤ j → j < D → E i ≤ E j)
    (w0 : ∀ i < D, 0 ≤ w i) (w1 : ∀ i < D, w i ≤ 1) (ws : ∑ i ∈ range D, w i = m) :
    ∑ i ∈ range m, E i ≤ ∑ i ∈ range D, E i * w i := by
  rcases Nat.eq_zero_or_pos m with rfl | hm0
  · have h0 : ∀ i ∈ range D, w i = 0 := by
      refine (sum_eq_zero_iff_of_nonneg fun i hi => w0 i (mem_range.1 hi)).1 ?_
      simpa using ws
    rw [range_zero, sum_empty]
    exact (sum_eq_zero fun i hi => by rw [h0 i hi, mul_zero]).ge
  have e1 : ∑ i ∈ range m, E i = ∑ i ∈ range D, E i * (if i < m then 1 else 0) := by
    rw [← sum_subset (range_subset_range.2 hm)]
    · exact sum_congr rfl fun i hi => by rw [if_pos (mem_range.1 hi), mul_one]
    · intro i _ hi
      rw [if_neg (by simpa using hi), mul_zero]
  have e2 : ∑ i ∈ range D, (if i < m then (1 : ℝ) else 0) = m := by
    rw [← sum_subset (range_subset_range.2 hm)]
    · rw [sum_congr rfl fun i hi => if_pos (mem_range.1 hi)]
      simp
    · intro i _ hi
      exact if_neg (by simpa using hi)
  have key : 0 ≤ ∑ i ∈ range D, (E i - E (m - 1)) * (w i - if i < m then 1 else 0) := by
    refine sum_nonneg fun i hi => ?_
    have hi := mem_range.1 hi
    by_cases him : i < m
    · rw [if_pos him]
      exact mul_nonneg_of_nonpos_of_nonpos (by linarith [hE i (m - 1) (by omega) (by omega)]) (by linarith [w1 i hi])
    · rw [if_neg him, sub_zero]
      exact mul_nonneg (by linarith [hE (m - 1) i (by omega) hi]) (w0 i hi)
  have e3 : ∑ i ∈ range D, (E i - E (m - 1)) * (w i - if i < m then 1 else 0) =
      ∑ i ∈ range D, E i * w i - ∑ i ∈ range D, E i * (if i < m then 1 else 0) -
        E (m - 1) * (∑ i ∈ range D, w i - ∑ i ∈ range D, if i < m then 1 else 0) := by
    rw [← sum_sub_distrib, ← sum_sub_distrib, mul_sum, ← sum_sub_distrib]
    exact sum_congr rfl fun i _ => by ring
  rw [e3, ws, e2, sub_self, mul_zero, sub_zero] at key
  linarith

/-- The mean energy of the elements `h` and `u`. -/
theorem meanEnergy_affine (h h₁ h₂ : Fin L → Fin L → ℂ) (u u₁ u₂ : Fin L → Fin L → Fin L → Fin L → ℂ) {a b : ℝ}
    (eh : ∀ p q, h p q = a * h₁ p q + b * h₂ p q) (eu : ∀ p q r s, u p q r s = a * u₁ p q r s + b * u₂ p q r s)
    (Φ : Wave ℂ N L) :
    (waveInner Φ (hamiltonOp h u Φ)).re =
      a * (waveInner Φ (hamiltonOp h₁ u₁ Φ)).re + b * (waveInner Φ (hamiltonOp h₂ u₂ Φ)).re := by
  have e : hamiltonOp h u Φ = fun x => a * hamiltonOp h₁ u₁ Φ x + b * hamiltonOp h₂ u₂ Φ x := by
    funext x
    unfold hamiltonOp oneBodyOp twoBodyOp
    simp only [eh, eu, add_mul, sum_add_distrib, mul_add, mul_sum]
    have r : ∀ c z w : ℂ, 1 / 2 * (c * z * w) = c * (1 / 2 * (z * w)) := fun c z w => by ring
    simp only [r, mul_assoc]
    ring
  rw [e]
  unfold waveInner
  simp only [mul_add, sum_add_distrib, Complex.add_re, Complex.re_sum, mul_sum]
  congr 1 <;> refine sum_congr rfl fun x _ => ?_
  · rw [mul_left_comm, Complex.re_ofReal_mul]
  · rw [mul_left_comm, Complex.re_ofReal_mul]

namespace Spectrum

variable {h h' : Fin L → Fin L → ℂ} {u u' : Fin L → Fin L → Fin L → Fin L → ℂ} {D D' : ℕ} {E E' : ℕ → ℝ}
  {Ψ Ψ' : ℕ → Wave ℂ N L}

/-- The mean energy of a state is its energy. -/
theorem mean (S : Spectrum h u D E Ψ) {i : ℕ} (hi : i < D) : (waveInner (Ψ i) (hamiltonOp h u (Ψ i))).re = E i := by
  rw [S.eigen i hi]
  have := waveInner_comb {()} (Ψ i) (fun _ => (E i : ℂ)) (fun _ => Ψ i)
  simp only [sum_singleton] at this
  rw [this, S.orth i hi i hi, if_pos rfl, mul_one, Complex.ofReal_re]

/-- The sum of the lowest energies is at most the sum of the mean energies of as many states of other elements. -/
theorem kyFan (S : Spectrum h u D E Ψ) (S' : Spectrum h' u' D' E' Ψ') {m : ℕ} (hm : m ≤ D) :
    ∑ i ∈ range m, E i ≤ ∑ j ∈ range m, (waveInner (Ψ' j) (hamiltonOp h u (Ψ' j))).re := by
  have hD := S.count S'
  subst hD
  have e : ∑ j ∈ range m, (waveInner (Ψ' j) (hamiltonOp h u (Ψ' j))).re =
      ∑ i ∈ range D, E i * ∑ j ∈ range m, ‖waveInner (Ψ i) (Ψ' j)‖ ^ 2 := by
    simp only [mul_sum]
    rw [sum_comm]
    refine sum_congr rfl fun j hj => ?_
    rw [(S.parseval (S'.anti j (by have := mem_range.1 hj; omega))).2, Complex.ofReal_re]
  rw [e]
  refine weighted_sum_ge hm S.sorted (fun i _ => sum_nonneg fun j _ => sq_nonneg _) (fun i hi => ?_) ?_
  · have h1 := (S'.parseval (S.anti i hi)).1
    rw [S.orth i hi i hi, if_pos rfl] at h1
    have h2 : ∑ j ∈ range D, ‖waveInner (Ψ' j) (Ψ i)‖ ^ 2 = 1 := by exact_mod_cast h1.symm
    rw [← h2]
    refine (sum_le_sum_of_subset_of_nonneg (range_subset_range.2 hm) fun j _ _ => sq_nonneg _).trans (le_of_eq ?_)
    refine sum_congr rfl fun j _ => ?_
    rw [← waveInner_star, norm_star]
  · rw [sum_comm]
    have h2 : ∀ j ∈ range m, ∑ i ∈ range D, ‖waveInner (Ψ i) (Ψ' j)‖ ^ 2 = 1 := fun j hj => by
      have hj := mem_range.1 hj
      have := (S.parseval (S'.anti j (by omega))).1
      rw [S'.orth j (by omega) j (by omega), if_pos rfl] at this
      exact_mod_cast this.symm
    rw [sum_congr rfl h2]
    simp

end Spectrum

end QS
