import Verif.Spec.TimeReversal
import Verif.Lemmas.Continuity
import Mathlib.Analysis.Calculus.Deriv.Star

/-!
# Lemmas on time reversal (C151)
-/

namespace QS

open Finset NDArray

variable {N L : ℕ}

theorem hamiltonOp_star (h : Fin L → Fin L → ℂ) (u : Fin L → Fin L → Fin L → Fin L → ℂ) (Ψ : Wave ℂ N L) (x : Fin N → Fin L) :
    star (hamiltonOp h u Ψ x) = hamiltonOp (fun p q => star (h p q)) (fun p q r s => star (u p q r s)) (fun x => star (Ψ x)) x := by
  unfold hamiltonOp oneBodyOp twoBodyOp
  simp only [star_add, star_mul', star_sum]
  congr 2
  simp

theorem reversedWave_eq (c : Fin L → ℂ) (Ψ : Wave ℂ N L) :
    reversedWave c Ψ = prodOp (fun _ => Matrix.diagonal c) fun x => star (Ψ x) := by
  funext x
  unfold reversedWave prodOp
  rw [sum_eq_single_of_mem x (mem_univ x) fun y _ hy => ?_]
  · simp only [Matrix.diagonal_apply_eq]
  · obtain ⟨i, hi⟩ := Function.ne_iff.1 hy
    rw [prod_eq_zero (mem_univ i) (Matrix.diagonal_apply_ne c (Ne.symm hi)), zero_mul]

theorem reversedWave_inner {c : Fin L → ℂ} (hc : ∀ p, star (c p) * c p = 1) (Φ Ψ : Wave ℂ N L) :
    waveInner (reversedWave c Φ) (reversedWave c Ψ) = star (waveInner Φ Ψ) := by
  unfold waveInner reversedWave
  rw [star_sum]
  refine sum_congr rfl fun x _ => ?_
  rw [star_mul', star_mul', star_star, star_prod]
  have : (∏ i, star (c (x i))) * ∏ i, c (x i) = 1 := by
    rw [← prod_mul_distrib]
    exact prod_eq_one fun i _ => hc _
  linear_combination (Φ x * star (Ψ x)) * this

/-- The reversed motion. -/
theorem Evolves.reversed {h h' : ℝ → Fin L → Fin L → ℂ} {u u' : ℝ → Fin L → Fin L → Fin L → Fin L → ℂ} {c : Fin L → ℂ}
    (hc : ∀ p, star (c p) * c p = 1) (e1 : ∀ t p q, star (h (-t) p q) = star (c p) * h' t p q * c q)
    (e2 : ∀ t p q r s, star (u (-t) p q r s) = star (c p) * star (c q) * u' t p q r s * c r * c s)
    {Ψ : ℝ → Wave ℂ N L} (S : Evolves h u Ψ) : Evolves h' u' fun t => reversedWave c (Ψ (-t)) := by
  have S1 : Evolves (fun t p q => star (h (-t) p q)) (fun t p q r s => star (u (-t) p q r s)) fun t x => star (Ψ (-t) x) := by
    intro t x
    have k := ((S (-t) x).scomp t (hasDerivAt_neg t)).star
    refine k.congr_deriv ?_
    rw [← hamiltonOp_star]
    simp
  simp only [reversedWave_eq]
  refine Evolves.back (C := Matrix.diagonal c) ?_ ?_
  · rw [Matrix.diagonal_conjTranspose, Matrix.diagonal_mul_diagonal, ← Matrix.diagonal_one]
    congr 1
    funext p
    exact hc p
  · convert S1 using 1
    · funext t p q
      rw [e1, Matrix.diagonal_conjTranspose, Matrix.mul_diagonal, Matrix.diagonal_mul]
      rfl
    · funext t p q r s
      rw [e2, sum_eq_single_of_mem p (mem_univ p) fun a _ ha => ?_]
      · rw [sum_eq_single_of_mem q (mem_univ q) fun a _ ha => ?_]
        · rw [sum_eq_single_of_mem r (mem_univ r) fun a _ ha => ?_]
          · rw [sum_eq_single_of_mem s (mem_univ s) fun a _ ha => ?_]
            · simp [Matrix.diagonal_conjTranspose]
            · rw [Matrix.diagonal_apply_ne c ha, mul_zero]
          · exact sum_eq_zero fun _ _ => by rw [Matrix.diagonal_apply_ne c ha, mul_zero, zero_mul]
        · rw [Matrix.diagonal_conjTranspose, Matrix.diagonal_apply_ne _ (Ne.symm ha)]
          simp
      · rw [Matrix.diagonal_conjTranspose, Matrix.diagonal_apply_ne _ (Ne.symm ha)]
        simp

/-- The elements between spin orbitals. -/
theorem spin_one_reversed {l : ℕ} {c : ℕ → ℂ} {H H' : NDArray ℂ}
    (e : ∀ p < l, ∀ q < l, star (H.get [p, q]) = star (c p) * H'.get [p, q] * c q) (p q : Fin (2 * l)) :
    star (spinOne l H p q) = star (c (p.1 / 2)) * spinOne l H' p q * c (q.1 / 2) := by
  unfold spinOne
  split_ifs
  · exact e _ (by omega) _ (by omega)
  · simp

theorem spin_two_reversed {l : ℕ} {c : ℕ → ℂ} {U U' : NDArray ℂ}
    (e : ∀ p < l, ∀ q < l, ∀ r < l, ∀ s < l,
      star (U.get [p, q, r, s]) = star (c p) * star (c q) * U'.get [p, q, r, s] * c r * c s) (p q r s : Fin (2 * l)) :
    star (spinTwo l U p q r s) =
      star (c (p.1 / 2)) * star (c (q.1 / 2)) * spinTwo l U' p q r s * c (r.1 / 2) * c (s.1 / 2) := by
  unfold spinTwo
  split_ifs
  · exact e _ (by omega) _ (by omega) _ (by omega) _ (by omega)
  · simp

end QS
