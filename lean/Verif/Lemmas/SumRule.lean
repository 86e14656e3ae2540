import Verif.Lemmas.PotentialOrder
import Verif.Lemmas.Multiplets
import Verif.Lemmas.EvolutionNear
import Verif.Spec.SumRule
import Verif.Spec.Evolution
import Verif.Props.Evolution

/-!
# Lemmas on sums of oscillator strengths (C146)
-/

namespace QS

open Finset NDArray BasisSet Props QS.Adiabatic

variable {N L : ℕ}

theorem oneBodyOp_sub_left (A B : Fin L → Fin L → ℂ) (Ψ : Wave ℂ N L) (x) :
    oneBodyOp (fun p q => A p q - B p q) Ψ x = oneBodyOp A Ψ x - oneBodyOp B Ψ x := by
  unfold oneBodyOp
  simp only [sub_mul, sum_sub_distrib]

theorem oneBodyOp_const_left (c : ℂ) (A : Fin L → Fin L → ℂ) (Ψ : Wave ℂ N L) (x) :
    oneBodyOp (fun p q => c * A p q) Ψ x = c * oneBodyOp A Ψ x := by
  unfold oneBodyOp
  simp only [mul_sum]
  exact sum_congr rfl fun i _ => sum_congr rfl fun y _ => by ring

theorem meanOne_const (c : ℂ) (A : Fin L → Fin L → ℂ) (Ψ : Wave ℂ N L) :
    meanOne (fun p q => c * A p q) Ψ = c * meanOne A Ψ := by
  unfold meanOne
  rw [show oneBodyOp (fun p q => c * A p q) Ψ = fun x => c * oneBodyOp A Ψ x from
    funext fun x => oneBodyOp_const_left c A Ψ x, waveInner_smul]

theorem meanOne_sub (A B : Fin L → Fin L → ℂ) (Ψ : Wave ℂ N L) :
    meanOne (fun p q => A p q - B p q) Ψ = meanOne A Ψ - meanOne B Ψ := by
  unfold meanOne
  rw [show oneBodyOp (fun p q => A p q - B p q) Ψ = fun x => oneBodyOp A Ψ x - oneBodyOp B Ψ x from
    funext fun x => oneBodyOp_sub_left A B Ψ x, waveInner_sub_right]

/-- The number of particles. -/
theorem meanOne_one (Ψ : Wave ℂ N L) : meanOne (fun p q => if p = q then 1 else 0) Ψ = N * waveInner Ψ Ψ := by
  unfold meanOne
  have : oneBodyOp (fun p q => if p = q then 1 else 0) Ψ = fun x => (N : ℂ) * Ψ x := by
    funext x
    unfold oneBodyOp
    simp
  rw [this, waveInner_smul]

/-- The sum of the oscillator strengths in functions in which the dipole moment and the interaction are diagonal. -/
theorem Spectrum.strength {h : Fin L → Fin L → ℂ} {u : Fin L → Fin L → Fin L → Fin L → ℂ} {D : ℕ} {E : ℕ → ℝ}
    {Ψ : ℕ → Wave ℂ N L} (S : Spectrum h u D E Ψ) (hh : ∀ p q, h p q = star (h q p))
    (hu : ∀ p q r s, ¬(p = r ∧ q = s) → u p q r s = 0) {d : Fin L → Fin L → ℂ} {δ : Fin L → ℝ}
    (hd : ∀ p q, d p q = if p = q then (δ p : ℂ) else 0) {n : ℕ} (hn : n < D) :
    strengthSum D E Ψ d n = (meanOne (fun p q => (((-1 / 2) * (δ p - δ q) ^ 2 : ℝ) : ℂ) * h p q) (Ψ n)).re := by
  set Φ := oneBodyOp d (Ψ n) with hΦ
  have anti : Antisymmetric Φ := oneBodyOp_antisymmetric d (S.anti n hn)
  obtain ⟨p1, p2⟩ := S.parseval anti
  -- sums with the diagonal matrix
  have dl : ∀ (A : Fin L → ℂ) p, ∑ k, d p k * A k = (δ p : ℂ) * A p := fun A p => by
    simp only [hd, ite_mul, zero_mul]
    rw [sum_ite_eq, if_pos (mem_univ _)]
  have dr : ∀ (A : Fin L → ℂ) q, ∑ k, A k * d k q = A q * (δ q : ℂ) := fun A q => by
    simp only [hd, mul_ite, mul_zero]
    rw [sum_ite_eq', if_pos (mem_univ _)]
  set g : Fin L → Fin L → ℂ := fun p q => ((δ p - δ q : ℝ) : ℂ) * h p q with hg
  have c1 : ∀ (B : Fin L → Fin L → ℂ) (Χ : Wave ℂ N L) x, oneBodyOp d (oneBodyOp B Χ) x - oneBodyOp B (oneBodyOp d Χ) x =
      oneBodyOp (fun p q => ((δ p - δ q : ℝ) : ℂ) * B p q) Χ x := fun B Χ x => by
    rw [oneBodyOp_comm]
    congr 1
    funext p q
    rw [dl (fun k => B k q), dr (fun k => B p k)]
    push_cast
    ring
  have c2 : ∀ (Χ : Wave ℂ N L) x, oneBodyOp d (twoBodyOp u Χ) x - twoBodyOp u (oneBodyOp d Χ) x = 0 := fun Χ x => by
    rw [oneBodyOp_twoBodyOp_comm]
    have : (fun p q r s : Fin L => ∑ k, (d p k * u k q r s + d q k * u p k r s) -
        ∑ k, (u p q k s * d k r + u p q r k * d k s)) = fun _ _ _ _ => 0 := by
      funext p q r s
      rw [sum_add_distrib, sum_add_distrib, dl (fun k => u k q r s), dl (fun k => u p k r s), dr (fun k => u p q k s),
        dr (fun k => u p q r k)]
      by_cases e : p = r ∧ q = s
      · rw [e.1, e.2]
        ring
      · rw [hu p q r s e]
        ring
    rw [this]
    unfold twoBodyOp
    simp
  -- the commutator with the Hamiltonian
  have hH : ∀ x, hamiltonOp h u Φ x = (E n : ℂ) * Φ x - oneBodyOp g (Ψ n) x := fun x => by
    have e1 := c1 h (Ψ n) x
    have e2 := c2 (Ψ n) x
    have e3 : oneBodyOp d (hamiltonOp h u (Ψ n)) x = (E n : ℂ) * Φ x := by
      rw [S.eigen n hn, oneBodyOp_smul_right]
    have e4 : oneBodyOp d (hamiltonOp h u (Ψ n)) x = oneBodyOp d (oneBodyOp h (Ψ n)) x +
        1 / 2 * oneBodyOp d (twoBodyOp u (Ψ n)) x := by
      unfold hamiltonOp
      rw [oneBodyOp_add_right, oneBodyOp_smul_right]
    unfold hamiltonOp
    rw [← hΦ] at e1 e2
    linear_combination e4.symm.trans e3 - e1 - 1 / 2 * e2
  have s1 : strengthSum D E Ψ d n = (waveInner Φ (hamiltonOp h u Φ)).re - E n * (waveInner Φ Φ).re := by
    rw [p1, p2, Complex.ofReal_re, Complex.ofReal_re, mul_sum, ← sum_sub_distrib]
    exact sum_congr rfl fun m _ => by ring
  have s2 : waveInner Φ (hamiltonOp h u Φ) = (E n : ℂ) * waveInner Φ Φ - waveInner Φ (oneBodyOp g (Ψ n)) := by
    rw [funext hH, waveInner_sub_right, waveInner_smul]
  have dstar : ∀ p q, star (d p q) = d q p := fun p q => by
    rw [hd, hd]
    by_cases e : p = q
    · rw [if_pos e, if_pos e.symm, e]
      exact Complex.conj_ofReal _
    · rw [if_neg e, if_neg fun h => e h.symm, star_zero]
  have gstar : ∀ p q, star (g p q) = -g q p := fun p q => by
    rw [hg]
    dsimp only
    rw [star_mul', hh q p]
    simp only [Complex.star_def, Complex.conj_ofReal]
    push_cast
    ring
  have s3 : waveInner Φ (oneBodyOp g (Ψ n)) = waveInner (Ψ n) (oneBodyOp d (oneBodyOp g (Ψ n))) :=
    oneBodyOp_adjoint dstar _ _
  have s4 : star (waveInner Φ (oneBodyOp g (Ψ n))) = -waveInner (Ψ n) (oneBodyOp g Φ) := by
    rw [waveInner_star, oneBodyOp_adjoint (B := fun p q => -1 * g p q) (fun p q => by rw [gstar, neg_one_mul]),
      show oneBodyOp (fun p q => -1 * g p q) Φ = fun x => -1 * oneBodyOp g Φ x from
        funext fun x => oneBodyOp_const_left (-1) g Φ x, waveInner_smul, neg_one_mul]
  have s5 : waveInner (Ψ n) (oneBodyOp d (oneBodyOp g (Ψ n))) - waveInner (Ψ n) (oneBodyOp g Φ) =
      meanOne (fun p q => ((δ p - δ q : ℝ) : ℂ) * g p q) (Ψ n) := by
    unfold meanOne
    rw [← waveInner_sub_right]
    exact congrArg _ (funext fun x => c1 g (Ψ n) x)
  have s6 : meanOne (fun p q => (((-1 / 2) * (δ p - δ q) ^ 2 : ℝ) : ℂ) * h p q) (Ψ n) =
      ((-1 / 2 : ℝ) : ℂ) * meanOne (fun p q => ((δ p - δ q : ℝ) : ℂ) * g p q) (Ψ n) := by
    rw [← meanOne_const]
    refine congrArg (meanOne · (Ψ n)) (funext fun p => funext fun q => ?_)
    rw [hg]
    push_cast
    ring
  have s7 : (waveInner (Ψ n) (oneBodyOp g Φ)).re = -(waveInner Φ (oneBodyOp g (Ψ n))).re := by
    have := congrArg Complex.re s4
    rw [Complex.star_def, Complex.conj_re, Complex.neg_re] at this
    linarith
  rw [s1, s2, s6, Complex.re_ofReal_mul, ← s5, Complex.sub_re, Complex.sub_re, s7, ← s3, Complex.re_ofReal_mul]
  ring

/-- Schur's bound for a form. -/
theorem form_le_schur {K : Fin L → Fin L → ℂ} (hK : ∀ p q, ‖K p q‖ = ‖K q p‖) {κ : ℝ} (hs : ∀ p, ∑ q, ‖K p q‖ ≤ κ)
    (v : Fin L → ℂ) : (∑ p, ∑ q, star (v p) * K p q * v q).re ≤ κ * ∑ p, ‖v p‖ ^ 2 := by
  have h1 : (∑ p, ∑ q, star (v p) * K p q * v q).re ≤ ∑ p, ∑ q, ‖K p q‖ * ((‖v p‖ ^ 2 + ‖v q‖ ^ 2) / 2) := by
    rw [Complex.re_sum]
    refine sum_le_sum fun p _ => ?_
    rw [Complex.re_sum]
    refine sum_le_sum fun q _ => (Complex.re_le_norm _).trans ?_
    rw [norm_mul, norm_mul, norm_star]
    nlinarith [mul_nonneg (norm_nonneg (K p q)) (sq_nonneg (‖v p‖ - ‖v q‖))]
  have h2 : ∑ p, ∑ q, ‖K p q‖ * ((‖v p‖ ^ 2 + ‖v q‖ ^ 2) / 2) = ∑ p, (∑ q, ‖K p q‖) * ‖v p‖ ^ 2 := by
    have e1 : ∑ p, ∑ q, ‖K p q‖ * (‖v q‖ ^ 2 / 2) = ∑ p, ∑ q, ‖K p q‖ * (‖v p‖ ^ 2 / 2) := by
      rw [sum_comm]
      exact sum_congr rfl fun p _ => sum_congr rfl fun q _ => by rw [hK]
    simp only [add_div, mul_add, sum_add_distrib]
    rw [e1, ← sum_add_distrib]
    refine sum_congr rfl fun p _ => ?_
    rw [← sum_add_distrib, sum_mul]
    exact sum_congr rfl fun q _ => by ring
  rw [mul_sum]
  exact (h1.trans h2.le).trans (sum_le_sum fun p _ => mul_le_mul_of_nonneg_right (hs p) (sq_nonneg _))

/-- An upper bound of the elements bounds the mean value. -/
theorem meanOne_le {K : Fin L → Fin L → ℂ} {κ : ℝ}
    (hK : ∀ v : Fin L → ℂ, (∑ p, ∑ q, star (v p) * K p q * v q).re ≤ κ * ∑ p, ‖v p‖ ^ 2) (Ψ : Wave ℂ N L) :
    (meanOne K Ψ).re ≤ N * κ * ∑ x, ‖Ψ x‖ ^ 2 := by
  have := oneBody_form_ge (m := -κ) (h := fun p q => -1 * K p q) (fun v => by
    have := hK v
    have e : ∑ p, ∑ q, star (v p) * (-1 * K p q) * v q = -∑ p, ∑ q, star (v p) * K p q * v q := by
      rw [← sum_neg_distrib]
      refine sum_congr rfl fun p _ => ?_
      rw [← sum_neg_distrib]
      exact sum_congr rfl fun q _ => by ring
    rw [e, Complex.neg_re]
    linarith) Ψ
  have e := meanOne_const (-1) K Ψ
  unfold meanOne at e ⊢
  rw [e, neg_one_mul, Complex.neg_re] at this
  linarith

/-- Back to the old functions. -/
theorem Spectrum.back {h : Fin L → Fin L → ℂ} {u : Fin L → Fin L → Fin L → Fin L → ℂ} {D : ℕ} {E : ℕ → ℝ}
    {Ψ : ℕ → Wave ℂ N L} {C : Matrix (Fin L) (Fin L) ℂ} (hC : C.conjTranspose * C = 1)
    (S : Spectrum (fun p q => (C.conjTranspose * Matrix.of h * C) p q)
      (fun p q r s => ∑ a, ∑ b, ∑ c, ∑ d, C.conjTranspose p a * C.conjTranspose q b * u a b c d * C c r * C d s) D E Ψ) :
    Spectrum h u D E (fun i => prodOp (fun _ => C) (Ψ i)) := by
  have hC' : C * C.conjTranspose = 1 := mul_eq_one_comm.1 hC
  refine ⟨S.sorted, fun i hi => prodOp_antisymmetric _ (S.anti i hi), fun i hi => ?_, fun i hi j hj => ?_,
    fun Φ hΦ x => ?_⟩
  · have h1 := hamiltonOp_sandwich hC h u (Ψ i)
    rw [S.eigen i hi] at h1
    have h2 := congrArg (prodOp fun _ => C) h1
    rwa [prodOp_inverse hC', prodOp_smul] at h2
  · rw [waveInner_prodOp, prodOp_inverse hC, S.orth i hi j hj]
  · have h1 := S.complete (prodOp (fun _ => C.conjTranspose) Φ) (prodOp_antisymmetric _ hΦ)
    have h2 : Φ x = prodOp (fun _ => C) (prodOp (fun _ => C.conjTranspose) Φ) x := by rw [prodOp_inverse hC']
    rw [h2, funext h1, prodOp_comb]
    refine sum_congr rfl fun i _ => ?_
    rw [waveInner_prodOp]

theorem strengthSum_back {D : ℕ} {E : ℕ → ℝ} {Ψ : ℕ → Wave ℂ N L} {C : Matrix (Fin L) (Fin L) ℂ}
    (hC : C.conjTranspose * C = 1) (d : Fin L → Fin L → ℂ) (n : ℕ) :
    strengthSum D E (fun i => prodOp (fun _ => C) (Ψ i)) d n =
      strengthSum D E Ψ (fun p q => (C.conjTranspose * Matrix.of d * C) p q) n := by
  unfold strengthSum
  refine sum_congr rfl fun m _ => ?_
  rw [waveInner_prodOp, oneBodyOp_sandwich hC]

end QS
