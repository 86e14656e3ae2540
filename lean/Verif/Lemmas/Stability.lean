import Verif.Spec.Stability
import Verif.Lemmas.AdiabaticStates
import Verif.Lemmas.Evolution

/-!
# Errors of the elements and the motion
-/

namespace QS.Adiabatic

open Finset

variable {N L : ℕ}

theorem norm_wave {Φ : Wave ℂ N L} (hΦ : Antisymmetric Φ) : ‖toAnti Φ hΦ‖ = Real.sqrt (∑ x, ‖Φ x‖ ^ 2) := by
  rw [← Real.sqrt_sq (norm_nonneg (toAnti Φ hΦ)), norm_sq_wave]
  rfl

/-- Matrix elements of a small Hamilton operator. -/
theorem cross_le {h : Fin L → Fin L → ℂ} {u : Fin L → Fin L → Fin L → Fin L → ℂ} (hh : ∀ p q, star (h p q) = h q p)
    (hu : ∀ p q r s, star (u p q r s) = u r s p q) {ε δ : ℝ} (hε : 0 ≤ ε) (hδ : 0 ≤ δ) (h1 : ∀ p q, ‖h p q‖ ≤ ε)
    (u1 : ∀ p q r s, ‖u p q r s‖ ≤ δ) {Φ Ψ : Wave ℂ N L} (hΦ : Antisymmetric Φ) (hΨ : Antisymmetric Ψ) :
    ‖waveInner Φ (hamiltonOp h u Ψ)‖ ≤ (N * L * ε + N * (N - 1 : ℕ) / 2 * L ^ 2 * δ) *
      (Real.sqrt (∑ x, ‖Φ x‖ ^ 2) * Real.sqrt (∑ x, ‖Ψ x‖ ^ 2)) := by
  have e : waveInner Φ (hamiltonOp h u Ψ) = inner ℂ (toAnti Φ hΦ) (hamL N L (h, u) (toAnti Ψ hΨ)) := by
    rw [inner_waveInner]
    rfl
  rw [e, ← norm_wave hΦ, ← norm_wave hΨ]
  refine (norm_inner_le_norm _ _).trans ?_
  have h2 := hamL_norm (N := N) (z := (h, u)) ⟨hh, hu⟩ hε hδ h1 u1
  have h3 := ((hamL N L (h, u)).le_opNorm (toAnti Ψ hΨ)).trans (mul_le_mul_of_nonneg_right h2 (norm_nonneg _))
  calc _ ≤ ‖toAnti Φ hΦ‖ * _ := mul_le_mul_of_nonneg_left h3 (norm_nonneg _)
    _ = _ := by ring

variable {h h' : ℝ → Fin L → Fin L → ℂ} {u u' : ℝ → Fin L → Fin L → Fin L → Fin L → ℂ}

/-- The change of the overlap of two wave functions that evolve with different elements. -/
theorem overlap_deriv (hh : HermitianElements h u) {Χ Φ : ℝ → Wave ℂ N L} (hΧ : Evolves h u Χ) (hΦ : Evolves h' u' Φ) (t : ℝ) :
    HasDerivAt (fun t => waveInner (Χ t) (Φ t)) (Complex.I * waveInner (Χ t)
      (hamiltonOp (fun p q => h t p q - h' t p q) (fun p q r s => u t p q r s - u' t p q r s) (Φ t))) t := by
  have h1 := HasDerivAt.fun_sum (u := univ) fun (x : Fin N → Fin L) _ => (hΧ t x).star.fun_mul (hΦ t x)
  refine h1.congr_deriv ?_
  have e1 : waveInner (Χ t) (hamiltonOp (fun p q => h t p q - h' t p q) (fun p q r s => u t p q r s - u' t p q r s) (Φ t)) =
      waveInner (hamiltonOp (h t) (u t) (Χ t)) (Φ t) - waveInner (Χ t) (hamiltonOp (h' t) (u' t) (Φ t)) := by
    rw [hamiltonOp_symm (hh.one t) (hh.two t)]
    unfold waveInner
    rw [← sum_sub_distrib]
    exact sum_congr rfl fun x _ => by rw [hamiltonOp_sub, mul_sub]
  rw [e1]
  unfold waveInner
  rw [← sum_sub_distrib, mul_sum]
  refine sum_congr rfl fun x _ => ?_
  simp only [star_mul', star_neg, Complex.star_def, Complex.conj_I]
  ring

theorem sqrt_waveInner (Φ : Wave ℂ N L) : Real.sqrt (∑ x, ‖Φ x‖ ^ 2) = Real.sqrt (waveInner Φ Φ).re := by
  rw [waveInner_self, Complex.ofReal_re]

/-- Two wave functions that start with the same values and evolve with elements that differ by at most `ε` and `δ`. -/
theorem motion_near (hh : HermitianElements h u) (hc : ContinuousElements h u) (hh' : HermitianElements h' u') {ε δ : ℝ} (hε : 0 ≤ ε)
    (hδ : 0 ≤ δ) {t₀ t : ℝ} (h1 : ∀ τ ∈ Set.uIcc t₀ t, ∀ p q, ‖h τ p q - h' τ p q‖ ≤ ε)
    (u1 : ∀ τ ∈ Set.uIcc t₀ t, ∀ p q r s, ‖u τ p q r s - u' τ p q r s‖ ≤ δ) {Ψ Φ : ℝ → Wave ℂ N L} (hΨ : Evolves h u Ψ)
    (hΦ : Evolves h' u' Φ) (h0 : Ψ t₀ = Φ t₀) (ha : Antisymmetric (Φ t₀)) :
    stateDistance (Ψ t) (Φ t) ≤ (N * L * ε + N * (N - 1 : ℕ) / 2 * L ^ 2 * δ) * |t - t₀| *
      Real.sqrt (∑ x, ‖Φ t₀ x‖ ^ 2) := by
  set V : ℝ := N * L * ε + N * (N - 1 : ℕ) / 2 * L ^ 2 * δ with hV
  have aΨ := evolves_fermions hh hΨ (s := t₀) (h0 ▸ ha)
  have aΦ := evolves_fermions hh' hΦ ha
  obtain ⟨Χ, hΧ, eΧ⟩ := evolves_exists hh hc t fun x => Ψ t x - Φ t x
  have aΔ : Antisymmetric (Χ t) := by
    rw [eΧ]
    intro σ x
    show Ψ t (x ∘ σ) - Φ t (x ∘ σ) = _ * (Ψ t x - Φ t x)
    rw [aΨ t σ x, aΦ t σ x]
    ring
  have aΧ := evolves_fermions hh hΧ aΔ
  have dist : stateDistance (Ψ t) (Φ t) = Real.sqrt (∑ x, ‖Χ t x‖ ^ 2) := by
    rw [eΧ]
    rfl
  have nΧ : ∀ τ, Real.sqrt (∑ x, ‖Χ τ x‖ ^ 2) = stateDistance (Ψ t) (Φ t) := fun τ => by
    rw [dist, sqrt_waveInner, sqrt_waveInner, evolves_inner hh hΧ hΧ τ t]
  have nΦ : ∀ τ, Real.sqrt (∑ x, ‖Φ τ x‖ ^ 2) = Real.sqrt (∑ x, ‖Φ t₀ x‖ ^ 2) := fun τ => by
    rw [sqrt_waveInner, sqrt_waveInner, evolves_inner hh' hΦ hΦ τ t₀]
  have key := (convex_uIcc t₀ t).norm_image_sub_le_of_norm_hasDerivWithin_le
    (f := fun t => waveInner (Χ t) (Φ t)) (C := V * (stateDistance (Ψ t) (Φ t) * Real.sqrt (∑ x, ‖Φ t₀ x‖ ^ 2)))
    (fun τ _ => (overlap_deriv hh hΧ hΦ τ).hasDerivWithinAt) (fun τ hτ => by
      rw [norm_mul, Complex.norm_I, one_mul, ← nΧ τ, ← nΦ τ]
      exact cross_le (fun p q => by rw [star_sub, hh.one, hh'.one]) (fun p q r s => by rw [star_sub, hh.two, hh'.two]) hε hδ
        (h1 τ hτ) (u1 τ hτ) (aΧ τ) (aΦ τ)) Set.left_mem_uIcc Set.right_mem_uIcc
  have e2 : waveInner (Χ t) (Φ t) - waveInner (Χ t₀) (Φ t₀) = -((stateDistance (Ψ t) (Φ t) ^ 2 : ℝ) : ℂ) := by
    rw [← h0, evolves_inner hh hΧ hΨ t₀ t, dist, Real.sq_sqrt (sum_nonneg fun x _ => sq_nonneg _), ← waveInner_self]
    conv_rhs => rw [eΧ]
    rw [eΧ]
    unfold waveInner
    rw [← sum_sub_distrib, ← sum_neg_distrib]
    exact sum_congr rfl fun x _ => by ring
  rw [e2, norm_neg, Complex.norm_real, Real.norm_of_nonneg (sq_nonneg _), Real.norm_eq_abs] at key
  have d0 : 0 ≤ stateDistance (Ψ t) (Φ t) := Real.sqrt_nonneg _
  rcases d0.eq_or_lt with e | hpos
  · rw [← e]
    positivity
  · refine le_of_mul_le_mul_right ?_ hpos
    calc _ = stateDistance (Ψ t) (Φ t) ^ 2 := by ring
      _ ≤ _ := key
      _ = _ := by ring

end QS.Adiabatic
