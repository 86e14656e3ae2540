import Verif.Spec.Pulses
import Verif.Lemmas.Evolution
import Verif.Lemmas.AdiabaticStates
import Mathlib.MeasureTheory.Integral.IntervalIntegral.FundThmCalculus
import Mathlib.Analysis.Calculus.MeanValue

/-!
# Solutions of the Schrödinger equation with different elements
-/

namespace QS.Adiabatic

open Finset

variable {N L : ℕ}

/-- The norm of a wave function. -/
noncomputable def waveNorm (Ψ : Wave ℂ N L) : ℝ := Real.sqrt (∑ x, ‖Ψ x‖ ^ 2)

theorem waveNorm_nonneg (Ψ : Wave ℂ N L) : 0 ≤ waveNorm Ψ := Real.sqrt_nonneg _

theorem waveNorm_sq (Ψ : Wave ℂ N L) : waveInner Ψ Ψ = ((waveNorm Ψ ^ 2 : ℝ) : ℂ) := by
  rw [waveNorm, Real.sq_sqrt (sum_nonneg fun x _ => sq_nonneg _), ← sum_sq_eq]
  rfl

theorem waveNorm_eq_one {Ψ : Wave ℂ N L} (h : waveInner Ψ Ψ = 1) : waveNorm Ψ = 1 := by
  rw [waveNorm_sq] at h
  have h1 : waveNorm Ψ ^ 2 = 1 := by exact_mod_cast h
  nlinarith [waveNorm_nonneg Ψ]

theorem waveNorm_toLp (Ψ : Wave ℂ N L) : waveNorm Ψ = ‖(WithLp.toLp 2 Ψ : EuclideanSpace ℂ (Fin N → Fin L))‖ := by
  rw [EuclideanSpace.norm_eq]
  rfl

theorem waveInner_toLp (Φ Ψ : Wave ℂ N L) :
    waveInner Φ Ψ = inner ℂ (WithLp.toLp 2 Φ : EuclideanSpace ℂ (Fin N → Fin L)) (WithLp.toLp 2 Ψ) := by
  rw [PiLp.inner_apply]
  unfold waveInner
  refine sum_congr rfl fun x _ => ?_
  rw [RCLike.inner_apply, mul_comm]
  rfl

theorem waveInner_le (Φ Ψ : Wave ℂ N L) : ‖waveInner Φ Ψ‖ ≤ waveNorm Φ * waveNorm Ψ := by
  rw [waveInner_toLp, waveNorm_toLp, waveNorm_toLp]
  exact norm_inner_le_norm _ _

theorem waveInner_sub_right (Φ Ψ Ψ' : Wave ℂ N L) : waveInner Φ (fun x => Ψ x - Ψ' x) = waveInner Φ Ψ - waveInner Φ Ψ' := by
  unfold waveInner
  rw [← sum_sub_distrib]
  exact sum_congr rfl fun x _ => by ring

theorem waveInner_sub_left (Φ Φ' Ψ : Wave ℂ N L) : waveInner (fun x => Φ x - Φ' x) Ψ = waveInner Φ Ψ - waveInner Φ' Ψ := by
  unfold waveInner
  rw [← sum_sub_distrib]
  exact sum_congr rfl fun x _ => by rw [star_sub]; ring

/-- Matrix elements of an operator with small elements. -/
theorem hamilton_form {h : Fin L → Fin L → ℂ} {u : Fin L → Fin L → Fin L → Fin L → ℂ} (hh : ∀ p q, star (h p q) = h q p)
    (hu : ∀ p q r s, star (u p q r s) = u r s p q) {ε δ : ℝ} (hε : 0 ≤ ε) (hδ : 0 ≤ δ) (h1 : ∀ p q, ‖h p q‖ ≤ ε)
    (h2 : ∀ p q r s, ‖u p q r s‖ ≤ δ) {Φ Ψ : Wave ℂ N L} (hΦ : Antisymmetric Φ) (hΨ : Antisymmetric Ψ) :
    ‖waveInner Φ (hamiltonOp h u Ψ)‖ ≤ (N * L * ε + N * (N - 1 : ℕ) / 2 * L ^ 2 * δ) * (waveNorm Φ * waveNorm Ψ) := by
  have nrm := hamL_norm (N := N) (z := (h, u)) ⟨hh, hu⟩ hε hδ h1 h2
  have e : waveInner Φ (hamiltonOp h u Ψ) = inner ℂ (toAnti Φ hΦ) (hamL N L (h, u) (toAnti Ψ hΨ)) := by
    rw [inner_waveInner]
    rfl
  have n1 : ∀ {X : Wave ℂ N L} (hX : Antisymmetric X), ‖toAnti X hX‖ = waveNorm X := fun {X} hX => by
    rw [waveNorm_toLp]
    rfl
  rw [e]
  refine (norm_inner_le_norm _ _).trans ?_
  refine (mul_le_mul_of_nonneg_left ((hamL N L (h, u)).le_opNorm _) (norm_nonneg _)).trans ?_
  rw [n1, n1, mul_left_comm]
  exact mul_le_mul_of_nonneg_right nrm (mul_nonneg (waveNorm_nonneg _) (waveNorm_nonneg _))

variable {h h' : ℝ → Fin L → Fin L → ℂ} {u u' : ℝ → Fin L → Fin L → Fin L → Fin L → ℂ}

theorem hamiltonOp_sub (h h' : Fin L → Fin L → ℂ) (u u' : Fin L → Fin L → Fin L → Fin L → ℂ) (Ψ : Wave ℂ N L) (x) :
    hamiltonOp (fun p q => h p q - h' p q) (fun p q r s => u p q r s - u' p q r s) Ψ x = hamiltonOp h u Ψ x - hamiltonOp h' u' Ψ x := by
  unfold hamiltonOp oneBodyOp twoBodyOp
  simp only [sub_mul, sum_sub_distrib]
  ring

/-- The inner product of solutions with different elements. -/
theorem inner_near (hh : HermitianElements h u) {Θ Ψ : ℝ → Wave ℂ N L} (hΘ : Evolves h u Θ)
    (hΨ : Evolves h' u' Ψ) (t : ℝ) : HasDerivAt (fun t => waveInner (Θ t) (Ψ t)) (Complex.I * waveInner (Θ t)
      (hamiltonOp (fun p q => h t p q - h' t p q) (fun p q r s => u t p q r s - u' t p q r s) (Ψ t))) t := by
  have k := HasDerivAt.fun_sum (u := univ) fun x _ => (hΘ t x).star.fun_mul (hΨ t x)
  refine k.congr_deriv ?_
  have e1 := hamiltonOp_symm (hh.one t) (hh.two t) (Θ t) (Ψ t)
  rw [funext (hamiltonOp_sub (h t) (h' t) (u t) (u' t) (Ψ t)), waveInner_sub_right, ← e1]
  unfold waveInner
  rw [mul_sub, mul_sum, mul_sum, ← sum_sub_distrib]
  refine sum_congr rfl fun x _ => ?_
  rw [star_mul', star_neg, Complex.star_def, Complex.conj_I]
  ring

/-- Solutions with nearly equal elements remain close to each other. -/
theorem evolves_near (hh : HermitianElements h u) (hc : ContinuousElements h u) (hh' : HermitianElements h' u')
    {ε δ : ℝ → ℝ} (hε : Continuous ε) (hδ : Continuous δ) (ε0 : ∀ t, 0 ≤ ε t) (δ0 : ∀ t, 0 ≤ δ t) {a b : ℝ} (hab : a ≤ b)
    (h1 : ∀ t ∈ Set.Icc a b, ∀ p q, ‖h t p q - h' t p q‖ ≤ ε t)
    (h2 : ∀ t ∈ Set.Icc a b, ∀ p q r s, ‖u t p q r s - u' t p q r s‖ ≤ δ t) {Ψ Ψ' : ℝ → Wave ℂ N L} (hΨ : Evolves h u Ψ)
    (hΨ' : Evolves h' u' Ψ') (anti : Antisymmetric (Ψ a)) (anti' : Antisymmetric (Ψ' a)) :
    stateDistance (Ψ b) (Ψ' b) ≤ stateDistance (Ψ a) (Ψ' a) +
      (∫ t in a..b, (N * L * ε t + N * (N - 1 : ℕ) / 2 * L ^ 2 * δ t)) * waveNorm (Ψ' a) := by
  set κ : ℝ → ℝ := fun t => N * L * ε t + N * (N - 1 : ℕ) / 2 * L ^ 2 * δ t with hκ
  have κc : Continuous κ := by
    rw [hκ]
    fun_prop
  set χ : Wave ℂ N L := fun x => Ψ b x - Ψ' b x with hχ
  have aΨ := evolves_fermions hh hΨ anti
  have aΨ' := evolves_fermions hh' hΨ' anti'
  have aχ : Antisymmetric χ := fun σ x => by
    simp only [hχ, aΨ b σ x, aΨ' b σ x]
    ring
  obtain ⟨Θ, hΘ, eΘ⟩ := evolves_exists hh hc b χ
  have aΘ : ∀ t, Antisymmetric (Θ t) := evolves_fermions hh hΘ (by rw [eΘ]; exact aχ)
  have cons : ∀ {g : ℝ → Fin L → Fin L → ℂ} {v : ℝ → Fin L → Fin L → Fin L → Fin L → ℂ} {X : ℝ → Wave ℂ N L},
      HermitianElements g v → Evolves g v X → ∀ s t, waveNorm (X s) = waveNorm (X t) := fun {g v X} H hX s t => by
    have e := evolves_inner H hX hX s t
    rw [waveNorm_sq, waveNorm_sq, Complex.ofReal_inj] at e
    exact (sq_eq_sq₀ (waveNorm_nonneg _) (waveNorm_nonneg _)).1 e
  -- the change of the inner product
  have key : ‖waveInner (Θ b) (Ψ' b) - waveInner (Θ a) (Ψ' a)‖ ≤ (∫ t in a..b, κ t) * (waveNorm χ * waveNorm (Ψ' a)) := by
    have bnd : ∀ t ∈ Set.Icc a b, ‖Complex.I * waveInner (Θ t)
        (hamiltonOp (fun p q => h t p q - h' t p q) (fun p q r s => u t p q r s - u' t p q r s) (Ψ' t))‖ ≤
        κ t * (waveNorm χ * waveNorm (Ψ' a)) := fun t ht => by
      rw [norm_mul, Complex.norm_I, one_mul, ← eΘ, cons hh hΘ b t, cons hh' hΨ' a t]
      exact hamilton_form (fun p q => by rw [star_sub, hh.one, hh'.one]) (fun p q r s => by rw [star_sub, hh.two, hh'.two])
        (ε0 t) (δ0 t) (h1 t ht) (h2 t ht) (aΘ t) (aΨ' t)
    have B : ∀ x, HasDerivAt (fun x => (∫ t in a..x, κ t) * (waveNorm χ * waveNorm (Ψ' a))) (κ x * (waveNorm χ * waveNorm (Ψ' a))) x :=
      fun x => ((intervalIntegral.integral_hasDerivAt_right (κc.intervalIntegrable _ _) (κc.stronglyMeasurableAtFilter _ _)
        κc.continuousAt).mul_const _)
    have D := inner_near hh hΘ hΨ'
    refine image_norm_le_of_norm_deriv_right_le_deriv_boundary
      (f := fun t => waveInner (Θ t) (Ψ' t) - waveInner (Θ a) (Ψ' a)) (a := a) (b := b)
      (fun t _ => ((D t).sub_const _).continuousAt.continuousWithinAt) (fun t _ => ((D t).sub_const _).hasDerivWithinAt)
      (by simp) B (fun t ht => bnd t ⟨ht.1, ht.2.le⟩) ⟨hab, le_rfl⟩
  have e1 : waveInner χ χ = waveInner (Θ a) (fun x => Ψ a x - Ψ' a x) - (waveInner (Θ b) (Ψ' b) - waveInner (Θ a) (Ψ' a)) := by
    have e2 := evolves_inner hh hΘ hΨ a b
    have e4 : waveInner χ χ = waveInner χ (Ψ b) - waveInner χ (Ψ' b) := waveInner_sub_right χ (Ψ b) (Ψ' b)
    rw [e4, waveInner_sub_right (Θ a) (Ψ a) (Ψ' a), e2, eΘ]
    ring
  have e3 : waveNorm χ * waveNorm χ ≤ waveNorm χ * (stateDistance (Ψ a) (Ψ' a) + (∫ t in a..b, κ t) * waveNorm (Ψ' a)) := by
    have n1 : ‖waveInner χ χ‖ = waveNorm χ * waveNorm χ := by
      rw [waveNorm_sq, Complex.norm_real, Real.norm_of_nonneg (sq_nonneg _), sq]
    rw [← n1, e1]
    refine (norm_sub_le _ _).trans ?_
    have n2 := waveInner_le (Θ a) (fun x => Ψ a x - Ψ' a x)
    rw [cons hh hΘ a b, eΘ] at n2
    calc _ ≤ waveNorm χ * stateDistance (Ψ a) (Ψ' a) + (∫ t in a..b, κ t) * (waveNorm χ * waveNorm (Ψ' a)) := add_le_add n2 key
      _ = _ := by ring
  show waveNorm χ ≤ _
  rcases (waveNorm_nonneg χ).eq_or_lt with h0 | h0
  · rw [← h0]
    refine add_nonneg (waveNorm_nonneg _) (mul_nonneg (intervalIntegral.integral_nonneg hab fun t _ => ?_) (waveNorm_nonneg _))
    have := ε0 t
    have := δ0 t
    positivity
  · exact le_of_mul_le_mul_left e3 h0

end QS.Adiabatic
