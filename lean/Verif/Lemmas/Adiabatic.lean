import Mathlib.Analysis.InnerProductSpace.Calculus
import Mathlib.Analysis.Calculus.MeanValue
import Mathlib.Analysis.Calculus.Deriv.Slope
import Mathlib.Analysis.Calculus.Deriv.Mul
import Mathlib.Analysis.Normed.Operator.Mul
import Mathlib.Tactic.NoncommRing

/-!
# The adiabatic theorem

Slow changes of a Hermitian operator keep a state in the space of an eigenvalue that stays apart from the others.
-/

namespace QS.Adiabatic

open Set Filter Topology

variable {V : Type*} [NormedAddCommGroup V] [InnerProductSpace ℂ V]

/-- `P` projects on the eigenspace of `E`, `S` inverts `H - E` on the complement, the other eigenvalues are at least `g` away. -/
structure Isolated (H P S : V →L[ℂ] V) (E g : ℝ) : Prop where
  left : H * P = (E : ℂ) • P
  right : P * H = (E : ℂ) • P
  proj : P * P = P
  sp : S * P = 0
  ps : P * S = 0
  inv : S * (H - (E : ℂ) • 1) = 1 - P
  inv' : (H - (E : ℂ) • 1) * S = 1 - P
  norm_proj : ‖P‖ ≤ 1
  norm_inv : ‖S‖ ≤ g⁻¹

namespace Isolated

variable {H P S H' P' S' : V →L[ℂ] V} {E E' g : ℝ}

theorem proj_sub (I : Isolated H P S E g) (I' : Isolated H' P' S' E' g) :
    P' - P = S * (((E' - E : ℝ) : ℂ) • 1 - (H' - H)) * P' + P * (((E' - E : ℝ) : ℂ) • 1 - (H' - H)) * S' := by
  have h1 : S * (((E' - E : ℝ) : ℂ) • 1 - (H' - H)) * P' = (1 - P) * P' := by
    have : (((E' - E : ℝ) : ℂ) • 1 - (H' - H)) * P' = (H - (E : ℂ) • 1) * P' := by
      have e : (((E' - E : ℝ) : ℂ) • 1 - (H' - H)) * P' = (E' : ℂ) • P' - (E : ℂ) • P' - H' * P' + H * P' := by
        push_cast
        rw [sub_mul, sub_mul, smul_mul_assoc, one_mul, sub_smul]
        abel
      rw [e, I'.left, sub_mul, smul_mul_assoc, one_mul]
      abel
    rw [mul_assoc, this, ← mul_assoc, I.inv]
  have h2 : P * (((E' - E : ℝ) : ℂ) • 1 - (H' - H)) * S' = -(P * (1 - P')) := by
    have : P * (((E' - E : ℝ) : ℂ) • 1 - (H' - H)) = -(P * (H' - (E' : ℂ) • 1)) := by
      have e : P * (((E' - E : ℝ) : ℂ) • 1 - (H' - H)) = (E' : ℂ) • P - (E : ℂ) • P - P * H' + P * H := by
        push_cast
        rw [mul_sub, mul_sub, mul_smul_comm, mul_one, sub_smul]
        abel
      rw [e, I.right, mul_sub, mul_smul_comm, mul_one]
      abel
    rw [this, neg_mul, mul_assoc, I'.inv']
  rw [h1, h2, sub_mul, mul_sub, one_mul, mul_one]
  abel

theorem energy_sub (I : Isolated H P S E g) (I' : Isolated H' P' S' E' g) :
    ((E' - E : ℝ) : ℂ) • (P' * P) = P' * (H' - H) * P := by
  rw [mul_sub, sub_mul, I'.right, mul_assoc P' H P, I.left, smul_mul_assoc, mul_smul_comm, ← sub_smul]
  push_cast
  rfl

theorem inv_sub (I : Isolated H P S E g) (I' : Isolated H' P' S' E' g) :
    S' - S = -((P' - P) * S) + S' * (((E' - E : ℝ) : ℂ) • 1 - (H' - H)) * S - S' * (P' - P) := by
  have h1 : S' * (((E' - E : ℝ) : ℂ) • 1 - (H' - H)) = S' * (H - (E : ℂ) • 1) - (1 - P') := by
    rw [← I'.inv]
    push_cast
    simp only [mul_sub, sub_smul, mul_smul_comm, mul_one]
    abel
  have h2 : S' * (H - (E : ℂ) • 1) * S = S' - S' * P := by
    rw [mul_assoc, I.inv', mul_sub, mul_one]
  rw [h1, sub_mul (S' * (H - (E : ℂ) • 1)), h2, mul_sub, I'.sp, sub_mul P', I.ps, sub_mul, one_mul]
  abel

end Isolated

/-- A function that vanishes at a point times a continuous one. -/
theorem deriv_mul_cont {f g : ℝ → V →L[ℂ] V} {f' : V →L[ℂ] V} {s : Set ℝ} {t : ℝ} (hf : HasDerivWithinAt f f' s t)
    (h0 : f t = 0) (hg : ContinuousWithinAt g s t) : HasDerivWithinAt (fun x => f x * g x) (f' * g t) s t := by
  rw [hasDerivWithinAt_iff_tendsto_slope] at hf ⊢
  have h1 : Tendsto g (𝓝[s \ {t}] t) (𝓝 (g t)) := hg.tendsto.mono_left (nhdsWithin_mono _ sdiff_subset)
  refine (hf.mul h1).congr fun x => ?_
  rw [slope_def_module, slope_def_module, h0, zero_mul, sub_zero, sub_zero, smul_mul_assoc]

theorem deriv_cont_mul {f g : ℝ → V →L[ℂ] V} {f' : V →L[ℂ] V} {s : Set ℝ} {t : ℝ} (hf : HasDerivWithinAt f f' s t)
    (h0 : f t = 0) (hg : ContinuousWithinAt g s t) : HasDerivWithinAt (fun x => g x * f x) (g t * f') s t := by
  rw [hasDerivWithinAt_iff_tendsto_slope] at hf ⊢
  have h1 : Tendsto g (𝓝[s \ {t}] t) (𝓝 (g t)) := hg.tendsto.mono_left (nhdsWithin_mono _ sdiff_subset)
  refine (h1.mul hf).congr fun x => ?_
  rw [slope_def_module, slope_def_module, h0, mul_zero, sub_zero, sub_zero, mul_smul_comm]

section Family

variable {H P S : ℝ → V →L[ℂ] V} {E : ℝ → ℝ} {g : ℝ} {s : Set ℝ} {t : ℝ}

theorem proj_continuous (I : ∀ t ∈ s, Isolated (H t) (P t) (S t) (E t) g) (ht : t ∈ s) (hH : ContinuousWithinAt H s t)
    (hE : ContinuousWithinAt E s t) : ContinuousWithinAt P s t := by
  have hd : Tendsto (fun x => g⁻¹ * ‖((E x - E t : ℝ) : ℂ) • (1 : V →L[ℂ] V) - (H x - H t)‖ +
      ‖((E x - E t : ℝ) : ℂ) • (1 : V →L[ℂ] V) - (H x - H t)‖ * g⁻¹) (𝓝[s] t) (𝓝 0) := by
    have h1 : Tendsto (fun x => ((E x - E t : ℝ) : ℂ) • (1 : V →L[ℂ] V) - (H x - H t)) (𝓝[s] t)
        (𝓝 (((E t - E t : ℝ) : ℂ) • (1 : V →L[ℂ] V) - (H t - H t))) := by
      refine Tendsto.sub (Tendsto.smul ?_ tendsto_const_nhds) (Tendsto.sub hH tendsto_const_nhds)
      exact (Complex.continuous_ofReal.tendsto _).comp (Tendsto.sub hE tendsto_const_nhds)
    have h2 := (h1.norm.const_mul g⁻¹).add (h1.norm.mul_const g⁻¹)
    simpa using h2
  rw [ContinuousWithinAt, tendsto_iff_norm_sub_tendsto_zero]
  refine squeeze_zero' (Eventually.of_forall fun x => norm_nonneg _) ?_ hd
  filter_upwards [self_mem_nhdsWithin] with x hx
  rw [(I t ht).proj_sub (I x hx)]
  refine (norm_add_le _ _).trans (add_le_add ?_ ?_)
  · refine (norm_mul_le _ _).trans ?_
    refine (mul_le_of_le_one_right (norm_nonneg _) (I x hx).norm_proj).trans ?_
    exact (norm_mul_le _ _).trans (mul_le_mul_of_nonneg_right (I t ht).norm_inv (norm_nonneg _))
  · refine (norm_mul_le _ _).trans ?_
    refine mul_le_mul ?_ (I x hx).norm_inv (norm_nonneg _) (norm_nonneg _)
    exact (norm_mul_le _ _).trans (mul_le_of_le_one_left (norm_nonneg _) (I t ht).norm_proj)

theorem inv_continuous (I : ∀ t ∈ s, Isolated (H t) (P t) (S t) (E t) g) (ht : t ∈ s) (hH : ContinuousWithinAt H s t)
    (hE : ContinuousWithinAt E s t) (hg : 0 < g) : ContinuousWithinAt S s t := by
  have hP := proj_continuous I ht hH hE
  have hd : Tendsto (fun x => ‖P x - P t‖ * g⁻¹ + g⁻¹ * ‖((E x - E t : ℝ) : ℂ) • (1 : V →L[ℂ] V) - (H x - H t)‖ * g⁻¹ +
      g⁻¹ * ‖P x - P t‖) (𝓝[s] t) (𝓝 0) := by
    have h1 : Tendsto (fun x => ((E x - E t : ℝ) : ℂ) • (1 : V →L[ℂ] V) - (H x - H t)) (𝓝[s] t)
        (𝓝 (((E t - E t : ℝ) : ℂ) • (1 : V →L[ℂ] V) - (H t - H t))) := by
      refine Tendsto.sub (Tendsto.smul ?_ tendsto_const_nhds) (Tendsto.sub hH tendsto_const_nhds)
      exact (Complex.continuous_ofReal.tendsto _).comp (Tendsto.sub hE tendsto_const_nhds)
    have h3 : Tendsto (fun x => P x - P t) (𝓝[s] t) (𝓝 (P t - P t)) := Tendsto.sub hP tendsto_const_nhds
    have h2 := ((h3.norm.mul_const g⁻¹).add ((h1.norm.const_mul g⁻¹).mul_const g⁻¹)).add (h3.norm.const_mul g⁻¹)
    simpa using h2
  rw [ContinuousWithinAt, tendsto_iff_norm_sub_tendsto_zero]
  refine squeeze_zero' (Eventually.of_forall fun x => norm_nonneg _) ?_ hd
  filter_upwards [self_mem_nhdsWithin] with x hx
  rw [(I t ht).inv_sub (I x hx)]
  have hgi : 0 ≤ g⁻¹ := inv_nonneg.2 hg.le
  refine (norm_sub_le _ _).trans (add_le_add ((norm_add_le _ _).trans (add_le_add ?_ ?_)) ?_)
  · rw [norm_neg]
    exact (norm_mul_le _ _).trans (mul_le_mul_of_nonneg_left (I t ht).norm_inv (norm_nonneg _))
  · refine (norm_mul_le _ _).trans (mul_le_mul ?_ (I t ht).norm_inv (norm_nonneg _) (by positivity))
    exact (norm_mul_le _ _).trans (mul_le_mul_of_nonneg_right (I x hx).norm_inv (norm_nonneg _))
  · exact (norm_mul_le _ _).trans (mul_le_mul_of_nonneg_right (I x hx).norm_inv (norm_nonneg _))

/-- The derivative of the eigenvalue. -/
theorem energy_deriv (I : ∀ t ∈ s, Isolated (H t) (P t) (S t) (E t) g) (ht : t ∈ s) {H₁ : V →L[ℂ] V}
    (hH : HasDerivWithinAt H H₁ s t) (hE : ContinuousWithinAt E s t) {φ : V} (hφ : P t φ = φ) (h1 : ‖φ‖ = 1)
    (hsym : ∀ x y, inner ℂ (P t x) y = inner ℂ x (P t y)) :
    HasDerivWithinAt E (inner ℂ φ (H₁ φ)).re s t := by
  have hP := proj_continuous I ht hH.continuousWithinAt hE
  have hP' : Tendsto P (𝓝[s \ {t}] t) (𝓝 (P t)) := hP.tendsto.mono_left (nhdsWithin_mono _ sdiff_subset)
  have hn : inner ℂ φ φ = (1 : ℂ) := by
    rw [inner_self_eq_norm_sq_to_K, h1]
    norm_num
  rw [hasDerivWithinAt_iff_tendsto_slope] at hH ⊢
  have ha : Tendsto (fun x => (inner ℂ φ (P x (slope H t x φ)) : ℂ)) (𝓝[s \ {t}] t) (𝓝 (inner ℂ φ (H₁ φ))) := by
    have e1 : Tendsto (fun x => (P x * slope H t x) φ) (𝓝[s \ {t}] t) (𝓝 ((P t * H₁) φ)) :=
      ((ContinuousLinearMap.apply ℂ V φ).continuous.tendsto _).comp (hP'.mul hH)
    have e2 := (tendsto_const_nhds (x := φ)).inner (𝕜 := ℂ) e1
    have e3 : inner ℂ φ ((P t * H₁) φ) = inner ℂ φ (H₁ φ) := by
      rw [mul_apply_eq_comp, ← hsym, hφ]
    rw [e3] at e2
    exact e2
  have hb : Tendsto (fun x => (inner ℂ φ (P x φ) : ℂ)) (𝓝[s \ {t}] t) (𝓝 1) := by
    have e1 : Tendsto (fun x => P x φ) (𝓝[s \ {t}] t) (𝓝 (P t φ)) :=
      ((ContinuousLinearMap.apply ℂ V φ).continuous.tendsto _).comp hP'
    have e2 := (tendsto_const_nhds (x := φ)).inner (𝕜 := ℂ) e1
    rwa [hφ, hn] at e2
  have hc := ha.div hb one_ne_zero
  rw [div_one] at hc
  refine ((Complex.continuous_re.tendsto _).comp hc).congr' ?_
  have hne : ∀ᶠ x in 𝓝[s \ {t}] t, (inner ℂ φ (P x φ) : ℂ) ≠ 0 :=
    hb.eventually_ne one_ne_zero
  filter_upwards [hne, self_mem_nhdsWithin] with x hx hxs
  have key := (I t ht).energy_sub (I x hxs.1)
  have k2 := congrArg (fun A : V →L[ℂ] V => (inner ℂ φ (A φ) : ℂ)) key
  simp only [smul_apply, mul_apply_eq_comp, hφ, inner_smul_right] at k2
  have k3 : (inner ℂ φ (P x (slope H t x φ)) : ℂ) = ((slope E t x : ℝ) : ℂ) * inner ℂ φ (P x φ) := by
    rw [slope_def_module, slope_def_module]
    rw [smul_apply, ← Complex.coe_smul, map_smul, inner_smul_right, ← k2, smul_eq_mul]
    push_cast
    ring
  show ((inner ℂ φ (P x (slope H t x φ)) : ℂ) / inner ℂ φ (P x φ)).re = slope E t x
  rw [k3, mul_div_cancel_right₀ _ hx, Complex.ofReal_re]

/-- The derivative of the difference of the eigenvalue and the operator. -/
theorem shift_deriv {E₁ : ℝ} {H₁ : V →L[ℂ] V} (hH : HasDerivWithinAt H H₁ s t) (hE : HasDerivWithinAt E E₁ s t) :
    HasDerivWithinAt (fun x => ((E x - E t : ℝ) : ℂ) • (1 : V →L[ℂ] V) - (H x - H t)) ((E₁ : ℂ) • 1 - H₁) s t := by
  have e : HasDerivWithinAt (fun x => ((E x - E t : ℝ) : ℂ)) (E₁ : ℂ) s t := by
    exact Complex.ofRealCLM.hasFDerivAt.comp_hasDerivWithinAt t (hE.sub_const (E t))
  exact (e.smul_const (1 : V →L[ℂ] V)).sub (hH.sub_const (H t))

/-- The derivative of the projection. -/
theorem proj_deriv (I : ∀ t ∈ s, Isolated (H t) (P t) (S t) (E t) g) (ht : t ∈ s) {E₁ : ℝ} {H₁ : V →L[ℂ] V}
    (hH : HasDerivWithinAt H H₁ s t) (hE : HasDerivWithinAt E E₁ s t) (hg : 0 < g) :
    HasDerivWithinAt P (-(S t * H₁ * P t + P t * H₁ * S t)) s t := by
  have hP := proj_continuous I ht hH.continuousWithinAt hE.continuousWithinAt
  have hS := inv_continuous I ht hH.continuousWithinAt hE.continuousWithinAt hg
  have hd := shift_deriv hH hE
  have z : ((E t - E t : ℝ) : ℂ) • (1 : V →L[ℂ] V) - (H t - H t) = 0 := by simp
  have a1 := deriv_mul_cont (hd.const_mul (S t)) (by simp) hP
  have a2 := deriv_mul_cont (hd.const_mul (P t)) (by simp) hS
  have a3 := (a1.add a2).add_const (P t)
  have e : S t * ((E₁ : ℂ) • 1 - H₁) * P t + P t * ((E₁ : ℂ) • 1 - H₁) * S t = -(S t * H₁ * P t + P t * H₁ * S t) := by
    simp only [mul_sub, sub_mul, mul_smul_comm, smul_mul_assoc, mul_one, (I t ht).sp, (I t ht).ps, smul_zero]
    abel
  rw [e] at a3
  refine a3.congr (fun x hx => ?_) ?_
  · have := (I t ht).proj_sub (I x hx)
    rw [sub_eq_iff_eq_add] at this
    exact this
  · simp

/-- The derivative of the inverse. -/
theorem inv_deriv (I : ∀ t ∈ s, Isolated (H t) (P t) (S t) (E t) g) (ht : t ∈ s) {E₁ : ℝ} {H₁ : V →L[ℂ] V}
    (hH : HasDerivWithinAt H H₁ s t) (hE : HasDerivWithinAt E E₁ s t) (hg : 0 < g) :
    HasDerivWithinAt S (P t * H₁ * (S t * S t) + S t * S t * H₁ * P t + (E₁ : ℂ) • (S t * S t) - S t * H₁ * S t) s t := by
  have hS := inv_continuous I ht hH.continuousWithinAt hE.continuousWithinAt hg
  have hP := proj_deriv I ht hH hE hg
  have hd := shift_deriv hH hE
  have z : ((E t - E t : ℝ) : ℂ) • (1 : V →L[ℂ] V) - (H t - H t) = 0 := by simp
  have a1 := ((hP.sub_const (P t)).mul_const (S t)).neg
  have a2 := (deriv_cont_mul hd z hS).mul_const (S t)
  have a3 := deriv_cont_mul (hP.sub_const (P t)) (sub_self _) hS
  have a4 := ((a1.add a2).sub a3).add_const (S t)
  have e : -(-(S t * H₁ * P t + P t * H₁ * S t) * S t) + S t * ((E₁ : ℂ) • 1 - H₁) * S t -
      S t * -(S t * H₁ * P t + P t * H₁ * S t) =
      P t * H₁ * (S t * S t) + S t * S t * H₁ * P t + (E₁ : ℂ) • (S t * S t) - S t * H₁ * S t := by
    have e1 : S t * H₁ * P t * S t = 0 := by rw [mul_assoc, (I t ht).ps, mul_zero]
    have e2 : S t * (P t * H₁ * S t) = 0 := by rw [← mul_assoc, ← mul_assoc, (I t ht).sp, zero_mul, zero_mul]
    rw [neg_mul, neg_neg, add_mul, e1, mul_neg, sub_neg_eq_add, mul_add, e2, mul_sub, sub_mul, mul_smul_comm, mul_one,
      smul_mul_assoc]
    simp only [mul_assoc]
    abel
  rw [e] at a4
  refine a4.congr (fun x hx => ?_) ?_
  · have := (I t ht).inv_sub (I x hx)
    rw [sub_eq_iff_eq_add] at this
    exact this
  · simp

end Family

theorem norm_mul_le' {A B : V →L[ℂ] V} {a b : ℝ} (hA : ‖A‖ ≤ a) (hB : ‖B‖ ≤ b) : ‖A * B‖ ≤ a * b :=
  (norm_mul_le A B).trans (mul_le_mul hA hB (norm_nonneg _) ((norm_nonneg _).trans hA))

theorem norm_inner_le {A : V →L[ℂ] V} {a : ℝ} (hA : ‖A‖ ≤ a) (v : V) : ‖(inner ℂ v (A v) : ℂ)‖ ≤ a * ‖v‖ ^ 2 := by
  refine (norm_inner_le_norm _ _).trans ?_
  have := (A.le_opNorm v).trans (mul_le_mul_of_nonneg_right hA (norm_nonneg v))
  nlinarith [norm_nonneg v]

/-- A mean value along a solution of the Schrödinger equation. -/
theorem mean_deriv' {H A : ℝ → V →L[ℂ] V} {A₁ : V →L[ℂ] V} {ψ : ℝ → V} {s : Set ℝ} {t : ℝ}
    (hsym : ∀ x y, inner ℂ (H t x) y = inner ℂ x (H t y)) (hA : HasDerivWithinAt A A₁ s t)
    (hψ : HasDerivWithinAt ψ (-Complex.I • H t (ψ t)) s t) :
    HasDerivWithinAt (fun t => (inner ℂ (ψ t) (A t (ψ t)) : ℂ))
      (inner ℂ (ψ t) (A₁ (ψ t)) + Complex.I * inner ℂ (ψ t) ((H t * A t - A t * H t) (ψ t))) s t := by
  have h1 : HasDerivWithinAt (fun t => A t (ψ t)) (A₁ (ψ t) + A t (-Complex.I • H t (ψ t))) s t :=
    ((ContinuousLinearMap.restrictScalarsL ℂ V V ℝ ℝ).hasFDerivAt.comp_hasDerivWithinAt t hA).clm_apply hψ
  have h2 := hψ.inner ℂ h1
  refine h2.congr_deriv ?_
  rw [inner_add_right, map_smul, inner_smul_right, inner_smul_left, sub_apply, inner_sub_right, mul_apply_eq_comp,
    mul_apply_eq_comp, hsym]
  simp
  ring

/-- The adiabatic theorem. -/
theorem adiabatic {H P S H₁ H₂ : ℝ → V →L[ℂ] V} {E : ℝ → ℝ} {ψ : ℝ → V} {a b g κ₁ κ₂ r : ℝ} (hab : a ≤ b) (hg : 0 < g)
    (I : ∀ t ∈ Icc a b, Isolated (H t) (P t) (S t) (E t) g)
    (hP : ∀ t ∈ Icc a b, ∀ x y, inner ℂ (P t x) y = inner ℂ x (P t y))
    (hφ : ∀ t ∈ Icc a b, ∃ φ, P t φ = φ ∧ ‖φ‖ = 1)
    (hH : ∀ t ∈ Icc a b, ∀ x y, inner ℂ (H t x) y = inner ℂ x (H t y)) (hE : ContinuousOn E (Icc a b))
    (hH₁ : ∀ t ∈ Icc a b, HasDerivWithinAt H (H₁ t) (Icc a b) t)
    (hH₂ : ∀ t ∈ Icc a b, HasDerivWithinAt H₁ (H₂ t) (Icc a b) t)
    (hκ₁ : ∀ t ∈ Icc a b, ‖H₁ t‖ ≤ κ₁) (hκ₂ : ∀ t ∈ Icc a b, ‖H₂ t‖ ≤ κ₂)
    (hψ : ∀ t ∈ Icc a b, HasDerivWithinAt ψ (-Complex.I • H t (ψ t)) (Icc a b) t) (hr : ∀ t ∈ Icc a b, ‖ψ t‖ = r) :
    ‖(inner ℂ (ψ b) (P b (ψ b)) : ℂ) - inner ℂ (ψ a) (P a (ψ a))‖ ≤
      (4 * κ₁ / g ^ 2 + (b - a) * (2 * κ₂ / g ^ 2 + 20 * κ₁ ^ 2 / g ^ 3)) * r ^ 2 := by
  set Y : ℝ → V →L[ℂ] V := fun t => P t * H₁ t * (S t * S t) - S t * S t * H₁ t * P t with hY
  have ha : a ∈ Icc a b := left_mem_Icc.2 hab
  have hb : b ∈ Icc a b := right_mem_Icc.2 hab
  have hκ : 0 ≤ κ₁ := (norm_nonneg _).trans (hκ₁ a ha)
  have hgi : 0 < g⁻¹ := inv_pos.2 hg
  have nY : ∀ t ∈ Icc a b, ‖Y t‖ ≤ 2 * κ₁ * (g⁻¹) ^ 2 := fun t ht => by
    have hS := norm_mul_le' (I t ht).norm_inv (I t ht).norm_inv
    have h1 := norm_mul_le' (norm_mul_le' (I t ht).norm_proj (hκ₁ t ht)) hS
    have h2 := norm_mul_le' (norm_mul_le' hS (hκ₁ t ht)) (I t ht).norm_proj
    refine (norm_sub_le _ _).trans ((add_le_add h1 h2).trans (le_of_eq ?_))
    ring
  have hder : ∀ t ∈ Icc a b, ∃ f', HasDerivWithinAt (fun t => (inner ℂ (ψ t) (P t (ψ t)) : ℂ) +
      Complex.I * inner ℂ (ψ t) (Y t (ψ t))) f' (Icc a b) t ∧
      ‖f'‖ ≤ (2 * κ₂ * (g⁻¹) ^ 2 + 20 * κ₁ ^ 2 * (g⁻¹) ^ 3) * r ^ 2 := fun t ht => by
    obtain ⟨φ, h1, h2⟩ := hφ t ht
    have hE₁ := energy_deriv I ht (hH₁ t ht) (hE t ht) h1 h2 (hP t ht)
    set E₁ := (inner ℂ φ (H₁ t φ)).re
    have hEn : ‖(E₁ : ℂ)‖ ≤ κ₁ := by
      have := norm_inner_le (hκ₁ t ht) φ
      rw [h2, one_pow, mul_one] at this
      rw [Complex.norm_real]
      exact (Complex.abs_re_le_norm _).trans this
    have dP := proj_deriv I ht (hH₁ t ht) hE₁ hg
    have dS := inv_deriv I ht (hH₁ t ht) hE₁ hg
    set P₁ := -(S t * H₁ t * P t + P t * H₁ t * S t) with hP₁
    set S₁ := P t * H₁ t * (S t * S t) + S t * S t * H₁ t * P t + (E₁ : ℂ) • (S t * S t) - S t * H₁ t * S t with hS₁
    have nS := (I t ht).norm_inv
    have nP := (I t ht).norm_proj
    have n1 := hκ₁ t ht
    have n2 := hκ₂ t ht
    have nP₁ : ‖P₁‖ ≤ 2 * κ₁ * g⁻¹ := by
      rw [hP₁, norm_neg]
      refine (norm_add_le _ _).trans ((add_le_add (norm_mul_le' (norm_mul_le' nS n1) nP)
        (norm_mul_le' (norm_mul_le' nP n1) nS)).trans (le_of_eq ?_))
      ring
    have nS₁ : ‖S₁‖ ≤ 4 * κ₁ * (g⁻¹) ^ 2 := by
      have m1 := norm_mul_le' (norm_mul_le' nP n1) (norm_mul_le' nS nS)
      have m2 := norm_mul_le' (norm_mul_le' (norm_mul_le' nS nS) n1) nP
      have m3 : ‖(E₁ : ℂ) • (S t * S t)‖ ≤ κ₁ * (g⁻¹ * g⁻¹) := by
        rw [norm_smul]
        exact mul_le_mul hEn (norm_mul_le' nS nS) (norm_nonneg _) hκ
      have m4 := norm_mul_le' (norm_mul_le' nS n1) nS
      refine (norm_sub_le _ _).trans ((add_le_add ((norm_add_le _ _).trans (add_le_add ((norm_add_le _ _).trans
        (add_le_add m1 m2)) m3)) m4).trans (le_of_eq ?_))
      ring
    have dY : HasDerivWithinAt Y ((P₁ * H₁ t + P t * H₂ t) * (S t * S t) + P t * H₁ t * (S₁ * S t + S t * S₁) -
        (((S₁ * S t + S t * S₁) * H₁ t + S t * S t * H₂ t) * P t + S t * S t * H₁ t * P₁)) (Icc a b) t :=
      ((dP.mul (hH₂ t ht)).mul (dS.mul dS)).sub (((dS.mul dS).mul (hH₂ t ht)).mul dP)
    have nSS : ‖S₁ * S t + S t * S₁‖ ≤ 8 * κ₁ * (g⁻¹) ^ 3 := by
      refine (norm_add_le _ _).trans ((add_le_add (norm_mul_le' nS₁ nS) (norm_mul_le' nS nS₁)).trans (le_of_eq ?_))
      ring
    have nY₁ : ‖(P₁ * H₁ t + P t * H₂ t) * (S t * S t) + P t * H₁ t * (S₁ * S t + S t * S₁) -
        (((S₁ * S t + S t * S₁) * H₁ t + S t * S t * H₂ t) * P t + S t * S t * H₁ t * P₁)‖ ≤
        2 * κ₂ * (g⁻¹) ^ 2 + 20 * κ₁ ^ 2 * (g⁻¹) ^ 3 := by
      have m1 := norm_mul_le' ((norm_add_le _ _).trans (add_le_add (norm_mul_le' nP₁ n1) (norm_mul_le' nP n2))) (norm_mul_le' nS nS)
      have m2 := norm_mul_le' (norm_mul_le' nP n1) nSS
      have m3 := norm_mul_le' ((norm_add_le _ _).trans (add_le_add (norm_mul_le' nSS n1) (norm_mul_le' (norm_mul_le' nS nS) n2))) nP
      have m4 := norm_mul_le' (norm_mul_le' (norm_mul_le' nS nS) n1) nP₁
      refine (norm_sub_le _ _).trans ((add_le_add ((norm_add_le _ _).trans (add_le_add m1 m2))
        ((norm_add_le _ _).trans (add_le_add m3 m4))).trans (le_of_eq ?_))
      ring
    have comm : H t * Y t - Y t * H t = P₁ := by
      have e1 : H t * S t = 1 - P t + (E t : ℂ) • S t := by
        have := (I t ht).inv'
        rw [sub_mul, smul_mul_assoc, one_mul, sub_eq_iff_eq_add] at this
        exact this
      have e2 : S t * H t = 1 - P t + (E t : ℂ) • S t := by
        have := (I t ht).inv
        rw [mul_sub, mul_smul_comm, mul_one, sub_eq_iff_eq_add] at this
        exact this
      have e3 : H t * (P t * H₁ t * (S t * S t)) = (E t : ℂ) • (P t * H₁ t * (S t * S t)) := by
        rw [← mul_assoc, ← mul_assoc (H t) (P t) (H₁ t), (I t ht).left, smul_mul_assoc, smul_mul_assoc]
      have e4 : S t * S t * H₁ t * P t * H t = (E t : ℂ) • (S t * S t * H₁ t * P t) := by
        rw [mul_assoc, (I t ht).right, mul_smul_comm]
      have e5 : H t * (S t * S t) = S t + (E t : ℂ) • (S t * S t) := by
        rw [← mul_assoc, e1, add_mul, sub_mul, one_mul, (I t ht).ps, sub_zero, smul_mul_assoc]
      have e6 : S t * S t * H t = S t + (E t : ℂ) • (S t * S t) := by
        rw [mul_assoc, e2, mul_add, mul_sub, mul_one, (I t ht).sp, sub_zero, mul_smul_comm]
      have e7 : H t * (S t * S t * H₁ t * P t) = S t * H₁ t * P t + (E t : ℂ) • (S t * S t * H₁ t * P t) := by
        rw [← mul_assoc, ← mul_assoc (H t) (S t * S t) (H₁ t), e5, add_mul, add_mul, smul_mul_assoc, smul_mul_assoc]
      have e8 : P t * H₁ t * (S t * S t) * H t = P t * H₁ t * S t + (E t : ℂ) • (P t * H₁ t * (S t * S t)) := by
        rw [mul_assoc _ (S t * S t), e6, mul_add, mul_smul_comm]
      rw [hY, hP₁]
      dsimp only
      rw [mul_sub, sub_mul, e3, e4, e7, e8]
      abel
    have d1 := mean_deriv' (hH t ht) dP (hψ t ht)
    have d2 := mean_deriv' (hH t ht) dY (hψ t ht)
    have c1 : H t * P t - P t * H t = 0 := by rw [(I t ht).left, (I t ht).right, sub_self]
    rw [c1] at d1
    rw [comm] at d2
    refine ⟨_, d1.add (d2.const_mul Complex.I), ?_⟩
    have := norm_inner_le nY₁ (ψ t)
    rw [hr t ht] at this
    refine le_trans (le_of_eq ?_) this
    rw [zero_apply, inner_zero_right, mul_zero, add_zero, mul_add, ← mul_assoc Complex.I Complex.I, Complex.I_mul_I,
      show ∀ x y : ℂ, x + (Complex.I * y + -1 * x) = Complex.I * y by intro x y; ring, norm_mul, Complex.norm_I, one_mul]
  choose! f' hf' hn' using hder
  have mv := norm_image_sub_le_of_norm_deriv_le_segment' (f := fun t => (inner ℂ (ψ t) (P t (ψ t)) : ℂ) +
      Complex.I * inner ℂ (ψ t) (Y t (ψ t))) (f' := f') (fun t ht => hf' t ht) (fun t ht => hn' t (Ico_subset_Icc_self ht))
      b hb
  have ya := norm_inner_le (nY a ha) (ψ a)
  have yb := norm_inner_le (nY b hb) (ψ b)
  rw [hr a ha] at ya
  rw [hr b hb] at yb
  have tri : ‖(inner ℂ (ψ b) (P b (ψ b)) : ℂ) - inner ℂ (ψ a) (P a (ψ a))‖ ≤
      ‖(inner ℂ (ψ b) (P b (ψ b)) : ℂ) + Complex.I * inner ℂ (ψ b) (Y b (ψ b)) -
        (inner ℂ (ψ a) (P a (ψ a)) + Complex.I * inner ℂ (ψ a) (Y a (ψ a)))‖ +
      ‖(inner ℂ (ψ b) (Y b (ψ b)) : ℂ)‖ + ‖(inner ℂ (ψ a) (Y a (ψ a)) : ℂ)‖ := by
    set z₁ := (inner ℂ (ψ b) (Y b (ψ b)) : ℂ)
    set z₂ := (inner ℂ (ψ a) (Y a (ψ a)) : ℂ)
    set z := (inner ℂ (ψ b) (P b (ψ b)) : ℂ) + Complex.I * z₁ - (inner ℂ (ψ a) (P a (ψ a)) + Complex.I * z₂) with hz
    have e : (inner ℂ (ψ b) (P b (ψ b)) : ℂ) - inner ℂ (ψ a) (P a (ψ a)) = z - Complex.I * z₁ + Complex.I * z₂ := by
      rw [hz]
      ring
    rw [e]
    refine (norm_add_le _ _).trans (add_le_add ((norm_sub_le _ _).trans (add_le_add le_rfl ?_)) ?_) <;>
    · rw [norm_mul, Complex.norm_I, one_mul]
  refine tri.trans ((add_le_add (add_le_add mv yb) ya).trans (le_of_eq ?_))
  field_simp
  ring

end QS.Adiabatic
