import Verif.Lemmas.CoulombIntegral
import Mathlib.Analysis.Fourier.AddCircle
import Mathlib.Algebra.QuadraticDiscriminant

/-!
# Bounds on Coulomb integrals
-/

namespace QS.CoulombIntegral

open MeasureTheory Set Complex QS.Spec QS.TwoDim

/-- The integral in polar coordinates is the integral over the plane. -/
theorem planeIntegral_eq {F : ℝ → ℝ → ℂ} (hper : ∀ r, Function.Periodic (F r) (2 * Real.pi))
    (hi : Integrable (atPoint F)) : planeIntegral F = ∫ z, atPoint F z := by
  rw [← Complex.integral_comp_polarCoord_symm, polarCoord_target]
  have hi' : IntegrableOn (fun p : ℝ × ℝ => p.1 • atPoint F (Complex.polarCoord.symm p))
      (Ioi (0 : ℝ) ×ˢ Ioo (-Real.pi) Real.pi) volume := by
    have h1 : Integrable (fun p : ℝ × ℝ => atPoint F (measurableEquivRealProd.symm p)) :=
      (volume_preserving_equiv_real_prod.symm.integrable_comp_emb
        measurableEquivRealProd.symm.measurableEmbedding).2 hi
    have h2 := (integrableOn_image_iff_integrableOn_abs_det_fderiv_smul volume
      (polarCoord.open_target.measurableSet)
      (fun p _ => (hasFDerivAt_polarCoord_symm p).hasFDerivWithinAt) polarCoord.symm.injOn
      (fun p : ℝ × ℝ => atPoint F (measurableEquivRealProd.symm p))).1 h1.integrableOn
    refine h2.congr_fun (fun p hp => ?_) polarCoord.open_target.measurableSet
    dsimp only
    rw [det_fderivPolarCoordSymm, abs_of_pos hp.1, measurableEquivRealProd_symm_polarCoord_symm_apply]
  have key : ∀ p ∈ (Ioi (0 : ℝ) ×ˢ Ioo (-Real.pi) Real.pi : Set (ℝ × ℝ)),
      p.1 • atPoint F (Complex.polarCoord.symm p) = F p.1 p.2 * (p.1 : ℂ) := by
    rintro ⟨r, t⟩ ⟨hr, ht⟩
    have hr : 0 < r := hr
    have ht : t ∈ Ioc (-Real.pi) Real.pi := Ioo_subset_Ioc_self ht
    unfold atPoint
    rw [norm_polarCoord_symm, abs_of_pos hr, Complex.polarCoord_symm_apply]
    dsimp only
    rw [Complex.ofReal_cos, Complex.ofReal_sin, Complex.arg_mul_cos_add_sin_mul_I hr ht, Complex.real_smul, mul_comm]
  have e := setIntegral_prod _ hi'
  refine Eq.trans ?_ e.symm
  unfold planeIntegral
  refine setIntegral_congr_fun measurableSet_Ioi fun r hr => ?_
  dsimp only
  rw [setIntegral_congr_fun measurableSet_Ioo fun t ht => key (r, t) ⟨hr, ht⟩]
  show _ = ∫ t in Ioo (-Real.pi) Real.pi, F r t * (r : ℂ)
  rw [integral_mul_const, ← integral_Ioc_eq_integral_Ioo, ← intervalIntegral.integral_of_le (by linarith [Real.pi_pos])]
  congr 1
  have := (hper r).intervalIntegral_add_eq 0 (-Real.pi)
  rw [zero_add, show -Real.pi + 2 * Real.pi = Real.pi by ring] at this
  exact this

theorem spfTheta_periodic (m : ℤ) : Function.Periodic (fun t => spfTheta t m) (2 * Real.pi) := by
  intro t
  unfold spfTheta
  rw [Complex.exp_eq_exp_iff_exists_int]
  exact ⟨m, by push_cast; ring⟩

theorem product_expand {mass omega : ℝ} (hm : 0 < mass) (ho : 0 < omega) (nm : ℕ → ℤ × ℤ) (p q : ℕ) (z : ℂ) :
    (starRingEnd ℂ) (atPoint (spfState nm mass omega p) z) * atPoint (spfState nm mass omega q) z
      = ∑ i ∈ Finset.range ((nm p).1.toNat + 1), ∑ j ∈ Finset.range ((nm q).1.toNat + 1),
        ((spfNorm (nm p).1 (nm p).2 mass omega * radCoeff (nm p).1.toNat (nm p).2.natAbs mass omega i
          * (spfNorm (nm q).1 (nm q).2 mass omega * radCoeff (nm q).1.toNat (nm q).2.natAbs mass omega j) : ℝ) : ℂ)
        * (z ^ ((-(nm p).2).toNat + i + ((nm q).2.toNat + j))
          * (starRingEnd ℂ) z ^ ((nm p).2.toNat + i + ((-(nm q).2).toNat + j))
          * (Real.exp (-(mass * omega) * ‖z‖ ^ 2) : ℂ)) := by
  rw [spfState_expand hm ho, spfState_expand hm ho, map_sum, Finset.sum_mul_sum]
  refine Finset.sum_congr rfl fun i _ => Finset.sum_congr rfl fun j _ => ?_
  simp only [map_mul, map_pow, Complex.conj_ofReal, Complex.conj_conj]
  rw [show Real.exp (-(mass * omega) * ‖z‖ ^ 2)
    = Real.exp (-(mass * omega) * ‖z‖ ^ 2 / 2) * Real.exp (-(mass * omega) * ‖z‖ ^ 2 / 2) by
    rw [← Real.exp_add]; congr 1; ring]
  simp only [pow_add, Complex.ofReal_mul]
  ring

theorem product_integrable {mass omega : ℝ} (hm : 0 < mass) (ho : 0 < omega) (nm : ℕ → ℤ × ℤ) (p q : ℕ) :
    Integrable fun z => (starRingEnd ℂ) (atPoint (spfState nm mass omega p) z)
      * atPoint (spfState nm mass omega q) z := by
  rw [funext fun z => product_expand hm ho nm p q z]
  exact integrable_finsetSum _ fun _ _ => integrable_finsetSum _ fun _ _ =>
    (plane_gauss_integrable (by positivity) _ _).const_mul _

/-- The inner product in polar coordinates is the integral over the plane. -/
theorem planeInner_eq {mass omega : ℝ} (hm : 0 < mass) (ho : 0 < omega) (nm : ℕ → ℤ × ℤ) (p q : ℕ) :
    planeInner (spfState nm mass omega p) (spfState nm mass omega q)
      = ∫ z, (starRingEnd ℂ) (atPoint (spfState nm mass omega p) z) * atPoint (spfState nm mass omega q) z := by
  refine planeIntegral_eq (F := fun r t => (starRingEnd ℂ) (spfState nm mass omega p r t)
    * spfState nm mass omega q r t) (fun r t => ?_) (product_integrable hm ho nm p q)
  unfold spfState
  dsimp only
  rw [show spfTheta (t + 2 * Real.pi) (nm p).2 = spfTheta t (nm p).2 from spfTheta_periodic _ t,
    show spfTheta (t + 2 * Real.pi) (nm q).2 = spfTheta t (nm q).2 from spfTheta_periodic _ t]

/-! ## Two particles -/

/-- The Coulomb integrand of a two-particle function with itself. -/
theorem direct_integrand (a b : ℂ → ℂ) (z : ℂ × ℂ) :
    coulombIntegrand a b a b z = ((‖a z.1‖ ^ 2 * ‖b z.2‖ ^ 2 / ‖z.1 - z.2‖ : ℝ) : ℂ) := by
  unfold coulombIntegrand
  rw [show (starRingEnd ℂ) (a z.1) * (starRingEnd ℂ) (b z.2) * ((1 / ‖z.1 - z.2‖ : ℝ) : ℂ) * a z.1 * b z.2
    = ((starRingEnd ℂ) (a z.1) * a z.1) * ((starRingEnd ℂ) (b z.2) * b z.2) * ((1 / ‖z.1 - z.2‖ : ℝ) : ℂ) by ring,
    Complex.conj_mul', Complex.conj_mul']
  push_cast
  ring

theorem norm_integrand (a b c d : ℂ → ℂ) (z : ℂ × ℂ) :
    ‖coulombIntegrand a b c d z‖ = ‖a z.1‖ * ‖b z.2‖ * (‖c z.1‖ * ‖d z.2‖) / ‖z.1 - z.2‖ := by
  unfold coulombIntegrand
  simp only [norm_mul, RCLike.norm_conj, Complex.norm_real, Real.norm_eq_abs]
  rw [abs_of_nonneg (by positivity)]
  ring

/-- The Cauchy–Schwarz inequality for the Coulomb interaction. -/
theorem coulomb_schwarz {a b c d : ℂ → ℂ} (h0 : Integrable (coulombIntegrand a b c d))
    (h1 : Integrable (coulombIntegrand a b a b)) (h2 : Integrable (coulombIntegrand c d c d)) :
    ‖coulombIntegral a b c d‖ ^ 2 ≤ (coulombIntegral a b a b).re * (coulombIntegral c d c d).re := by
  have e (a b : ℂ → ℂ) : coulombIntegral a b a b
      = ((∫ z : ℂ × ℂ, ‖a z.1‖ ^ 2 * ‖b z.2‖ ^ 2 / ‖z.1 - z.2‖ : ℝ) : ℂ) := by
    unfold coulombIntegral
    rw [funext fun z => direct_integrand a b z]
    exact integral_ofReal
  have i {a b : ℂ → ℂ} (h : Integrable (coulombIntegrand a b a b)) :
      Integrable fun z : ℂ × ℂ => ‖a z.1‖ ^ 2 * ‖b z.2‖ ^ 2 / ‖z.1 - z.2‖ := by
    rw [funext fun z => direct_integrand a b z] at h
    exact h.re
  rw [e, e, Complex.ofReal_re, Complex.ofReal_re]
  have key : ∀ t : ℝ, 0 ≤ (∫ z : ℂ × ℂ, ‖a z.1‖ ^ 2 * ‖b z.2‖ ^ 2 / ‖z.1 - z.2‖) * (t * t)
      + (-2 * ‖coulombIntegral a b c d‖) * t + ∫ z : ℂ × ℂ, ‖c z.1‖ ^ 2 * ‖d z.2‖ ^ 2 / ‖z.1 - z.2‖ := by
    intro t
    have hn : ‖coulombIntegral a b c d‖ ≤ ∫ z, ‖coulombIntegrand a b c d z‖ := norm_integral_le_integral_norm _
    have hN : Integrable fun z => ‖coulombIntegrand a b c d z‖ := h0.norm
    have hs : 0 ≤ ∫ z : ℂ × ℂ, ((t * t) * (‖a z.1‖ ^ 2 * ‖b z.2‖ ^ 2 / ‖z.1 - z.2‖)
        - 2 * |t| * ‖coulombIntegrand a b c d z‖ + ‖c z.1‖ ^ 2 * ‖d z.2‖ ^ 2 / ‖z.1 - z.2‖) := by
      refine integral_nonneg fun z => ?_
      dsimp only [Pi.zero_apply]
      rw [norm_integrand]
      have : t * t * (‖a z.1‖ ^ 2 * ‖b z.2‖ ^ 2 / ‖z.1 - z.2‖)
          - 2 * |t| * (‖a z.1‖ * ‖b z.2‖ * (‖c z.1‖ * ‖d z.2‖) / ‖z.1 - z.2‖)
          + ‖c z.1‖ ^ 2 * ‖d z.2‖ ^ 2 / ‖z.1 - z.2‖
          = (|t| * (‖a z.1‖ * ‖b z.2‖) - ‖c z.1‖ * ‖d z.2‖) ^ 2 / ‖z.1 - z.2‖ := by
        rw [← abs_mul_abs_self t]
        ring
      rw [this]
      positivity
    have ia := (i h1).const_mul (t * t)
    have ib := hN.const_mul (2 * |t|)
    have iab : Integrable fun z : ℂ × ℂ => t * t * (‖a z.1‖ ^ 2 * ‖b z.2‖ ^ 2 / ‖z.1 - z.2‖)
        - 2 * |t| * ‖coulombIntegrand a b c d z‖ := ia.sub ib
    rw [integral_add iab (i h2), integral_sub ia ib, integral_const_mul, integral_const_mul] at hs
    have h3 : t * ‖coulombIntegral a b c d‖ ≤ |t| * ∫ z, ‖coulombIntegrand a b c d z‖ :=
      mul_le_mul (le_abs_self t) hn (norm_nonneg _) (abs_nonneg t)
    nlinarith [hs, h3]
  have hd := discrim_le_zero key
  unfold discrim at hd
  nlinarith [hd]

/-- The direct integral of two functions of norm one is positive. -/
theorem direct_pos {a b : ℂ → ℂ} (h : Integrable (coulombIntegrand a b a b))
    (ha : Integrable fun z => (starRingEnd ℂ) (a z) * a z) (hb : Integrable fun z => (starRingEnd ℂ) (b z) * b z)
    (ha1 : ∫ z, (starRingEnd ℂ) (a z) * a z = 1) (hb1 : ∫ z, (starRingEnd ℂ) (b z) * b z = 1) :
    (coulombIntegral a b a b).im = 0 ∧ 0 < (coulombIntegral a b a b).re := by
  have e : coulombIntegral a b a b
      = ((∫ z : ℂ × ℂ, ‖a z.1‖ ^ 2 * ‖b z.2‖ ^ 2 / ‖z.1 - z.2‖ : ℝ) : ℂ) := by
    unfold coulombIntegral
    rw [funext fun z => direct_integrand a b z]
    exact integral_ofReal
  have hi : Integrable fun z : ℂ × ℂ => ‖a z.1‖ ^ 2 * ‖b z.2‖ ^ 2 / ‖z.1 - z.2‖ := by
    rw [funext fun z => direct_integrand a b z] at h
    exact h.re
  rw [e, Complex.ofReal_re, Complex.ofReal_im]
  refine ⟨rfl, lt_of_le_of_ne (integral_nonneg fun z => by positivity) fun h0 => ?_⟩
  have hz := (integral_eq_zero_iff_of_nonneg (fun z => by positivity) hi).1 h0.symm
  have hprod := integral_prod_mul (μ := (volume : Measure ℂ)) (ν := (volume : Measure ℂ)) (L := ℂ)
    (fun z => (starRingEnd ℂ) (a z) * a z) (fun z => (starRingEnd ℂ) (b z) * b z)
  rw [ha1, hb1, one_mul] at hprod
  refine one_ne_zero (hprod.symm.trans ?_)
  refine integral_eq_zero_of_ae ?_
  have hdiag : ∀ᵐ z : ℂ × ℂ, z.1 ≠ z.2 := by
    have hn : (volume.prod volume) {z : ℂ × ℂ | z.1 = z.2} = 0 := by
      rw [Measure.measure_prod_null (isClosed_eq continuous_fst continuous_snd).measurableSet]
      refine Filter.Eventually.of_forall fun x => ?_
      show volume {y : ℂ | x = y} = 0
      rw [Set.ofPred_eq_eq_singleton', measure_singleton]
    rw [ae_iff]
    simp only [ne_eq, not_not]
    exact hn
  filter_upwards [hz, hdiag] with z h1 h2
  have h3 : ‖z.1 - z.2‖ ≠ 0 := norm_ne_zero_iff.2 (sub_ne_zero.2 h2)
  have h4 : ‖a z.1‖ ^ 2 * ‖b z.2‖ ^ 2 = 0 := (div_eq_zero_iff.1 h1).resolve_right h3
  rw [Pi.zero_apply, Complex.conj_mul', Complex.conj_mul']
  exact_mod_cast h4

end QS.CoulombIntegral
