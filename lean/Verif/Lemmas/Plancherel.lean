import Mathlib.Analysis.Fourier.AddCircle
import Mathlib.Analysis.Calculus.ParametricIntervalIntegral
import Mathlib.Analysis.SpecialFunctions.Integrals.Basic
import Mathlib.MeasureTheory.Integral.IntervalIntegral.FundThmCalculus

/-!
# Plancherel's identity for band-limited functions

A function whose wave numbers lie in `[-π, π]` has the square integral `(1/2π) ∫ |a(k)|² dk` on the line.  The
line is cut into unit cells and Parseval's identity is used for the values at the points `x + n`.
-/

namespace QS.Plancherel

open Complex MeasureTheory intervalIntegral

/-- The function with the wave-number amplitude `a` on `[-π, π]`. -/
noncomputable def band (a : ℝ → ℂ) (x : ℝ) : ℂ :=
  (1 / (2 * Real.pi) : ℝ) * ∫ k in (-Real.pi)..Real.pi, a k * exp (I * k * x)

theorem hpi : -Real.pi < Real.pi := by linarith [Real.pi_pos]

theorem band_cell (a : ℝ → ℂ) (x : ℝ) (n : ℤ) :
    fourierCoeffOn hpi (fun k => a k * exp (I * k * x)) n = band a (x - n) := by
  rw [fourierCoeffOn_eq_integral, band, real_smul]
  have e : Real.pi - -Real.pi = 2 * Real.pi := by ring
  rw [e]
  congr 1
  refine integral_congr fun k _ => ?_
  rw [fourier_coe_apply, smul_eq_mul, mul_left_comm, ← exp_add]
  congr 2
  push_cast
  have := Real.pi_ne_zero
  field_simp
  ring

theorem memLp_of_continuous {a : ℝ → ℂ} (ha : Continuous a) (u v : ℝ) :
    MemLp a 2 (volume.restrict (Set.Ioc u v)) := by
  obtain ⟨C, hC⟩ := (isCompact_Icc (a := u) (b := v)).exists_bound_of_continuousOn ha.continuousOn
  refine MemLp.of_bound ha.aestronglyMeasurable C ?_
  refine (ae_restrict_iff' measurableSet_Ioc).2 (.of_forall fun x hx => hC x ⟨hx.1.le, hx.2⟩)

theorem hasSum_band {a : ℝ → ℂ} (ha : Continuous a) (x : ℝ) :
    HasSum (fun n : ℤ => ‖band a (x + n)‖ ^ 2)
      (1 / (2 * Real.pi) * ∫ k in (-Real.pi)..Real.pi, ‖a k‖ ^ 2) := by
  have h := hasSum_sq_fourierCoeffOn (f := fun k => a k * exp (I * k * x)) hpi
    (memLp_of_continuous (by fun_prop) _ _)
  simp only [band_cell] at h
  rw [show Real.pi - -Real.pi = 2 * Real.pi by ring, smul_eq_mul, ← one_div] at h
  have e : ∀ k : ℝ, ‖a k * exp (I * k * x)‖ = ‖a k‖ := fun k => by
    rw [norm_mul, show I * (k : ℂ) * x = ((k * x : ℝ) : ℂ) * I by push_cast; ring, norm_exp_ofReal_mul_I, mul_one]
  simp only [e] at h
  rw [← (Equiv.neg ℤ).hasSum_iff]
  convert h using 2 with n
  simp [sub_eq_add_neg]

theorem continuous_band {a : ℝ → ℂ} (ha : Continuous a) : Continuous (band a) := by
  refine continuous_const.mul (continuous_parametric_intervalIntegral_of_continuous' ?_ _ _)
  unfold Function.uncurry
  fun_prop

/-- The square of a band-limited function is integrable on the line, with the square integral of its
amplitude. -/
theorem plancherel {a : ℝ → ℂ} (ha : Continuous a) :
    Integrable (fun x => ‖band a x‖ ^ 2) ∧
      ∫ x, ‖band a x‖ ^ 2 = 1 / (2 * Real.pi) * ∫ k in (-Real.pi)..Real.pi, ‖a k‖ ^ 2 := by
  have hb := continuous_band ha
  set C := 1 / (2 * Real.pi) * ∫ k in (-Real.pi)..Real.pi, ‖a k‖ ^ 2 with hC
  have hc : ∀ n : ℤ, Continuous fun x : ℝ => ‖band a (x + n)‖ ^ 2 := fun n => by fun_prop
  have hs : Summable fun n : ℤ => ∫ x in (0 : ℝ)..1, ‖band a (x + n)‖ ^ 2 := by
    refine summable_of_sum_le (c := C) (fun n => integral_nonneg zero_le_one fun x _ => by positivity) fun u => ?_
    rw [← integral_finsetSum fun n _ => (hc n).intervalIntegrable _ _]
    calc ∫ x in (0 : ℝ)..1, ∑ n ∈ u, ‖band a (x + n)‖ ^ 2 ≤ ∫ _ in (0 : ℝ)..1, C := by
          refine integral_mono_on zero_le_one
            ((continuous_finsetSum _ fun n _ => hc n).intervalIntegrable _ _) (by simp) fun x _ => ?_
          exact sum_le_hasSum u (fun n _ => by positivity) (hasSum_band ha x)
      _ = C := by simp
  have hi : Integrable (fun x => ‖band a x‖ ^ 2) := by
    rw [← integrableOn_univ, ← iUnion_Ioc_intCast ℝ]
    refine integrableOn_iUnion_of_summable_integral_norm
      (fun n => (Continuous.integrableOn_Ioc (by fun_prop))) ?_
    convert hs using 2 with n
    rw [integral_comp_add_right (fun x => ‖band a x‖ ^ 2), zero_add,
      integral_of_le (by linarith), add_comm (1 : ℝ)]
    simp
  refine ⟨hi, ?_⟩
  have h1 := hi.hasSum_intervalIntegral_comp_add_int
  have h2 := hasSum_integral_of_summable_integral_norm (μ := volume.restrict (Set.Ioc (0 : ℝ) 1))
    (F := fun (n : ℤ) (x : ℝ) => ‖band a (x + n)‖ ^ 2) (fun n => (hc n).integrableOn_Ioc) (by
      convert hs using 2 with n
      rw [integral_of_le zero_le_one]
      simp)
  simp only [(hasSum_band ha _).tsum_eq] at h2
  simp only [integral_of_le (zero_le_one' ℝ)] at h1
  rw [h1.unique h2]
  simp [hC]

theorem band_add {a b : ℝ → ℂ} (ha : Continuous a) (hb : Continuous b) (x : ℝ) :
    band (fun k => a k + b k) x = band a x + band b x := by
  unfold band
  rw [← mul_add, ← integral_add (Continuous.intervalIntegrable (by fun_prop) _ _)
    (Continuous.intervalIntegrable (by fun_prop) _ _)]
  simp only [add_mul]

theorem band_sub {a b : ℝ → ℂ} (ha : Continuous a) (hb : Continuous b) (x : ℝ) :
    band (fun k => a k - b k) x = band a x - band b x := by
  unfold band
  rw [← mul_sub, ← integral_sub (Continuous.intervalIntegrable (by fun_prop) _ _)
    (Continuous.intervalIntegrable (by fun_prop) _ _)]
  simp only [sub_mul]

theorem polar (z w : ℂ) : ((starRingEnd ℂ) z * w).re = 1 / 4 * (‖z + w‖ ^ 2 - ‖z - w‖ ^ 2) := by
  simp only [← normSq_eq_norm_sq, normSq_apply, mul_re, conj_re, conj_im, add_re, add_im, sub_re, sub_im]
  ring

/-- The same for the product of two band-limited functions. -/
theorem plancherel_re {a b : ℝ → ℂ} (ha : Continuous a) (hb : Continuous b) :
    Integrable (fun x => ((starRingEnd ℂ) (band a x) * band b x).re) ∧
      ∫ x, ((starRingEnd ℂ) (band a x) * band b x).re
        = 1 / (2 * Real.pi) * ∫ k in (-Real.pi)..Real.pi, ((starRingEnd ℂ) (a k) * b k).re := by
  obtain ⟨p1, p2⟩ := plancherel (ha.add hb)
  obtain ⟨m1, m2⟩ := plancherel (ha.sub hb)
  simp only [Pi.add_def, Pi.sub_def, band_add ha hb, band_sub ha hb] at p1 p2 m1 m2
  simp only [polar]
  refine ⟨(p1.sub m1).const_mul _, ?_⟩
  rw [MeasureTheory.integral_const_mul, MeasureTheory.integral_sub p1 m1, p2, m2,
    intervalIntegral.integral_const_mul,
    integral_sub (Continuous.intervalIntegrable (by fun_prop) _ _)
      (Continuous.intervalIntegrable (by fun_prop) _ _)]
  ring

/-- The derivative multiplies the amplitude by `i k`. -/
theorem hasDerivAt_band {a : ℝ → ℂ} (ha : Continuous a) (x : ℝ) :
    HasDerivAt (band a) (band (fun k => I * k * a k) x) x := by
  unfold band
  refine HasDerivAt.const_mul _ ?_
  have := hasDerivAt_integral_of_dominated_loc_of_deriv_le (μ := volume) (a := -Real.pi) (b := Real.pi)
    (F := fun (x : ℝ) k => a k * exp (I * k * x)) (F' := fun (x : ℝ) k => I * k * a k * exp (I * k * x)) (x₀ := x)
    (s := Set.univ) (bound := fun k => ‖I * k * a k‖) Filter.univ_mem
    (.of_forall fun x => Continuous.aestronglyMeasurable (by fun_prop))
    (Continuous.intervalIntegrable (by fun_prop) _ _) (Continuous.aestronglyMeasurable (by fun_prop))
    (.of_forall fun k _ x _ => by
      rw [norm_mul (I * k * a k), show I * (k : ℂ) * x = ((k * x : ℝ) : ℂ) * I by push_cast; ring,
        norm_exp_ofReal_mul_I, mul_one])
    (Continuous.intervalIntegrable (by fun_prop) _ _)
    (.of_forall fun k _ x _ => by
      have h1 : HasDerivAt (fun x : ℝ => I * k * (x : ℂ)) (I * k) x := by
        simpa using (hasDerivAt_id (x : ℂ)).comp_ofReal.const_mul (I * (k : ℂ))
      have := h1.cexp.const_mul (a k)
      exact this.congr_deriv (by ring))
  exact this.2

end QS.Plancherel
