import Verif.Spec.OneDim
import Mathlib.Analysis.SpecialFunctions.Integrals.Basic
import Mathlib.MeasureTheory.Integral.IntervalIntegral.FundThmCalculus
import Mathlib.MeasureTheory.Integral.Prod
import Mathlib.MeasureTheory.Integral.IntegralEqImproper
import Mathlib.Analysis.Calculus.ContDiff.Basic

/-!
# The error of the trapezoidal rule
-/

namespace QS.Trapezoid

open MeasureTheory intervalIntegral QS.Spec

theorem integral_bump {a b : ℝ} : ∫ x in a..b, (x - a) * (b - x) = (b - a) ^ 3 / 6 := by
  have h : ∀ x : ℝ, HasDerivAt (fun x => (b - a) * (x - a) ^ 2 / 2 - (x - a) ^ 3 / 3) ((x - a) * (b - x)) x := by
    intro x
    have h1 := (hasDerivAt_id x).sub_const a
    have := ((h1.pow 2).const_mul ((b - a) / 2)).sub ((h1.pow 3).const_mul (1 / 3))
    refine (this.congr_deriv ?_).congr_of_eventuallyEq (.of_forall fun y => ?_)
    · simp
      ring
    · simp
      ring
  rw [integral_eq_sub_of_hasDerivAt (fun x _ => h x) (Continuous.intervalIntegrable (by fun_prop) _ _)]
  ring

/-- One cell: the error is at most a twelfth of the second derivative times the third power of the width. -/
theorem cell {f f' f'' : ℝ → ℂ} {a b : ℝ} (hab : a ≤ b) (h1 : ∀ x, HasDerivAt f (f' x) x)
    (h2 : ∀ x, HasDerivAt f' (f'' x) x) (hc : Continuous f'') {M : ℝ} (hM : ∀ x ∈ Set.Icc a b, ‖f'' x‖ ≤ M) :
    ‖((b - a : ℝ) : ℂ) * ((f a + f b) / 2) - ∫ x in a..b, f x‖ ≤ M * (b - a) ^ 3 / 12 := by
  have cf : Continuous f := continuous_iff_continuousAt.2 fun x => (h1 x).continuousAt
  have hF : ∀ x : ℝ, HasDerivAt
      (fun x : ℝ => ((x : ℂ) - ((a : ℂ) + b) / 2) * f x + 1 / 2 * (((x : ℂ) - a) * (b - x)) * f' x)
      (f x + 1 / 2 * ((((x - a) * (b - x) : ℝ) : ℂ) * f'' x)) x := by
    intro x
    have hx : HasDerivAt (fun x : ℝ => (x : ℂ)) 1 x := by simpa using (hasDerivAt_id (x : ℂ)).comp_ofReal
    have e1 := (hx.sub_const (((a : ℂ) + b) / 2)).mul (h1 x)
    have e2 := (((hx.sub_const (a : ℂ)).mul ((hx.const_sub (b : ℂ)))).const_mul (1 / 2)).mul (h2 x)
    refine (e1.add e2).congr_deriv ?_
    simp only [Pi.mul_apply]
    push_cast
    ring
  have hi : Continuous fun x : ℝ => 1 / 2 * ((((x - a) * (b - x) : ℝ) : ℂ) * f'' x) := by fun_prop
  have h := integral_eq_sub_of_hasDerivAt (a := a) (b := b) (fun x _ => hF x)
    ((cf.add hi).intervalIntegrable _ _)
  rw [integral_add (cf.intervalIntegrable _ _) (hi.intervalIntegrable _ _)] at h
  have e : ((b - a : ℝ) : ℂ) * ((f a + f b) / 2) - ∫ x in a..b, f x
      = ∫ x in a..b, 1 / 2 * ((((x - a) * (b - x) : ℝ) : ℂ) * f'' x) := by
    rw [Complex.ofReal_sub b a]
    linear_combination -h
  rw [e]
  have hb := norm_integral_le_of_norm_le (a := a) (b := b) (μ := volume)
    (f := fun x : ℝ => 1 / 2 * ((((x - a) * (b - x) : ℝ) : ℂ) * f'' x))
    (g := fun x => 1 / 2 * M * ((x - a) * (b - x))) hab (.of_forall fun x hx => by
      have h0 : 0 ≤ (x - a) * (b - x) := mul_nonneg (by linarith [hx.1]) (by linarith [hx.2])
      rw [norm_mul, norm_mul, Complex.norm_real, Real.norm_of_nonneg h0]
      have := mul_le_mul_of_nonneg_left (hM x ⟨hx.1.le, hx.2⟩) h0
      norm_num
      linarith) (Continuous.intervalIntegrable (by fun_prop) _ _)
  refine hb.trans_eq ?_
  rw [intervalIntegral.integral_const_mul, integral_bump]
  ring

/-- The whole grid. -/
theorem error {f f' f'' : ℝ → ℂ} {n : ℕ} (hn : 1 ≤ n) (x0 : ℝ) {dx : ℝ} (hd : 0 ≤ dx)
    (h1 : ∀ x, HasDerivAt f (f' x) x) (h2 : ∀ x, HasDerivAt f' (f'' x) x) (hc : Continuous f'') {M : ℝ}
    (hM : ∀ x ∈ Set.Icc x0 (x0 + (n - 1) * dx), ‖f'' x‖ ≤ M) :
    ‖trapezoid n (fun i => x0 + i * dx) (fun i => f (x0 + i * dx)) - ∫ x in x0..(x0 + (n - 1) * dx), f x‖
      ≤ (n - 1) * (M * dx ^ 3 / 12) := by
  have cf : Continuous f := continuous_iff_continuousAt.2 fun x => (h1 x).continuousAt
  have hs := sum_integral_adjacent_intervals (a := fun i : ℕ => x0 + i * dx) (μ := volume) (f := f) (n := n - 1)
    (fun k _ => cf.intervalIntegrable _ _)
  have hcast : ((n - 1 : ℕ) : ℝ) = (n : ℝ) - 1 := by push_cast [Nat.cast_sub hn]; ring
  simp only [Nat.cast_zero, zero_mul, add_zero, hcast] at hs
  rw [trapezoid, ← hs, ← Finset.sum_sub_distrib]
  refine (norm_sum_le _ _).trans ?_
  calc _ ≤ ∑ i ∈ Finset.range (n - 1), M * dx ^ 3 / 12 := by
        refine Finset.sum_le_sum fun i hi => ?_
        have hi : i + 1 ≤ n - 1 := Finset.mem_range.1 hi
        have hir : ((i : ℝ) + 1) ≤ (n : ℝ) - 1 := by rw [← hcast]; exact_mod_cast hi
        have hstep : (x0 + ((i + 1 : ℕ) : ℝ) * dx) - (x0 + i * dx) = dx := by push_cast; ring
        have := cell (a := x0 + i * dx) (b := x0 + ((i + 1 : ℕ) : ℝ) * dx) (by linarith) h1 h2 hc (M := M)
          (fun x hx => hM x ⟨by nlinarith [hx.1, (Nat.cast_nonneg i : (0 : ℝ) ≤ i)], by
            have := hx.2
            push_cast at this
            nlinarith⟩)
        rw [hstep] at this ⊢
        exact this
    _ = _ := by rw [Finset.sum_const, Finset.card_range, nsmul_eq_mul, hcast]

theorem trapezoid_norm {n : ℕ} (hn : 1 ≤ n) (x0 : ℝ) {dx : ℝ} (hd : 0 ≤ dx) {g : ℕ → ℂ} {C : ℝ}
    (hg : ∀ i < n, ‖g i‖ ≤ C) : ‖trapezoid n (fun i => x0 + i * dx) g‖ ≤ (n - 1) * (dx * C) := by
  have hcast : ((n - 1 : ℕ) : ℝ) = (n : ℝ) - 1 := by push_cast [Nat.cast_sub hn]; ring
  unfold trapezoid
  refine (norm_sum_le _ _).trans ?_
  calc _ ≤ ∑ i ∈ Finset.range (n - 1), dx * C := by
        refine Finset.sum_le_sum fun i hi => ?_
        have hi : i < n - 1 := Finset.mem_range.1 hi
        have hstep : (x0 + ((i + 1 : ℕ) : ℝ) * dx) - (x0 + i * dx) = dx := by push_cast; ring
        rw [hstep, norm_mul, Complex.norm_real, Real.norm_of_nonneg hd, norm_div]
        refine mul_le_mul_of_nonneg_left ?_ hd
        have := norm_add_le (g i) (g (i + 1))
        have h1 := hg i (by omega)
        have h2 := hg (i + 1) (by omega)
        norm_num
        linarith
    _ = _ := by rw [Finset.sum_const, Finset.card_range, nsmul_eq_mul, hcast]

theorem trapezoid_sub (n : ℕ) (x : ℕ → ℝ) (f g : ℕ → ℂ) :
    trapezoid n x (fun i => f i - g i) = trapezoid n x f - trapezoid n x g := by
  unfold trapezoid
  rw [← Finset.sum_sub_distrib]
  refine Finset.sum_congr rfl fun i _ => by ring

theorem trapezoid_integral (n : ℕ) (x : ℕ → ℝ) {g : ℕ → ℝ → ℂ} (hg : ∀ i, Continuous (g i)) (a b : ℝ) :
    trapezoid n x (fun i => ∫ y in a..b, g i y) = ∫ y in a..b, trapezoid n x (fun i => g i y) := by
  unfold trapezoid
  rw [intervalIntegral.integral_finsetSum fun i _ => Continuous.intervalIntegrable
    (by have := hg i; have := hg (i + 1); fun_prop) _ _]
  refine Finset.sum_congr rfl fun i _ => ?_
  rw [intervalIntegral.integral_const_mul, intervalIntegral.integral_div,
    intervalIntegral.integral_add ((hg i).intervalIntegrable _ _) ((hg (i + 1)).intervalIntegrable _ _)]

/-- Two integrations on the same grid. -/
theorem error2 {G Gx Gxx Gy Gyy : ℝ → ℝ → ℂ} {n : ℕ} (hn : 1 ≤ n) (x0 : ℝ) {dx : ℝ} (hd : 0 ≤ dx)
    (hG : Continuous (Function.uncurry G))
    (h1 : ∀ y x, HasDerivAt (fun x => G x y) (Gx x y) x) (h2 : ∀ y x, HasDerivAt (fun x => Gx x y) (Gxx x y) x)
    (h3 : ∀ y, Continuous fun x => Gxx x y)
    (k1 : ∀ x y, HasDerivAt (G x) (Gy x y) y) (k2 : ∀ x y, HasDerivAt (Gy x) (Gyy x y) y)
    (k3 : ∀ x, Continuous (Gyy x)) {M : ℝ}
    (hM : ∀ x ∈ Set.Icc x0 (x0 + (n - 1) * dx), ∀ y ∈ Set.Icc x0 (x0 + (n - 1) * dx), ‖Gxx x y‖ ≤ M ∧ ‖Gyy x y‖ ≤ M) :
    ‖trapezoid n (fun i => x0 + i * dx) (fun i => trapezoid n (fun j => x0 + j * dx)
        (fun j => G (x0 + i * dx) (x0 + j * dx)))
      - ∫ x in x0..(x0 + (n - 1) * dx), ∫ y in x0..(x0 + (n - 1) * dx), G x y‖
      ≤ ((n - 1) * dx) ^ 2 * (M * dx ^ 2 / 6) := by
  have hcast : ((n - 1 : ℕ) : ℝ) = (n : ℝ) - 1 := by push_cast [Nat.cast_sub hn]; ring
  have hn0 : (0 : ℝ) ≤ (n : ℝ) - 1 := by rw [← hcast]; positivity
  set b := x0 + (n - 1) * dx with hb
  have hb0 : x0 ≤ b := by rw [hb]; nlinarith [mul_nonneg hn0 hd]
  have hgx : ∀ x, Continuous (G x) := fun x => hG.comp (by fun_prop : Continuous fun y => (x, y))
  have hgy : ∀ y, Continuous fun x => G x y := fun y => hG.comp (by fun_prop : Continuous fun x => (x, y))
  have hin : ∀ i < n, x0 + (i : ℝ) * dx ∈ Set.Icc x0 b := fun i hi => by
    have : (i : ℝ) ≤ n - 1 := by rw [← hcast]; exact_mod_cast (by omega : i ≤ n - 1)
    exact ⟨by nlinarith [(Nat.cast_nonneg i : (0 : ℝ) ≤ i)], by rw [hb]; nlinarith⟩
  -- the inner integration
  have e1 : ‖trapezoid n (fun i => x0 + i * dx) (fun i => trapezoid n (fun j => x0 + j * dx)
        (fun j => G (x0 + i * dx) (x0 + j * dx)) - ∫ y in x0..b, G (x0 + i * dx) y)‖
      ≤ (n - 1) * (dx * ((n - 1) * (M * dx ^ 3 / 12))) :=
    trapezoid_norm hn x0 hd fun i hi => error hn x0 hd (k1 _) (k2 _) (k3 _) fun y hy => (hM _ (hin i hi) y hy).2
  -- the outer integration
  have e2 : ‖(∫ y in x0..b, (trapezoid n (fun i => x0 + i * dx) (fun i => G (x0 + i * dx) y)
        - ∫ x in x0..b, G x y))‖ ≤ (n - 1) * (M * dx ^ 3 / 12) * |b - x0| := by
    refine norm_integral_le_of_norm_le_const fun y hy => ?_
    rw [Set.uIoc_of_le hb0] at hy
    exact error hn x0 hd (h1 y) (h2 y) (h3 y) fun x hx => (hM x hx y ⟨hy.1.le, hy.2⟩).1
  rw [trapezoid_sub] at e1
  rw [trapezoid_integral n _ (fun i => hgx _)] at e1
  have ci : Continuous fun y => ∫ x in x0..b, G x y :=
    continuous_parametric_intervalIntegral_of_continuous' (f := fun y x => G x y)
      (hG.comp (continuous_snd.prodMk continuous_fst)) _ _
  have ct : Continuous fun y => trapezoid n (fun i => x0 + i * dx) (fun i => G (x0 + i * dx) y) := by
    unfold trapezoid
    refine continuous_finsetSum _ fun i _ => ?_
    have := hgx (x0 + i * dx)
    have := hgx (x0 + ((i + 1 : ℕ) : ℝ) * dx)
    fun_prop
  rw [integral_sub (ct.intervalIntegrable _ _) (ci.intervalIntegrable _ _)] at e2
  have hswap : ∫ x in x0..b, ∫ y in x0..b, G x y = ∫ y in x0..b, ∫ x in x0..b, G x y := by
    simp only [integral_of_le hb0]
    refine integral_integral_swap (f := G) ?_
    rw [Measure.prod_restrict]
    exact (hG.continuousOn.integrableOn_compact (isCompact_Icc.prod isCompact_Icc)).mono_set
      (Set.prod_mono Set.Ioc_subset_Icc_self Set.Ioc_subset_Icc_self)
  rw [hswap]
  have ht := norm_add_le
    (trapezoid n (fun i => x0 + i * dx) (fun i => trapezoid n (fun j => x0 + j * dx)
        (fun j => G (x0 + i * dx) (x0 + j * dx)))
      - ∫ y in x0..b, trapezoid n (fun i => x0 + i * dx) (fun i => G (x0 + i * dx) y))
    ((∫ y in x0..b, trapezoid n (fun i => x0 + i * dx) (fun i => G (x0 + i * dx) y))
      - ∫ y in x0..b, ∫ x in x0..b, G x y)
  rw [sub_add_sub_cancel] at ht
  refine ht.trans ((add_le_add e1 e2).trans_eq ?_)
  rw [abs_of_nonneg (by linarith), hb]
  ring

/-- For a twice continuously differentiable function the error of the two integrations is of second order in the
grid spacing. -/
theorem second_order {F : ℝ × ℝ → ℂ} (hF : ContDiff ℝ 2 F) (L : ℝ) (hL : 0 ≤ L) :
    ∃ C, ∀ n : ℕ, 2 ≤ n →
      ‖trapezoid n (fun i => -L + i * (2 * L / ((n : ℝ) - 1))) (fun i =>
          trapezoid n (fun j => -L + j * (2 * L / ((n : ℝ) - 1)))
            (fun j => F (-L + i * (2 * L / ((n : ℝ) - 1)), -L + j * (2 * L / ((n : ℝ) - 1)))))
        - ∫ x in (-L)..L, ∫ y in (-L)..L, F (x, y)‖ ≤ C / ((n : ℝ) - 1) ^ 2 := by
  set D : ℝ × ℝ → (ℝ × ℝ → ℂ) → ℝ × ℝ → ℂ := fun v f z => fderiv ℝ f z v with hD
  have c1 : ∀ v, ContDiff ℝ 1 (D v F) := fun v =>
    (hF.fderiv_right (m := 1) (by norm_num)).clm_apply contDiff_const
  have c2 : ∀ v, Continuous (D v (D v F)) := fun v =>
    ((c1 v).fderiv_right (m := 0) (by norm_num)).continuous.clm_apply continuous_const
  have dx : ∀ {f : ℝ × ℝ → ℂ}, ContDiff ℝ 1 f → ∀ y x, HasDerivAt (fun x => f (x, y)) (D (1, 0) f (x, y)) x :=
    fun hf y x => ((hf.differentiable (by norm_num)) (x, y)).hasFDerivAt.comp_hasDerivAt x
      ((hasDerivAt_id x).prodMk (hasDerivAt_const x y))
  have dy : ∀ {f : ℝ × ℝ → ℂ}, ContDiff ℝ 1 f → ∀ x y, HasDerivAt (fun y => f (x, y)) (D (0, 1) f (x, y)) y :=
    fun hf x y => ((hf.differentiable (by norm_num)) (x, y)).hasFDerivAt.comp_hasDerivAt y
      ((hasDerivAt_const y x).prodMk (hasDerivAt_id y))
  have hK : IsCompact (Set.Icc (-L) L ×ˢ Set.Icc (-L) L) := isCompact_Icc.prod isCompact_Icc
  obtain ⟨M1, hM1⟩ := hK.exists_bound_of_continuousOn (c2 (1, 0)).continuousOn
  obtain ⟨M2, hM2⟩ := hK.exists_bound_of_continuousOn (c2 (0, 1)).continuousOn
  refine ⟨(2 * L) ^ 4 * (max M1 M2 / 6), fun n hn => ?_⟩
  have hn1 : (0 : ℝ) < (n : ℝ) - 1 := by
    have : (2 : ℝ) ≤ n := by exact_mod_cast hn
    linarith
  have hend : -L + ((n : ℝ) - 1) * (2 * L / ((n : ℝ) - 1)) = L := by
    field_simp
    ring
  have h := error2 (G := fun x y => F (x, y)) (n := n) (by omega) (-L) (dx := 2 * L / ((n : ℝ) - 1)) (by positivity)
    hF.continuous (dx (hF.of_le (by norm_num))) (dx (c1 (1, 0)))
    (fun y => (c2 (1, 0)).comp (by fun_prop : Continuous fun x => (x, y)))
    (dy (hF.of_le (by norm_num))) (dy (c1 (0, 1)))
    (fun x => (c2 (0, 1)).comp (by fun_prop : Continuous fun y => (x, y))) (M := max M1 M2) (by
      rw [hend]
      intro x hx y hy
      exact ⟨(hM1 (x, y) ⟨hx, hy⟩).trans (le_max_left _ _), (hM2 (x, y) ⟨hx, hy⟩).trans (le_max_right _ _)⟩)
  rw [hend] at h
  refine h.trans_eq ?_
  field_simp

/-- The integrals over growing squares tend to the integral over the plane. -/
theorem box_tendsto {F : ℝ × ℝ → ℂ} (hF : Integrable F (volume.prod volume)) :
    Filter.Tendsto (fun L : ℝ => ∫ x in (-L)..L, ∫ y in (-L)..L, F (x, y)) Filter.atTop
      (nhds (∫ x, ∫ y, F (x, y))) := by
  rw [← integral_prod F hF]
  have hc : AECover (volume.prod volume) Filter.atTop fun L : ℝ => Set.Ioc (-L) L ×ˢ Set.Ioc (-L) L := by
    refine ⟨.of_forall fun z => ?_, fun L => measurableSet_Ioc.prod measurableSet_Ioc⟩
    filter_upwards [Filter.eventually_gt_atTop |z.1|, Filter.eventually_gt_atTop |z.2|] with L h1 h2
    exact ⟨⟨(abs_lt.1 h1).1, (abs_lt.1 h1).2.le⟩, ⟨(abs_lt.1 h2).1, (abs_lt.1 h2).2.le⟩⟩
  refine (hc.integral_tendsto_of_countably_generated hF).congr' ?_
  filter_upwards [Filter.eventually_ge_atTop (0 : ℝ)] with L hL
  rw [integral_of_le (by linarith)]
  simp only [integral_of_le (by linarith : -L ≤ L)]
  rw [setIntegral_prod F hF.integrableOn]

end QS.Trapezoid
