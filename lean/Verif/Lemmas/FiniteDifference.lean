import Verif.Lemmas.Eigh
import Verif.Lemmas.Tridiagonal
import Mathlib.Analysis.Calculus.MeanValue
import Mathlib.Analysis.Calculus.DSlope
import Mathlib.Analysis.ODE.Gronwall
import Mathlib.Analysis.Calculus.ContDiff.Basic
import Mathlib.Analysis.Calculus.ContDiff.Deriv
import Mathlib.Analysis.Calculus.IteratedDeriv.Lemmas

/-!
# Finite differences

The error of the central second difference, eigenvalues near approximate ones, and lower bounds of eigenvalues
by positive trial functions.
-/

namespace QS.FiniteDifference

open Spec Finset OneDim

/-- A function that vanishes at `0` and has a derivative bounded by `K` on `[0, h]`. -/
theorem bound_of_deriv {g g' : ℝ → ℝ} {h K : ℝ} (h0 : g 0 = 0) (hg : ∀ t, HasDerivAt g (g' t) t)
    (hK : ∀ t ∈ Set.Icc 0 h, |g' t| ≤ K) : ∀ t ∈ Set.Icc 0 h, |g t| ≤ K * h := by
  intro t ht
  have hh : 0 ≤ h := ht.1.trans ht.2
  have hK0 : 0 ≤ K := (abs_nonneg _).trans (hK 0 ⟨le_rfl, hh⟩)
  have := (convex_Icc 0 h).norm_image_sub_le_of_norm_hasDerivWithin_le (f := g) (f' := g') (C := K)
    (fun x hx => (hg x).hasDerivWithinAt) (fun x hx => hK x hx) (x := 0) (y := t) ⟨le_rfl, hh⟩ ht
  rw [h0, sub_zero, Real.norm_eq_abs, sub_zero, Real.norm_eq_abs, abs_of_nonneg ht.1] at this
  exact this.trans (mul_le_mul_of_nonneg_left ht.2 hK0)

/-- The central second difference of a function with bounded fourth derivative. -/
theorem central {f0 f1 f2 f3 f4 : ℝ → ℝ} (h1 : ∀ t, HasDerivAt f0 (f1 t) t) (h2 : ∀ t, HasDerivAt f1 (f2 t) t)
    (h3 : ∀ t, HasDerivAt f2 (f3 t) t) (h4 : ∀ t, HasDerivAt f3 (f4 t) t) {x h M : ℝ} (hh : 0 ≤ h)
    (hM : ∀ t ∈ Set.Icc (x - h) (x + h), |f4 t| ≤ M) :
    |f0 (x + h) - 2 * f0 x + f0 (x - h) - h ^ 2 * f2 x| ≤ 2 * M * h ^ 4 := by
  have up : ∀ {f f' : ℝ → ℝ}, (∀ t, HasDerivAt f (f' t) t) → ∀ t, HasDerivAt (fun t => f (x + t)) (f' (x + t)) t :=
    fun h t => by simpa using (h (x + t)).comp_const_add x t
  have dn : ∀ {f f' : ℝ → ℝ}, (∀ t, HasDerivAt f (f' t) t) → ∀ t, HasDerivAt (fun t => f (x - t)) (-f' (x - t)) t :=
    fun h t => by simpa using (h (x - t)).comp_const_sub x t
  have e3 := bound_of_deriv (g := fun t => f3 (x + t) - f3 (x - t)) (h := h) (K := 2 * M) (by simp)
    (fun t => (up h4 t).sub (dn h4 t)) (fun t ht => by
      have a1 := abs_le.1 (hM (x + t) ⟨by linarith [ht.1, ht.2], by linarith [ht.2]⟩)
      have a2 := abs_le.1 (hM (x - t) ⟨by linarith [ht.2], by linarith [ht.1, ht.2]⟩)
      rw [abs_le]
      constructor <;> linarith [a1.1, a1.2, a2.1, a2.2])
  have e2 := bound_of_deriv (g := fun t => f2 (x + t) + f2 (x - t) - 2 * f2 x) (h := h) (by simp; ring)
    (fun t => ((up h3 t).add (dn h3 t)).sub_const _) (fun t ht => by
      rw [← sub_eq_add_neg]
      exact e3 t ht)
  have e1 := bound_of_deriv (g := fun t => f1 (x + t) - f1 (x - t) - 2 * t * f2 x) (h := h) (by simp)
    (fun t => ((up h2 t).sub (dn h2 t)).sub (((hasDerivAt_id t).const_mul 2).mul_const (f2 x))) (fun t ht => by
      have := e2 t ht
      convert this using 2
      ring)
  have e0 := bound_of_deriv (g := fun t => f0 (x + t) + f0 (x - t) - 2 * f0 x - t ^ 2 * f2 x) (h := h) (by simp; ring)
    (fun t => (((up h1 t).add (dn h1 t)).sub_const (2 * f0 x)).sub ((hasDerivAt_pow 2 t).mul_const (f2 x)))
    (fun t ht => by
      have := e1 t ht
      convert this using 2
      push_cast
      ring)
  have := e0 h ⟨hh, le_rfl⟩
  rw [show f0 (x + h) - 2 * f0 x + f0 (x - h) - h ^ 2 * f2 x = f0 (x + h) + f0 (x - h) - 2 * f0 x - h ^ 2 * f2 x by ring]
  refine this.trans (le_of_eq ?_)
  ring

/-- The central second difference of a four times continuously differentiable function on an interval. -/
theorem central_contDiff {f : ℝ → ℝ} (hf : ContDiff ℝ 4 f) (L : ℝ) : ∃ K, 0 ≤ K ∧ ∀ x h, 0 ≤ h → -L ≤ x - h → x + h ≤ L →
    |f (x + h) - 2 * f x + f (x - h) - h ^ 2 * deriv (deriv f) x| ≤ K * h ^ 4 := by
  have d : ∀ k : ℕ, k < 4 → ∀ t, HasDerivAt (iteratedDeriv k f) (iteratedDeriv (k + 1) f t) t := by
    intro k hk t
    rw [iteratedDeriv_succ]
    exact ((hf.differentiable_iteratedDeriv k (by exact_mod_cast hk)) t).hasDerivAt
  have hc : Continuous (iteratedDeriv 4 f) := hf.continuous_iteratedDeriv 4 le_rfl
  obtain ⟨M, hM⟩ := (isCompact_Icc (a := -L) (b := L)).exists_bound_of_continuousOn hc.continuousOn
  refine ⟨2 * |M|, by positivity, fun x h hh ha hb => ?_⟩
  have := central (d 0 (by norm_num)) (d 1 (by norm_num)) (d 2 (by norm_num)) (d 3 (by norm_num)) hh (M := |M|)
    (fun t ht => (hM t ⟨ha.trans ht.1, ht.2.trans hb⟩).trans (le_abs_self M))
  rwa [iteratedDeriv_zero, iteratedDeriv_succ, iteratedDeriv_one] at this

/-- The central second difference up to the sixth order. -/
theorem central6 {f0 f1 f2 f3 f4 f5 f6 : ℝ → ℝ} (h1 : ∀ t, HasDerivAt f0 (f1 t) t) (h2 : ∀ t, HasDerivAt f1 (f2 t) t)
    (h3 : ∀ t, HasDerivAt f2 (f3 t) t) (h4 : ∀ t, HasDerivAt f3 (f4 t) t) (h5 : ∀ t, HasDerivAt f4 (f5 t) t)
    (h6 : ∀ t, HasDerivAt f5 (f6 t) t) {x h M : ℝ} (hh : 0 ≤ h)
    (hM : ∀ t ∈ Set.Icc (x - h) (x + h), |f6 t| ≤ M) :
    |f0 (x + h) - 2 * f0 x + f0 (x - h) - h ^ 2 * f2 x - h ^ 4 / 12 * f4 x| ≤ 2 * M * h ^ 6 := by
  have up : ∀ {f f' : ℝ → ℝ}, (∀ t, HasDerivAt f (f' t) t) → ∀ t, HasDerivAt (fun t => f (x + t)) (f' (x + t)) t :=
    fun h t => by simpa using (h (x + t)).comp_const_add x t
  have dn : ∀ {f f' : ℝ → ℝ}, (∀ t, HasDerivAt f (f' t) t) → ∀ t, HasDerivAt (fun t => f (x - t)) (-f' (x - t)) t :=
    fun h t => by simpa using (h (x - t)).comp_const_sub x t
  have e2 : ∀ t ∈ Set.Icc 0 h, |f2 (x + t) - 2 * f2 x + f2 (x - t) - t ^ 2 * f4 x| ≤ 2 * M * h ^ 4 := by
    intro t ht
    have hM0 : 0 ≤ M := (abs_nonneg _).trans (hM x ⟨by linarith, by linarith⟩)
    refine (central h3 h4 h5 h6 ht.1 fun s hs => hM s ⟨by linarith [hs.1, ht.2], by linarith [hs.2, ht.2]⟩).trans ?_
    exact mul_le_mul_of_nonneg_left (pow_le_pow_left₀ ht.1 ht.2 4) (by positivity)
  have e1 := bound_of_deriv (g := fun t => f1 (x + t) - f1 (x - t) - 2 * t * f2 x - t ^ 3 / 3 * f4 x) (h := h) (by simp)
    (fun t => (((up h2 t).sub (dn h2 t)).sub (((hasDerivAt_id t).const_mul 2).mul_const (f2 x))).sub
      (((hasDerivAt_pow 3 t).div_const 3).mul_const (f4 x))) (fun t ht => by
      have := e2 t ht
      convert this using 2
      push_cast
      ring)
  have e0 := bound_of_deriv (g := fun t => f0 (x + t) + f0 (x - t) - 2 * f0 x - t ^ 2 * f2 x - t ^ 4 / 12 * f4 x) (h := h)
    (by simp; ring)
    (fun t => ((((up h1 t).add (dn h1 t)).sub_const (2 * f0 x)).sub ((hasDerivAt_pow 2 t).mul_const (f2 x))).sub
      (((hasDerivAt_pow 4 t).div_const 12).mul_const (f4 x)))
    (fun t ht => by
      have := e1 t ht
      convert this using 2
      push_cast
      ring)
  have := e0 h ⟨hh, le_rfl⟩
  rw [show f0 (x + h) - 2 * f0 x + f0 (x - h) - h ^ 2 * f2 x - h ^ 4 / 12 * f4 x
    = f0 (x + h) + f0 (x - h) - 2 * f0 x - h ^ 2 * f2 x - h ^ 4 / 12 * f4 x by ring]
  refine this.trans (le_of_eq ?_)
  ring

/-- For six times continuously differentiable `f`, the function `f - h² f'' / 12` has the central second
difference `h² f''` up to the sixth order. -/
theorem corrected {f : ℝ → ℝ} (hf : ContDiff ℝ 6 f) (L : ℝ) : ∃ K, 0 ≤ K ∧ ∀ x h, 0 ≤ h → -L ≤ x - h → x + h ≤ L →
    |(f (x + h) - h ^ 2 / 12 * deriv (deriv f) (x + h)) - 2 * (f x - h ^ 2 / 12 * deriv (deriv f) x)
      + (f (x - h) - h ^ 2 / 12 * deriv (deriv f) (x - h)) - h ^ 2 * deriv (deriv f) x| ≤ K * h ^ 6 := by
  have d : ∀ k : ℕ, k < 6 → ∀ t, HasDerivAt (iteratedDeriv k f) (iteratedDeriv (k + 1) f t) t := by
    intro k hk t
    rw [iteratedDeriv_succ]
    exact ((hf.differentiable_iteratedDeriv k (by exact_mod_cast hk)) t).hasDerivAt
  have hc : Continuous (iteratedDeriv 6 f) := hf.continuous_iteratedDeriv 6 le_rfl
  obtain ⟨M, hM⟩ := (isCompact_Icc (a := -L) (b := L)).exists_bound_of_continuousOn hc.continuousOn
  have e2 : deriv (deriv f) = iteratedDeriv 2 f := by rw [iteratedDeriv_succ, iteratedDeriv_one]
  refine ⟨3 * |M|, by positivity, fun x h hh ha hb => ?_⟩
  have hM' : ∀ t ∈ Set.Icc (x - h) (x + h), |iteratedDeriv 6 f t| ≤ |M| := fun t ht =>
    (hM t ⟨ha.trans ht.1, ht.2.trans hb⟩).trans (le_abs_self M)
  have h6 := central6 (d 0 (by norm_num)) (d 1 (by norm_num)) (d 2 (by norm_num)) (d 3 (by norm_num))
    (d 4 (by norm_num)) (d 5 (by norm_num)) hh hM'
  have h4 := central (d 2 (by norm_num)) (d 3 (by norm_num)) (d 4 (by norm_num)) (d 5 (by norm_num)) hh hM'
  simp only [iteratedDeriv_zero] at h6
  rw [e2]
  have h12 : 0 ≤ h ^ 2 / 12 := by positivity
  have h4' := mul_le_mul_of_nonneg_left h4 h12
  rw [← abs_of_nonneg h12, ← abs_mul, abs_of_nonneg h12] at h4'
  have := (abs_sub _ _).trans (add_le_add h6 h4')
  have h0 : 0 ≤ |M| * h ^ 6 := by positivity
  refine le_trans (le_of_eq ?_) (this.trans ?_)
  · congr 1
    simp only [Nat.reduceAdd]
    ring
  · nlinarith

/-- A positive solution of `f'' = q f` with bounded `q` leaves its zero linearly. -/
theorem hopf {f : ℝ → ℝ} (hf : ContDiff ℝ 2 f) {L B : ℝ} (hL : 0 < L) (h0 : f (-L) = 0)
    (hpos : ∀ x ∈ Set.Ioo (-L) L, 0 < f x) (hB : ∀ x ∈ Set.Icc (-L) L, |deriv (deriv f) x| ≤ B * |f x|) :
    ∃ c > 0, ∀ x ∈ Set.Icc (-L) 0, c * (x + L) ≤ f x := by
  have hd : Differentiable ℝ f := hf.differentiable (by norm_num)
  have hd2 : ContDiff ℝ 1 (deriv f) := ((contDiff_succ_iff_deriv (n := 1)).1 hf).2.2
  have hdd : Differentiable ℝ (deriv f) := hd2.differentiable (by norm_num)
  have hne : deriv f (-L) ≠ 0 := by
    intro hz
    have h := eq_zero_of_abs_deriv_le_mul_abs_self_of_eq_zero_right (f := fun x => (f x, deriv f x))
      (f' := fun x => (deriv f x, deriv (deriv f) x)) (K := max 1 B) (a := -L) (b := L)
      (hd.continuous.prodMk hdd.continuous).continuousOn
      (fun x _ => ((hd x).hasDerivAt.prodMk (hdd x).hasDerivAt).hasDerivWithinAt) (by simp [h0, hz])
      (fun x hx => by
        rw [Prod.norm_mk, Prod.norm_mk]
        refine max_le ?_ ?_
        · calc ‖deriv f x‖ = 1 * ‖deriv f x‖ := (one_mul _).symm
            _ ≤ max 1 B * max ‖f x‖ ‖deriv f x‖ :=
              mul_le_mul (le_max_left _ _) (le_max_right _ _) (norm_nonneg _) (by positivity)
        · calc ‖deriv (deriv f) x‖ ≤ B * ‖f x‖ := hB x ⟨hx.1, hx.2.le⟩
            _ ≤ max 1 B * ‖f x‖ := mul_le_mul_of_nonneg_right (le_max_right _ _) (norm_nonneg _)
            _ ≤ max 1 B * max ‖f x‖ ‖deriv f x‖ := mul_le_mul_of_nonneg_left (le_max_left _ _) (by positivity))
      0 ⟨by linarith, hL.le⟩
    have h1 := congrArg Prod.fst h
    exact (hpos 0 ⟨by linarith, hL⟩).ne' h1
  have hg : Continuous (dslope f (-L)) := by
    rw [← continuousOn_univ, continuousOn_dslope Filter.univ_mem]
    exact ⟨hd.continuous.continuousOn, hd _⟩
  have hval : ∀ x, f x = (x + L) * dslope f (-L) x := by
    intro x
    have := sub_smul_dslope f (-L) x
    rw [h0, sub_zero, smul_eq_mul] at this
    rw [← this]
    ring
  have hgpos : ∀ x ∈ Set.Ioc (-L) 0, 0 < dslope f (-L) x := by
    intro x hx
    have h := hpos x ⟨hx.1, by linarith [hx.2]⟩
    rw [hval] at h
    exact (pos_iff_pos_of_mul_pos h).1 (by linarith [hx.1])
  have hnn : 0 ≤ dslope f (-L) (-L) := by
    have ht : Filter.Tendsto (dslope f (-L)) (nhdsWithin (-L) (Set.Ioi (-L))) (nhds (dslope f (-L) (-L))) :=
      (hg.tendsto (-L)).mono_left nhdsWithin_le_nhds
    refine ge_of_tendsto ht ?_
    filter_upwards [Ioc_mem_nhdsGT (by linarith : -L < 0)] with x hx
    exact (hgpos x hx).le
  have hg0 : 0 < dslope f (-L) (-L) := lt_of_le_of_ne hnn (by rw [dslope_same]; exact hne.symm)
  obtain ⟨m, hm, hmin⟩ := (isCompact_Icc (a := -L) (b := 0)).exists_isMinOn ⟨0, by linarith, le_rfl⟩ hg.continuousOn
  refine ⟨dslope f (-L) m, ?_, fun x hx => ?_⟩
  · rcases hm.1.eq_or_lt with h | h
    · rwa [← h]
    · exact hgpos m ⟨h, hm.2⟩
  · rw [hval x, mul_comm]
    exact mul_le_mul_of_nonneg_left (hmin hx) (by linarith [hx.1])

/-- The same at both ends. -/
theorem hopf_both {f : ℝ → ℝ} (hf : ContDiff ℝ 2 f) {L B : ℝ} (hL : 0 < L) (h0 : f (-L) = 0) (h1 : f L = 0)
    (hpos : ∀ x ∈ Set.Ioo (-L) L, 0 < f x) (hB : ∀ x ∈ Set.Icc (-L) L, |deriv (deriv f) x| ≤ B * |f x|) :
    ∃ c > 0, ∀ x h, 0 ≤ h → h ≤ L → -L + h ≤ x → x + h ≤ L → c * h ≤ f x := by
  obtain ⟨c1, hc1, k1⟩ := hopf hf hL h0 hpos hB
  have e1 : deriv (fun x => f (-x)) = fun x => -deriv f (-x) := by
    funext x
    exact deriv_comp_neg f x
  have e2 : deriv (deriv fun x => f (-x)) = fun x => deriv (deriv f) (-x) := by
    rw [e1]
    funext x
    rw [deriv.fun_neg, deriv_comp_neg, neg_neg]
  obtain ⟨c2, hc2, k2⟩ := hopf (f := fun x => f (-x)) (hf.comp contDiff_neg) (B := B) hL (by simpa using h1)
    (fun x hx => hpos _ ⟨by linarith [hx.2], by linarith [hx.1]⟩)
    (fun x hx => by rw [e2]; exact hB _ ⟨by linarith [hx.2], by linarith [hx.1]⟩)
  refine ⟨min c1 c2, lt_min hc1 hc2, fun x h hh hhL ha hb => ?_⟩
  rcases le_total x 0 with hx | hx
  · refine le_trans ?_ (k1 x ⟨by linarith, hx⟩)
    exact mul_le_mul (min_le_left _ _) (by linarith) hh hc1.le
  · have := k2 (-x) ⟨by linarith, by linarith⟩
    rw [neg_neg] at this
    refine le_trans ?_ this
    exact mul_le_mul (min_le_right _ _) (by linarith) hh hc2.le

/-- There is an eigenvalue as close to `E` as the residual of any vector tells. -/
theorem residual {n : ℕ} (hn : 0 < n) {h w v : NDArray ℂ} (F : EighOK n h w v)
    (hh : ∀ i j, h.get [i, j] = (starRingEnd ℂ) (h.get [j, i])) (x : ℕ → ℂ) (E : ℝ) :
    ∃ p < n, ‖w.get [p] - E‖ ^ 2 * ∑ k ∈ range n, ‖x k‖ ^ 2
      ≤ ∑ j ∈ range n, ‖∑ k ∈ range n, h.get [j, k] * x k - E * x j‖ ^ 2 := by
  set c : (ℕ → ℂ) → ℕ → ℂ := fun y p => ∑ k ∈ range n, (starRingEnd ℂ) (v.get [k, p]) * y k with hc
  have parseval : ∀ y : ℕ → ℂ, ∑ p ∈ range n, ‖c y p‖ ^ 2 = ∑ k ∈ range n, ‖y k‖ ^ 2 := by
    intro y
    have key : ∑ p ∈ range n, (starRingEnd ℂ) (c y p) * c y p = ∑ k ∈ range n, (starRingEnd ℂ) (y k) * y k := by
      calc _ = ∑ p ∈ range n, ∑ j ∈ range n, ∑ k ∈ range n,
            (starRingEnd ℂ) (y j) * y k * (v.get [j, p] * (starRingEnd ℂ) (v.get [k, p])) := by
            refine sum_congr rfl fun p _ => ?_
            rw [hc]
            simp only [map_sum, map_mul, Complex.conj_conj]
            rw [sum_mul_sum]
            refine sum_congr rfl fun j _ => sum_congr rfl fun k _ => by ring
        _ = ∑ j ∈ range n, ∑ k ∈ range n, (starRingEnd ℂ) (y j) * y k
            * ∑ p ∈ range n, v.get [j, p] * (starRingEnd ℂ) (v.get [k, p]) := by
            rw [sum_comm]
            refine sum_congr rfl fun j _ => ?_
            rw [sum_comm]
            refine sum_congr rfl fun k _ => (mul_sum _ _ _).symm
        _ = _ := by
            refine sum_congr rfl fun j hj => ?_
            rw [sum_congr rfl fun k hk => by rw [F.complete (mem_range.1 hj) (mem_range.1 hk)]]
            simp [mem_range.1 hj]
    have e : ∀ z : ℂ, (starRingEnd ℂ) z * z = ((‖z‖ ^ 2 : ℝ) : ℂ) := fun z => by
      rw [mul_comm, Complex.mul_conj, Complex.normSq_eq_norm_sq]
    simp only [e] at key
    exact_mod_cast key
  have hr : ∀ p < n, c (fun j => ∑ k ∈ range n, h.get [j, k] * x k - E * x j) p = (w.get [p] - E) * c x p := by
    intro p hp
    have hw : (starRingEnd ℂ) (w.get [p]) = w.get [p] := Complex.conj_eq_iff_im.2 (F.real _)
    have hv : ∀ k < n, ∑ j ∈ range n, (starRingEnd ℂ) (v.get [j, p]) * h.get [j, k]
        = w.get [p] * (starRingEnd ℂ) (v.get [k, p]) := by
      intro k hk
      have := congrArg (starRingEnd ℂ) (F.eigen p k hp hk)
      rw [map_sum, map_mul, hw] at this
      rw [← this]
      refine sum_congr rfl fun j _ => ?_
      rw [map_mul, ← hh j k, mul_comm]
    rw [hc]
    simp only [mul_sub, mul_sum, sum_sub_distrib, sub_mul]
    congr 1
    · rw [sum_comm]
      refine sum_congr rfl fun k hk => ?_
      rw [← mul_assoc, ← hv k (mem_range.1 hk), sum_mul]
      refine sum_congr rfl fun j _ => by ring
    · refine sum_congr rfl fun k _ => by ring
  by_contra hcon
  push Not at hcon
  set S := ∑ k ∈ range n, ‖x k‖ ^ 2 with hS
  set R := ∑ j ∈ range n, ‖∑ k ∈ range n, h.get [j, k] * x k - E * x j‖ ^ 2 with hR
  have hR0 : 0 ≤ R := sum_nonneg fun _ _ => by positivity
  have hS0 : 0 < S := by
    refine lt_of_le_of_ne (sum_nonneg fun _ _ => by positivity) fun hz => ?_
    have := hcon 0 hn
    rw [← hz, mul_zero] at this
    linarith
  have e1 : R = ∑ p ∈ range n, ‖w.get [p] - E‖ ^ 2 * ‖c x p‖ ^ 2 := by
    rw [hR, ← parseval fun j => ∑ k ∈ range n, h.get [j, k] * x k - E * x j]
    refine sum_congr rfl fun p hp => ?_
    rw [hr p (mem_range.1 hp), norm_mul, mul_pow]
  have e2 := parseval x
  have e3 : R * S < R * S := by
    calc R * S = ∑ p ∈ range n, R * ‖c x p‖ ^ 2 := by rw [hS, ← e2, mul_sum]
      _ < ∑ p ∈ range n, (‖w.get [p] - E‖ ^ 2 * S) * ‖c x p‖ ^ 2 := by
          obtain ⟨p, hp, hne⟩ : ∃ p ∈ range n, 0 < ‖c x p‖ ^ 2 := by
            by_contra hall
            push Not at hall
            have : ∑ p ∈ range n, ‖c x p‖ ^ 2 ≤ 0 := sum_nonpos hall
            linarith
          exact sum_lt_sum (fun p hp => mul_le_mul_of_nonneg_right (hcon p (mem_range.1 hp)).le (by positivity))
            ⟨p, hp, mul_lt_mul_of_pos_right (hcon p (mem_range.1 hp)) hne⟩
      _ = (∑ p ∈ range n, ‖w.get [p] - E‖ ^ 2 * ‖c x p‖ ^ 2) * S := by
          rw [sum_mul]
          refine sum_congr rfl fun p _ => by ring
      _ = R * S := by rw [← e1]
  exact lt_irrefl _ e3

/-- A positive function `φ` with `H φ ≥ μ φ` bounds all eigenvalues from below. -/
theorem positive_bound {n : ℕ} {dx : ℝ} (hdx : 0 < dx) {x : ℕ → ℝ} {V : ℝ → ℝ} {E : ℂ} {f : ℕ → ℂ}
    (hE : E.im = 0) (hf : GridEigen (n + 2) dx x V E f) (h0 : f 0 = 0) (hn : f (n + 1) = 0) {i0 : ℕ} (hi0 : i0 < n + 2)
    (hne : f i0 ≠ 0) {φ : ℕ → ℝ} {μ : ℝ} (hφ0 : 0 ≤ φ 0) (hφn : 0 ≤ φ (n + 1)) (hφ : ∀ i, 1 ≤ i → i < n + 1 → 0 < φ i)
    (hμ : ∀ i, 1 ≤ i → i < n + 1 →
      μ * φ i ≤ -(1 / 2) * ((φ (i + 1) - 2 * φ i + φ (i - 1)) / dx ^ 2) + V (x i) * φ i) : μ ≤ E.re := by
  have hi0' : 1 ≤ i0 ∧ i0 < n + 1 := by
    constructor
    · rcases Nat.eq_zero_or_pos i0 with rfl | h
      · exact absurd h0 hne
      · exact h
    · rcases Nat.lt_succ_iff_lt_or_eq.1 hi0 with h | rfl
      · exact h
      · exact absurd hn hne
  obtain ⟨i, hi, hmax⟩ := exists_max_image (Icc 1 n) (fun i => ‖f i‖ / φ i) ⟨i0, mem_Icc.2 ⟨hi0'.1, by omega⟩⟩
  have hi := mem_Icc.1 hi
  have hi1 := hi.1
  have hi2 : i < n + 1 := by omega
  set t := ‖f i‖ / φ i with ht
  have htpos : 0 < t := lt_of_lt_of_le (div_pos (norm_pos_iff.2 hne) (hφ i0 hi0'.1 hi0'.2))
    (hmax i0 (mem_Icc.2 ⟨hi0'.1, by omega⟩))
  have hle : ∀ j, j < n + 2 → ‖f j‖ ≤ t * φ j := by
    intro j hj
    rcases Nat.eq_zero_or_pos j with rfl | hj0
    · rw [h0, norm_zero]
      positivity
    rcases Nat.lt_succ_iff_lt_or_eq.1 hj with hj' | rfl
    · exact (div_le_iff₀ (hφ j hj0 hj')).1 (hmax j (mem_Icc.2 ⟨hj0, by omega⟩))
    · rw [hn, norm_zero]
      positivity
  have hfi : ‖f i‖ = t * φ i := by rw [ht, div_mul_cancel₀ _ (hφ i hi1 hi2).ne']
  have heq := hf i hi1 (by omega)
  unfold gridHamiltonian at heq
  have hEr : E = (E.re : ℂ) := Complex.ext rfl (by simpa using hE)
  have hd2 : 0 < dx ^ 2 := by positivity
  have hdc : ((dx : ℂ)) ^ 2 ≠ 0 := by exact_mod_cast hd2.ne'
  have key : ((1 / dx ^ 2 + V (x i) - E.re : ℝ) : ℂ) * f i = ((1 / (2 * dx ^ 2) : ℝ) : ℂ) * (f (i + 1) + f (i - 1)) := by
    rw [hEr] at heq
    push_cast
    field_simp at heq ⊢
    linear_combination heq
  have hk : |1 / dx ^ 2 + V (x i) - E.re| * (t * φ i) ≤ 1 / (2 * dx ^ 2) * (t * φ (i + 1) + t * φ (i - 1)) := by
    have := congrArg norm key
    rw [norm_mul, norm_mul, Complex.norm_real, Complex.norm_real, Real.norm_eq_abs, Real.norm_eq_abs, hfi,
      abs_of_pos (by positivity : 0 < 1 / (2 * dx ^ 2))] at this
    rw [this]
    exact mul_le_mul_of_nonneg_left ((norm_add_le _ _).trans (add_le_add (hle _ (by omega)) (hle _ (by omega))))
      (by positivity)
  have hm := hμ i hi1 hi2
  have hφi := hφ i hi1 hi2
  have h5 : 1 / (2 * dx ^ 2) * (φ (i + 1) + φ (i - 1)) ≤ (1 / dx ^ 2 + V (x i) - μ) * φ i := by
    have : -(1 / 2) * ((φ (i + 1) - 2 * φ i + φ (i - 1)) / dx ^ 2)
        = 1 / dx ^ 2 * φ i - 1 / (2 * dx ^ 2) * (φ (i + 1) + φ (i - 1)) := by
      field_simp
      ring
    rw [this] at hm
    linarith
  have h6 : (1 / dx ^ 2 + V (x i) - E.re) * (t * φ i) ≤ (1 / dx ^ 2 + V (x i) - μ) * (t * φ i) := by
    calc _ ≤ |1 / dx ^ 2 + V (x i) - E.re| * (t * φ i) :=
          mul_le_mul_of_nonneg_right (le_abs_self _) (by positivity)
      _ ≤ 1 / (2 * dx ^ 2) * (t * φ (i + 1) + t * φ (i - 1)) := hk
      _ = t * (1 / (2 * dx ^ 2) * (φ (i + 1) + φ (i - 1))) := by ring
      _ ≤ t * ((1 / dx ^ 2 + V (x i) - μ) * φ i) := mul_le_mul_of_nonneg_left h5 htpos.le
      _ = _ := by ring
  have := le_of_mul_le_mul_right h6 (by positivity)
  linarith

end QS.FiniteDifference
