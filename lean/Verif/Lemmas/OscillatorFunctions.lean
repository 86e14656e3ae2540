import Verif.Lemmas.OscillatorLevels
import Verif.Lemmas.GridExpansion
import Verif.Lemmas.GridNorm

/-!
# States of the oscillator on a fine grid in a large box
-/

namespace QS.Oscillation

open Filter Topology Spec Finset GridLimit OneDim MeasureTheory GridNorm

variable {V : ℝ → ℝ} {L e : ℝ} {num : ℕ}

theorem hoFunction_eq (ω : ℝ) (n : ℕ) (x : ℝ) : hoFunction ω n x = normalization ω n * hoState ω n x := by
  unfold hoFunction hoState
  rw [show -(1 / 2) * ω * x ^ 2 = -(ω * x ^ 2 / 2) by ring]
  ring

theorem hoFunction_continuous (ω : ℝ) (n : ℕ) : Continuous (hoFunction ω n) := by
  have := hoState_continuous ω n
  simp only [funext (hoFunction_eq ω n)]
  fun_prop

theorem ho_poly_integrable {ω : ℝ} (hω : 0 < ω) (P : Polynomial ℝ) (n m : ℕ) :
    Integrable fun x => P.eval x * hoFunction ω n x * hoFunction ω m x := by
  have hs := (Real.sqrt_pos.2 hω).ne'
  have h := ((hermite_integrable (P.comp (Polynomial.C (1 / Real.sqrt ω) * Polynomial.X)) n m).comp_mul_left' hs).const_mul
    (normalization ω n * normalization ω m)
  refine h.congr (.of_forall fun x => ?_)
  have e : Real.exp (-(Real.sqrt ω * x) ^ 2) = Real.exp (-(1 / 2) * ω * x ^ 2) * Real.exp (-(1 / 2) * ω * x ^ 2) := by
    rw [← Real.exp_add, mul_pow, Real.sq_sqrt hω.le]
    congr 1
    ring
  simp only [hoFunction, Polynomial.eval_comp, Polynomial.eval_mul, Polynomial.eval_C, Polynomial.eval_X]
  rw [e, show 1 / Real.sqrt ω * (Real.sqrt ω * x) = x by field_simp]
  ring

theorem ho_box {ω : ℝ} (hω : 0 < ω) (P : Polynomial ℝ) (n m : ℕ) :
    Tendsto (fun L : ℝ => ∫ x in (-L)..L, P.eval x * hoFunction ω n x * hoFunction ω m x) atTop
      (𝓝 (∫ x, P.eval x * hoFunction ω n x * hoFunction ω m x)) :=
  intervalIntegral_tendsto_integral (ho_poly_integrable hω P n m) tendsto_neg_atTop_atBot tendsto_id

theorem ho_mass {ω : ℝ} (hω : 0 < ω) (n : ℕ) :
    Tendsto (fun L : ℝ => ∫ x in (-L)..L, hoFunction ω n x ^ 2) atTop (𝓝 1) := by
  have h := ho_box hω 1 n n
  have h1 := ho_orthonormal hω n n
  unfold lineInner at h1
  rw [if_pos rfl] at h1
  simp only [Polynomial.eval_one, one_mul, h1] at h
  simpa only [sq] using h

theorem ho_decay {ω : ℝ} (hω : 0 < ω) (n : ℕ) : ∃ B, 0 ≤ B ∧ ∀ x, |hoFunction ω n x| ≤ B ∧ |x ^ 2 * hoFunction ω n x| ≤ B := by
  obtain ⟨P, hP⟩ := hermite_poly n
  have key : ∀ R : Polynomial ℝ, ∃ C, ∀ x, |R.eval x * hoFunction ω n x| ≤ C := fun R => by
    obtain ⟨C, hC⟩ := gauss_bounded (by linarith : 0 < ω / 2) (R * Polynomial.C (normalization ω n)
      * P.comp (Polynomial.C (Real.sqrt ω) * Polynomial.X))
    refine ⟨C, fun x => le_trans (le_of_eq ?_) (hC x)⟩
    congr 1
    unfold hoFunction
    rw [hP]
    simp
    rw [show ω / 2 * x ^ 2 = 2⁻¹ * ω * x ^ 2 by ring]
    ring
  obtain ⟨C, hC⟩ := key 1
  obtain ⟨D, hD⟩ := key (Polynomial.X ^ 2)
  simp only [Polynomial.eval_one, one_mul] at hC
  simp only [Polynomial.eval_pow, Polynomial.eval_X] at hD
  exact ⟨max C D, ((abs_nonneg _).trans (hC 0)).trans (le_max_left _ _), fun x =>
    ⟨(hC x).trans (le_max_left _ _), (hD x).trans (le_max_right _ _)⟩⟩

theorem sqs_inner {d : ℝ} (h2 : 2 ≤ num) {z : ℕ → ℂ} (h0 : z 0 = 0) (h1 : z (num - 1) = 0) :
    sqs d num z = d * ∑ k ∈ range (num - 2), ‖z (k + 1)‖ ^ 2 := by
  obtain ⟨n, rfl⟩ : ∃ n, num = n + 2 := ⟨num - 2, by omega⟩
  rw [show n + 2 - 1 = n + 1 by omega] at h1
  unfold sqs
  rw [sum_range_succ, sum_range_succ', h0, h1, norm_zero, zero_pow two_ne_zero, add_zero, add_zero, Nat.add_sub_cancel]

theorem Fam_sqs {w : ℕ → ℝ} {f : ℕ → ℕ → ℂ} (F : Fam V L num w f) {p : ℕ} (hp : p < num - 2) :
    sqs (dx L num) num (f p) = 1 := by
  rw [sqs_inner (by omega) (F.left p hp) (F.right p hp)]
  have := F.orth p p hp hp
  rw [if_pos rfl] at this
  have e : (dx L num : ℂ) * ∑ k ∈ range (num - 2), (starRingEnd ℂ) (f p (k + 1)) * f p (k + 1)
      = ((dx L num * ∑ k ∈ range (num - 2), ‖f p (k + 1)‖ ^ 2 : ℝ) : ℂ) := by
    push_cast
    congr 1
    exact sum_congr rfl fun k _ => Complex.conj_mul' _
  rw [e] at this
  exact_mod_cast this

/-- The last step: from the trial vector `y` to the function `g`. -/
theorem close {d : ℝ} (hd : 0 ≤ d) {F y g : ℕ → ℂ} {a : ℂ} {δ τ σ : ℝ} (hF : sqs d num F = 1)
    (hy : sqs d num y = ‖a‖ ^ 2 + sqs d num fun i => y i - a * F i) (hz : sqs d num (fun i => y i - a * F i) ≤ τ)
    (hδ : |1 - sqs d num y| ≤ δ) (hg : sqs d num (fun i => y i - g i) ≤ σ) :
    sqs d num (fun i => F i - (starRingEnd ℂ) (phase a) * g i) ≤ 2 * (2 * (δ + τ) ^ 2 + 2 * τ) + 2 * σ := by
  set c := (starRingEnd ℂ) (phase a) with hc
  have hc1 : ‖c‖ = 1 := by rw [hc, RCLike.norm_conj, norm_phase]
  have hca : c * a = ‖a‖ := by
    rw [hc]
    unfold phase
    split_ifs with h
    · rw [h]
      simp
    · rw [map_div₀, Complex.conj_ofReal, div_mul_eq_mul_div, Complex.conj_mul', sq, mul_div_assoc,
        div_self (by exact_mod_cast norm_ne_zero_iff.2 h), mul_one]
  have h1 := sqs_add (num := num) hd (fun i => ((1 - ‖a‖ : ℝ) : ℂ) * F i) fun i => -c * (y i - a * F i)
  rw [sqs_smul, sqs_smul, norm_neg, hc1, hF, Complex.norm_real, Real.norm_eq_abs, sq_abs] at h1
  have e1 : (fun i => ((1 - ‖a‖ : ℝ) : ℂ) * F i + -c * (y i - a * F i)) = fun i => F i - c * y i := by
    funext i
    push_cast
    rw [← hca]
    ring
  rw [e1] at h1
  have h2 := sqs_add (num := num) hd (fun i => F i - c * y i) fun i => c * (y i - g i)
  rw [sqs_smul, hc1] at h2
  have e2 : (fun i => F i - c * y i + c * (y i - g i)) = fun i => F i - c * g i := by
    funext i
    ring
  rw [e2] at h2
  have h0 := sqs_nonneg (num := num) hd fun i => y i - a * F i
  have h3 : |1 - ‖a‖ ^ 2| ≤ δ + τ := by
    have : 1 - ‖a‖ ^ 2 = (1 - sqs d num y) + sqs d num fun i => y i - a * F i := by rw [hy]; ring
    rw [this]
    refine (abs_add_le _ _).trans (add_le_add hδ ?_)
    rwa [abs_of_nonneg h0]
  have h4 : (1 - ‖a‖) ^ 2 ≤ (δ + τ) ^ 2 := by
    have h5 : (1 - ‖a‖ ^ 2) ^ 2 ≤ (δ + τ) ^ 2 := by
      rw [← sq_abs]
      exact pow_le_pow_left₀ (abs_nonneg _) h3 2
    refine le_trans ?_ h5
    have h6 : (1 : ℝ) ≤ (1 + ‖a‖) ^ 2 := by nlinarith [norm_nonneg a]
    calc (1 - ‖a‖) ^ 2 = (1 - ‖a‖) ^ 2 * 1 := by ring
      _ ≤ (1 - ‖a‖) ^ 2 * (1 + ‖a‖) ^ 2 := mul_le_mul_of_nonneg_left h6 (sq_nonneg _)
      _ = _ := by ring
  linarith

/-- On fine grids in large boxes the states are close to those of the oscillator on the line. -/
theorem ho_function {ω : ℝ} (hω : 0 < ω) (n : ℕ) {ε : ℝ} (hε : 0 < ε) : ∃ L₀ : ℝ, 2 ≤ L₀ ∧ ∀ L ≥ L₀,
    ∀ (w : ℕ → ℕ → ℝ) (f : ℕ → ℕ → ℕ → ℂ),
      (∀ num ≥ 3, Fam (fun x => 0.5 * ω ^ 2 * x ^ 2) L num (w num) (f num)) →
      (∀ᶠ num in atTop, ∀ p < num - 2, p ≠ n → ω / 2 ≤ |w num p - ω * (n + 1 / 2)|) →
      ∀ᶠ num in atTop, ∃ c : ℂ, ‖c‖ = 1 ∧
        sqs (dx L num) num (fun i => f num n i - c * (hoFunction ω n (-L + i * dx L num) : ℂ)) ≤ ε := by
  obtain ⟨C₀, hC₀, hC₀'⟩ := hoState_bounded hω n
  obtain ⟨B, hB0, hB⟩ := ho_decay hω n
  set N := normalization ω n with hN
  set C := |N| * C₀ with hCd
  have hC0 : 0 ≤ C := mul_nonneg (abs_nonneg _) hC₀
  set g := hoFunction ω n with hg
  have hgc : Continuous g := hoFunction_continuous ω n
  set K := 8 * (C + 1) ^ 2 / ω ^ 2 with hK
  have hR : Tendsto (fun L : ℝ => 2 * (2 * ((|1 - ∫ x in (-L)..L, g x ^ 2| + 4 * B ^ 2 * L⁻¹ + L⁻¹) + K * L⁻¹ ^ 3) ^ 2
      + 2 * (K * L⁻¹ ^ 3)) + 2 * (3 * B ^ 2 * L⁻¹ ^ 3)) atTop (𝓝 0) := by
    have hi : Tendsto (fun L : ℝ => L⁻¹) atTop (𝓝 0) := tendsto_inv_atTop_zero
    have hm := ((ho_mass hω n).const_sub 1).abs
    have := ((((((((hm.add (hi.const_mul (4 * B ^ 2))).add hi).add ((hi.pow 3).const_mul K)).pow 2).const_mul 2).add
      (((hi.pow 3).const_mul K).const_mul 2)).const_mul 2).add (((hi.pow 3).const_mul (3 * B ^ 2)).const_mul 2))
    simpa using this
  obtain ⟨L₁, hL₁⟩ := eventually_atTop.1 (hR.eventually_le_const hε)
  refine ⟨max 2 L₁, le_max_left _ _, fun L hL w f hF hgap => ?_⟩
  have hL2 : 2 ≤ L := (le_max_left _ _).trans hL
  have hbound := hL₁ L ((le_max_right _ _).trans hL)
  have hLp : 0 < L := by linarith
  set c : ℝ → ℝ := fun x => 1 - x ^ 2 / L ^ 2 with hc
  have hcc : Continuous c := by simp only [hc]; fun_prop
  have dc : ∀ x, HasDerivAt c (-(2 * x / L ^ 2)) x := fun x => by
    refine ((((hasDerivAt_id x).pow 2).div_const (L ^ 2)).const_sub 1).congr_deriv ?_
    simp
  have dc' : ∀ x : ℝ, HasDerivAt (fun x : ℝ => -(2 * x / L ^ 2)) (-(2 / L ^ 2)) x := fun x => by
    refine (((hasDerivAt_id x).const_mul 2).div_const (L ^ 2)).neg.congr_deriv ?_
    simp
  set e := ω * ((n : ℝ) + 1 / 2) with he
  set g' : ℝ → ℝ := fun x => N * hoState' ω n x with hg'
  have hge : g = fun x => N * hoState ω n x := funext (hoFunction_eq ω n)
  have d1 : ∀ x, HasDerivAt g (g' x) x := fun x => by
    rw [hge]
    exact (hoState_deriv ω n x).const_mul N
  have d2 : ∀ x, HasDerivAt g' (2 * (0.5 * ω ^ 2 * x ^ 2 - e) * g x) x := fun x => by
    refine ((hoState'_deriv hω.le n x).const_mul N).congr_deriv ?_
    rw [hge]
    ring
  have hg'c : Continuous g' := continuous_iff_continuousAt.2 fun x => (d2 x).continuousAt
  set T : ℝ → ℝ := fun x => g x * c x with hT
  set T' : ℝ → ℝ := fun x => g' x * c x + g x * -(2 * x / L ^ 2) with hT'
  set q : ℝ → ℝ := fun x => 2 * (0.5 * ω ^ 2 * x ^ 2 - e) * g x * c x + g' x * -(2 * x / L ^ 2)
      + (g' x * -(2 * x / L ^ 2) + g x * -(2 / L ^ 2)) with hq
  have hTc : Continuous T := by simp only [hT]; fun_prop
  have hqc : ContinuousOn q (Set.Icc (-L) L) := by simp only [hq]; exact Continuous.continuousOn (by fun_prop)
  have t1 : ∀ x ∈ Set.Icc (-L) L, HasDerivWithinAt T (T' x) (Set.Icc (-L) L) x := fun x _ =>
    ((d1 x).mul (dc x)).hasDerivWithinAt
  have t2 : ∀ x ∈ Set.Icc (-L) L, HasDerivWithinAt T' (q x) (Set.Icc (-L) L) x := fun x _ =>
    (((d2 x).mul (dc x)).add ((d1 x).mul (dc' x))).hasDerivWithinAt
  have hl : T (-L) = 0 := by
    simp only [hT, hc, neg_sq]
    rw [div_self (by positivity), sub_self, mul_zero]
  have hr : T L = 0 := by
    simp only [hT, hc]
    rw [div_self (by positivity), sub_self, mul_zero]
  have hM : ∀ x, |-(1 / 2) * q x + 0.5 * ω ^ 2 * x ^ 2 * T x - e * T x| ≤ C / L ^ 2 := fun x => by
    have e1 : -(1 / 2) * q x + 0.5 * ω ^ 2 * x ^ 2 * T x - e * T x
        = N * (hoState ω n x + 2 * x * hoState' ω n x) / L ^ 2 := by
      simp only [hq, hT, hg', hge]
      field_simp
      ring
    rw [e1, abs_div, abs_of_pos (by positivity : 0 < L ^ 2), abs_mul]
    exact div_le_div_of_nonneg_right (mul_le_mul_of_nonneg_left (hC₀' x) (abs_nonneg _)) (by positivity)
  have hdiff : |(∫ x in (-L)..L, g x ^ 2) - ∫ x in (-L)..L, T x ^ 2| ≤ 4 * B ^ 2 * L⁻¹ := by
    rw [← intervalIntegral.integral_sub ((by fun_prop : Continuous fun x => g x ^ 2).intervalIntegrable _ _)
      ((by fun_prop : Continuous fun x => T x ^ 2).intervalIntegrable _ _), ← Real.norm_eq_abs]
    have := intervalIntegral.norm_integral_le_of_norm_le_const (a := -L) (b := L) (C := 2 * B ^ 2 / L ^ 2)
      (f := fun x => g x ^ 2 - T x ^ 2) fun x hx => by
        rw [Set.uIoc_of_le (by linarith)] at hx
        obtain ⟨b1, b2⟩ := hB x
        have hx2 : x ^ 2 ≤ L ^ 2 := sq_le_sq' hx.1.le hx.2
        have hle : x ^ 2 / L ^ 2 ≤ 1 := (div_le_one (by positivity)).2 hx2
        have hnn : 0 ≤ x ^ 2 / L ^ 2 := by positivity
        have e2 : g x ^ 2 - T x ^ 2 = (x ^ 2 * g x) * g x / L ^ 2 * (2 - x ^ 2 / L ^ 2) := by
          simp only [hT, hc]
          field_simp
          ring
        rw [Real.norm_eq_abs, e2, abs_mul, abs_div, abs_mul, abs_of_pos (by positivity : 0 < L ^ 2),
          abs_of_nonneg (by linarith : 0 ≤ 2 - x ^ 2 / L ^ 2)]
        calc |x ^ 2 * g x| * |g x| / L ^ 2 * (2 - x ^ 2 / L ^ 2) ≤ B * B / L ^ 2 * 2 := by
              refine mul_le_mul ?_ (by linarith) (by linarith) (by positivity)
              exact div_le_div_of_nonneg_right (mul_le_mul b2 b1 (abs_nonneg _) hB0) (by positivity)
          _ = _ := by ring
    refine this.trans (le_of_eq ?_)
    rw [show L - -L = 2 * L by ring, abs_of_pos (by linarith)]
    field_simp
    ring
  have hu := isCompact_Icc.uniformContinuousOn_of_continuous hqc
  rw [Metric.uniformContinuousOn_iff_le] at hu
  obtain ⟨δ, hδ, hu⟩ := hu (1 / L ^ 2) (by positivity)
  filter_upwards [hgap, Riemann.tendsto hLp (f := fun x => ((T x ^ 2 : ℝ) : ℂ)) (by fun_prop) (by positivity : 0 < L⁻¹),
    (dx_tendsto L).eventually_le_const hδ, eventually_ge_atTop (n + 5)] with num a1 a2 a3 a4
  have Fm := hF num (by omega)
  have hdx : 0 < dx L num := dx_pos hLp (by omega)
  have hmul := dx_mul L (by omega : 2 ≤ num)
  set d := dx L num with hdd
  have hlast : -L + ((num - 1 : ℕ) : ℝ) * d = L := by linarith
  set y : ℕ → ℂ := fun i => ((T (-L + i * d) : ℝ) : ℂ) with hy
  have y0 : y 0 = 0 := by simp [hy, hl]
  have y1 : y (num - 1) = 0 := by simp only [hy, hlast, hr, Complex.ofReal_zero]
  have hrow : ∀ k ∈ range (num - 2), ‖gridHamiltonian d (fun i => -L + i * d) (fun x => 0.5 * ω ^ 2 * x ^ 2) y
      (k + 1) - e * y (k + 1)‖ ^ 2 ≤ (C / L ^ 2 + 1 / L ^ 2) ^ 2 := by
    intro k hk
    have hk := mem_range.1 hk
    have m0 := (mem_grid hLp (by omega : 2 ≤ num) (by omega : k ≤ num - 1)).1
    have m2 := (mem_grid hLp (by omega : 2 ≤ num) (by omega : k + 2 ≤ num - 1)).2
    unfold gridHamiltonian
    have ea : -L + ((k + 1 + 1 : ℕ) : ℝ) * d = -L + (k + 1 : ℕ) * d + d := by push_cast; ring
    have eb : -L + ((k + 1 - 1 : ℕ) : ℝ) * d = -L + (k + 1 : ℕ) * d - d := by
      rw [Nat.add_sub_cancel]
      push_cast
      ring
    have m0' : -L ≤ -L + ((k + 1 : ℕ) : ℝ) * d - d := by rw [← eb, Nat.add_sub_cancel]; exact m0
    have m2' : -L + ((k + 1 : ℕ) : ℝ) * d + d ≤ L := by rw [← ea]; exact m2
    simp only [hy]
    rw [ea, eb]
    set x := -L + ((k + 1 : ℕ) : ℝ) * d with hx
    have hxm : x ∈ Set.Icc (-L) L := ⟨by linarith, by linarith⟩
    have hs := second t1 t2 hdx.le m0' m2' (ε := 1 / L ^ 2) (fun z hz => by
      have := hu z ⟨by linarith [hz.1], by linarith [hz.2]⟩ x hxm (by
        rw [Real.dist_eq, abs_le]
        constructor <;> linarith [hz.1, hz.2])
      rwa [Real.dist_eq] at this)
    exact pow_le_pow_left₀ (norm_nonneg _) (trial_row' hdx hs (hM x)) 2
  obtain ⟨i1, i2⟩ := Fm.isolated (by omega) y0 y1 (n := n) (by omega) (by linarith : 0 < ω / 2) a1
  have z0 : y 0 - coeff L num (f num) y n * f num n 0 = 0 := by rw [y0, Fm.left n (by omega)]; ring
  have z1 : y (num - 1) - coeff L num (f num) y n * f num n (num - 1) = 0 := by rw [y1, Fm.right n (by omega)]; ring
  rw [← sqs_inner (z := fun i => y i - coeff L num (f num) y n * f num n i) (by omega) z0 z1] at i1 i2
  rw [← sqs_inner (by omega) y0 y1] at i2
  have htau : sqs d num (fun i => y i - coeff L num (f num) y n * f num n i) ≤ K * L⁻¹ ^ 3 := by
    have h1 : d * ∑ k ∈ range (num - 2), ‖gridHamiltonian d (fun i => -L + i * d) (fun x => 0.5 * ω ^ 2 * x ^ 2) y (k + 1)
        - e * y (k + 1)‖ ^ 2 ≤ 2 * L * (C / L ^ 2 + 1 / L ^ 2) ^ 2 := by
      have hn2 : ((num - 2 : ℕ) : ℝ) ≤ ((num - 1 : ℕ) : ℝ) := by exact_mod_cast (by omega : num - 2 ≤ num - 1)
      calc _ ≤ d * ∑ k ∈ range (num - 2), (C / L ^ 2 + 1 / L ^ 2) ^ 2 :=
            mul_le_mul_of_nonneg_left (sum_le_sum hrow) hdx.le
        _ = d * (((num - 2 : ℕ) : ℝ) * (C / L ^ 2 + 1 / L ^ 2) ^ 2) := by rw [sum_const, card_range, nsmul_eq_mul]
        _ ≤ d * (((num - 1 : ℕ) : ℝ) * (C / L ^ 2 + 1 / L ^ 2) ^ 2) :=
            mul_le_mul_of_nonneg_left (mul_le_mul_of_nonneg_right hn2 (by positivity)) hdx.le
        _ = (((num - 1 : ℕ) : ℝ) * d) * (C / L ^ 2 + 1 / L ^ 2) ^ 2 := by ring
        _ = _ := by rw [hmul]
    have h3 := i1.trans h1
    rw [hK]
    have e4 : 2 * L * (C / L ^ 2 + 1 / L ^ 2) ^ 2 = (ω / 2) ^ 2 * (8 * (C + 1) ^ 2 / ω ^ 2 * L⁻¹ ^ 3) := by
      field_simp
      ring
    rw [e4] at h3
    exact le_of_mul_le_mul_left h3 (by positivity)
  have hSy : sqs d num y = d * ∑ k ∈ range (num - 2), T (-L + (k + 1 : ℕ) * d) ^ 2 := by
    rw [sqs_inner (by omega) y0 y1]
    congr 1
    refine sum_congr rfl fun k _ => ?_
    simp only [hy, Complex.norm_real, Real.norm_eq_abs, sq_abs]
  have hdel : |1 - sqs d num y| ≤ |1 - ∫ x in (-L)..L, g x ^ 2| + 4 * B ^ 2 * L⁻¹ + L⁻¹ := by
    rw [intervalIntegral.integral_ofReal, trapezoid_inner (by omega) L d (by simp [hl]) (by simp [hlast, hr]),
      ← Complex.ofReal_sum, ← Complex.ofReal_mul, ← Complex.ofReal_sub, Complex.norm_real, Real.norm_eq_abs, ← hSy] at a2
    have h5 := abs_add_le (1 - ∫ x in (-L)..L, g x ^ 2) ((∫ x in (-L)..L, g x ^ 2) - ∫ x in (-L)..L, T x ^ 2)
    have h6 := abs_sub (1 - (∫ x in (-L)..L, g x ^ 2) + ((∫ x in (-L)..L, g x ^ 2) - ∫ x in (-L)..L, T x ^ 2))
      (sqs d num y - ∫ x in (-L)..L, T x ^ 2)
    rw [show 1 - (∫ x in (-L)..L, g x ^ 2) + ((∫ x in (-L)..L, g x ^ 2) - ∫ x in (-L)..L, T x ^ 2)
      - (sqs d num y - ∫ x in (-L)..L, T x ^ 2) = 1 - sqs d num y by ring] at h6
    linarith
  have hsig : sqs d num (fun i => y i - ((g (-L + i * d) : ℝ) : ℂ)) ≤ 3 * B ^ 2 * L⁻¹ ^ 3 := by
    unfold sqs
    have h7 : ∀ i ∈ range num, ‖y i - ((g (-L + i * d) : ℝ) : ℂ)‖ ^ 2 ≤ (B / L ^ 2) ^ 2 := fun i _ => by
      refine pow_le_pow_left₀ (norm_nonneg _) ?_ 2
      simp only [hy]
      rw [← Complex.ofReal_sub, Complex.norm_real, Real.norm_eq_abs]
      set x := -L + (i : ℝ) * d
      have e5 : T x - g x = -((x ^ 2 * g x) / L ^ 2) := by
        simp only [hT, hc]
        ring
      rw [e5, abs_neg, abs_div, abs_of_pos (by positivity : 0 < L ^ 2)]
      exact div_le_div_of_nonneg_right (hB x).2 (by positivity)
    have h8 : d * num ≤ 3 * L := by
      have h9 : ((num - 1 : ℕ) : ℝ) = num - 1 := by rw [Nat.cast_sub (by omega), Nat.cast_one]
      rw [h9] at hmul
      have h10 : (5 : ℝ) ≤ num := by exact_mod_cast (by omega : 5 ≤ num)
      nlinarith
    calc _ ≤ d * ∑ i ∈ range num, (B / L ^ 2) ^ 2 := mul_le_mul_of_nonneg_left (sum_le_sum h7) hdx.le
      _ = d * num * (B / L ^ 2) ^ 2 := by rw [sum_const, card_range, nsmul_eq_mul]; ring
      _ ≤ 3 * L * (B / L ^ 2) ^ 2 := mul_le_mul_of_nonneg_right h8 (by positivity)
      _ = _ := by field_simp
  refine ⟨(starRingEnd ℂ) (phase (coeff L num (f num) y n)), by rw [RCLike.norm_conj, norm_phase], ?_⟩
  exact (close hdx.le (Fam_sqs Fm (by omega)) i2 htau hdel hsig).trans hbound

end QS.Oscillation
