import Verif.Lemmas.Oscillation
import Verif.Lemmas.Hermite
import Verif.Lemmas.OneDim

/-!
# Energies of the oscillator in a large box
-/

namespace QS.Oscillation

open Filter Topology Spec Finset GridLimit OneDim MeasureTheory

variable {V : ℝ → ℝ} {L e : ℝ} {w : ℕ → ℕ → ℝ} {f : ℕ → ℕ → ℕ → ℂ}

theorem trapezoid_inner {num : ℕ} (h3 : 2 ≤ num) (L d : ℝ) {g : ℕ → ℂ} (h0 : g 0 = 0) (h1 : g (num - 1) = 0) :
    trapezoid num (fun i => -L + i * d) g = d * ∑ k ∈ range (num - 2), g (k + 1) := by
  obtain ⟨n, rfl⟩ : ∃ n, num = n + 2 := ⟨num - 2, by omega⟩
  rw [show n + 2 - 1 = n + 1 by omega] at h1
  unfold trapezoid
  rw [show n + 2 - 1 = n + 1 by omega, Nat.add_sub_cancel, mul_sum]
  have e1 : ∀ i ∈ range (n + 1), (((fun i : ℕ => -L + i * d) (i + 1) - (fun i : ℕ => -L + i * d) i : ℝ) : ℂ)
      * ((g i + g (i + 1)) / 2) = d * g i / 2 + d * g (i + 1) / 2 := fun i _ => by
    push_cast
    ring
  rw [sum_congr rfl e1, sum_add_distrib, sum_range_succ' (fun i => (d : ℂ) * g i / 2), h0,
    sum_range_succ (fun i => (d : ℂ) * g (i + 1) / 2), h1, mul_zero, zero_div, add_zero, ← sum_add_distrib]
  exact sum_congr rfl fun i _ => by ring

theorem trial_row' {v0 vp vm qx Vx E M ε' d : ℝ} (hdx : 0 < d) (hs : |vp - 2 * v0 + vm - d ^ 2 * qx| ≤ 2 * ε' * d ^ 2)
    (hM : |-(1 / 2) * qx + Vx * v0 - E * v0| ≤ M) :
    ‖-(1 / 2) * (((vp : ℂ) - 2 * (v0 : ℂ) + (vm : ℂ)) / (d : ℂ) ^ 2) + (Vx : ℂ) * (v0 : ℂ) - (E : ℂ) * (v0 : ℂ)‖
      ≤ M + ε' := by
  have e : -(1 / 2) * (((vp : ℂ) - 2 * (v0 : ℂ) + (vm : ℂ)) / (d : ℂ) ^ 2) + (Vx : ℂ) * (v0 : ℂ) - (E : ℂ) * (v0 : ℂ)
      = (((-(1 / 2) * qx + Vx * v0 - E * v0) - (1 / (2 * d ^ 2)) * (vp - 2 * v0 + vm - d ^ 2 * qx) : ℝ) : ℂ) := by
    have : -(1 / 2) * ((vp - 2 * v0 + vm) / d ^ 2) + Vx * v0 - E * v0
        = (-(1 / 2) * qx + Vx * v0 - E * v0) - (1 / (2 * d ^ 2)) * (vp - 2 * v0 + vm - d ^ 2 * qx) := by
      field_simp
      ring
    rw [← this]
    push_cast
    rfl
  rw [e, Complex.norm_real, Real.norm_eq_abs]
  refine (abs_sub _ _).trans (add_le_add hM ?_)
  rw [abs_mul, abs_of_pos (by positivity : 0 < 1 / (2 * d ^ 2))]
  calc _ ≤ 1 / (2 * d ^ 2) * (2 * ε' * d ^ 2) := mul_le_mul_of_nonneg_left hs (by positivity)
    _ = ε' := by field_simp

/-- A function that nearly solves the equation has an energy near a level of the box. -/
theorem near_level (hL : 0 < L) (hV : ContinuousOn V (Set.Icc (-L) L)) (hF : ∀ num ≥ 3, Fam V L num (w num) (f num))
    {E : ℕ → ℝ} (ht : ∀ k, Tendsto (fun num => w num k) atTop (𝓝 (E k))) {T T' q : ℝ → ℝ} (hT : Continuous T)
    (h1 : ∀ x ∈ Set.Icc (-L) L, HasDerivWithinAt T (T' x) (Set.Icc (-L) L) x)
    (h2 : ∀ x ∈ Set.Icc (-L) L, HasDerivWithinAt T' (q x) (Set.Icc (-L) L) x)
    (hq : ContinuousOn q (Set.Icc (-L) L)) (hl : T (-L) = 0) (hr : T L = 0) {M I η : ℝ} (hη0 : 0 < η) (hM0 : 0 ≤ M)
    (hI : I < ∫ x in (-L)..L, T x ^ 2) (hM : ∀ x ∈ Set.Icc (-L) L, |-(1 / 2) * q x + V x * T x - e * T x| ≤ M)
    (hη : 2 * L * M ^ 2 < η ^ 2 * I) : ∃ k, |E k - e| ≤ η := by
  obtain ⟨t, ht0, htη, htM⟩ : ∃ t, 0 < t ∧ t < η ∧ 2 * L * (M + t) ^ 2 < (η - t) ^ 2 * I := by
    have hc : ContinuousAt (fun t : ℝ => (η - t) ^ 2 * I - 2 * L * (M + t) ^ 2) 0 := by fun_prop
    have h0 : 0 < (η - 0) ^ 2 * I - 2 * L * (M + 0) ^ 2 := by
      rw [sub_zero, add_zero]
      linarith
    have hev := (hc.eventually (lt_mem_nhds h0)).and (gt_mem_nhds hη0)
    obtain ⟨δ, hδ, hb⟩ := Metric.eventually_nhds_iff.1 hev
    have := hb (y := δ / 2) (by rw [Real.dist_eq, sub_zero, abs_of_pos (by linarith)]; linarith)
    exact ⟨δ / 2, by linarith, this.2, by linarith [this.1]⟩
  obtain ⟨B, hB⟩ := (isCompact_Icc (a := -L) (b := L)).exists_bound_of_continuousOn hV
  obtain ⟨K, hK⟩ : ∃ K : ℕ, (e + η + |B|) * (8 * L ^ 2) < K := exists_nat_gt _
  have hu := isCompact_Icc.uniformContinuousOn_of_continuous hq
  rw [Metric.uniformContinuousOn_iff_le] at hu
  obtain ⟨δ, hδ, hu⟩ := hu t ht0
  have hI' : 0 < (∫ x in (-L)..L, T x ^ 2) - I := by linarith
  have hsmall : ∀ᶠ num in atTop, ∀ p < K, |w num p - E p| ≤ t := by
    have : ∀ p ∈ (range K : Finset ℕ), ∀ᶠ num in atTop, |w num p - E p| ≤ t := fun p _ => by
      have := (ht p).eventually (Metric.closedBall_mem_nhds (E p) ht0)
      filter_upwards [this] with num h
      rwa [Real.dist_eq] at h
    filter_upwards [(eventually_all_finset (range K)).2 this] with num h p hp
    exact h p (mem_range.2 hp)
  have hall := (hsmall.and (Riemann.tendsto hL (f := fun x => ((T x ^ 2 : ℝ) : ℂ)) (by fun_prop) hI')).and
    (((dx_tendsto L).eventually_le_const hδ).and (eventually_ge_atTop (K + 3)))
  obtain ⟨num, ⟨a1, a2⟩, a3, a4⟩ := hall.exists
  have Fm := hF num (by omega)
  have hdx : 0 < dx L num := dx_pos hL (by omega)
  have hmul := dx_mul L (by omega : 2 ≤ num)
  set d := dx L num with hdd
  have hlast : -L + ((num - 1 : ℕ) : ℝ) * d = L := by linarith
  set S := ∑ k ∈ range (num - 2), T (-L + (k + 1 : ℕ) * d) ^ 2 with hS
  have hIS : I ≤ d * S := by
    rw [intervalIntegral.integral_ofReal, trapezoid_inner (by omega) L d (by simp [hl]) (by simp [hlast, hr]),
      ← Complex.ofReal_sum, ← Complex.ofReal_mul, ← Complex.ofReal_sub, Complex.norm_real, Real.norm_eq_abs] at a2
    have := (abs_le.1 a2).1
    linarith
  obtain ⟨p, hp, hres⟩ := Fm.residual (fun i => ((T (-L + i * d) : ℝ) : ℂ)) e (by simp [hl]) (by
    simp only [hlast, hr, Complex.ofReal_zero])
  have hrow : ∀ k ∈ range (num - 2), ‖gridHamiltonian d (fun i => -L + i * d) V (fun i => ((T (-L + i * d) : ℝ) : ℂ))
      (k + 1) - e * ((T (-L + (k + 1 : ℕ) * d) : ℝ) : ℂ)‖ ^ 2 ≤ (M + t) ^ 2 := by
    intro k hk
    have hk := mem_range.1 hk
    have m0 := (mem_grid hL (by omega : 2 ≤ num) (by omega : k ≤ num - 1)).1
    have m2 := (mem_grid hL (by omega : 2 ≤ num) (by omega : k + 2 ≤ num - 1)).2
    unfold gridHamiltonian
    have ea : -L + ((k + 1 + 1 : ℕ) : ℝ) * d = -L + (k + 1 : ℕ) * d + d := by push_cast; ring
    have eb : -L + ((k + 1 - 1 : ℕ) : ℝ) * d = -L + (k + 1 : ℕ) * d - d := by
      rw [Nat.add_sub_cancel]
      push_cast
      ring
    have m0' : -L ≤ -L + ((k + 1 : ℕ) : ℝ) * d - d := by rw [← eb, Nat.add_sub_cancel]; exact m0
    have m2' : -L + ((k + 1 : ℕ) : ℝ) * d + d ≤ L := by rw [← ea]; exact m2
    dsimp only
    rw [ea, eb]
    set x := -L + ((k + 1 : ℕ) : ℝ) * d with hx
    have hxm : x ∈ Set.Icc (-L) L := ⟨by linarith, by linarith⟩
    have hs := second h1 h2 hdx.le m0' m2' (ε := t) (fun y hy => by
      have := hu y ⟨by linarith [hy.1], by linarith [hy.2]⟩ x hxm (by
        rw [Real.dist_eq, abs_le]
        constructor <;> linarith [hy.1, hy.2])
      rwa [Real.dist_eq] at this)
    exact pow_le_pow_left₀ (norm_nonneg _) (trial_row' hdx hs (hM x hxm)) 2
  have hsum := hres.trans (sum_le_sum hrow)
  rw [sum_const, card_range, nsmul_eq_mul, sq_abs] at hsum
  simp only [Complex.norm_real, Real.norm_eq_abs, sq_abs] at hsum
  have hn2 : ((num - 2 : ℕ) : ℝ) ≤ ((num - 1 : ℕ) : ℝ) := by exact_mod_cast (by omega : num - 2 ≤ num - 1)
  have hfin : (w num p - e) ^ 2 * (d * S) ≤ 2 * L * (M + t) ^ 2 := by
    calc _ = d * ((w num p - e) ^ 2 * S) := by ring
      _ ≤ d * (((num - 2 : ℕ) : ℝ) * (M + t) ^ 2) := mul_le_mul_of_nonneg_left hsum hdx.le
      _ ≤ d * (((num - 1 : ℕ) : ℝ) * (M + t) ^ 2) :=
          mul_le_mul_of_nonneg_left (mul_le_mul_of_nonneg_right hn2 (by positivity)) hdx.le
      _ = (((num - 1 : ℕ) : ℝ) * d) * (M + t) ^ 2 := by ring
      _ = _ := by rw [hmul]
  have hSI : 0 < d * S := by
    by_contra hcon
    have : I ≤ 0 := hIS.trans (not_lt.1 hcon)
    have h3 : 0 ≤ 2 * L * (M + t) ^ 2 := by positivity
    nlinarith [sq_nonneg (η - t)]
  have hw2 : (w num p - e) ^ 2 < (η - t) ^ 2 := by
    by_contra hcon
    have h4 := mul_le_mul_of_nonneg_right (not_lt.1 hcon) hSI.le
    have h5 := mul_le_mul_of_nonneg_left hIS (sq_nonneg (η - t))
    linarith
  have hw : |w num p - e| < η - t := abs_lt_of_sq_lt_sq hw2 (by linarith)
  have hpK : p < K := by
    by_contra hcon
    have hg := Fm.growth hL (m := -|B|) (fun i _ hi => by
      have := (abs_le.1 (hB _ (mem_grid hL (by omega : 2 ≤ num) (by omega : i ≤ num - 1)))).1
      linarith [le_abs_self B]) hp
    have hKp : (K : ℝ) ≤ p := by exact_mod_cast not_lt.1 hcon
    have h6 : e + η + |B| < ((p : ℝ) + 1) / (8 * L ^ 2) := by
      rw [lt_div_iff₀ (by positivity)]
      linarith
    linarith [(abs_lt.1 hw).2]
  refine ⟨p, ?_⟩
  have := a1 p hpK
  rw [abs_le] at this ⊢
  rw [abs_lt] at hw
  constructor <;> linarith [this.1, this.2, hw.1, hw.2]

/-! ### Hermite functions -/

theorem hermite_degree (n : ℕ) : ∃ P : Polynomial ℝ, P.natDegree ≤ n ∧ P.coeff n = 2 ^ n ∧ ∀ x, hermite n x = P.eval x := by
  have : (∃ P : Polynomial ℝ, P.natDegree ≤ n ∧ P.coeff n = 2 ^ n ∧ ∀ x, hermite n x = P.eval x) ∧
      ∃ P : Polynomial ℝ, P.natDegree ≤ n + 1 ∧ P.coeff (n + 1) = 2 ^ (n + 1) ∧ ∀ x, hermite (n + 1) x = P.eval x := by
    induction n with
    | zero =>
      refine ⟨⟨1, by simp, by simp, fun x => by simp [hermite]⟩, ⟨Polynomial.C 2 * Polynomial.X, ?_, by simp,
        fun x => by simp [hermite]⟩⟩
      exact (Polynomial.natDegree_C_mul_le _ _).trans Polynomial.natDegree_X.le
    | succ n ih =>
      refine ⟨ih.2, ?_⟩
      obtain ⟨⟨P, dP, cP, hP⟩, ⟨Q, dQ, cQ, hQ⟩⟩ := ih
      refine ⟨Polynomial.C 2 * Q * Polynomial.X - Polynomial.C (2 * ((n : ℝ) + 1)) * P, ?_, ?_, fun x => ?_⟩
      · refine (Polynomial.natDegree_sub_le _ _).trans (max_le ?_ ?_)
        · refine Polynomial.natDegree_mul_le.trans ?_
          have h1 := Polynomial.natDegree_C_mul_le (2 : ℝ) Q
          have h2 := Polynomial.natDegree_X (R := ℝ)
          omega
        · have := Polynomial.natDegree_C_mul_le (2 * ((n : ℝ) + 1)) P
          omega
      · rw [Polynomial.coeff_sub, Polynomial.coeff_mul_X, Polynomial.coeff_C_mul, Polynomial.coeff_C_mul, cQ,
          Polynomial.coeff_eq_zero_of_natDegree_lt (by omega : P.natDegree < n + 1 + 1)]
        ring
      · rw [hermite_succ_succ, hP, hQ]
        simp
        ring
  exact this.1

/-- The unnormalised states of the oscillator. -/
noncomputable def hoState (ω : ℝ) (n : ℕ) (x : ℝ) : ℝ := hermite n (Real.sqrt ω * x) * Real.exp (-(ω * x ^ 2 / 2))

noncomputable def hoState' (ω : ℝ) (n : ℕ) (x : ℝ) : ℝ :=
  (Real.sqrt ω * (2 * n * hermite (n - 1) (Real.sqrt ω * x)) - ω * x * hermite n (Real.sqrt ω * x))
    * Real.exp (-(ω * x ^ 2 / 2))

theorem gauss_deriv (ω x : ℝ) : HasDerivAt (fun x => Real.exp (-(ω * x ^ 2 / 2))) (Real.exp (-(ω * x ^ 2 / 2)) * -(ω * x)) x := by
  have : HasDerivAt (fun x : ℝ => -(ω * x ^ 2 / 2)) (-(ω * x)) x := by
    refine ((((hasDerivAt_id x).pow 2).const_mul ω).div_const 2).neg.congr_deriv ?_
    simp
    ring
  exact this.exp

theorem hoState_deriv (ω : ℝ) (n : ℕ) (x : ℝ) : HasDerivAt (hoState ω n) (hoState' ω n x) x := by
  have hlin : HasDerivAt (fun x : ℝ => Real.sqrt ω * x) (Real.sqrt ω) x := by
    simpa using (hasDerivAt_id x).const_mul (Real.sqrt ω)
  refine (((hermite_hasDeriv n _).comp x hlin).mul (gauss_deriv ω x)).congr_deriv ?_
  unfold hoState'
  simp only [Function.comp]
  ring

theorem hoState'_deriv {ω : ℝ} (hω : 0 ≤ ω) (n : ℕ) (x : ℝ) :
    HasDerivAt (hoState' ω n) (2 * (0.5 * ω ^ 2 * x ^ 2 - ω * (n + 1 / 2)) * hoState ω n x) x := by
  have hlin : HasDerivAt (fun x : ℝ => Real.sqrt ω * x) (Real.sqrt ω) x := by
    simpa using (hasDerivAt_id x).const_mul (Real.sqrt ω)
  have hs : Real.sqrt ω * Real.sqrt ω = ω := Real.mul_self_sqrt hω
  have h1 := (((hermite_hasDeriv (n - 1) _).comp x hlin).const_mul (2 * (n : ℝ))).const_mul (Real.sqrt ω)
  have h2 := ((hasDerivAt_id x).const_mul ω).mul ((hermite_hasDeriv n _).comp x hlin)
  refine ((h1.sub h2).mul (gauss_deriv ω x)).congr_deriv ?_
  unfold hoState
  simp only [Function.comp, Pi.sub_apply, Pi.mul_apply, id]
  set s := Real.sqrt ω
  have hH : 2 * (n : ℝ) * (2 * ((n - 1 : ℕ) : ℝ) * hermite (n - 1 - 1) (s * x))
      = 2 * n * (2 * (s * x) * hermite (n - 1) (s * x) - hermite n (s * x)) := by
    rcases n with _ | n
    · simp
    · have := hermite_rec n (s * x)
      rw [Nat.add_sub_cancel, this]
      ring
  rw [← hs]
  linear_combination (s * s * Real.exp (-(s * s * x ^ 2 / 2))) * hH

theorem hoState_continuous (ω : ℝ) (n : ℕ) : Continuous (hoState ω n) :=
  continuous_iff_continuousAt.2 fun x => (hoState_deriv ω n x).continuousAt

theorem hoState'_continuous {ω : ℝ} (hω : 0 ≤ ω) (n : ℕ) : Continuous (hoState' ω n) :=
  continuous_iff_continuousAt.2 fun x => (hoState'_deriv hω n x).continuousAt

theorem hoState_zeros {ω : ℝ} (hω : 0 < ω) (n : ℕ) : ∃ Z : Finset ℝ, Z.card ≤ n ∧ ∀ x, hoState ω n x = 0 → x ∈ Z := by
  classical
  obtain ⟨P, hd, hc, hP⟩ := hermite_degree n
  have hs : Real.sqrt ω ≠ 0 := (Real.sqrt_pos.2 hω).ne'
  have hP0 : P ≠ 0 := fun h => by
    rw [h, Polynomial.coeff_zero] at hc
    exact absurd hc (by positivity)
  refine ⟨P.roots.toFinset.image fun y => y / Real.sqrt ω, ?_, fun x hx => ?_⟩
  · exact card_image_le.trans ((Multiset.toFinset_card_le _).trans ((Polynomial.card_roots' P).trans hd))
  · refine mem_image.2 ⟨Real.sqrt ω * x, ?_, by field_simp⟩
    rw [Multiset.mem_toFinset, Polynomial.mem_roots hP0, Polynomial.IsRoot, ← hP]
    exact (mul_eq_zero.1 hx).resolve_right (Real.exp_pos _).ne'

theorem gauss_bounded {b : ℝ} (hb : 0 < b) (P : Polynomial ℝ) : ∃ C, ∀ x : ℝ, |P.eval x * Real.exp (-(b * x ^ 2))| ≤ C := by
  induction P using Polynomial.induction_on' with
  | add P Q hP hQ =>
    obtain ⟨C, hC⟩ := hP
    obtain ⟨D, hD⟩ := hQ
    refine ⟨C + D, fun x => ?_⟩
    rw [Polynomial.eval_add, add_mul]
    exact (abs_add_le _ _).trans (add_le_add (hC x) (hD x))
  | monomial k c =>
    refine ⟨|c| * (1 + k.factorial / b ^ k), fun x => ?_⟩
    rw [Polynomial.eval_monomial, mul_assoc, abs_mul, abs_mul, Real.abs_exp, abs_pow]
    refine mul_le_mul_of_nonneg_left ?_ (abs_nonneg c)
    have h1 := Real.pow_div_factorial_le_exp (b * x ^ 2) (by positivity) k
    have h2 : |x| ^ k ≤ 1 + (x ^ 2) ^ k := by
      rw [← sq_abs x, ← pow_mul, mul_comm 2 k, pow_mul]
      nlinarith [sq_nonneg (|x| ^ k - 1), sq_nonneg (|x| ^ k)]
    have h3 : Real.exp (-(b * x ^ 2)) ≤ 1 := Real.exp_le_one_iff.2 (by nlinarith [sq_nonneg x])
    have h4 : (x ^ 2) ^ k * Real.exp (-(b * x ^ 2)) ≤ k.factorial / b ^ k := by
      rw [Real.exp_neg, ← div_eq_mul_inv, div_le_div_iff₀ (Real.exp_pos _) (by positivity)]
      rw [div_le_iff₀ (by positivity), mul_pow] at h1
      linarith
    calc |x| ^ k * Real.exp (-(b * x ^ 2)) ≤ (1 + (x ^ 2) ^ k) * Real.exp (-(b * x ^ 2)) :=
          mul_le_mul_of_nonneg_right h2 (Real.exp_pos _).le
      _ ≤ _ := by linarith

theorem hoState_bounded {ω : ℝ} (hω : 0 < ω) (n : ℕ) :
    ∃ C, 0 ≤ C ∧ ∀ x, |hoState ω n x + 2 * x * hoState' ω n x| ≤ C := by
  obtain ⟨P, hP⟩ := hermite_poly n
  obtain ⟨Q, hQ⟩ := hermite_poly (n - 1)
  set s := Real.sqrt ω
  set R : Polynomial ℝ := P.comp (Polynomial.C s * Polynomial.X) + 2 * Polynomial.X
    * (Polynomial.C (s * (2 * n)) * Q.comp (Polynomial.C s * Polynomial.X)
      - Polynomial.C ω * Polynomial.X * P.comp (Polynomial.C s * Polynomial.X)) with hR
  obtain ⟨C, hC⟩ := gauss_bounded (by linarith : 0 < ω / 2) R
  refine ⟨C, (abs_nonneg _).trans (hC 0), fun x => le_trans (le_of_eq ?_) (hC x)⟩
  congr 1
  unfold hoState hoState'
  rw [hP, hQ, hR]
  simp
  rw [show ω / 2 * x ^ 2 = ω * x ^ 2 / 2 by ring]
  ring

/-- No level of the oscillator in a box lies below that on the line. -/
theorem ho_lower {ω : ℝ} (hω : 0 < ω) (hL : 0 < L) {E : ℕ → ℝ} {ψ : ℕ → ℝ → ℝ} (hE : Monotone E)
    (hψ : ∀ k, BoxState (fun x => 0.5 * ω ^ 2 * x ^ 2) L (E k) (ψ k))
    (hov : ∀ p q, Overlap L (fun x => (ψ p x : ℂ)) (fun x => (ψ q x : ℂ)) (if p = q then 1 else 0)) (k : ℕ) :
    ω * (k + 1 / 2) ≤ E k := by
  obtain ⟨Z, hc, hZ⟩ := hoState_zeros hω k
  obtain ⟨x, hx, hxZ⟩ := (Set.Icc_infinite (by linarith : -L < L)).exists_notMem_finset Z
  exact lower hL (V := fun x => 0.5 * ω ^ 2 * x ^ 2) (by fun_prop) (fun x _ => (hoState_deriv ω k x).hasDerivWithinAt)
    (fun x _ => (hoState'_deriv hω.le k x).hasDerivWithinAt) ⟨x, hx, fun h => hxZ (hZ x h)⟩ (fun x _ h => hZ x h) hE hψ hov hc

/-- Every level of the oscillator on the line is near a level of a large box. -/
theorem ho_near {ω : ℝ} (hω : 0 < ω) (n : ℕ) {η : ℝ} (hη : 0 < η) : ∃ L₀ : ℝ, 2 ≤ L₀ ∧ ∀ L ≥ L₀,
    ∀ (w : ℕ → ℕ → ℝ) (f : ℕ → ℕ → ℕ → ℂ) (E : ℕ → ℝ),
      (∀ num ≥ 3, Fam (fun x => 0.5 * ω ^ 2 * x ^ 2) L num (w num) (f num)) →
      (∀ k, Tendsto (fun num => w num k) atTop (𝓝 (E k))) → ∃ k, |E k - ω * (n + 1 / 2)| ≤ η := by
  obtain ⟨C, hC0, hC⟩ := hoState_bounded hω n
  obtain ⟨Z, -, hZ⟩ := hoState_zeros hω n
  obtain ⟨x₀, hx₀, hxZ⟩ := (Set.Icc_infinite (by norm_num : (-1 : ℝ) < 1)).exists_notMem_finset Z
  have hcφ := hoState_continuous ω n
  set J := ∫ x in (-1 : ℝ)..1, hoState ω n x ^ 2 with hJ
  have hJ0 : 0 < J := by
    refine intervalIntegral.integral_pos (by norm_num) (by fun_prop) (fun x _ => sq_nonneg _) ⟨x₀, hx₀, ?_⟩
    have : hoState ω n x₀ ≠ 0 := fun h => hxZ (hZ x₀ h)
    positivity
  refine ⟨max 2 (4 * C ^ 2 / (η ^ 2 * J) + 1), le_max_left _ _, fun L hL w f E hF ht => ?_⟩
  have hL2 : 2 ≤ L := (le_max_left _ _).trans hL
  have hLb : 4 * C ^ 2 / (η ^ 2 * J) + 1 ≤ L := (le_max_right _ _).trans hL
  have hLp : 0 < L := by linarith
  set c : ℝ → ℝ := fun x => 1 - x ^ 2 / L ^ 2 with hc
  have dc : ∀ x, HasDerivAt c (-(2 * x / L ^ 2)) x := fun x => by
    refine ((((hasDerivAt_id x).pow 2).div_const (L ^ 2)).const_sub 1).congr_deriv ?_
    simp
  have dc' : ∀ x : ℝ, HasDerivAt (fun x : ℝ => -(2 * x / L ^ 2)) (-(2 / L ^ 2)) x := fun x => by
    refine (((hasDerivAt_id x).const_mul 2).div_const (L ^ 2)).neg.congr_deriv ?_
    simp
  have hint : J / 2 < ∫ x in (-L)..L, (hoState ω n x * c x) ^ 2 := by
    have hcc : Continuous c := by simp only [hc]; fun_prop
    have hT : Continuous fun x => (hoState ω n x * c x) ^ 2 := by fun_prop
    have h1 : ∫ x in (-1 : ℝ)..1, (hoState ω n x * c x) ^ 2 ≤ ∫ x in (-L)..L, (hoState ω n x * c x) ^ 2 :=
      intervalIntegral.integral_mono_interval (by linarith) (by norm_num) (by linarith)
        (ae_of_all _ fun x => sq_nonneg _) (hT.intervalIntegrable _ _)
    have h2 : ∫ x in (-1 : ℝ)..1, 9 / 16 * hoState ω n x ^ 2 ≤ ∫ x in (-1 : ℝ)..1, (hoState ω n x * c x) ^ 2 := by
      refine intervalIntegral.integral_mono_on (by norm_num) ((by fun_prop : Continuous _).intervalIntegrable _ _)
        (hT.intervalIntegrable _ _) fun x hx => ?_
      have h3 : x ^ 2 / L ^ 2 ≤ 1 / 4 := by
        rw [div_le_iff₀ (by positivity)]
        nlinarith [hx.1, hx.2]
      have h4 : 3 / 4 ≤ c x := by simp only [hc]; linarith
      have h5 : 9 / 16 ≤ c x ^ 2 := by nlinarith
      rw [mul_pow]
      nlinarith [sq_nonneg (hoState ω n x)]
    rw [intervalIntegral.integral_const_mul] at h2
    linarith
  refine near_level hLp (V := fun x => 0.5 * ω ^ 2 * x ^ 2) (by fun_prop) hF ht (T := fun x => hoState ω n x * c x)
    (T' := fun x => hoState' ω n x * c x + hoState ω n x * -(2 * x / L ^ 2))
    (q := fun x => 2 * (0.5 * ω ^ 2 * x ^ 2 - ω * (n + 1 / 2)) * hoState ω n x * c x + hoState' ω n x * -(2 * x / L ^ 2)
      + (hoState' ω n x * -(2 * x / L ^ 2) + hoState ω n x * -(2 / L ^ 2))) (M := C / L ^ 2) (I := J / 2)
    (by simp only [hc]; fun_prop) (fun x _ => ((hoState_deriv ω n x).mul (dc x)).hasDerivWithinAt)
    (fun x _ => (((hoState'_deriv hω.le n x).mul (dc x)).add ((hoState_deriv ω n x).mul (dc' x))).hasDerivWithinAt)
    ?_ ?_ ?_ hη (by positivity) hint (fun x _ => ?_) ?_
  · have := hoState'_continuous hω.le n
    simp only [hc]
    exact Continuous.continuousOn (by fun_prop)
  · simp only [hc, neg_sq]
    rw [div_self (by positivity), sub_self, mul_zero]
  · simp only [hc]
    rw [div_self (by positivity), sub_self, mul_zero]
  · have e1 : -(1 / 2) * (2 * (0.5 * ω ^ 2 * x ^ 2 - ω * (n + 1 / 2)) * hoState ω n x * c x
        + hoState' ω n x * -(2 * x / L ^ 2) + (hoState' ω n x * -(2 * x / L ^ 2) + hoState ω n x * -(2 / L ^ 2)))
        + 0.5 * ω ^ 2 * x ^ 2 * (hoState ω n x * c x) - ω * (n + 1 / 2) * (hoState ω n x * c x)
        = (hoState ω n x + 2 * x * hoState' ω n x) / L ^ 2 := by
      field_simp
      ring
    rw [e1, abs_div, abs_of_pos (by positivity : 0 < L ^ 2)]
    exact div_le_div_of_nonneg_right (hC x) (by positivity)
  · have h6 : 4 * C ^ 2 < L * (η ^ 2 * J) := by
      have := (div_lt_iff₀ (by positivity : 0 < η ^ 2 * J)).1 (by linarith : 4 * C ^ 2 / (η ^ 2 * J) < L)
      linarith
    have h7 : 2 * L * (C / L ^ 2) ^ 2 = 2 * C ^ 2 / L ^ 3 := by field_simp
    rw [h7, div_lt_iff₀ (by positivity)]
    have h8 : L ≤ L ^ 3 := by nlinarith
    have h9 : L * (η ^ 2 * J) ≤ L ^ 3 * (η ^ 2 * J) := mul_le_mul_of_nonneg_right h8 (by positivity)
    linarith

/-- The levels of the oscillator in a large box are near those on the line. -/
theorem ho_levels {ω : ℝ} (hω : 0 < ω) (k : ℕ) {η : ℝ} (hη : 0 < η) : ∃ L₀ : ℝ, 2 ≤ L₀ ∧ ∀ L ≥ L₀,
    ∀ (w : ℕ → ℕ → ℝ) (f : ℕ → ℕ → ℕ → ℂ) (E : ℕ → ℝ) (ψ : ℕ → ℝ → ℝ),
      (∀ num ≥ 3, Fam (fun x => 0.5 * ω ^ 2 * x ^ 2) L num (w num) (f num)) →
      (∀ k, Tendsto (fun num => w num k) atTop (𝓝 (E k))) → StrictMono E →
      (∀ k, BoxState (fun x => 0.5 * ω ^ 2 * x ^ 2) L (E k) (ψ k)) →
      (∀ p q, Overlap L (fun x => (ψ p x : ℂ)) (fun x => (ψ q x : ℂ)) (if p = q then 1 else 0)) →
      ∀ n ≤ k, |E n - ω * (n + 1 / 2)| ≤ η := by
  have hη' : 0 < min η (ω / 4) := lt_min hη (by linarith)
  choose L₀ h2 hL₀ using fun n => ho_near hω n hη'
  have hle : ∀ n ≤ k, L₀ n ≤ ∑ n ∈ range (k + 1), L₀ n := fun n hn =>
    single_le_sum (f := L₀) (fun i _ => by linarith [h2 i]) (mem_range.2 (by omega))
  refine ⟨∑ n ∈ range (k + 1), L₀ n, (h2 0).trans (hle 0 (Nat.zero_le _)), fun L hL w f E ψ hF ht hE hψ hov => ?_⟩
  have hLp : 0 < L := by linarith [(h2 0).trans (hle 0 (Nat.zero_le _))]
  have hj : ∀ n, ∃ j, n ≤ k → |E j - ω * (n + 1 / 2)| ≤ min η (ω / 4) := fun n => by
    by_cases hn : n ≤ k
    · obtain ⟨j, hj⟩ := hL₀ n L ((hle n hn).trans hL) w f E hF ht
      exact ⟨j, fun _ => hj⟩
    · exact ⟨0, fun h => absurd h hn⟩
  choose j hj using hj
  have hub : ∀ n ≤ k, j n ≤ n := fun n hn => by
    by_contra hcon
    have h1 := ho_lower hω hLp hE.monotone hψ hov (j n)
    have h3 := (abs_le.1 ((hj n hn).trans (min_le_right _ _))).2
    have h4 : (n : ℝ) + 1 ≤ j n := by exact_mod_cast not_le.1 hcon
    nlinarith
  have hlb : ∀ n ≤ k, n ≤ j n := by
    intro n
    induction n with
    | zero => exact fun _ => Nat.zero_le _
    | succ n ih =>
      intro hn
      have h1 := ih (by omega)
      have h3 := (abs_le.1 ((hj n (by omega)).trans (min_le_right _ _))).2
      have h4 := (abs_le.1 ((hj (n + 1) hn).trans (min_le_right _ _))).1
      have : E (j n) < E (j (n + 1)) := by
        push_cast at h4
        nlinarith
      have := hE.lt_iff_lt.1 this
      omega
  intro n hn
  have := hj n hn
  rw [le_antisymm (hub n hn) (hlb n hn)] at this
  exact this.trans (min_le_left _ _)

end QS.Oscillation
