import Verif.Lemmas.OscillatorFunctions

/-!
# Matrix elements of the oscillator on a fine grid in a large box
-/

namespace QS.Oscillation

open Filter Topology Spec Finset GridLimit OneDim MeasureTheory GridNorm

variable {V : ℝ → ℝ} {L : ℝ} {num : ℕ}

/-- A bound of finitely many statements about large boxes. -/
theorem large_all {k : ℕ} {P : ℕ → ℝ → Prop} (h : ∀ n, ∃ L₀ : ℝ, 2 ≤ L₀ ∧ ∀ L ≥ L₀, P n L) :
    ∃ L₀ : ℝ, 2 ≤ L₀ ∧ ∀ L ≥ L₀, ∀ n ≤ k, P n L := by
  choose L₀ h2 hL₀ using h
  have hle : ∀ n ≤ k, L₀ n ≤ ∑ n ∈ range (k + 1), L₀ n := fun n hn =>
    single_le_sum (f := L₀) (fun i _ => by linarith [h2 i]) (mem_range.2 (by omega))
  exact ⟨_, (h2 0).trans (hle 0 (Nat.zero_le _)), fun L hL n hn => hL₀ n L ((hle n hn).trans hL)⟩

theorem ho_close {ω : ℝ} (hω : 0 < ω) (k : ℕ) {ε : ℝ} (hε : 0 < ε) : ∃ L₀ : ℝ, 2 ≤ L₀ ∧ ∀ L ≥ L₀,
    ∀ (w : ℕ → ℕ → ℝ) (f : ℕ → ℕ → ℕ → ℂ),
      (∀ num ≥ 3, Fam (fun x => 0.5 * ω ^ 2 * x ^ 2) L num (w num) (f num)) →
      ∀ᶠ num in atTop, ∃ θ : ℕ → ℂ, (∀ n, ‖θ n‖ = 1) ∧ ∀ n < k, |w num n - ω * (n + 1 / 2)| ≤ ε ∧
        sqs (dx L num) num (fun i => f num n i - θ n * (hoFunction ω n (-L + i * dx L num) : ℂ)) ≤ ε := by
  have hη : 0 < min (ε / 2) (ω / 4) := lt_min (by linarith) (by linarith)
  obtain ⟨L₁, h1, hL₁⟩ := ho_levels hω k hη
  obtain ⟨L₂, h2, hL₂⟩ := large_all (k := k) fun n => ho_function hω n hε
  refine ⟨max L₁ L₂, h1.trans (le_max_left _ _), fun L hL w f hF => ?_⟩
  have hLp : 0 < L := by linarith [(le_max_left L₁ L₂).trans hL]
  obtain ⟨E, ψ, hE, -, ht, hψ, hov⟩ := box_basis hLp (V := fun x => 0.5 * ω ^ 2 * x ^ 2) (by fun_prop) hF
  have hlev := hL₁ L ((le_max_left _ _).trans hL) w f E ψ hF ht hE (fun k => (hψ k).2) hov
  have hsmall : ∀ᶠ num in atTop, ∀ p ≤ k, |w num p - ω * (p + 1 / 2)| ≤ 2 * min (ε / 2) (ω / 4) := by
    have : ∀ p ∈ (range (k + 1) : Finset ℕ), ∀ᶠ num in atTop, |w num p - E p| ≤ min (ε / 2) (ω / 4) := fun p _ => by
      have := (ht p).eventually (Metric.closedBall_mem_nhds (E p) hη)
      filter_upwards [this] with num h
      rwa [Real.dist_eq] at h
    filter_upwards [(eventually_all_finset (range (k + 1))).2 this] with num h p hp
    have h3 := h p (mem_range.2 (by omega))
    have h4 := abs_add_le (w num p - E p) (E p - ω * (p + 1 / 2))
    rw [sub_add_sub_cancel] at h4
    linarith [hlev p hp]
  have hm1 : min (ε / 2) (ω / 4) ≤ ω / 4 := min_le_right _ _
  have hm2 : min (ε / 2) (ω / 4) ≤ ε / 2 := min_le_left _ _
  have hgap : ∀ n < k, ∀ᶠ num in atTop, ∀ p < num - 2, p ≠ n → ω / 2 ≤ |w num p - ω * (n + 1 / 2)| := by
    intro n hn
    filter_upwards [hsmall, eventually_ge_atTop (k + 5)] with num h h5 p hp hpn
    have Fm := hF num (by omega)
    rcases lt_or_gt_of_ne hpn with hlt | hgt
    · have h6 := (abs_le.1 (h p (by omega))).2
      have h7 : (p : ℝ) + 1 ≤ n := by exact_mod_cast hlt
      rw [abs_sub_comm, abs_of_nonneg (by nlinarith)]
      nlinarith
    · have h6 := (abs_le.1 (h (n + 1) (by omega))).1
      have h7 := Fm.sorted (n + 1) p (by omega) hp
      push_cast at h6
      rw [abs_of_nonneg (by nlinarith)]
      nlinarith
  have hfun : ∀ᶠ num in atTop, ∀ n ∈ range k, ∃ c : ℂ, ‖c‖ = 1 ∧
        sqs (dx L num) num (fun i => f num n i - c * (hoFunction ω n (-L + i * dx L num) : ℂ)) ≤ ε :=
    (eventually_all_finset (range k)).2 fun n hn =>
      hL₂ L ((le_max_right _ _).trans hL) n (mem_range.1 hn).le w f hF (hgap n (mem_range.1 hn))
  filter_upwards [hsmall, hfun] with num a1 a2
  have : ∀ n, ∃ c : ℂ, ‖c‖ = 1 ∧ (n < k →
      sqs (dx L num) num (fun i => f num n i - c * (hoFunction ω n (-L + i * dx L num) : ℂ)) ≤ ε) := fun n => by
    by_cases hn : n < k
    · obtain ⟨c, c1, c2⟩ := a2 n (mem_range.2 hn)
      exact ⟨c, c1, fun _ => c2⟩
    · exact ⟨1, norm_one, fun h => absurd h hn⟩
  choose θ t1 t2 using this
  refine ⟨θ, t1, fun n hn => ⟨?_, t2 n hn⟩⟩
  have := a1 n hn.le
  linarith

/-- The squares of the sum are bounded by twice the trapezoidal sum. -/
theorem sqs_le_trapezoid (L : ℝ) {d : ℝ} (hd : 0 ≤ d) (h2 : 2 ≤ num) (z : ℕ → ℂ) :
    sqs d num z ≤ 2 * (trapezoid num (fun i => -L + i * d) fun i => ((‖z i‖ ^ 2 : ℝ) : ℂ)).re := by
  obtain ⟨n, rfl⟩ : ∃ n, num = n + 2 := ⟨num - 2, by omega⟩
  have e : (trapezoid (n + 2) (fun i => -L + i * d) fun i => ((‖z i‖ ^ 2 : ℝ) : ℂ))
      = ((∑ i ∈ range (n + 1), d / 2 * (‖z i‖ ^ 2 + ‖z (i + 1)‖ ^ 2) : ℝ) : ℂ) := by
    unfold trapezoid
    rw [Complex.ofReal_sum]
    refine sum_congr rfl fun i _ => ?_
    push_cast
    ring
  rw [e, Complex.ofReal_re, ← mul_sum, sum_add_distrib]
  unfold sqs
  have h1 : ∑ i ∈ range (n + 2), ‖z i‖ ^ 2 ≤ ∑ i ∈ range (n + 1), ‖z i‖ ^ 2 + ∑ i ∈ range (n + 1), ‖z (i + 1)‖ ^ 2 := by
    rw [sum_range_succ, sum_range_succ (fun i => ‖z (i + 1)‖ ^ 2)]
    have : 0 ≤ ∑ i ∈ range n, ‖z (i + 1)‖ ^ 2 := sum_nonneg fun _ _ => sq_nonneg _
    linarith
  calc d * ∑ i ∈ range (n + 2), ‖z i‖ ^ 2
      ≤ d * (∑ i ∈ range (n + 1), ‖z i‖ ^ 2 + ∑ i ∈ range (n + 1), ‖z (i + 1)‖ ^ 2) := mul_le_mul_of_nonneg_left h1 hd
    _ = _ := by ring

/-- The second moment of the states on the line, on the grid. -/
theorem ho_moment {ω : ℝ} (hω : 0 < ω) (k : ℕ) : ∃ K : ℝ, 0 ≤ K ∧ ∀ n < k, ∀ L : ℝ, 0 < L → ∀ᶠ num in atTop,
    sqs (dx L num) num (fun i => ((-L + i * dx L num : ℝ) : ℂ) * (hoFunction ω n (-L + i * dx L num) : ℂ)) ≤ K := by
  set I : ℕ → ℝ := fun n => ∫ x, (x * hoFunction ω n x) ^ 2 with hI
  have hI0 : ∀ n, 0 ≤ I n := fun n => integral_nonneg fun x => sq_nonneg _
  refine ⟨∑ n ∈ range k, 2 * (I n + 1), sum_nonneg fun n _ => by linarith [hI0 n], fun n hn L hL => ?_⟩
  have hc := hoFunction_continuous ω n
  have hint : Integrable fun x => (x * hoFunction ω n x) ^ 2 := by
    refine (ho_poly_integrable hω (Polynomial.X ^ 2) n n).congr (.of_forall fun x => ?_)
    simp only [Polynomial.eval_pow, Polynomial.eval_X]
    ring
  have hle : ∫ x in (-L)..L, (x * hoFunction ω n x) ^ 2 ≤ I n := by
    rw [intervalIntegral.integral_of_le (by linarith)]
    exact setIntegral_le_integral hint (.of_forall fun x => sq_nonneg _)
  filter_upwards [Riemann.tendsto hL (f := fun x => (((x * hoFunction ω n x) ^ 2 : ℝ) : ℂ)) (by fun_prop) one_pos,
    eventually_ge_atTop 2] with num h1 h2
  refine le_trans ?_ (single_le_sum (f := fun n => 2 * (I n + 1)) (fun i _ => by linarith [hI0 i])
    (mem_range.2 hn))
  refine (sqs_le_trapezoid L (dx_pos hL h2).le h2 _).trans ?_
  have e : (fun i : ℕ => ((‖((-L + i * dx L num : ℝ) : ℂ) * (hoFunction ω n (-L + i * dx L num) : ℂ)‖ ^ 2 : ℝ) : ℂ))
      = fun i : ℕ => ((((-L + i * dx L num) * hoFunction ω n (-L + i * dx L num)) ^ 2 : ℝ) : ℂ) := by
    funext i
    rw [← Complex.ofReal_mul, Complex.norm_real, Real.norm_eq_abs, sq_abs]
  rw [e]
  rw [intervalIntegral.integral_ofReal] at h1
  have h3 := (Complex.abs_re_le_norm _).trans h1
  rw [Complex.sub_re, Complex.ofReal_re] at h3
  have := (abs_le.1 h3).2
  linarith

/-- The second moment of the states on the grid is bounded by the energy. -/
theorem Fam_moment {ω : ℝ} (hω : 0 < ω) (hL : 0 < L) {w : ℕ → ℝ} {f : ℕ → ℕ → ℂ}
    (F : Fam (fun x => 0.5 * ω ^ 2 * x ^ 2) L num w f) {p : ℕ} (hp : p < num - 2) :
    sqs (dx L num) num (fun i => ((-L + i * dx L num : ℝ) : ℂ) * f p i) ≤ 2 * w p / ω ^ 2 := by
  have h1 := Fam_sqs F hp
  rw [sqs_inner (by omega) (F.left p hp) (F.right p hp)] at h1
  rw [sqs_inner (by omega) (by rw [F.left p hp, mul_zero]) (by rw [F.right p hp, mul_zero])]
  obtain ⟨n, rfl⟩ : ∃ n, num = n + 2 := ⟨num - 2, by omega⟩
  have hdx := dx_pos hL (by omega : 2 ≤ n + 2)
  have hE := (F.eigen p hp).energy hdx (F.left p hp) (F.right p hp)
  set d := dx L (n + 2) with hd
  rw [show n + 2 - 2 = n by omega] at *
  rw [Complex.ofReal_re] at hE
  have hk : 0 ≤ 1 / (2 * d ^ 2) * ∑ k ∈ range (n + 1), ‖f p (k + 1) - f p k‖ ^ 2 :=
    mul_nonneg (by positivity) (sum_nonneg fun _ _ => sq_nonneg _)
  rw [le_div_iff₀ (by positivity)]
  have e : ∑ k ∈ range n, 0.5 * ω ^ 2 * (-L + ((k + 1 : ℕ) : ℝ) * d) ^ 2 * ‖f p (k + 1)‖ ^ 2
      = ω ^ 2 / 2 * ∑ k ∈ range n, ‖((-L + ((k + 1 : ℕ) : ℝ) * d : ℝ) : ℂ) * f p (k + 1)‖ ^ 2 := by
    rw [mul_sum]
    refine sum_congr rfl fun k _ => ?_
    rw [norm_mul, mul_pow, Complex.norm_real, Real.norm_eq_abs, sq_abs]
    ring
  rw [e] at hE
  set S := ∑ k ∈ range n, ‖((-L + ((k + 1 : ℕ) : ℝ) * d : ℝ) : ℂ) * f p (k + 1)‖ ^ 2
  have h3 : ω ^ 2 / 2 * S ≤ w p * ∑ k ∈ range n, ‖f p (k + 1)‖ ^ 2 := by linarith
  have h4 := mul_le_mul_of_nonneg_left h3 hdx.le
  have h5 : d * (w p * ∑ k ∈ range n, ‖f p (k + 1)‖ ^ 2) = w p * (d * ∑ k ∈ range n, ‖f p (k + 1)‖ ^ 2) := by ring
  rw [h5, h1] at h4
  linarith

/-- The dipole elements of functions that are close. -/
theorem dipole_sub (L : ℝ) {d : ℝ} (hd : 0 ≤ d) {F G F' G' x : ℕ → ℂ} (hx : ∀ i, (starRingEnd ℂ) (x i) = x i) {δ A B : ℝ}
    (hδ : 0 ≤ δ) (h1 : sqs d num (fun i => F i - G i) ≤ δ ^ 2) (h2 : sqs d num (fun i => F' i - G' i) ≤ δ ^ 2)
    (hA : sqs d num (fun i => x i * F' i) ≤ A) (hB : sqs d num (fun i => x i * G i) ≤ B) :
    ‖(trapezoid num (fun i => -L + i * d) fun i => (starRingEnd ℂ) (F i) * x i * F' i)
      - trapezoid num (fun i => -L + i * d) fun i => (starRingEnd ℂ) (G i) * x i * G' i‖
      ≤ δ * (Real.sqrt A + Real.sqrt B) := by
  have e : (trapezoid num (fun i => -L + i * d) fun i => (starRingEnd ℂ) (F i) * x i * F' i)
      - (trapezoid num (fun i => -L + i * d) fun i => (starRingEnd ℂ) (G i) * x i * G' i)
      = (trapezoid num (fun i => -L + i * d) fun i => (starRingEnd ℂ) (F i - G i) * (x i * F' i))
        + trapezoid num (fun i => -L + i * d) fun i => (starRingEnd ℂ) (x i * G i) * (F' i - G' i) := by
    rw [← Trapezoid.trapezoid_sub, ← trapezoid_add]
    congr 1
    funext i
    rw [map_sub, map_mul, hx]
    ring
  have sδ : ∀ {z : ℕ → ℂ}, sqs d num z ≤ δ ^ 2 → Real.sqrt (sqs d num z) ≤ δ := fun h => by
    rw [← Real.sqrt_sq hδ]
    exact Real.sqrt_le_sqrt h
  rw [e]
  refine (norm_add_le _ _).trans ((add_le_add (one_body L hd _ _) (one_body L hd _ _)).trans ?_)
  have b1 := mul_le_mul (sδ h1) (Real.sqrt_le_sqrt hA) (Real.sqrt_nonneg _) hδ
  have b2 := mul_le_mul (Real.sqrt_le_sqrt hB) (sδ h2) (Real.sqrt_nonneg _) (Real.sqrt_nonneg _)
  linarith

/-- The dipole elements of the oscillator as trapezoidal sums. -/
theorem ho_dipole {ω : ℝ} (hω : 0 < ω) (p q : ℕ) {ε : ℝ} (hε : 0 < ε) : ∃ L₀ : ℝ, 2 ≤ L₀ ∧ ∀ L ≥ L₀, ∀ᶠ num in atTop,
    ‖(trapezoid num (fun i => -L + i * dx L num) fun i => (hoFunction ω p (-L + i * dx L num) : ℂ)
        * ((-L + i * dx L num : ℝ) : ℂ) * (hoFunction ω q (-L + i * dx L num) : ℂ))
      - ((lineInner (hoFunction ω p) (fun x => x * hoFunction ω q x) : ℝ) : ℂ)‖ ≤ ε := by
  have h := ho_box hω Polynomial.X p q
  obtain ⟨L₁, hL₁⟩ := eventually_atTop.1 (h.eventually (Metric.closedBall_mem_nhds _ (by linarith : 0 < ε / 2)))
  refine ⟨max 2 L₁, le_max_left _ _, fun L hL => ?_⟩
  have hLp : 0 < L := by linarith [(le_max_left 2 L₁).trans hL]
  have h1 := hL₁ L ((le_max_right _ _).trans hL)
  have cp := hoFunction_continuous ω p
  have cq := hoFunction_continuous ω q
  filter_upwards [Riemann.tendsto hLp (f := fun x => ((hoFunction ω p x * x * hoFunction ω q x : ℝ) : ℂ)) (by fun_prop)
    (by linarith : 0 < ε / 2)] with num h2
  rw [intervalIntegral.integral_ofReal] at h2
  simp only [Complex.ofReal_mul] at h2
  have h3 : ‖((∫ x in (-L)..L, hoFunction ω p x * x * hoFunction ω q x : ℝ) : ℂ)
      - ((lineInner (hoFunction ω p) (fun x => x * hoFunction ω q x) : ℝ) : ℂ)‖ ≤ ε / 2 := by
    rw [← Complex.ofReal_sub, Complex.norm_real, ← dist_eq_norm]
    unfold lineInner
    simp only [Polynomial.eval_X] at h1
    have e1 : ∀ x, hoFunction ω p x * x * hoFunction ω q x = x * hoFunction ω p x * hoFunction ω q x := fun x => by ring
    have e2 : ∀ x, hoFunction ω p x * (x * hoFunction ω q x) = x * hoFunction ω p x * hoFunction ω q x := fun x => by ring
    simp only [e1, e2]
    exact h1
  have h4 := (norm_add_le _ _).trans (add_le_add h2 h3)
  rw [sub_add_sub_cancel] at h4
  linarith

end QS.Oscillation
