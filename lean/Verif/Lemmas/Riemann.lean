import Verif.Lemmas.Trapezoid
import Verif.Lemmas.GridLimit

/-!
# The trapezoidal rule for continuous functions
-/

namespace QS.Riemann

open MeasureTheory Filter Topology QS.Spec GridLimit

/-- One cell. -/
theorem cell {f : ℝ → ℂ} {a b ω : ℝ} (hab : a ≤ b) (hc : Continuous f)
    (hω : ∀ y ∈ Set.Icc a b, ∀ z ∈ Set.Icc a b, ‖f y - f z‖ ≤ ω) :
    ‖((b - a : ℝ) : ℂ) * ((f a + f b) / 2) - ∫ x in a..b, f x‖ ≤ ω * (b - a) := by
  have e : ((b - a : ℝ) : ℂ) * ((f a + f b) / 2) - ∫ x in a..b, f x
      = ∫ x in a..b, ((f a + f b) / 2 - f x) := by
    rw [intervalIntegral.integral_sub intervalIntegrable_const (hc.intervalIntegrable _ _),
      intervalIntegral.integral_const, Complex.real_smul]
  rw [e]
  have := intervalIntegral.norm_integral_le_of_norm_le_const (a := a) (b := b) (C := ω)
    (f := fun x => (f a + f b) / 2 - f x) (fun x hx => by
      rw [Set.uIoc_of_le hab] at hx
      have hx' : x ∈ Set.Icc a b := ⟨hx.1.le, hx.2⟩
      have h1 := hω a ⟨le_rfl, hab⟩ x hx'
      have h2 := hω b ⟨hab, le_rfl⟩ x hx'
      have h3 := norm_add_le (f a - f x) (f b - f x)
      rw [show (f a + f b) / 2 - f x = ((f a - f x) + (f b - f x)) / 2 by ring, norm_div, Complex.norm_ofNat]
      linarith)
  rwa [abs_of_nonneg (by linarith)] at this

/-- The whole grid. -/
theorem error {f : ℝ → ℂ} {L ω : ℝ} (hL : 0 < L) {num : ℕ} (h2 : 2 ≤ num) (hc : Continuous f)
    (hω : ∀ y ∈ Set.Icc (-L) L, ∀ z ∈ Set.Icc (-L) L, |y - z| ≤ dx L num → ‖f y - f z‖ ≤ ω) :
    ‖trapezoid num (fun i => -L + i * dx L num) (fun i => f (-L + i * dx L num)) - ∫ x in (-L)..L, f x‖ ≤ 2 * L * ω := by
  have hd := dx_pos hL h2
  have hmul := dx_mul L h2
  have hs := intervalIntegral.sum_integral_adjacent_intervals (a := fun i : ℕ => -L + i * dx L num) (μ := volume) (f := f)
    (n := num - 1) (fun k _ => hc.intervalIntegrable _ _)
  rw [hmul] at hs
  simp only [Nat.cast_zero, zero_mul, add_zero, show -L + 2 * L = L by ring] at hs
  rw [trapezoid, ← hs, ← Finset.sum_sub_distrib]
  refine (norm_sum_le _ _).trans ?_
  calc _ ≤ ∑ i ∈ Finset.range (num - 1), ω * dx L num := by
        refine Finset.sum_le_sum fun i hi => ?_
        have hi : i + 1 ≤ num - 1 := Finset.mem_range.1 hi
        have hir : ((i : ℝ) + 1) ≤ ((num - 1 : ℕ) : ℝ) := by exact_mod_cast hi
        have hstep : (-L + ((i + 1 : ℕ) : ℝ) * dx L num) - (-L + i * dx L num) = dx L num := by push_cast; ring
        have hm : ∀ y ∈ Set.Icc (-L + i * dx L num) (-L + ((i + 1 : ℕ) : ℝ) * dx L num), y ∈ Set.Icc (-L) L :=
          fun y hy => ⟨by nlinarith [hy.1, (Nat.cast_nonneg i : (0 : ℝ) ≤ i)], by
            have := hy.2
            push_cast at this
            nlinarith⟩
        have := cell (a := -L + i * dx L num) (b := -L + ((i + 1 : ℕ) : ℝ) * dx L num) (by linarith) hc (ω := ω)
          (fun y hy z hz => hω y (hm y hy) z (hm z hz) (by
            rw [abs_le]
            constructor <;> linarith [hy.1, hy.2, hz.1, hz.2]))
        rw [hstep] at this ⊢
        exact this
    _ = (((num - 1 : ℕ) : ℝ) * dx L num) * ω := by rw [Finset.sum_const, Finset.card_range, nsmul_eq_mul]; ring
    _ = _ := by rw [hmul]

theorem norm_le {L C : ℝ} (hL : 0 < L) {num : ℕ} (h2 : 2 ≤ num) {g : ℕ → ℂ} (hg : ∀ i < num, ‖g i‖ ≤ C) :
    ‖trapezoid num (fun i => -L + i * dx L num) g‖ ≤ 2 * L * C := by
  refine (Trapezoid.trapezoid_norm (by omega) (-L) (dx_pos hL h2).le hg).trans (le_of_eq ?_)
  have := dx_mul L h2
  rw [Nat.cast_sub (by omega), Nat.cast_one] at this
  rw [← mul_assoc, this]

theorem tendsto {f : ℝ → ℂ} {L : ℝ} (hL : 0 < L) (hc : Continuous f) {ε : ℝ} (hε : 0 < ε) :
    ∀ᶠ num in atTop, ‖trapezoid num (fun i => -L + i * dx L num) (fun i => f (-L + i * dx L num))
      - ∫ x in (-L)..L, f x‖ ≤ ε := by
  have hu := (isCompact_Icc (a := -L) (b := L)).uniformContinuousOn_of_continuous hc.continuousOn
  rw [Metric.uniformContinuousOn_iff_le] at hu
  obtain ⟨δ, hδ, hu⟩ := hu (ε / (2 * L)) (by positivity)
  filter_upwards [(dx_tendsto L).eventually_le_const hδ, eventually_ge_atTop 2] with num h1 h2
  refine (error hL h2 hc (ω := ε / (2 * L)) fun y hy z hz hyz => ?_).trans (le_of_eq (by field_simp))
  rw [← dist_eq_norm]
  exact hu y hy z hz (by rw [Real.dist_eq]; exact hyz.trans h1)

/-- Two dimensions. -/
theorem tendsto2 {F : ℝ × ℝ → ℂ} {L : ℝ} (hL : 0 < L) (hc : Continuous F) {ε : ℝ} (hε : 0 < ε) :
    ∀ᶠ num in atTop, ‖trapezoid num (fun i => -L + i * dx L num) (fun i =>
        trapezoid num (fun j => -L + j * dx L num) fun j => F (-L + i * dx L num, -L + j * dx L num))
      - ∫ x in (-L)..L, ∫ y in (-L)..L, F (x, y)‖ ≤ ε := by
  have hu := ((isCompact_Icc (a := -L) (b := L)).prod (isCompact_Icc (a := -L) (b := L))).uniformContinuousOn_of_continuous
    hc.continuousOn
  rw [Metric.uniformContinuousOn_iff_le] at hu
  set ω := ε / (8 * L ^ 2) with hω
  have hω0 : 0 < ω := by positivity
  obtain ⟨δ, hδ, hu⟩ := hu ω hω0
  have hI : Continuous fun x => ∫ y in (-L)..L, F (x, y) :=
    intervalIntegral.continuous_parametric_intervalIntegral_of_continuous' (f := fun x y => F (x, y)) hc _ _
  filter_upwards [(dx_tendsto L).eventually_le_const hδ, eventually_ge_atTop 2] with num h1 h2
  have e1 : ∀ i < num, ‖trapezoid num (fun j => -L + j * dx L num) (fun j => F (-L + i * dx L num, -L + j * dx L num))
      - ∫ y in (-L)..L, F (-L + i * dx L num, y)‖ ≤ 2 * L * ω := by
    intro i hi
    have hmem : -L + i * dx L num ∈ Set.Icc (-L) L := by
      have hdx := dx_pos hL h2
      have h3 : (i : ℝ) ≤ ((num - 1 : ℕ) : ℝ) := by exact_mod_cast (by omega : i ≤ num - 1)
      have h4 := dx_mul L h2
      have h5 : (0 : ℝ) ≤ i := Nat.cast_nonneg i
      constructor <;> nlinarith
    refine error hL h2 (f := fun y => F (-L + i * dx L num, y)) (by fun_prop) fun y hy z hz hyz => ?_
    rw [← dist_eq_norm]
    refine hu _ ⟨hmem, hy⟩ _ ⟨hmem, hz⟩ ?_
    rw [Prod.dist_eq, dist_self]
    exact max_le hδ.le (by rw [Real.dist_eq]; exact hyz.trans h1)
  have e2 : ‖trapezoid num (fun i => -L + i * dx L num) (fun i => ∫ y in (-L)..L, F (-L + i * dx L num, y))
      - ∫ x in (-L)..L, ∫ y in (-L)..L, F (x, y)‖ ≤ 2 * L * (2 * L * ω) := by
    refine error hL h2 (f := fun x => ∫ y in (-L)..L, F (x, y)) hI fun y hy z hz hyz => ?_
    rw [← intervalIntegral.integral_sub ((by fun_prop : Continuous fun t => F (y, t)).intervalIntegrable _ _)
      ((by fun_prop : Continuous fun t => F (z, t)).intervalIntegrable _ _)]
    have := intervalIntegral.norm_integral_le_of_norm_le_const (a := -L) (b := L) (C := ω)
      (f := fun t => F (y, t) - F (z, t)) (fun t ht => by
        rw [Set.uIoc_of_le (by linarith)] at ht
        have ht' : t ∈ Set.Icc (-L) L := ⟨ht.1.le, ht.2⟩
        rw [← dist_eq_norm]
        refine hu _ ⟨hy, ht'⟩ _ ⟨hz, ht'⟩ ?_
        rw [Prod.dist_eq, dist_self]
        exact max_le (by rw [Real.dist_eq]; exact hyz.trans h1) hδ.le)
    refine this.trans (le_of_eq ?_)
    rw [abs_of_nonneg (by linarith)]
    ring
  have e3 := norm_le hL h2 (g := fun i => trapezoid num (fun j => -L + j * dx L num)
    (fun j => F (-L + i * dx L num, -L + j * dx L num)) - ∫ y in (-L)..L, F (-L + i * dx L num, y)) e1
  rw [Trapezoid.trapezoid_sub] at e3
  have e4 := norm_add_le _ _ |>.trans (add_le_add e3 e2)
  rw [sub_add_sub_cancel] at e4
  refine e4.trans (le_of_eq ?_)
  rw [hω]
  field_simp
  ring

/-- Two families on the grids that come together. -/
def Near {ι : Type*} (S : ℕ → ι → Prop) (a b : ℕ → ι → ℂ) : Prop :=
  ∀ ε > 0, ∀ᶠ num in atTop, ∀ i, S num i → ‖a num i - b num i‖ ≤ ε

/-- A bounded family. -/
def Bd {ι : Type*} (S : ℕ → ι → Prop) (a : ℕ → ι → ℂ) : Prop :=
  ∃ C, ∀ᶠ num in atTop, ∀ i, S num i → ‖a num i‖ ≤ C

variable {ι : Type*} {S : ℕ → ι → Prop} {a b a' b' : ℕ → ι → ℂ}

theorem Bd.mul (h : Bd S a) (h' : Bd S b) : Bd S fun num i => a num i * b num i := by
  obtain ⟨C, hC⟩ := h
  obtain ⟨D, hD⟩ := h'
  refine ⟨C * D, ?_⟩
  filter_upwards [hC, hD] with num c d i hi
  rw [norm_mul]
  exact mul_le_mul (c i hi) (d i hi) (norm_nonneg _) ((norm_nonneg _).trans (c i hi))

theorem Bd.conj (h : Bd S a) : Bd S fun num i => (starRingEnd ℂ) (a num i) := by
  obtain ⟨C, hC⟩ := h
  refine ⟨C, hC.mono fun num h i hi => ?_⟩
  rw [RCLike.norm_conj]
  exact h i hi

theorem Near.refl (a : ℕ → ι → ℂ) : Near S a a := fun ε hε => .of_forall fun num i _ => by
  rw [sub_self, norm_zero]
  exact hε.le

theorem Near.conj (h : Near S a b) : Near S (fun num i => (starRingEnd ℂ) (a num i)) fun num i => (starRingEnd ℂ) (b num i) :=
  fun ε hε => (h ε hε).mono fun num h i hi => by
    rw [← map_sub, RCLike.norm_conj]
    exact h i hi

theorem Near.mul (h : Near S a b) (h' : Near S a' b') (hb : Bd S b) (hb' : Bd S b') :
    Near S (fun num i => a num i * a' num i) fun num i => b num i * b' num i := by
  obtain ⟨C, hC⟩ := hb
  obtain ⟨D, hD⟩ := hb'
  intro ε hε
  have hpos : 0 < |C| + |D| + 1 := by positivity
  set δ := min 1 (ε / (|C| + |D| + 1)) with hδ
  have hδ0 : 0 < δ := lt_min one_pos (by positivity)
  filter_upwards [hC, hD, h δ hδ0, h' δ hδ0] with num c d k1 k2 i hi
  have h1 := k1 i hi
  have h2 := k2 i hi
  have h3 : ‖b num i‖ ≤ |C| := (c i hi).trans (le_abs_self C)
  have h4 : ‖b' num i‖ ≤ |D| := (d i hi).trans (le_abs_self D)
  rw [show a num i * a' num i - b num i * b' num i = (a num i - b num i) * (a' num i - b' num i)
    + ((a num i - b num i) * b' num i + b num i * (a' num i - b' num i)) by ring]
  refine (norm_add_le _ _).trans ((add_le_add le_rfl (norm_add_le _ _)).trans ?_)
  rw [norm_mul, norm_mul, norm_mul]
  have h5 : δ ≤ 1 := min_le_left _ _
  have h6 : δ * (|C| + |D| + 1) ≤ ε := (le_div_iff₀ hpos).1 (min_le_right _ _)
  have e1 := mul_le_mul h1 (h2.trans h5) (norm_nonneg _) hδ0.le
  have e2 := mul_le_mul h1 h4 (norm_nonneg _) hδ0.le
  have e3 := mul_le_mul h3 h2 (norm_nonneg _) (abs_nonneg C)
  linarith

end QS.Riemann
