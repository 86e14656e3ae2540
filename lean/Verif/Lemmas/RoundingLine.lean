import Verif.Model.RoundingLine
import Verif.Lemmas.RoundingCoulomb
import Verif.Lemmas.GridLimit
import Verif.Lemmas.GridNorm
import Verif.Lemmas.OneDim

/-!
# The elements of one-dimensional quantum dots in floating-point arithmetic
-/

namespace QS.Rounding

open Finset Spec QS.Props GridNorm

theorem near_real {u x z : ℝ} : Near u (x : ℂ) (z : ℂ) ↔ |z - x| ≤ u * |x| := by
  rw [Near, ← Complex.ofReal_sub, Complex.norm_real, Complex.norm_real, Real.norm_eq_abs, Real.norm_eq_abs]

theorem close_real {c x e T : ℝ} : Close c (x : ℂ) (e : ℂ) T ↔ |x - e| ≤ (c - 1) * T ∧ |e| ≤ T := by
  rw [Close, ← Complex.ofReal_sub, Complex.norm_real, Complex.norm_real, Real.norm_eq_abs, Real.norm_eq_abs]

theorem Close.exact (x : ℂ) : Close 1 x x ‖x‖ := by
  constructor <;> simp

theorem Close.weaken {c : ℝ} (hc : 1 ≤ c) {x e : ℂ} {T S : ℝ} (h : Close c x e T) (hT : T ≤ S) : Close c x e S :=
  ⟨h.1.trans (mul_le_mul_of_nonneg_left hT (by linarith)), h.2.trans hT⟩

theorem Close.trace {u : ℝ} (hu : 0 ≤ u) {c : ℝ} (hc : 1 ≤ c) {d n : ℕ} {t e : ℕ → ℂ} {T : ℕ → ℝ} {z : ℂ}
    (h : ∀ i < n, Close c (t i) (e i) (T i)) (hs : FloatTrace u d n t z) :
    Close (c * (1 + u) ^ d) z (∑ i ∈ range n, e i) (∑ i ∈ range n, T i) := by
  obtain ⟨d', hd, hs⟩ := hs
  rw [← list_sum_range, ← list_sum_range]
  exact (Close.sum hu hc (fun i hi => h i (List.mem_range.1 hi)) hs).mono
    (mul_le_mul_of_nonneg_left (pow_le_pow_right₀ (by linarith) hd) (by linarith))

/-- A number that is positive stays so, with bounds. -/
theorem near_bounds {u x z : ℝ} (h : Near u (x : ℂ) (z : ℂ)) (hx : 0 ≤ x) : (1 - u) * x ≤ z ∧ z ≤ (1 + u) * x := by
  rw [near_real, abs_of_nonneg hx] at h
  obtain ⟨h1, h2⟩ := abs_le.1 h
  constructor <;> linarith

/-! ## The grid -/

/-- The exact grid point. -/
noncomputable abbrev pt (L : ℝ) (num i : ℕ) : ℝ := -L + i * GridLimit.dx L num

theorem linspace_within {u : ℝ} (hu : 0 ≤ u) {L : ℝ} (hL : 0 ≤ L) {num : ℕ} (h2 : 2 ≤ num) {x : ℕ → ℝ}
    (h : FloatLinspace u (-L) L num x) {i : ℕ} (hi : i < num) :
    |x i - pt L num i| ≤ 3 * ((1 + u) ^ 4 - 1) * L ∧ |pt L num i| ≤ L := by
  obtain ⟨delta, step, m, h1, h3, h4, h5⟩ := h
  have hn : (0 : ℝ) < (num : ℝ) - 1 := by
    have : (2 : ℝ) ≤ num := by exact_mod_cast h2
    linarith
  have hi' : (i : ℝ) ≤ (num : ℝ) - 1 := by
    have : ((i + 1 : ℕ) : ℝ) ≤ num := by exact_mod_cast hi
    push_cast at this
    linarith
  have hid : (i : ℝ) * GridLimit.dx L num ≤ 2 * L := by
    rw [GridLimit.dx, ← mul_div_assoc, div_le_iff₀ hn]
    nlinarith
  have hid0 : 0 ≤ (i : ℝ) * GridLimit.dx L num := by
    rw [GridLimit.dx]
    positivity
  have hp : |pt L num i| ≤ L := abs_le.2 ⟨by rw [pt]; linarith, by rw [pt]; linarith⟩
  refine ⟨?_, hp⟩
  have g0 := pow_ge hu 4
  rcases Nat.lt_or_ge i (num - 1) with hlt | hge
  · obtain ⟨h6, h7⟩ := h4 i hlt
    have w1 : Within u 1 delta (2 * L : ℝ) (2 * L) := by
      have := (Within.exact u ((L - -L : ℝ) : ℂ)).near hu h1
      rwa [Complex.norm_real, Real.norm_eq_abs, sub_neg_eq_add, ← two_mul, abs_of_nonneg (by linarith)] at this
    have w2 := (Within.exact u ((((num : ℝ) - 1)⁻¹ : ℝ) : ℂ))
    rw [Complex.norm_real, Real.norm_eq_abs, abs_of_pos (inv_pos.2 hn)] at w2
    have w3 := (w1.mul hu w2).near hu (z := step) (by
      rwa [div_eq_mul_inv, Complex.ofReal_mul] at h3)
    have w4 := (Within.exact u ((i : ℝ) : ℂ))
    rw [Complex.norm_real, Real.norm_eq_abs, abs_of_nonneg (Nat.cast_nonneg i)] at w4
    have w5 := (w4.mul hu w3).near hu (z := m i) (by
      rwa [Complex.ofReal_mul] at h6)
    have w6 := (Within.exact u ((-L : ℝ) : ℂ)).mono hu (show 0 ≤ 0 + (1 + 0 + 1) + 1 by omega)
    rw [Complex.norm_real, Real.norm_eq_abs, abs_neg, abs_of_nonneg hL] at w6
    have w7 := ((w5.add w6).near hu (z := x i) (by rwa [Complex.ofReal_add] at h7)).1
    have e : ((i : ℝ) : ℂ) * (((2 * L : ℝ) : ℂ) * ((((num : ℝ) - 1)⁻¹ : ℝ) : ℂ)) + ((-L : ℝ) : ℂ) = (pt L num i : ℝ) := by
      rw [pt, GridLimit.dx, div_eq_mul_inv]
      push_cast
      ring
    rw [e, ← Complex.ofReal_sub, Complex.norm_real, Real.norm_eq_abs] at w7
    refine w7.trans ?_
    rw [show (i : ℝ) * (2 * L * ((num : ℝ) - 1)⁻¹) = i * GridLimit.dx L num by rw [GridLimit.dx, div_eq_mul_inv]]
    norm_num
    nlinarith
  · have : i = num - 1 := by omega
    have hi2 : (i : ℝ) = (num : ℝ) - 1 := by
      rw [this, Nat.cast_sub (by omega), Nat.cast_one]
    have hv : pt L num i = L := by
      rw [pt, GridLimit.dx, hi2, mul_div_assoc', mul_div_cancel_left₀ _ hn.ne']
      ring
    rw [hv, this, h5, sub_self, abs_zero]
    have : 0 ≤ (1 + u) ^ 4 - 1 := by linarith
    positivity

/-- The factor for the grid spacing. -/
noncomputable def gridFactor (u : ℝ) (num : ℕ) : ℝ := 1 + 3 * ((num : ℝ) - 1) * ((1 + u) ^ 4 - 1)

theorem one_le_gridFactor {u : ℝ} (hu : 0 ≤ u) {num : ℕ} (h2 : 2 ≤ num) : 1 ≤ gridFactor u num := by
  have : (2 : ℝ) ≤ num := by exact_mod_cast h2
  have g0 := pow_ge hu 4
  have : 0 ≤ 3 * ((num : ℝ) - 1) * ((1 + u) ^ 4 - 1) := mul_nonneg (by linarith) (by linarith)
  rw [gridFactor]
  linarith

theorem spacing_close {u : ℝ} (hu : 0 ≤ u) {L : ℝ} (hL : 0 ≤ L) {num : ℕ} (h2 : 2 ≤ num) {x : ℕ → ℝ}
    (h : FloatLinspace u (-L) L num x) {i : ℕ} (hi : i + 1 < num) {d : ℝ} (hd : Near u (x (i + 1) - x i : ℝ) d) :
    Close (gridFactor u num * (1 + u)) d (GridLimit.dx L num : ℝ) (GridLimit.dx L num) := by
  refine Close.near hu (x := ((x (i + 1) - x i : ℝ) : ℂ)) ?_ hd
  have hn : (0 : ℝ) < (num : ℝ) - 1 := by
    have : (2 : ℝ) ≤ num := by exact_mod_cast h2
    linarith
  have h0 : 0 ≤ GridLimit.dx L num := by
    rw [GridLimit.dx]
    positivity
  rw [close_real]
  refine ⟨?_, (abs_of_nonneg h0).le⟩
  have a1 := abs_le.1 (linspace_within hu hL h2 h (show i < num by omega)).1
  have a2 := abs_le.1 (linspace_within hu hL h2 h hi).1
  have e : (gridFactor u num - 1) * GridLimit.dx L num = 6 * ((1 + u) ^ 4 - 1) * L := by
    rw [gridFactor, GridLimit.dx]
    field_simp
    ring
  rw [e]
  simp only [pt, Nat.cast_add, Nat.cast_one, add_mul, one_mul] at a1 a2
  rw [abs_le]
  constructor <;> linarith

/-! ## The trapezoidal rules -/

theorem half_sum_le {n : ℕ} {d : ℝ} (hd : 0 ≤ d) {T : ℕ → ℝ} (hT : ∀ i < n, 0 ≤ T i) :
    ∑ i ∈ range (n - 1), 1 / 2 * (T i + T (i + 1)) * d ≤ d * ∑ i ∈ range n, T i := by
  rcases n with _ | n
  · simp
  rw [Nat.add_sub_cancel]
  have h1 := sum_range_succ T n
  have h2 := sum_range_succ' T n
  have h3 := hT n (by omega)
  have h4 := hT 0 (by omega)
  rw [← sum_mul, ← mul_sum, sum_add_distrib, mul_comm]
  refine mul_le_mul_of_nonneg_left ?_ hd
  linarith

theorem trapezoid_pt (L : ℝ) (num : ℕ) (f : ℕ → ℂ) :
    trapezoid num (pt L num) f =
      ∑ i ∈ range (num - 1), 1 / 2 * (f i + f (i + 1)) * (GridLimit.dx L num : ℝ) := by
  unfold trapezoid
  refine sum_congr rfl fun i _ => ?_
  simp only [pt]
  push_cast
  ring

theorem FloatTrapz.close {u : ℝ} (hu : 0 ≤ u) {L : ℝ} (hL : 0 ≤ L) {num : ℕ} (h2 : 2 ≤ num) {x : ℕ → ℝ}
    (hx : FloatLinspace u (-L) L num x) {c : ℝ} (hc : 1 ≤ c) {d : ℕ} {f e : ℕ → ℂ} {T : ℕ → ℝ} {z : ℂ}
    (h : ∀ i < num, Close c (f i) (e i) (T i)) (hz : FloatTrapz u d num f x z) :
    Close (c * (1 + u) ^ (d + 4) * gridFactor u num) z (trapezoid num (pt L num) e)
      (GridLimit.dx L num * ∑ i ∈ range num, T i) := by
  obtain ⟨dx, t, v, w, h1, h3, h4, h5, h6⟩ := hz
  have hu1 : 1 ≤ 1 + u := by linarith
  have hg := one_le_gridFactor hu h2
  have hd := spacing_close hu hL h2 hx (i := 0) (by omega) (by simpa using h1)
  have c1 := Close.trace hu (c := c * (1 + u)) (one_le_mul_of_one_le_of_one_le hc hu1)
    (e := fun i => e i + e (i + 1)) (T := fun i => T i + T (i + 1))
    (fun i hi => ((h i (by omega)).add (h (i + 1) (by omega))).near hu (h3 i hi)) h4
  have k1 : 1 ≤ c * (1 + u) * (1 + u) ^ d :=
    one_le_mul_of_one_le_of_one_le (one_le_mul_of_one_le_of_one_le hc hu1) (pow_ge hu d)
  have c2 := ((Close.exact (1 / 2 : ℂ)).mul le_rfl c1).near hu h5
  have c3 := (c2.mul (by rw [one_mul]; exact one_le_mul_of_one_le_of_one_le k1 hu1) hd).near hu h6
  have c4 := c3.mono (c' := c * (1 + u) ^ (d + 4) * gridFactor u num) (le_of_eq (by ring))
  have k2 : 1 ≤ c * (1 + u) ^ (d + 4) * gridFactor u num :=
    one_le_mul_of_one_le_of_one_le (one_le_mul_of_one_le_of_one_le hc (pow_ge hu _)) hg
  rw [mul_sum, sum_mul, ← trapezoid_pt] at c4
  refine c4.weaken k2 ?_
  have hd0 : 0 ≤ GridLimit.dx L num := hd.nonneg
  refine le_trans (le_of_eq ?_) (half_sum_le hd0 fun i hi => (h i hi).nonneg)
  rw [mul_sum, sum_mul]
  refine sum_congr rfl fun i _ => ?_
  norm_num

theorem FloatNpTrapz.close {u : ℝ} (hu : 0 ≤ u) {L : ℝ} (hL : 0 ≤ L) {num : ℕ} (h2 : 2 ≤ num) {x : ℕ → ℝ}
    (hx : FloatLinspace u (-L) L num x) {c : ℝ} (hc : 1 ≤ c) {d : ℕ} {f e : ℕ → ℂ} {T : ℕ → ℝ} {z : ℂ}
    (h : ∀ i < num, Close c (f i) (e i) (T i)) (hz : FloatNpTrapz u d num f x z) :
    Close (c * (1 + u) ^ (d + 4) * gridFactor u num) z (trapezoid num (pt L num) e)
      (GridLimit.dx L num * ∑ i ∈ range num, T i) := by
  obtain ⟨dx, a, p, t, h1, h3⟩ := hz
  have hu1 : 1 ≤ 1 + u := by linarith
  have hg := one_le_gridFactor hu h2
  have hg1 : 1 ≤ gridFactor u num * (1 + u) := one_le_mul_of_one_le_of_one_le hg hu1
  have c1 : ∀ i < num - 1, Close (c * (1 + u) ^ 4 * gridFactor u num) (t i)
      (1 / 2 * (e i + e (i + 1)) * (GridLimit.dx L num : ℝ)) (1 / 2 * (T i + T (i + 1)) * GridLimit.dx L num) := by
    intro i hi
    obtain ⟨b1, b2, b3, b4⟩ := h1 i hi
    have s1 := spacing_close hu hL h2 hx (i := i) (by omega) b1
    have s2 := ((h (i + 1) (by omega)).add (h i (by omega))).near hu b2
    have s3 := (s1.mul hg1 s2).near hu b3
    have s4 := (s3.mul (one_le_mul_of_one_le_of_one_le (one_le_mul_of_one_le_of_one_le hg1
      (one_le_mul_of_one_le_of_one_le hc hu1)) hu1) (Close.exact (1 / 2 : ℂ))).near hu (z := t i) (by
        rwa [div_eq_mul_one_div] at b4)
    have s5 := s4.mono (c' := c * (1 + u) ^ 4 * gridFactor u num) (le_of_eq (by ring))
    convert s5 using 1
    · ring
    · norm_num
      ring
  have k1 : 1 ≤ c * (1 + u) ^ 4 * gridFactor u num :=
    one_le_mul_of_one_le_of_one_le (one_le_mul_of_one_le_of_one_le hc (pow_ge hu _)) hg
  have c2 := (Close.trace hu k1 c1 h3).mono (c' := c * (1 + u) ^ (d + 4) * gridFactor u num) (le_of_eq (by ring))
  rw [← trapezoid_pt] at c2
  have k2 : 1 ≤ c * (1 + u) ^ (d + 4) * gridFactor u num :=
    one_le_mul_of_one_le_of_one_le (one_le_mul_of_one_le_of_one_le hc (pow_ge hu _)) hg
  have hd0 : 0 ≤ GridLimit.dx L num := by
    have : (2 : ℝ) ≤ num := by exact_mod_cast h2
    rw [GridLimit.dx]
    exact div_nonneg (by linarith) (by linarith)
  exact c2.weaken k2 (half_sum_le hd0 fun i hi => (h i hi).nonneg)

theorem FloatProduct.close {u : ℝ} (hu : 0 ≤ u) {n : ℕ} {c : ℝ} (hc : 1 ≤ c) {f g h t e : ℕ → ℂ} {T : ℕ → ℝ}
    (hg : ∀ j < n, Close c (g j) (e j) (T j)) (ht : FloatProduct u n f g h t) {j : ℕ} (hj : j < n) :
    Close (c * (1 + u) ^ 2) (t j) (f j * e j * h j) (‖f j‖ * T j * ‖h j‖) := by
  obtain ⟨m, hm⟩ := ht
  obtain ⟨h1, h2⟩ := hm j hj
  have c1 := ((Close.exact (f j)).mul le_rfl (hg j hj)).near hu h1
  have c2 := (c1.mul (by rw [one_mul]; exact one_le_mul_of_one_le_of_one_le hc (by linarith)) (Close.exact (h j))).near
    hu h2
  exact c2.mono (le_of_eq (by ring))

/-! ## The interaction -/

theorem inv_le_sq {u : ℝ} (hu : 0 ≤ u) (h2 : u ≤ 1 / 2) : (1 - u)⁻¹ ≤ (1 + u) ^ 2 := by
  rw [inv_le_iff_one_le_mul₀ (by linarith)]
  have : 0 ≤ u * (1 - u - u ^ 2) := mul_nonneg hu (by nlinarith)
  linarith

/-- The computed interaction has a small relative error for the computed points. -/
theorem shield_rel {u : ℝ} (hu : 0 ≤ u) (hu2 : u ≤ 1 / 2) {x1 x2 alpha a w : ℝ} (ha : a ≠ 0)
    (h : FloatShield u x1 x2 alpha a w) :
    |w - alpha / Real.sqrt ((x1 - x2) ^ 2 + a ^ 2)| ≤
      ((1 + u) ^ 7 - 1) * |alpha / Real.sqrt ((x1 - x2) ^ 2 + a ^ 2)| := by
  obtain ⟨d, e, b, c, r, h1, h3, h4, h5, h6, h7⟩ := h
  set Q := (x1 - x2) ^ 2 + a ^ 2 with hQ
  have ha2 : 0 < a ^ 2 := by positivity
  have hQ0 : 0 < Q := by positivity
  have v0 : 0 < 1 - u := by linarith
  have v1 : 1 - u ≤ 1 := by linarith
  have d1 : (1 - u) ^ 2 * (x1 - x2) ^ 2 ≤ d ^ 2 ∧ d ^ 2 ≤ (1 + u) ^ 2 * (x1 - x2) ^ 2 := by
    rw [near_real] at h1
    have b1 : |d| ≤ (1 + u) * |x1 - x2| := by
      have := abs_sub_abs_le_abs_sub d (x1 - x2)
      linarith
    have b2 : (1 - u) * |x1 - x2| ≤ |d| := by
      have := abs_sub_abs_le_abs_sub (x1 - x2) d
      rw [abs_sub_comm (x1 - x2) d] at this
      linarith
    rw [← sq_abs d, ← sq_abs (x1 - x2), ← mul_pow, ← mul_pow]
    exact ⟨pow_le_pow_left₀ (by positivity) b2 2, pow_le_pow_left₀ (abs_nonneg d) b1 2⟩
  have e1 := near_bounds h3 (sq_nonneg d)
  have b1 := near_bounds h4 ha2.le
  have eb : (1 - u) ^ 3 * Q ≤ e + b ∧ e + b ≤ (1 + u) ^ 3 * Q := by
    have p1 : (1 - u) ^ 3 ≤ 1 - u := by
      have := pow_le_pow_of_le_one v0.le v1 (show 1 ≤ 3 by norm_num)
      linarith
    have p2 : 1 + u ≤ (1 + u) ^ 3 := by
      have := pow_le_pow_right₀ (show 1 ≤ 1 + u by linarith) (show 1 ≤ 3 by norm_num)
      linarith
    have q1 := mul_le_mul_of_nonneg_left d1.1 v0.le
    have q2 := mul_le_mul_of_nonneg_left d1.2 (show 0 ≤ 1 + u by linarith)
    have q3 := mul_le_mul_of_nonneg_right p1 ha2.le
    have q4 := mul_le_mul_of_nonneg_right p2 ha2.le
    rw [hQ]
    constructor
    · linarith [e1.1, b1.1]
    · linarith [e1.2, b1.2]
  have eb0 : 0 ≤ e + b := le_trans (by positivity) eb.1
  have c1 := near_bounds h5 eb0
  have cb : (1 - u) ^ 4 * Q ≤ c ∧ c ≤ (1 + u) ^ 4 * Q := by
    have q1 := mul_le_mul_of_nonneg_left eb.1 v0.le
    have q2 := mul_le_mul_of_nonneg_left eb.2 (show 0 ≤ 1 + u by linarith)
    constructor
    · linarith [c1.1]
    · linarith [c1.2]
  set R := Real.sqrt Q with hR
  have hR0 : 0 < R := Real.sqrt_pos.2 hQ0
  have hRR : R ^ 2 = Q := Real.sq_sqrt hQ0.le
  have sb : (1 - u) ^ 2 * R ≤ Real.sqrt c ∧ Real.sqrt c ≤ (1 + u) ^ 2 * R := by
    constructor
    · refine Real.le_sqrt_of_sq_le ?_
      rw [mul_pow, hRR]
      linarith [cb.1]
    · rw [Real.sqrt_le_left (by positivity), mul_pow, hRR]
      linarith [cb.2]
  have r1 := near_bounds h6 (Real.sqrt_nonneg c)
  have rb : (1 - u) ^ 3 * R ≤ r ∧ r ≤ (1 + u) ^ 3 * R := by
    have q1 := mul_le_mul_of_nonneg_left sb.1 v0.le
    have q2 := mul_le_mul_of_nonneg_left sb.2 (show 0 ≤ 1 + u by linarith)
    constructor
    · linarith [r1.1]
    · linarith [r1.2]
  have hr0 : 0 < r := lt_of_lt_of_le (by positivity) rb.1
  have q6 : |R / r - 1| ≤ (1 + u) ^ 6 - 1 := by
    have p6 := pow_ge hu 6
    have p3 := pow_ge hu 3
    rw [abs_le]
    constructor
    · have : 1 / (1 + u) ^ 3 ≤ R / r := by
        rw [div_le_div_iff₀ (by positivity) hr0]
        linarith [rb.2]
      have t : 2 - (1 + u) ^ 3 ≤ 1 / (1 + u) ^ 3 := by
        rw [le_div_iff₀ (by positivity)]
        nlinarith
      have t2 : (1 + u) ^ 3 ≤ (1 + u) ^ 6 := pow_le_pow_right₀ (by linarith) (by norm_num)
      linarith
    · have : R / r ≤ 1 / (1 - u) ^ 3 := by
        rw [div_le_div_iff₀ hr0 (by positivity)]
        linarith [rb.1]
      have t : 1 / (1 - u) ^ 3 ≤ (1 + u) ^ 6 := by
        rw [one_div, ← inv_pow, show (1 + u) ^ 6 = ((1 + u) ^ 2) ^ 3 by ring]
        exact pow_le_pow_left₀ (inv_nonneg.2 v0.le) (inv_le_sq hu hu2) 3
      linarith
  have w6 : Within u 6 ((alpha / r : ℝ) : ℂ) ((alpha / R : ℝ) : ℂ) |alpha / R| := by
    constructor
    · rw [← Complex.ofReal_sub, Complex.norm_real, Real.norm_eq_abs,
        show alpha / r - alpha / R = (R / r - 1) * (alpha / R) by field_simp, abs_mul]
      exact mul_le_mul_of_nonneg_right q6 (abs_nonneg _)
    · rw [Complex.norm_real, Real.norm_eq_abs]
  have w7 := (w6.near hu h7).1
  rwa [← Complex.ofReal_sub, Complex.norm_real, Real.norm_eq_abs] at w7

/-- The interaction changes little when the points are moved. -/
theorem shield_move {s t alpha a : ℝ} (ha : a ≠ 0) :
    |alpha / Real.sqrt (s ^ 2 + a ^ 2) - alpha / Real.sqrt (t ^ 2 + a ^ 2)| ≤ |s - t| / |a| * (|alpha| / |a|) := by
  have hA : |a| ≤ Real.sqrt (s ^ 2 + a ^ 2) := Real.abs_le_sqrt (by nlinarith [sq_nonneg s])
  have hB : |a| ≤ Real.sqrt (t ^ 2 + a ^ 2) := Real.abs_le_sqrt (by nlinarith [sq_nonneg t])
  have ha0 : 0 < |a| := abs_pos.2 ha
  set A := Real.sqrt (s ^ 2 + a ^ 2) with hAd
  set B := Real.sqrt (t ^ 2 + a ^ 2) with hBd
  have A0 : 0 < A := ha0.trans_le hA
  have B0 : 0 < B := ha0.trans_le hB
  have hAA : A ^ 2 = s ^ 2 + a ^ 2 := Real.sq_sqrt (by positivity)
  have hBB : B ^ 2 = t ^ 2 + a ^ 2 := Real.sq_sqrt (by positivity)
  have hsA : |s| ≤ A := Real.abs_le_sqrt (by nlinarith [sq_nonneg a])
  have htB : |t| ≤ B := Real.abs_le_sqrt (by nlinarith [sq_nonneg a])
  have hAB : |B - A| ≤ |s - t| := by
    have e : (B - A) * (A + B) = (t - s) * (s + t) := by nlinarith
    have h1 : |B - A| * (A + B) ≤ |s - t| * (A + B) := by
      rw [← abs_of_pos (show 0 < A + B by linarith), ← abs_mul, e, abs_mul, abs_sub_comm t s,
        abs_of_pos (show 0 < A + B by linarith)]
      exact mul_le_mul_of_nonneg_left ((abs_add_le s t).trans (add_le_add hsA htB)) (abs_nonneg _)
    exact le_of_mul_le_mul_right h1 (by linarith)
  rw [show alpha / A - alpha / B = alpha * (B - A) / (A * B) by field_simp, abs_div, abs_mul,
    abs_of_pos (mul_pos A0 B0), div_mul_div_comm, mul_comm |alpha|]
  exact div_le_div₀ (by positivity) (mul_le_mul_of_nonneg_right hAB (abs_nonneg _)) (by positivity)
    (mul_le_mul hA hB ha0.le A0.le)

/-- The factor for the interaction. -/
noncomputable def shieldFactor (u L a : ℝ) : ℝ := (1 + u) ^ 7 * (1 + 6 * (L / |a|) * ((1 + u) ^ 4 - 1))

theorem one_le_shieldFactor {u L a : ℝ} (hu : 0 ≤ u) (hL : 0 ≤ L) : 1 ≤ shieldFactor u L a := by
  have g0 := pow_ge hu 4
  have : 0 ≤ 6 * (L / |a|) * ((1 + u) ^ 4 - 1) := mul_nonneg (by positivity) (by linarith)
  exact one_le_mul_of_one_le_of_one_le (pow_ge hu 7) (by linarith)

theorem shield_le {s alpha a : ℝ} (ha : a ≠ 0) : |alpha / Real.sqrt (s ^ 2 + a ^ 2)| ≤ |alpha| / |a| := by
  rw [abs_div, abs_of_nonneg (Real.sqrt_nonneg _)]
  exact div_le_div_of_nonneg_left (abs_nonneg _) (abs_pos.2 ha) (Real.abs_le_sqrt (by nlinarith [sq_nonneg s]))

theorem shield_close {u : ℝ} (hu : 0 ≤ u) (hu2 : u ≤ 1 / 2) {L : ℝ} (hL : 0 ≤ L) {num : ℕ} (h2 : 2 ≤ num) {x : ℕ → ℝ}
    (hx : FloatLinspace u (-L) L num x) {alpha a w : ℝ} (ha : a ≠ 0) {i j : ℕ} (hi : i < num) (hj : j < num)
    (h : FloatShield u (x i) (x j) alpha a w) :
    Close (shieldFactor u L a) w ((alpha / Real.sqrt ((pt L num i - pt L num j) ^ 2 + a ^ 2) : ℝ) : ℂ)
      (|alpha| / |a|) := by
  rw [close_real]
  refine ⟨?_, shield_le ha⟩
  have h1 := shield_rel hu hu2 ha h
  have h3 := shield_move (s := x i - x j) (t := pt L num i - pt L num j) (alpha := alpha) ha
  have ha0 : 0 < |a| := abs_pos.2 ha
  have hW : 0 ≤ |alpha| / |a| := by positivity
  set g := (1 + u) ^ 4 - 1 with hg
  have g0 : 0 ≤ g := by
    have := pow_ge hu 4
    linarith
  have h4 : |x i - x j - (pt L num i - pt L num j)| ≤ 6 * g * L := by
    have a1 := abs_le.1 (linspace_within hu hL h2 hx hi).1
    have a2 := abs_le.1 (linspace_within hu hL h2 hx hj).1
    rw [abs_le]
    constructor <;> linarith
  have h5 : |x i - x j - (pt L num i - pt L num j)| / |a| ≤ 6 * (L / |a|) * g := by
    rw [show 6 * (L / |a|) * g = 6 * g * L / |a| by ring]
    exact div_le_div_of_nonneg_right h4 ha0.le
  set E := alpha / Real.sqrt ((x i - x j) ^ 2 + a ^ 2) with hE
  set F := alpha / Real.sqrt ((pt L num i - pt L num j) ^ 2 + a ^ 2) with hF
  set δ := 6 * (L / |a|) * g with hδ
  have h6 : |E - F| ≤ δ * (|alpha| / |a|) := h3.trans (mul_le_mul_of_nonneg_right h5 hW)
  have h7 : |E| ≤ |alpha| / |a| := shield_le ha
  have p7 := pow_ge hu 7
  have hδ0 : 0 ≤ δ := by positivity
  have h8 : |w - F| ≤ |w - E| + |E - F| := abs_sub_le w E F
  have h9 := mul_le_mul_of_nonneg_left h7 (show 0 ≤ (1 + u) ^ 7 - 1 by linarith)
  have h10 : δ ≤ (1 + u) ^ 7 * δ := le_mul_of_one_le_left hδ0 p7
  have h11 := mul_le_mul_of_nonneg_right h10 hW
  rw [shieldFactor, ← hg, ← hδ]
  nlinarith

/-! ## The elements -/

/-- The factor for the two-body elements. -/
noncomputable def lineFactor (u : ℝ) (d num : ℕ) (L a : ℝ) : ℝ :=
  shieldFactor u L a * (1 + u) ^ (2 * d + 12) * gridFactor u num ^ 2

/-- `dx Σ |f| |g|`. -/
noncomputable def absOverlap (L : ℝ) (num : ℕ) (f g : ℕ → ℂ) : ℝ :=
  GridLimit.dx L num * ∑ j ∈ range num, ‖f j‖ * ‖g j‖

theorem inner_close {u : ℝ} (hu : 0 ≤ u) (hu2 : u ≤ 1 / 2) {L : ℝ} (hL : 0 ≤ L) {num : ℕ} (h2 : 2 ≤ num) {x : ℕ → ℝ}
    (hx : FloatLinspace u (-L) L num x) {alpha a : ℝ} (ha : a ≠ 0) {d : ℕ} {spf : NDArray ℂ} {q s i : ℕ} {z : ℂ}
    (hi : i < num) (h : FloatInnerIntegral u d num spf x alpha a q s i z) :
    Close (shieldFactor u L a * (1 + u) ^ (d + 6) * gridFactor u num) z
      (trapezoid num (pt L num) fun j => (starRingEnd ℂ) (spf.get [q, j]) *
        ((alpha / Real.sqrt ((pt L num i - pt L num j) ^ 2 + a ^ 2) : ℝ) : ℂ) * spf.get [s, j])
      (|alpha| / |a| * absOverlap L num (fun j => spf.get [q, j]) fun j => spf.get [s, j]) := by
  obtain ⟨w, t, h1, h3, h4⟩ := h
  have hs := one_le_shieldFactor (a := a) hu hL
  have c1 := fun j (hj : j < num) => FloatProduct.close hu hs (T := fun _ => |alpha| / |a|)
    (e := fun j => ((alpha / Real.sqrt ((pt L num i - pt L num j) ^ 2 + a ^ 2) : ℝ) : ℂ))
    (fun j hj => shield_close hu hu2 hL h2 hx ha hi hj (h1 j hj)) h3 hj
  have c2 := FloatTrapz.close hu hL h2 hx (one_le_mul_of_one_le_of_one_le hs (pow_ge hu 2)) c1 h4
  refine (c2.mono (le_of_eq (by ring))).weaken ?_ (le_of_eq ?_)
  · exact one_le_mul_of_one_le_of_one_le (one_le_mul_of_one_le_of_one_le hs (pow_ge hu _)) (one_le_gridFactor hu h2)
  · simp only [RCLike.norm_conj]
    rw [absOverlap, mul_left_comm, mul_sum (a := |alpha| / |a|)]
    exact congrArg _ (sum_congr rfl fun j _ => by ring)

theorem orbital_close {u : ℝ} (hu : 0 ≤ u) (hu2 : u ≤ 1 / 2) {L : ℝ} (hL : 0 ≤ L) {num : ℕ} (h2 : 2 ≤ num) {x : ℕ → ℝ}
    (hx : FloatLinspace u (-L) L num x) {alpha a : ℝ} (ha : a ≠ 0) {d l : ℕ} {spf U : NDArray ℂ}
    (h : FloatOrbitalIntegrals u d l num spf x alpha a U) {p q r s : ℕ} (hp : p < l) (hq : q < l) (hr : r < l)
    (hs : s < l) :
    Close (lineFactor u d num L a) (U.get [p, q, r, s])
      (OneDim.coulombSum num (pt L num) (fun p j => spf.get [p, j]) alpha a p q r s)
      (|alpha| / |a| * absOverlap L num (fun j => spf.get [p, j]) (fun j => spf.get [r, j]) *
        absOverlap L num (fun j => spf.get [q, j]) fun j => spf.get [s, j]) := by
  obtain ⟨inner, h1, h3⟩ := h
  obtain ⟨t, h4, h5⟩ := h3 p hp q hq r hr s hs
  have k1 : 1 ≤ shieldFactor u L a * (1 + u) ^ (d + 6) * gridFactor u num :=
    one_le_mul_of_one_le_of_one_le (one_le_mul_of_one_le_of_one_le (one_le_shieldFactor hu hL) (pow_ge hu _))
      (one_le_gridFactor hu h2)
  have c1 := fun j (hj : j < num) => FloatProduct.close hu k1
    (fun i hi => inner_close hu hu2 hL h2 hx ha hi (h1 q hq s hs i hi)) h4 hj
  have c2 := FloatTrapz.close hu hL h2 hx (one_le_mul_of_one_le_of_one_le k1 (pow_ge hu 2)) c1 h5
  have k2 : 1 ≤ lineFactor u d num L a :=
    one_le_mul_of_one_le_of_one_le (one_le_mul_of_one_le_of_one_le (one_le_shieldFactor hu hL) (pow_ge hu _))
      (one_le_pow₀ (one_le_gridFactor hu h2))
  have c3 := (c2.mono (c' := lineFactor u d num L a) (le_of_eq (by rw [lineFactor]; ring)))
  have e : OneDim.coulombSum num (pt L num) (fun p j => spf.get [p, j]) alpha a p q r s =
      trapezoid num (pt L num) fun i => (starRingEnd ℂ) (spf.get [p, i]) *
        (trapezoid num (pt L num) fun j => (starRingEnd ℂ) (spf.get [q, j]) *
        ((alpha / Real.sqrt ((pt L num i - pt L num j) ^ 2 + a ^ 2) : ℝ) : ℂ) * spf.get [s, j]) * spf.get [r, i] := by
    unfold OneDim.coulombSum
    refine OneDim.trapezoid_congr fun i _ => ?_
    rw [OneDim.trapezoid_mul, mul_comm, OneDim.trapezoid_mul]
    exact OneDim.trapezoid_congr fun j _ => by ring
  rw [e]
  refine c3.weaken k2 (le_of_eq ?_)
  simp only [RCLike.norm_conj]
  generalize absOverlap L num (fun j => spf.get [q, j]) (fun j => spf.get [s, j]) = X
  rw [absOverlap, show ∀ A B C D : ℝ, A * (B * C) * D = B * (A * D * C) from fun _ _ _ _ => by ring, mul_sum, mul_sum,
    mul_sum]
  exact sum_congr rfl fun j _ => by ring

/-- The factor for the dipole elements. -/
noncomputable def dipoleFactor (u : ℝ) (d num : ℕ) : ℝ :=
  (1 + 3 * ((1 + u) ^ 4 - 1)) ^ 2 * (1 + u) ^ (d + 9) * gridFactor u num

theorem position_close {u : ℝ} (hu : 0 ≤ u) {L : ℝ} (hL : 0 ≤ L) {num : ℕ} (h2 : 2 ≤ num) {x : ℕ → ℝ}
    (hx : FloatLinspace u (-L) L num x) {beta g : ℝ} {j : ℕ} (hj : j < num) (h : FloatPosition u beta (x j) g) :
    Close ((1 + 3 * ((1 + u) ^ 4 - 1)) ^ 2 * (1 + u) ^ 3) g ((pt L num j + beta * pt L num j ^ 2 : ℝ) : ℂ)
      (L + |beta| * L ^ 2) := by
  obtain ⟨s, b, h1, h3, h4⟩ := h
  have g0 := pow_ge hu 4
  set k := 1 + 3 * ((1 + u) ^ 4 - 1) with hk
  have k1 : 1 ≤ k := by rw [hk]; linarith
  have hu1 : 1 ≤ 1 + u := by linarith
  have c1 : Close k (x j : ℂ) (pt L num j : ℝ) L := by
    rw [close_real]
    obtain ⟨a1, a2⟩ := linspace_within hu hL h2 hx hj
    exact ⟨by rw [hk]; linarith, a2⟩
  have c2 := (c1.mul k1 c1).near hu (z := s) (by rwa [pow_two, Complex.ofReal_mul] at h1)
  have cb := Close.exact (beta : ℂ)
  rw [Complex.norm_real, Real.norm_eq_abs] at cb
  have c3 := (cb.mul le_rfl c2).near hu (z := b) (by rwa [Complex.ofReal_mul] at h3)
  have c4 := c1.mono (c' := 1 * (k * k * (1 + u)) * (1 + u)) (by
    have : 1 ≤ k * (1 + u) * (1 + u) :=
      one_le_mul_of_one_le_of_one_le (one_le_mul_of_one_le_of_one_le k1 hu1) hu1
    nlinarith)
  have c5 := (c4.add c3).near hu (z := g) (by rwa [Complex.ofReal_add] at h4)
  have c6 := c5.mono (c' := k ^ 2 * (1 + u) ^ 3) (le_of_eq (by ring))
  convert c6 using 1
  · push_cast
    ring
  · ring

theorem dipole_close {u : ℝ} (hu : 0 ≤ u) {L : ℝ} (hL : 0 ≤ L) {num : ℕ} (h2 : 2 ≤ num) {x : ℕ → ℝ}
    (hx : FloatLinspace u (-L) L num x) {beta : ℝ} {d l : ℕ} {spf D : NDArray ℂ}
    (h : FloatLineDipole u d l num spf x beta D) {p q : ℕ} (hp : p < l) (hq : q < l) :
    Close (dipoleFactor u d num) (D.get [0, p, q])
      (trapezoid num (pt L num) fun j => (starRingEnd ℂ) (spf.get [p, j]) *
        ((pt L num j + beta * pt L num j ^ 2 : ℝ) : ℂ) * spf.get [q, j])
      ((L + |beta| * L ^ 2) * absOverlap L num (fun j => spf.get [p, j]) fun j => spf.get [q, j]) := by
  obtain ⟨g, h1, h3⟩ := h
  obtain ⟨t, h4, h5⟩ := h3 p hp q hq
  have g0 := pow_ge hu 4
  have k1 : 1 ≤ (1 + 3 * ((1 + u) ^ 4 - 1)) ^ 2 := one_le_pow₀ (by linarith)
  have k2 := one_le_mul_of_one_le_of_one_le k1 (pow_ge hu 3)
  have c1 := fun j (hj : j < num) => FloatProduct.close hu k2 (T := fun _ => L + |beta| * L ^ 2)
    (e := fun j => ((pt L num j + beta * pt L num j ^ 2 : ℝ) : ℂ))
    (fun i hi => position_close hu hL h2 hx hi (h1 i hi)) h4 hj
  have c2 := FloatNpTrapz.close hu hL h2 hx (one_le_mul_of_one_le_of_one_le k2 (pow_ge hu 2)) c1 h5
  refine (c2.mono (c' := dipoleFactor u d num) (le_of_eq (by rw [dipoleFactor]; ring))).weaken ?_ (le_of_eq ?_)
  · exact one_le_mul_of_one_le_of_one_le (one_le_mul_of_one_le_of_one_le k1 (pow_ge hu _)) (one_le_gridFactor hu h2)
  · simp only [RCLike.norm_conj]
    rw [absOverlap, mul_left_comm, mul_sum (a := L + |beta| * L ^ 2)]
    exact congrArg _ (sum_congr rfl fun j _ => by ring)

end QS.Rounding
