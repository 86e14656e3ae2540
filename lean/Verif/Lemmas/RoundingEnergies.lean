import Verif.Model.RoundingEnergies
import Verif.Lemmas.RoundingLine
import Verif.Lemmas.Weyl
import Verif.Props.GridEnergies

/-!
# Lemmas for the rounding errors of the energies of one-dimensional quantum dots
-/

namespace QS.Props

open Finset Spec OneDim NDArray QS.Rounding

/-! ## Forms of tridiagonal matrices -/

/-- Schur's test. -/
theorem schur_form {n : ℕ} {e : ℕ → ℕ → ℂ} {R : ℝ} (hr : ∀ i < n, ∑ j ∈ range n, ‖e i j‖ ≤ R)
    (hc : ∀ j < n, ∑ i ∈ range n, ‖e i j‖ ≤ R) (f : ℕ → ℂ) :
    |(∑ i ∈ range n, (starRingEnd ℂ) (f i) * ∑ j ∈ range n, e i j * f j).re| ≤ R * ∑ j ∈ range n, ‖f j‖ ^ 2 := by
  refine (Complex.abs_re_le_norm _).trans ((norm_sum_le _ _).trans ?_)
  have h1 : ∀ i ∈ range n, ‖(starRingEnd ℂ) (f i) * ∑ j ∈ range n, e i j * f j‖ ≤
      ∑ j ∈ range n, (‖e i j‖ * ‖f i‖ ^ 2 / 2 + ‖e i j‖ * ‖f j‖ ^ 2 / 2) := fun i _ => by
    rw [norm_mul, RCLike.norm_conj]
    refine (mul_le_mul_of_nonneg_left (norm_sum_le _ _) (norm_nonneg _)).trans ?_
    rw [mul_sum]
    refine sum_le_sum fun j _ => ?_
    rw [norm_mul]
    nlinarith [mul_nonneg (norm_nonneg (e i j)) (sq_nonneg (‖f i‖ - ‖f j‖))]
  refine (sum_le_sum h1).trans ?_
  simp only [sum_add_distrib]
  have h2 : ∑ i ∈ range n, ∑ j ∈ range n, ‖e i j‖ * ‖f i‖ ^ 2 / 2 ≤ R / 2 * ∑ j ∈ range n, ‖f j‖ ^ 2 := by
    rw [mul_sum]
    refine sum_le_sum fun i hi => ?_
    rw [← sum_div, ← sum_mul]
    have := mul_le_mul_of_nonneg_right (hr i (mem_range.1 hi)) (sq_nonneg ‖f i‖)
    linarith
  have h3 : ∑ i ∈ range n, ∑ j ∈ range n, ‖e i j‖ * ‖f j‖ ^ 2 / 2 ≤ R / 2 * ∑ j ∈ range n, ‖f j‖ ^ 2 := by
    rw [sum_comm, mul_sum]
    refine sum_le_sum fun i hi => ?_
    rw [← sum_div, ← sum_mul]
    have := mul_le_mul_of_nonneg_right (hc i (mem_range.1 hi)) (sq_nonneg ‖f i‖)
    linarith
  linarith

theorem tri_sum {n : ℕ} {g : ℕ → ℝ} {α β : ℝ} (hα : 0 ≤ α) (hβ : 0 ≤ β) {i : ℕ}
    (hg : ∀ j < n, g j ≤ if i = j then α else if i + 1 = j ∨ j + 1 = i then β else 0) :
    ∑ j ∈ range n, g j ≤ α + 2 * β := by
  have h1 : ∀ j ∈ range n, g j ≤ (if i = j then α else 0) + (if i + 1 = j then β else 0) + if i - 1 = j then β else 0 := by
    intro j hj
    refine (hg j (mem_range.1 hj)).trans ?_
    split_ifs <;> first | linarith | omega
  refine (sum_le_sum h1).trans ?_
  rw [sum_add_distrib, sum_add_distrib, sum_ite_eq, sum_ite_eq, sum_ite_eq]
  split_ifs <;> linarith

theorem tri_form {n : ℕ} {e : ℕ → ℕ → ℂ} {α β : ℝ} (hα : 0 ≤ α) (hβ : 0 ≤ β)
    (he : ∀ i < n, ∀ j < n, ‖e i j‖ ≤ if i = j then α else if i + 1 = j ∨ j + 1 = i then β else 0) (f : ℕ → ℂ) :
    |(∑ i ∈ range n, (starRingEnd ℂ) (f i) * ∑ j ∈ range n, e i j * f j).re| ≤
      (α + 2 * β) * ∑ j ∈ range n, ‖f j‖ ^ 2 := by
  refine schur_form (fun i hi => tri_sum hα hβ (fun j hj => he i hi j hj)) (fun j hj => tri_sum hα hβ (i := j)
    fun i hi => (he i hi j hj).trans (le_of_eq ?_)) f
  congr 1
  · exact propext eq_comm
  · congr 1
    exact propext or_comm

theorem form_diag {n : ℕ} (g : ℕ → ℝ) (f : ℕ → ℂ) :
    (∑ i ∈ range n, (starRingEnd ℂ) (f i) * ∑ j ∈ range n, (if i = j then (g i : ℂ) else 0) * f j).re =
      ∑ j ∈ range n, g j * ‖f j‖ ^ 2 := by
  rw [Complex.re_sum]
  refine sum_congr rfl fun i hi => ?_
  rw [sum_eq_single i (fun j _ hj => by rw [if_neg (Ne.symm hj), zero_mul]) (fun h => (h hi).elim), if_pos rfl,
    mul_left_comm, Complex.conj_mul', ← Complex.ofReal_pow, ← Complex.ofReal_mul, Complex.ofReal_re]

/-- The entries of the matrix of the kinetic energy for the squared spacing `1 / k`. -/
noncomputable def kinEntry (k : ℝ) (p q : ℕ) : ℂ := if p = q then (k : ℂ) else if p + 1 = q ∨ q + 1 = p then -(k : ℂ) / 2 else 0

/-- The kinetic energy for unit spacing. -/
noncomputable def kinForm (n : ℕ) (f : ℕ → ℂ) : ℝ :=
  (∑ i ∈ range n, (starRingEnd ℂ) (f i) * ∑ j ∈ range n, kinEntry 1 i j * f j).re

theorem kinForm_nonneg (n : ℕ) (f : ℕ → ℂ) : 0 ≤ kinForm n f := by
  have h1 := tri_form (n := n) (e := fun i j => kinEntry 1 i j - if i = j then ((1 : ℝ) : ℂ) else 0) (α := 0) (β := 1 / 2)
    le_rfl (by norm_num) (fun i _ j _ => by
      unfold kinEntry
      split_ifs <;> simp) f
  have h2 := form_diag (n := n) (fun _ => 1) f
  have h3 : (∑ i ∈ range n, (starRingEnd ℂ) (f i) *
      ∑ j ∈ range n, (kinEntry 1 i j - if i = j then ((1 : ℝ) : ℂ) else 0) * f j).re = kinForm n f - ∑ j ∈ range n, 1 * ‖f j‖ ^ 2 := by
    rw [← h2, kinForm, ← Complex.sub_re, ← sum_sub_distrib]
    congr 1
    refine sum_congr rfl fun i _ => ?_
    rw [← mul_sub, ← sum_sub_distrib]
    simp only [sub_mul]
  rw [h3, abs_le] at h1
  simp only [one_mul] at h1
  linarith [h1.1]

/-- A matrix close to kinetic energy and potential. -/
theorem near_kin {n : ℕ} {M : NDArray ℂ} {k α β : ℝ} {g : ℕ → ℝ} (hα : 0 ≤ α) (hβ : 0 ≤ β)
    (hM : ∀ i < n, ∀ j < n, ‖M.get [i, j] - (kinEntry k i j + if i = j then (g i : ℂ) else 0)‖ ≤
      if i = j then α else if i + 1 = j ∨ j + 1 = i then β else 0) (f : ℕ → ℂ) :
    |matForm n M f - (k * kinForm n f + ∑ j ∈ range n, g j * ‖f j‖ ^ 2)| ≤ (α + 2 * β) * ∑ j ∈ range n, ‖f j‖ ^ 2 := by
  have h1 := tri_form hα hβ hM f
  have e : (∑ i ∈ range n, (starRingEnd ℂ) (f i) *
      ∑ j ∈ range n, (M.get [i, j] - (kinEntry k i j + if i = j then (g i : ℂ) else 0)) * f j).re =
      matForm n M f - (k * kinForm n f + ∑ j ∈ range n, g j * ‖f j‖ ^ 2) := by
    have e1 : ∀ i j, kinEntry k i j = k * kinEntry 1 i j := fun i j => by
      unfold kinEntry
      split_ifs
      · simp
      · push_cast
        ring
      · simp
    rw [← form_diag, matForm, kinForm, ← Complex.re_ofReal_mul, ← Complex.add_re, ← Complex.sub_re, mul_sum,
      ← sum_add_distrib, ← sum_sub_distrib]
    congr 1
    refine sum_congr rfl fun i _ => ?_
    rw [mul_left_comm, ← mul_add, ← mul_sub]
    congr 1
    rw [mul_sum, ← sum_add_distrib, ← sum_sub_distrib]
    refine sum_congr rfl fun j _ => ?_
    rw [e1]
    ring
  rwa [e] at h1

/-! ## Eigenvalues for a slightly wrong spacing -/

theorem scaled_levels {n : ℕ} {G w v M' w' v' : NDArray ℂ} (F : EighOK n G w v) (F' : EighOK n M' w' v') {k ρ B κ : ℝ}
    (hk : 0 ≤ k) (hρ : 0 < ρ) (hκ : 0 ≤ κ) {g : ℕ → ℝ} (hB : ∀ j < n, -B ≤ g j)
    (hG : ∀ f, matForm n G f = k * kinForm n f + ∑ j ∈ range n, g j * ‖f j‖ ^ 2)
    (hM : ∀ f, |matForm n M' f - (ρ * k * kinForm n f + ∑ j ∈ range n, g j * ‖f j‖ ^ 2)| ≤ κ * ∑ j ∈ range n, ‖f j‖ ^ 2)
    {p : ℕ} (hp : p < n) :
    |(w'.get [p]).re - (w.get [p]).re| ≤ |ρ - 1| * ((w.get [p]).re + B) + κ := by
  have hV : ∀ f : ℕ → ℂ, -B * ∑ j ∈ range n, ‖f j‖ ^ 2 ≤ ∑ j ∈ range n, g j * ‖f j‖ ^ 2 := fun f => by
    rw [mul_sum]
    exact sum_le_sum fun j hj => mul_le_mul_of_nonneg_right (hB j (mem_range.1 hj)) (sq_nonneg _)
  have hT : ∀ f, 0 ≤ k * kinForm n f := fun f => mul_nonneg hk (kinForm_nonneg n f)
  have a3 : 0 ≤ (w.get [p]).re + B := by
    have a5 : matForm n G (fun j => v.get [j, p]) = (w.get [p]).re := by
      have := (F.form_comb (m := p + 1) (by omega) fun i => if i = p then 1 else 0).2
      simpa [sum_ite_eq, apply_ite] using this
    have a6 := hG fun j => v.get [j, p]
    have a7 := hV fun j => v.get [j, p]
    have a8 : ∑ j ∈ range n, ‖v.get [j, p]‖ ^ 2 = 1 := by
      have := F.orthonormal p p hp hp
      rw [sum_conj_self, if_pos rfl] at this
      exact_mod_cast this
    rw [a8] at a7
    have := hT fun j => v.get [j, p]
    linarith
  rcases le_total 1 ρ with h1 | h1
  · have a1 := F.le_of_form F' (A := ρ) (c := (ρ - 1) * B + κ) hρ.le (fun f => by
      have := (abs_le.1 (hM f)).2
      have h2 := mul_le_mul_of_nonneg_left (hV f) (sub_nonneg.2 h1)
      rw [hG]
      nlinarith) hp
    have a2 := F'.le_of_form F (A := 1) (c := κ) zero_le_one (fun f => by
      have := (abs_le.1 (hM f)).1
      have h2 := mul_nonneg (sub_nonneg.2 h1) (hT f)
      rw [hG]
      nlinarith) hp
    rw [abs_of_nonneg (sub_nonneg.2 h1), abs_le]
    have a4 := mul_nonneg (sub_nonneg.2 h1) a3
    constructor <;> nlinarith
  · have a1 := F.le_of_form F' (A := 1) (c := κ) zero_le_one (fun f => by
      have := (abs_le.1 (hM f)).2
      have h2 := mul_nonneg (sub_nonneg.2 h1) (hT f)
      rw [hG]
      nlinarith) hp
    have a2 := F'.le_of_form F (A := 1 / ρ) (c := 1 / ρ * ((1 - ρ) * B + κ)) (by positivity) (fun f => by
      have := (abs_le.1 (hM f)).1
      have h2 := mul_le_mul_of_nonneg_left (hV f) (sub_nonneg.2 h1)
      rw [hG, mul_assoc, ← mul_add, one_div, inv_mul_eq_div, le_div_iff₀ hρ]
      nlinarith) hp
    rw [← mul_add, one_div, inv_mul_eq_div, le_div_iff₀ hρ] at a2
    rw [abs_of_nonpos (sub_nonpos.2 h1)]
    have a4 := mul_nonneg (sub_nonneg.2 h1) a3
    rw [abs_le]
    constructor <;> nlinarith

/-! ## The roundings of the entries -/

theorem inverse_square {u d s i t o : ℝ} (hu : 0 ≤ u) (hu8 : u ≤ 1 / 8) (hd : d ≠ 0) (h1 : Near u (d ^ 2 : ℝ) s)
    (h2 : Near u (1 / s : ℝ) i) (h3 : Near u (2 * s : ℝ) t) (h4 : Near u (-1 / t : ℝ) o) :
    |i - 1 / d ^ 2| ≤ 3 * u * (1 / d ^ 2) ∧ |o - -(1 / d ^ 2) / 2| ≤ 2 * u * (1 / d ^ 2) := by
  rw [near_real] at h1 h2 h3 h4
  have hd2 : 0 < d ^ 2 := by positivity
  rw [abs_of_pos hd2] at h1
  have hs : 7 / 8 * d ^ 2 ≤ s := by nlinarith [(abs_le.1 h1).1]
  have hs0 : 0 < s := by linarith
  rw [abs_of_pos (by positivity : (0 : ℝ) < 1 / s)] at h2
  rw [abs_of_pos (by positivity : (0 : ℝ) < 2 * s)] at h3
  have ht : 7 / 4 * s ≤ t := by nlinarith [(abs_le.1 h3).1]
  have ht0 : 0 < t := by linarith
  rw [abs_div, abs_neg, abs_one, abs_of_pos ht0] at h4
  set k := 1 / d ^ 2 with hk
  have hk0 : 0 < k := by positivity
  have hkd : k * d ^ 2 = 1 := by rw [hk]; field_simp
  have b1 : 1 / s ≤ 8 / 7 * k := by
    rw [div_le_iff₀ hs0]
    nlinarith [mul_le_mul_of_nonneg_left hs hk0.le]
  have b2 : 1 / t ≤ 4 / 7 * (1 / s) := by
    rw [div_le_iff₀ ht0]
    have : 1 / s * s = 1 := by field_simp
    nlinarith [mul_le_mul_of_nonneg_left ht (by positivity : (0 : ℝ) ≤ 1 / s)]
  have c1 : |1 / s - k| ≤ u * (1 / s) := by
    have e : 1 / s - k = (d ^ 2 - s) * (k * (1 / s)) := by
      rw [hk]; field_simp
    rw [e, abs_mul, abs_sub_comm, abs_of_pos (by positivity : 0 < k * (1 / s))]
    calc |s - d ^ 2| * (k * (1 / s)) ≤ u * d ^ 2 * (k * (1 / s)) := mul_le_mul_of_nonneg_right h1 (by positivity)
      _ = u * (1 / s) * (k * d ^ 2) := by ring
      _ = _ := by rw [hkd, mul_one]
  have c2 : |1 / t - 1 / s / 2| ≤ u * (1 / t) := by
    have e : 1 / t - 1 / s / 2 = (2 * s - t) * (1 / (2 * s) * (1 / t)) := by
      field_simp
    rw [e, abs_mul, abs_sub_comm, abs_of_pos (by positivity : 0 < 1 / (2 * s) * (1 / t))]
    calc |t - 2 * s| * (1 / (2 * s) * (1 / t)) ≤ u * (2 * s) * (1 / (2 * s) * (1 / t)) :=
          mul_le_mul_of_nonneg_right h3 (by positivity)
      _ = _ := by field_simp
  have d1 := mul_le_mul_of_nonneg_left b1 hu
  have d2 := mul_le_mul_of_nonneg_left b2 hu
  have d3 : 0 ≤ u * k := mul_nonneg hu hk0.le
  rw [abs_le] at c1 c2 h2 h4
  rw [neg_div] at h4
  constructor <;> rw [abs_le] <;> constructor <;> linarith

theorem spacing_ratio {d d' τ : ℝ} (hd : 0 < d) (hτ : τ ≤ 1 / 4) (h : |d' - d| ≤ τ * d) :
    0 < d' ∧ |d ^ 2 / d' ^ 2 - 1| ≤ 4 * τ ∧ d ^ 2 / d' ^ 2 ≤ 2 := by
  have h0 := abs_le.1 h
  have hτ0 : 0 ≤ τ := by
    by_contra hn
    push Not at hn
    nlinarith [abs_nonneg (d' - d)]
  have h1 : 3 / 4 * d ≤ d' := by nlinarith
  have h2 : d' ≤ 5 / 4 * d := by nlinarith
  have hd' : 0 < d' := by linarith
  have hd2 : 0 < d' ^ 2 := by positivity
  refine ⟨hd', ?_, ?_⟩
  · have e : d ^ 2 / d' ^ 2 - 1 = (d - d') * (d + d') / d' ^ 2 := by
      field_simp
      ring
    rw [e, abs_div, abs_mul, abs_sub_comm, abs_of_pos hd2, abs_of_pos (by linarith : 0 < d + d'), div_le_iff₀ hd2]
    calc |d' - d| * (d + d') ≤ τ * d * (d + d') := mul_le_mul_of_nonneg_right h (by linarith)
      _ ≤ 4 * τ * d' ^ 2 := by
        have : d * (d + d') ≤ 4 * d' ^ 2 := by nlinarith
        nlinarith
  · rw [div_le_iff₀ hd2]
    nlinarith

end QS.Props
