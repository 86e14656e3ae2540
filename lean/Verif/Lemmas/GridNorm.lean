import Verif.Lemmas.Riemann
import Mathlib.Analysis.Real.Sqrt

/-!
# Square sums on a grid
-/

namespace QS.GridNorm

open Spec Finset

/-- The sum of the squares of the absolute values at the points of a grid, times the spacing. -/
noncomputable def sqs (d : ℝ) (num : ℕ) (z : ℕ → ℂ) : ℝ := d * ∑ i ∈ range num, ‖z i‖ ^ 2

variable {d : ℝ} {num : ℕ}

theorem sqs_nonneg (hd : 0 ≤ d) (z : ℕ → ℂ) : 0 ≤ sqs d num z :=
  mul_nonneg hd (sum_nonneg fun _ _ => sq_nonneg _)

theorem sqs_mono (hd : 0 ≤ d) {z y : ℕ → ℂ} (h : ∀ i < num, ‖z i‖ ≤ ‖y i‖) : sqs d num z ≤ sqs d num y :=
  mul_le_mul_of_nonneg_left (sum_le_sum fun i hi => pow_le_pow_left₀ (norm_nonneg _) (h i (mem_range.1 hi)) 2) hd

theorem sqs_add (hd : 0 ≤ d) (z y : ℕ → ℂ) : sqs d num (fun i => z i + y i) ≤ 2 * sqs d num z + 2 * sqs d num y := by
  unfold sqs
  rw [show 2 * (d * ∑ i ∈ range num, ‖z i‖ ^ 2) + 2 * (d * ∑ i ∈ range num, ‖y i‖ ^ 2)
    = d * ∑ i ∈ range num, (2 * ‖z i‖ ^ 2 + 2 * ‖y i‖ ^ 2) by rw [sum_add_distrib, ← mul_sum, ← mul_sum]; ring]
  refine mul_le_mul_of_nonneg_left (sum_le_sum fun i _ => ?_) hd
  have h := norm_add_le (z i) (y i)
  nlinarith [norm_nonneg (z i + y i), sq_nonneg (‖z i‖ - ‖y i‖), norm_nonneg (z i), norm_nonneg (y i)]

theorem sqs_smul (c : ℂ) (z : ℕ → ℂ) : sqs d num (fun i => c * z i) = ‖c‖ ^ 2 * sqs d num z := by
  unfold sqs
  simp only [norm_mul, mul_pow, ← mul_sum]
  ring

theorem sqs_cs (hd : 0 ≤ d) (z y : ℕ → ℂ) :
    d * ∑ i ∈ range num, ‖z i‖ * ‖y i‖ ≤ Real.sqrt (sqs d num z) * Real.sqrt (sqs d num y) := by
  have h := Real.sum_mul_le_sqrt_mul_sqrt (range num) (fun i => ‖z i‖) fun i => ‖y i‖
  have e : Real.sqrt (sqs d num z) * Real.sqrt (sqs d num y)
      = d * (Real.sqrt (∑ i ∈ range num, ‖z i‖ ^ 2) * Real.sqrt (∑ i ∈ range num, ‖y i‖ ^ 2)) := by
    unfold sqs
    rw [Real.sqrt_mul hd, Real.sqrt_mul hd]
    have := Real.mul_self_sqrt hd
    linear_combination (Real.sqrt (∑ i ∈ range num, ‖z i‖ ^ 2) * Real.sqrt (∑ i ∈ range num, ‖y i‖ ^ 2)) * this
  rw [e]
  exact mul_le_mul_of_nonneg_left h hd

theorem trapezoid_le (L : ℝ) (hd : 0 ≤ d) (g : ℕ → ℂ) :
    ‖trapezoid num (fun i => -L + i * d) g‖ ≤ d * ∑ i ∈ range num, ‖g i‖ := by
  rcases num with _ | n
  · simp [trapezoid]
  unfold trapezoid
  rw [Nat.add_sub_cancel]
  have e1 : ∀ i ∈ range n, ‖(((fun i : ℕ => -L + i * d) (i + 1) - (fun i : ℕ => -L + i * d) i : ℝ) : ℂ)
      * ((g i + g (i + 1)) / 2)‖ ≤ d / 2 * ‖g i‖ + d / 2 * ‖g (i + 1)‖ := fun i _ => by
    have : (fun i : ℕ => -L + i * d) (i + 1) - (fun i : ℕ => -L + i * d) i = d := by
      push_cast
      ring
    rw [this, norm_mul, Complex.norm_real, Real.norm_of_nonneg hd, norm_div, Complex.norm_two]
    have := norm_add_le (g i) (g (i + 1))
    calc d * (‖g i + g (i + 1)‖ / 2) ≤ d * ((‖g i‖ + ‖g (i + 1)‖) / 2) :=
          mul_le_mul_of_nonneg_left (by linarith) hd
      _ = _ := by ring
  refine (norm_sum_le _ _).trans ((sum_le_sum e1).trans ?_)
  rw [sum_add_distrib, ← mul_sum, ← mul_sum]
  have h1 := sum_range_succ (fun i => ‖g i‖) n
  have h2 := sum_range_succ' (fun i => ‖g i‖) n
  have h3 : ∑ i ∈ range n, ‖g i‖ ≤ ∑ i ∈ range (n + 1), ‖g i‖ := by rw [h1]; linarith [norm_nonneg (g n)]
  have h4 : ∑ i ∈ range n, ‖g (i + 1)‖ ≤ ∑ i ∈ range (n + 1), ‖g i‖ := by rw [h2]; linarith [norm_nonneg (g 0)]
  calc _ ≤ d / 2 * ∑ i ∈ range (n + 1), ‖g i‖ + d / 2 * ∑ i ∈ range (n + 1), ‖g i‖ :=
        add_le_add (mul_le_mul_of_nonneg_left h3 (by linarith)) (mul_le_mul_of_nonneg_left h4 (by linarith))
    _ = _ := by ring

/-- One-body elements. -/
theorem one_body (L : ℝ) (hd : 0 ≤ d) (A B : ℕ → ℂ) :
    ‖trapezoid num (fun i => -L + i * d) fun i => (starRingEnd ℂ) (A i) * B i‖
      ≤ Real.sqrt (sqs d num A) * Real.sqrt (sqs d num B) := by
  refine (trapezoid_le L hd _).trans (le_trans (le_of_eq ?_) (sqs_cs hd A B))
  congr 1
  exact sum_congr rfl fun i _ => by rw [norm_mul, RCLike.norm_conj]

/-- Two-body elements. -/
theorem two_body (L : ℝ) (hd : 0 ≤ d) (A B C D : ℕ → ℂ) {K : ℕ → ℕ → ℂ} {κ : ℝ} (hκ : 0 ≤ κ) (hK : ∀ i j, ‖K i j‖ ≤ κ) :
    ‖trapezoid num (fun i => -L + i * d) fun i => trapezoid num (fun i => -L + i * d) fun j =>
        (starRingEnd ℂ) (A i) * (starRingEnd ℂ) (B j) * K i j * C i * D j‖
      ≤ κ * (Real.sqrt (sqs d num A) * Real.sqrt (sqs d num C)) * (Real.sqrt (sqs d num B) * Real.sqrt (sqs d num D)) := by
  have h1 := sqs_cs (num := num) hd A C
  have h2 := sqs_cs (num := num) hd B D
  have hs : ∀ A B : ℕ → ℂ, 0 ≤ d * ∑ i ∈ range num, ‖A i‖ * ‖B i‖ := fun A B =>
    mul_nonneg hd (sum_nonneg fun _ _ => by positivity)
  refine (trapezoid_le L hd _).trans ?_
  calc d * ∑ i ∈ range num, ‖trapezoid num (fun i => -L + i * d) fun j =>
        (starRingEnd ℂ) (A i) * (starRingEnd ℂ) (B j) * K i j * C i * D j‖
      ≤ d * ∑ i ∈ range num, ‖A i‖ * ‖C i‖ * (κ * (d * ∑ j ∈ range num, ‖B j‖ * ‖D j‖)) := by
        refine mul_le_mul_of_nonneg_left (sum_le_sum fun i _ => (trapezoid_le L hd _).trans ?_) hd
        rw [show ‖A i‖ * ‖C i‖ * (κ * (d * ∑ j ∈ range num, ‖B j‖ * ‖D j‖))
          = d * ∑ j ∈ range num, ‖A i‖ * ‖C i‖ * κ * (‖B j‖ * ‖D j‖) by rw [← mul_sum]; ring]
        refine mul_le_mul_of_nonneg_left (sum_le_sum fun j _ => ?_) hd
        rw [norm_mul, norm_mul, norm_mul, norm_mul, RCLike.norm_conj, RCLike.norm_conj]
        calc ‖A i‖ * ‖B j‖ * ‖K i j‖ * ‖C i‖ * ‖D j‖ = ‖A i‖ * ‖C i‖ * (‖B j‖ * ‖D j‖) * ‖K i j‖ := by ring
          _ ≤ ‖A i‖ * ‖C i‖ * (‖B j‖ * ‖D j‖) * κ := mul_le_mul_of_nonneg_left (hK i j) (by positivity)
          _ = _ := by ring
    _ = κ * (d * ∑ i ∈ range num, ‖A i‖ * ‖C i‖) * (d * ∑ j ∈ range num, ‖B j‖ * ‖D j‖) := by
        rw [← sum_mul]
        ring
    _ ≤ _ := mul_le_mul (mul_le_mul_of_nonneg_left h1 hκ) h2 (hs _ _)
        (mul_nonneg hκ (mul_nonneg (Real.sqrt_nonneg _) (Real.sqrt_nonneg _)))

theorem trapezoid_add (n : ℕ) (x : ℕ → ℝ) (f g : ℕ → ℂ) :
    trapezoid n x (fun i => f i + g i) = trapezoid n x f + trapezoid n x g := by
  unfold trapezoid
  rw [← sum_add_distrib]
  exact sum_congr rfl fun i _ => by ring

/-- Two-body elements of functions that are close. -/
theorem two_body_sub (L : ℝ) (hd : 0 ≤ d) {F G : ℕ → ℕ → ℂ} {K : ℕ → ℕ → ℂ} {κ δ : ℝ} (hκ : 0 ≤ κ)
    (hK : ∀ i j, ‖K i j‖ ≤ κ) (p q r s : ℕ) (hF : ∀ k ∈ [p, q, r, s], sqs d num (F k) ≤ 4)
    (hG : ∀ k ∈ [p, q, r, s], sqs d num (G k) ≤ 4)
    (hD : ∀ k ∈ [p, q, r, s], sqs d num (fun i => F k i - G k i) ≤ δ ^ 2) (hδ : 0 ≤ δ) :
    ‖(trapezoid num (fun i => -L + i * d) fun i => trapezoid num (fun i => -L + i * d) fun j =>
        (starRingEnd ℂ) (F p i) * (starRingEnd ℂ) (F q j) * K i j * F r i * F s j)
      - trapezoid num (fun i => -L + i * d) fun i => trapezoid num (fun i => -L + i * d) fun j =>
        (starRingEnd ℂ) (G p i) * (starRingEnd ℂ) (G q j) * K i j * G r i * G s j‖ ≤ 32 * κ * δ := by
  set x : ℕ → ℝ := fun i => -L + i * d with hx
  set T : (ℕ → ℂ) → (ℕ → ℂ) → (ℕ → ℂ) → (ℕ → ℂ) → ℂ := fun A B C D => trapezoid num x fun i => trapezoid num x fun j =>
        (starRingEnd ℂ) (A i) * (starRingEnd ℂ) (B j) * K i j * C i * D j with hT
  have s2 : ∀ {z : ℕ → ℂ}, sqs d num z ≤ 4 → Real.sqrt (sqs d num z) ≤ 2 := fun h => by
    rw [show (2 : ℝ) = Real.sqrt 4 by rw [show (4 : ℝ) = 2 ^ 2 by norm_num, Real.sqrt_sq (by norm_num)]]
    exact Real.sqrt_le_sqrt h
  have sδ : ∀ {z : ℕ → ℂ}, sqs d num z ≤ δ ^ 2 → Real.sqrt (sqs d num z) ≤ δ := fun h => by
    rw [← Real.sqrt_sq hδ]
    exact Real.sqrt_le_sqrt h
  have bound : ∀ {A B C D : ℕ → ℂ} {a b c e : ℝ}, Real.sqrt (sqs d num A) ≤ a → Real.sqrt (sqs d num B) ≤ b →
      Real.sqrt (sqs d num C) ≤ c → Real.sqrt (sqs d num D) ≤ e → 0 ≤ a → 0 ≤ b → ‖T A B C D‖ ≤ κ * (a * c) * (b * e) := by
    intro A B C D a b c e ha hb hc he ha0 hb0
    refine (two_body L hd A B C D hκ hK).trans ?_
    have h1 := mul_le_mul ha hc (Real.sqrt_nonneg _) ha0
    have h2 := mul_le_mul hb he (Real.sqrt_nonneg _) hb0
    have hac : 0 ≤ a * c := (mul_nonneg (Real.sqrt_nonneg _) (Real.sqrt_nonneg _)).trans h1
    exact mul_le_mul (mul_le_mul_of_nonneg_left h1 hκ) h2 (mul_nonneg (Real.sqrt_nonneg _) (Real.sqrt_nonneg _))
      (mul_nonneg hκ hac)
  have e : T (F p) (F q) (F r) (F s) - T (G p) (G q) (G r) (G s)
      = T (fun i => F p i - G p i) (F q) (F r) (F s) + T (G p) (fun i => F q i - G q i) (F r) (F s)
        + T (G p) (G q) (fun i => F r i - G r i) (F s) + T (G p) (G q) (G r) (fun i => F s i - G s i) := by
    simp only [hT]
    rw [← Trapezoid.trapezoid_sub, ← trapezoid_add, ← trapezoid_add, ← trapezoid_add]
    congr 1
    funext i
    rw [← Trapezoid.trapezoid_sub, ← trapezoid_add, ← trapezoid_add, ← trapezoid_add]
    congr 1
    funext j
    simp only [map_sub]
    ring
  change ‖T (F p) (F q) (F r) (F s) - T (G p) (G q) (G r) (G s)‖ ≤ _
  have two : (0 : ℝ) ≤ 2 := by norm_num
  have b1 := bound (sδ (hD p (by simp))) (s2 (hF q (by simp))) (s2 (hF r (by simp))) (s2 (hF s (by simp))) hδ two
  have b2 := bound (s2 (hG p (by simp))) (sδ (hD q (by simp))) (s2 (hF r (by simp))) (s2 (hF s (by simp))) two hδ
  have b3 := bound (s2 (hG p (by simp))) (s2 (hG q (by simp))) (sδ (hD r (by simp))) (s2 (hF s (by simp))) two two
  have b4 := bound (s2 (hG p (by simp))) (s2 (hG q (by simp))) (s2 (hG r (by simp))) (sδ (hD s (by simp))) two two
  rw [e]
  refine (norm_add_le _ _).trans ?_
  refine (add_le_add ((norm_add_le _ _).trans (add_le_add (norm_add_le _ _) le_rfl)) le_rfl).trans ?_
  calc _ ≤ κ * (δ * 2) * (2 * 2) + κ * (2 * 2) * (δ * 2) + κ * (2 * δ) * (2 * 2) + κ * (2 * 2) * (2 * δ) :=
        add_le_add (add_le_add (add_le_add b1 b2) b3) b4
    _ = _ := by ring

end QS.GridNorm
