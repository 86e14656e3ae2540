import Verif.Lemmas.OneDimSetup

/-!
# Eigenfunctions of the finite-difference Hamiltonian
-/

namespace QS.OneDim

open QS.Spec

/-- `φ` satisfies the difference equation with energy `E` at the inner points of a grid of `n` points. -/
def GridEigen (n : ℕ) (dx : ℝ) (x : ℕ → ℝ) (V : ℝ → ℝ) (E : ℂ) (φ : ℕ → ℂ) : Prop :=
  ∀ i, 1 ≤ i → i < n - 1 → gridHamiltonian dx x V φ i = E * φ i

theorem GridEigen.step {n : ℕ} {dx : ℝ} (hdx : dx ≠ 0) {x : ℕ → ℝ} {V : ℝ → ℝ} {E : ℂ} {φ : ℕ → ℂ}
    (h : GridEigen n dx x V E φ) {i : ℕ} (hi : i + 2 < n) :
    φ (i + 2) = 2 * (1 + (dx : ℂ) ^ 2 * (V (x (i + 1)) - E)) * φ (i + 1) - φ i := by
  have h1 := h (i + 1) (by omega) (by omega)
  unfold gridHamiltonian at h1
  rw [Nat.add_sub_cancel, show i + 1 + 1 = i + 2 by ring] at h1
  have hd : (dx : ℂ) ≠ 0 := by exact_mod_cast hdx
  field_simp at h1
  linear_combination -1 * h1

/-- Two solutions that vanish at the first point are proportional. -/
theorem GridEigen.proportional {n : ℕ} {dx : ℝ} (hdx : dx ≠ 0) {x : ℕ → ℝ} {V : ℝ → ℝ} {E : ℂ} {φ ψ : ℕ → ℂ}
    (hφ : GridEigen n dx x V E φ) (hψ : GridEigen n dx x V E ψ) (h0 : φ 0 = 0) (k0 : ψ 0 = 0) :
    ∀ i, i < n → φ i * ψ 1 = ψ i * φ 1 := by
  have key : ∀ i, (i < n → φ i * ψ 1 = ψ i * φ 1) ∧ (i + 1 < n → φ (i + 1) * ψ 1 = ψ (i + 1) * φ 1) := by
    intro i
    induction i with
    | zero => exact ⟨fun _ => by rw [h0, k0, zero_mul, zero_mul], fun _ => mul_comm _ _⟩
    | succ i ih =>
      refine ⟨ih.2, fun hi => ?_⟩
      rw [show i + 1 + 1 = i + 2 by ring] at hi ⊢
      rw [hφ.step hdx hi, hψ.step hdx hi]
      have a1 := ih.1 (by omega)
      have a2 := ih.2 (by omega)
      linear_combination (2 * (1 + (dx : ℂ) ^ 2 * (V (x (i + 1)) - E))) * a2 - a1
  exact fun i hi => (key i).1 hi

/-- A solution that vanishes at the first two points vanishes everywhere. -/
theorem GridEigen.zero {n : ℕ} {dx : ℝ} (hdx : dx ≠ 0) {x : ℕ → ℝ} {V : ℝ → ℝ} {E : ℂ} {φ : ℕ → ℂ}
    (hφ : GridEigen n dx x V E φ) (h0 : φ 0 = 0) (h1 : φ 1 = 0) : ∀ i, i < n → φ i = 0 := by
  have key : ∀ i, (i < n → φ i = 0) ∧ (i + 1 < n → φ (i + 1) = 0) := by
    intro i
    induction i with
    | zero => exact ⟨fun _ => h0, fun _ => h1⟩
    | succ i ih =>
      refine ⟨ih.2, fun hi => ?_⟩
      rw [show i + 1 + 1 = i + 2 by ring] at hi ⊢
      rw [hφ.step hdx hi, ih.1 (by omega), ih.2 (by omega), mul_zero, sub_zero]
  exact fun i hi => (key i).1 hi

/-- Summation by parts. -/
theorem sum_by_parts (φ : ℕ → ℂ) (h0 : φ 0 = 0) (n : ℕ) :
    ∑ k ∈ Finset.range n, (starRingEnd ℂ) (φ (k + 1)) * (2 * φ (k + 1) - φ (k + 2) - φ k)
      = ∑ k ∈ Finset.range n, (starRingEnd ℂ) (φ (k + 1) - φ k) * (φ (k + 1) - φ k)
        - (starRingEnd ℂ) (φ n) * (φ (n + 1) - φ n) := by
  induction n with
  | zero => simp [h0]
  | succ n ih =>
    rw [Finset.sum_range_succ, Finset.sum_range_succ, ih, map_sub]
    ring

/-- The kinetic energy of a function that vanishes at both ends. -/
theorem kinetic_sum (φ : ℕ → ℂ) (h0 : φ 0 = 0) (n : ℕ) (hn : φ (n + 1) = 0) :
    ∑ k ∈ Finset.range n, (starRingEnd ℂ) (φ (k + 1)) * (2 * φ (k + 1) - φ (k + 2) - φ k)
      = ((∑ k ∈ Finset.range (n + 1), ‖φ (k + 1) - φ k‖ ^ 2 : ℝ) : ℂ) := by
  rw [sum_by_parts φ h0, Complex.ofReal_sum, Finset.sum_range_succ, hn]
  rw [show ∑ k ∈ Finset.range n, (starRingEnd ℂ) (φ (k + 1) - φ k) * (φ (k + 1) - φ k)
    = ∑ k ∈ Finset.range n, ((‖φ (k + 1) - φ k‖ ^ 2 : ℝ) : ℂ) from
    Finset.sum_congr rfl fun k _ => by rw [Complex.conj_mul']; push_cast; rfl]
  rw [zero_sub, norm_neg, mul_neg, Complex.conj_mul', sub_neg_eq_add]
  push_cast
  rfl

/-- The energy of a solution as a kinetic and a potential part. -/
theorem GridEigen.energy {n : ℕ} {dx : ℝ} (hdx : 0 < dx) {x : ℕ → ℝ} {V : ℝ → ℝ} {E : ℂ} {φ : ℕ → ℂ}
    (hφ : GridEigen (n + 2) dx x V E φ) (h0 : φ 0 = 0) (hn : φ (n + 1) = 0) :
    E.re * ∑ k ∈ Finset.range n, ‖φ (k + 1)‖ ^ 2
      = 1 / (2 * dx ^ 2) * (∑ k ∈ Finset.range (n + 1), ‖φ (k + 1) - φ k‖ ^ 2)
        + ∑ k ∈ Finset.range n, V (x (k + 1)) * ‖φ (k + 1)‖ ^ 2 := by
  have hd : (dx : ℂ) ≠ 0 := by exact_mod_cast hdx.ne'
  have hsum : E * ((∑ k ∈ Finset.range n, ‖φ (k + 1)‖ ^ 2 : ℝ) : ℂ)
      = ((1 / (2 * dx ^ 2) * (∑ k ∈ Finset.range (n + 1), ‖φ (k + 1) - φ k‖ ^ 2)
        + ∑ k ∈ Finset.range n, V (x (k + 1)) * ‖φ (k + 1)‖ ^ 2 : ℝ) : ℂ) := by
    rw [Complex.ofReal_add, Complex.ofReal_mul, ← kinetic_sum φ h0 n hn, Complex.ofReal_sum, Complex.ofReal_sum,
      Finset.mul_sum, Finset.mul_sum, ← Finset.sum_add_distrib]
    refine Finset.sum_congr rfl fun k hk => ?_
    have hk := Finset.mem_range.1 hk
    have h1 := hφ (k + 1) (by omega) (by omega)
    unfold gridHamiltonian at h1
    rw [Nat.add_sub_cancel, show k + 1 + 1 = k + 2 by ring] at h1
    have hc : ((‖φ (k + 1)‖ ^ 2 : ℝ) : ℂ) = (starRingEnd ℂ) (φ (k + 1)) * φ (k + 1) := by
      rw [Complex.conj_mul']; push_cast; rfl
    rw [Complex.ofReal_mul, hc]
    push_cast
    have h2 : (starRingEnd ℂ) (φ (k + 1)) * (E * φ (k + 1)) = (starRingEnd ℂ) (φ (k + 1))
        * (-(1 / 2) * ((φ (k + 2) - 2 * φ (k + 1) + φ k) / (dx : ℂ) ^ 2) + V (x (k + 1)) * φ (k + 1)) := by rw [h1]
    rw [show E * ((starRingEnd ℂ) (φ (k + 1)) * φ (k + 1)) = (starRingEnd ℂ) (φ (k + 1)) * (E * φ (k + 1)) by ring, h2]
    field_simp
    ring
  have hre := congrArg Complex.re hsum
  rwa [Complex.re_mul_ofReal, Complex.ofReal_re] at hre

theorem inner_point {n : ℕ} {φ : ℕ → ℂ} (h0 : φ 0 = 0) (hn : φ (n + 1) = 0) {i : ℕ} (hi : i < n + 2)
    (hne : φ i ≠ 0) : 1 ≤ i ∧ i < n + 1 := by
  refine ⟨?_, ?_⟩
  · rcases Nat.eq_zero_or_pos i with h | h
    · exact absurd (by rw [h, h0]) hne
    · exact h
  · rcases Nat.lt_or_ge i (n + 1) with h | h
    · exact h
    · exact absurd (by rw [show i = n + 1 by omega, hn]) hne

theorem norm_sum_pos {n : ℕ} {φ : ℕ → ℂ} (h0 : φ 0 = 0) (hn : φ (n + 1) = 0) {i : ℕ} (hi : i < n + 2)
    (hne : φ i ≠ 0) : 0 < ∑ k ∈ Finset.range n, ‖φ (k + 1)‖ ^ 2 := by
  have hi1 := inner_point h0 hn hi hne
  obtain ⟨j, rfl⟩ : ∃ j, i = j + 1 := ⟨i - 1, by omega⟩
  exact Finset.sum_pos' (fun _ _ => by positivity) ⟨j, Finset.mem_range.2 (by omega), by
    have := norm_pos_iff.2 hne; positivity⟩

/-- An energy is larger than every lower bound of the potential. -/
theorem GridEigen.lower {n : ℕ} {dx : ℝ} (hdx : 0 < dx) {x : ℕ → ℝ} {V : ℝ → ℝ} {E : ℂ} {φ : ℕ → ℂ}
    (hφ : GridEigen (n + 2) dx x V E φ) (h0 : φ 0 = 0) (hn : φ (n + 1) = 0) {m : ℝ}
    (hm : ∀ i, 1 ≤ i → i < n + 1 → m ≤ V (x i)) {i : ℕ} (hi : i < n + 2) (hne : φ i ≠ 0) : m < E.re := by
  have hre := hφ.energy hdx h0 hn
  have hN := norm_sum_pos h0 hn hi hne
  have hV : m * (∑ k ∈ Finset.range n, ‖φ (k + 1)‖ ^ 2) ≤ ∑ k ∈ Finset.range n, V (x (k + 1)) * ‖φ (k + 1)‖ ^ 2 := by
    rw [Finset.mul_sum]
    refine Finset.sum_le_sum fun k hk => ?_
    have hk := Finset.mem_range.1 hk
    exact mul_le_mul_of_nonneg_right (hm (k + 1) (by omega) (by omega)) (by positivity)
  have hK : 0 < ∑ k ∈ Finset.range (n + 1), ‖φ (k + 1) - φ k‖ ^ 2 := by
    by_contra hK
    have hz : ∑ k ∈ Finset.range (n + 1), ‖φ (k + 1) - φ k‖ ^ 2 = 0 :=
      le_antisymm (not_lt.1 hK) (Finset.sum_nonneg fun _ _ => by positivity)
    rw [Finset.sum_eq_zero_iff_of_nonneg fun _ _ => by positivity] at hz
    have : ∀ k, k < n + 2 → φ k = 0 := by
      intro k
      induction k with
      | zero => exact fun _ => h0
      | succ k ih =>
        intro hk
        have h1 := hz k (Finset.mem_range.2 (by omega))
        rw [pow_eq_zero_iff two_ne_zero, norm_eq_zero, sub_eq_zero, ih (by omega)] at h1
        exact h1
    exact hne (this _ hi)
  have hpos : 0 < 1 / (2 * dx ^ 2) * ∑ k ∈ Finset.range (n + 1), ‖φ (k + 1) - φ k‖ ^ 2 := by positivity
  by_contra hc
  have := mul_le_mul_of_nonneg_right (not_lt.1 hc) hN.le
  linarith

/-- An energy is at most `2 / dx²` above every upper bound of the potential. -/
theorem GridEigen.upper {n : ℕ} {dx : ℝ} (hdx : 0 < dx) {x : ℕ → ℝ} {V : ℝ → ℝ} {E : ℂ} {φ : ℕ → ℂ}
    (hφ : GridEigen (n + 2) dx x V E φ) (h0 : φ 0 = 0) (hn : φ (n + 1) = 0) {m : ℝ}
    (hm : ∀ i, 1 ≤ i → i < n + 1 → V (x i) ≤ m) {i : ℕ} (hi : i < n + 2) (hne : φ i ≠ 0) :
    E.re ≤ m + 2 / dx ^ 2 := by
  have hd2 : 0 < dx ^ 2 := by positivity
  have hre := hφ.energy hdx h0 hn
  have hN := norm_sum_pos h0 hn hi hne
  have hV : ∑ k ∈ Finset.range n, V (x (k + 1)) * ‖φ (k + 1)‖ ^ 2 ≤ m * (∑ k ∈ Finset.range n, ‖φ (k + 1)‖ ^ 2) := by
    rw [Finset.mul_sum]
    refine Finset.sum_le_sum fun k hk => ?_
    have hk := Finset.mem_range.1 hk
    exact mul_le_mul_of_nonneg_right (hm (k + 1) (by omega) (by omega)) (by positivity)
  have hK : ∑ k ∈ Finset.range (n + 1), ‖φ (k + 1) - φ k‖ ^ 2 ≤ 4 * ∑ k ∈ Finset.range n, ‖φ (k + 1)‖ ^ 2 := by
    have e1 : ∑ k ∈ Finset.range (n + 1), ‖φ (k + 1)‖ ^ 2 = ∑ k ∈ Finset.range n, ‖φ (k + 1)‖ ^ 2 := by
      rw [Finset.sum_range_succ, hn, norm_zero]
      ring
    have e2 : ∑ k ∈ Finset.range (n + 1), ‖φ k‖ ^ 2 = ∑ k ∈ Finset.range n, ‖φ (k + 1)‖ ^ 2 := by
      rw [Finset.sum_range_succ', h0, norm_zero]
      ring
    calc _ ≤ ∑ k ∈ Finset.range (n + 1), (2 * ‖φ (k + 1)‖ ^ 2 + 2 * ‖φ k‖ ^ 2) :=
          Finset.sum_le_sum fun k _ => by
            have h1 := norm_sub_le (φ (k + 1)) (φ k)
            have h2 := pow_le_pow_left₀ (norm_nonneg _) h1 2
            nlinarith [sq_nonneg (‖φ (k + 1)‖ - ‖φ k‖)]
      _ = _ := by
        rw [Finset.sum_add_distrib, ← Finset.mul_sum, ← Finset.mul_sum, e1, e2]
        ring
  have hb : 1 / (2 * dx ^ 2) * ∑ k ∈ Finset.range (n + 1), ‖φ (k + 1) - φ k‖ ^ 2
      ≤ 2 / dx ^ 2 * ∑ k ∈ Finset.range n, ‖φ (k + 1)‖ ^ 2 := by
    refine (mul_le_mul_of_nonneg_left hK (by positivity)).trans (le_of_eq ?_)
    field_simp
    norm_num
  by_contra hc
  have := mul_lt_mul_of_pos_right (not_le.1 hc) hN
  rw [hre, add_mul] at this
  linarith

/-- Functions on a uniform grid can be integrated from right to left. -/
theorem trapezoid_reflect {n : ℕ} {x : ℕ → ℝ} {dx : ℝ} (hx : ∀ i, x (i + 1) - x i = dx) (f : ℕ → ℂ) :
    trapezoid n x (fun i => f (n - 1 - i)) = trapezoid n x f := by
  unfold trapezoid
  simp only [hx]
  rw [← Finset.sum_range_reflect]
  refine Finset.sum_congr rfl fun i hi => ?_
  have hi := Finset.mem_range.1 hi
  rw [show n - 1 - (n - 1 - 1 - i) = i + 1 by omega, show n - 1 - (n - 1 - 1 - i + 1) = i by omega]
  ring

/-! ## Bounds on the two-body elements -/

theorem weight_nonneg {n : ℕ} {x : ℕ → ℝ} {dx : ℝ} (hx : ∀ i, x (i + 1) - x i = dx) (hdx : 0 ≤ dx) (i : ℕ) :
    0 ≤ weight n x i := by
  unfold weight
  have h1 : 0 ≤ if i + 1 < n then (x (i + 1) - x i) / 2 else 0 := by
    split
    · rw [hx]; linarith
    · exact le_rfl
  have h2 : 0 ≤ if 1 ≤ i then (x i - x (i - 1)) / 2 else 0 := by
    split
    · rename_i hi
      have := hx (i - 1)
      rw [Nat.sub_add_cancel hi] at this
      rw [this]; linarith
    · exact le_rfl
  linarith

/-- The weight of a pair of grid points in a two-body element. -/
noncomputable def pairWeight (n : ℕ) (x : ℕ → ℝ) (alpha a : ℝ) (k : ℕ × ℕ) : ℝ :=
  weight n x k.1 * weight n x k.2 * (alpha / Real.sqrt ((x k.1 - x k.2) ^ 2 + a ^ 2))

theorem coulombSum_pairs {n : ℕ} (hn : 1 ≤ n) (x : ℕ → ℝ) (φ : ℕ → ℕ → ℂ) (alpha a : ℝ) (p q r s : ℕ) :
    coulombSum n x φ alpha a p q r s = ∑ k ∈ Finset.range n ×ˢ Finset.range n,
      (pairWeight n x alpha a k : ℂ) * ((starRingEnd ℂ) (φ p k.1 * φ q k.2) * (φ r k.1 * φ s k.2)) := by
  unfold coulombSum
  rw [trapezoid_weight n x _ hn, Finset.sum_product]
  refine Finset.sum_congr rfl fun i _ => ?_
  rw [trapezoid_weight n x _ hn, Finset.mul_sum]
  refine Finset.sum_congr rfl fun j _ => ?_
  unfold pairWeight
  push_cast
  rw [map_mul]
  ring

theorem coulombSum_direct {n : ℕ} (hn : 1 ≤ n) (x : ℕ → ℝ) (φ : ℕ → ℕ → ℂ) (alpha a : ℝ) (p q : ℕ) :
    coulombSum n x φ alpha a p q p q = ((∑ k ∈ Finset.range n ×ˢ Finset.range n,
      pairWeight n x alpha a k * ‖φ p k.1 * φ q k.2‖ ^ 2 : ℝ) : ℂ) := by
  rw [coulombSum_pairs hn, Complex.ofReal_sum]
  refine Finset.sum_congr rfl fun k _ => ?_
  rw [Complex.conj_mul']
  push_cast
  rfl

theorem pairWeight_nonneg {n : ℕ} {x : ℕ → ℝ} {dx : ℝ} (hx : ∀ i, x (i + 1) - x i = dx) (hdx : 0 ≤ dx)
    {alpha : ℝ} (ha : 0 ≤ alpha) (a : ℝ) (k : ℕ × ℕ) : 0 ≤ pairWeight n x alpha a k :=
  mul_nonneg (mul_nonneg (weight_nonneg hx hdx _) (weight_nonneg hx hdx _))
    (div_nonneg ha (Real.sqrt_nonneg _))

/-- The Cauchy-Schwarz inequality for two-body elements. -/
theorem coulombSum_schwarz {n : ℕ} (hn : 1 ≤ n) {x : ℕ → ℝ} {dx : ℝ} (hx : ∀ i, x (i + 1) - x i = dx)
    (hdx : 0 ≤ dx) (φ : ℕ → ℕ → ℂ) {alpha : ℝ} (ha : 0 ≤ alpha) (a : ℝ) (p q r s : ℕ) :
    ‖coulombSum n x φ alpha a p q r s‖ ^ 2
      ≤ (coulombSum n x φ alpha a p q p q).re * (coulombSum n x φ alpha a r s r s).re := by
  have hW := pairWeight_nonneg (n := n) hx hdx ha a
  rw [coulombSum_direct hn, coulombSum_direct hn, Complex.ofReal_re, Complex.ofReal_re]
  have h1 : ‖coulombSum n x φ alpha a p q r s‖ ≤ ∑ k ∈ Finset.range n ×ˢ Finset.range n,
      (Real.sqrt (pairWeight n x alpha a k) * ‖φ p k.1 * φ q k.2‖)
        * (Real.sqrt (pairWeight n x alpha a k) * ‖φ r k.1 * φ s k.2‖) := by
    rw [coulombSum_pairs hn]
    refine (norm_sum_le _ _).trans (le_of_eq (Finset.sum_congr rfl fun k _ => ?_))
    rw [norm_mul, norm_mul, Complex.norm_real, Real.norm_of_nonneg (hW k), RCLike.norm_conj,
      mul_mul_mul_comm, Real.mul_self_sqrt (hW k)]
  refine (pow_le_pow_left₀ (norm_nonneg _) h1 2).trans ?_
  refine (Finset.sum_mul_sq_le_sq_mul_sq _ _ _).trans (le_of_eq ?_)
  congr 1
  · refine Finset.sum_congr rfl fun k _ => ?_
    rw [mul_pow, Real.sq_sqrt (hW k)]
  · refine Finset.sum_congr rfl fun k _ => ?_
    rw [mul_pow, Real.sq_sqrt (hW k)]

theorem coulombSum_direct_nonneg {n : ℕ} (hn : 1 ≤ n) {x : ℕ → ℝ} {dx : ℝ} (hx : ∀ i, x (i + 1) - x i = dx)
    (hdx : 0 ≤ dx) (φ : ℕ → ℕ → ℂ) {alpha : ℝ} (ha : 0 ≤ alpha) (a : ℝ) (p q : ℕ) :
    0 ≤ (coulombSum n x φ alpha a p q p q).re := by
  rw [coulombSum_direct hn, Complex.ofReal_re]
  exact Finset.sum_nonneg fun k _ => mul_nonneg (pairWeight_nonneg hx hdx ha a k) (by positivity)

/-- The exchange element is at most the direct element. -/
theorem coulombSum_exchange {n : ℕ} (hn : 1 ≤ n) {x : ℕ → ℝ} {dx : ℝ} (hx : ∀ i, x (i + 1) - x i = dx)
    (hdx : 0 ≤ dx) (φ : ℕ → ℕ → ℂ) {alpha : ℝ} (ha : 0 ≤ alpha) (a : ℝ) (p q : ℕ) :
    ‖coulombSum n x φ alpha a p q q p‖ ≤ (coulombSum n x φ alpha a p q p q).re := by
  have h := coulombSum_schwarz hn hx hdx φ ha a p q q p
  rw [coulombSum_swap n x φ alpha a q p q p, ← sq] at h
  exact le_of_sq_le_sq h (coulombSum_direct_nonneg hn hx hdx φ ha a p q)

theorem weight_inner {n : ℕ} {x : ℕ → ℝ} {dx : ℝ} (hx : ∀ i, x (i + 1) - x i = dx) {i : ℕ} (h1 : 1 ≤ i)
    (h2 : i + 1 < n) : weight n x i = dx := by
  unfold weight
  have := hx (i - 1)
  rw [Nat.sub_add_cancel h1] at this
  rw [if_pos h2, if_pos h1, hx, this]
  ring

/-- The direct element of two functions that do not vanish at all inner points is positive. -/
theorem coulombSum_direct_pos {n : ℕ} {x : ℕ → ℝ} {dx : ℝ} (hx : ∀ i, x (i + 1) - x i = dx)
    (hdx : 0 < dx) (φ : ℕ → ℕ → ℂ) {alpha : ℝ} (ha : 0 < alpha) {a : ℝ} (h0 : a ≠ 0) {p q i j : ℕ}
    (hi : 1 ≤ i ∧ i + 1 < n) (hj : 1 ≤ j ∧ j + 1 < n) (hp : φ p i ≠ 0) (hq : φ q j ≠ 0) :
    0 < (coulombSum n x φ alpha a p q p q).re := by
  rw [coulombSum_direct (by omega), Complex.ofReal_re]
  refine Finset.sum_pos' (fun k _ => mul_nonneg (pairWeight_nonneg hx hdx.le ha.le a k) (by positivity))
    ⟨(i, j), by simp only [Finset.mem_product, Finset.mem_range]; omega, ?_⟩
  have h1 : 0 < ‖φ p i * φ q j‖ := norm_pos_iff.2 (mul_ne_zero hp hq)
  unfold pairWeight
  rw [weight_inner hx hi.1 hi.2, weight_inner hx hj.1 hj.2]
  have h2 : 0 < Real.sqrt ((x i - x j) ^ 2 + a ^ 2) := Real.sqrt_pos.2 (by positivity)
  positivity

end QS.OneDim
