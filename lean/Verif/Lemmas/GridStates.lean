import Verif.Lemmas.GridLimit
import Verif.Lemmas.FiniteDifference
import Mathlib.Analysis.ODE.Gronwall
import Mathlib.Algebra.Order.Chebyshev

/-!
# Eigenfunctions on finer and finer grids

The functions of `ODQD` on grids with more and more points have limits, and the limits solve the Schrödinger equation on
`[-L, L]` with zero boundary values.
-/

namespace QS.GridLimit

open Filter Topology OneDim Spec Finset

/-- The energy of a function that vanishes at the ends of the grid. -/
theorem form {n : ℕ} {d : ℝ} (hdx : 0 < d) (x : ℕ → ℝ) (V : ℝ → ℝ) {φ : ℕ → ℂ} (h0 : φ 0 = 0)
    (hn : φ (n + 1) = 0) : ∑ k ∈ range n, (starRingEnd ℂ) (φ (k + 1)) * gridHamiltonian d x V φ (k + 1)
      = ((1 / (2 * d ^ 2) * (∑ k ∈ range (n + 1), ‖φ (k + 1) - φ k‖ ^ 2)
        + ∑ k ∈ range n, V (x (k + 1)) * ‖φ (k + 1)‖ ^ 2 : ℝ) : ℂ) := by
  have hd : (d : ℂ) ≠ 0 := by exact_mod_cast hdx.ne'
  rw [Complex.ofReal_add, Complex.ofReal_mul, ← kinetic_sum φ h0 n hn, Complex.ofReal_sum, mul_sum,
    ← sum_add_distrib]
  refine sum_congr rfl fun k _ => ?_
  have hc : ((‖φ (k + 1)‖ ^ 2 : ℝ) : ℂ) = (starRingEnd ℂ) (φ (k + 1)) * φ (k + 1) := by
    rw [Complex.conj_mul']; push_cast; rfl
  rw [Complex.ofReal_mul, hc]
  unfold gridHamiltonian
  rw [Nat.add_sub_cancel, show k + 1 + 1 = k + 2 by ring]
  push_cast
  field_simp
  ring

/-- The states of one grid: energies `w p` and normalised functions `f p`. -/
structure Fam (V : ℝ → ℝ) (L : ℝ) (num : ℕ) (w : ℕ → ℝ) (f : ℕ → ℕ → ℂ) : Prop where
  left : ∀ p < num - 2, f p 0 = 0
  right : ∀ p < num - 2, f p (num - 1) = 0
  eigen : ∀ p < num - 2, GridEigen num (dx L num) (fun i => -L + i * dx L num) V (w p) (f p)
  sorted : ∀ p q, p ≤ q → q < num - 2 → w p ≤ w q
  orth : ∀ p q, p < num - 2 → q < num - 2 →
    (dx L num : ℂ) * ∑ k ∈ range (num - 2), (starRingEnd ℂ) (f p (k + 1)) * f q (k + 1) = if p = q then 1 else 0
  residual : ∀ (y : ℕ → ℂ) (E : ℝ), y 0 = 0 → y (num - 1) = 0 → ∃ p < num - 2,
    |w p - E| ^ 2 * ∑ k ∈ range (num - 2), ‖y (k + 1)‖ ^ 2
      ≤ ∑ k ∈ range (num - 2), ‖gridHamiltonian (dx L num) (fun i => -L + i * dx L num) V y (k + 1) - E * y (k + 1)‖ ^ 2

variable {V : ℝ → ℝ} {L : ℝ}

theorem telescope (φ : ℕ → ℂ) (h0 : φ 0 = 0) {n i : ℕ} (hi : i ≤ n) :
    ‖φ i‖ ^ 2 ≤ n * ∑ k ∈ range n, ‖φ (k + 1) - φ k‖ ^ 2 := by
  have h1 : φ i = ∑ k ∈ range i, (φ (k + 1) - φ k) := by rw [sum_range_sub, h0, sub_zero]
  have h2 : ‖φ i‖ ≤ ∑ k ∈ range n, ‖φ (k + 1) - φ k‖ := by
    rw [h1]
    exact (norm_sum_le _ _).trans (sum_le_sum_of_subset_of_nonneg (range_mono hi) fun _ _ _ => norm_nonneg _)
  calc ‖φ i‖ ^ 2 ≤ (∑ k ∈ range n, ‖φ (k + 1) - φ k‖) ^ 2 := pow_le_pow_left₀ (norm_nonneg _) h2 2
    _ ≤ (range n).card * ∑ k ∈ range n, ‖φ (k + 1) - φ k‖ ^ 2 := sq_sum_le_card_mul_sum_sq
    _ = _ := by rw [card_range]

theorem Fam.lower {num : ℕ} {w : ℕ → ℝ} {f : ℕ → ℕ → ℂ} (F : Fam V L num w f) (hL : 0 < L) {m : ℝ}
    (hm : ∀ i : ℕ, 1 ≤ i → i < num - 1 → m ≤ V (-L + i * dx L num)) {k : ℕ} (hk : k < num - 2) : m < w k := by
  obtain ⟨n, rfl⟩ : ∃ n, num = n + 2 := ⟨num - 2, by omega⟩
  have hdx := dx_pos hL (by omega : 2 ≤ n + 2)
  have hne : ∃ i < n + 2, f k i ≠ 0 := by
    by_contra hc
    push Not at hc
    have := F.orth k k hk hk
    rw [if_pos rfl, sum_eq_zero fun j hj => by rw [hc (j + 1) (by have := mem_range.1 hj; omega), mul_zero],
      mul_zero] at this
    exact one_ne_zero this.symm
  obtain ⟨i, hi, hi'⟩ := hne
  have := (F.eigen k hk).lower hdx (F.left k hk) (F.right k hk) hm hi hi'
  rwa [Complex.ofReal_re] at this

theorem ham_sum (d : ℝ) (x : ℕ → ℝ) (V : ℝ → ℝ) (s : Finset ℕ) (c : ℕ → ℂ) (f : ℕ → ℕ → ℂ) (i : ℕ) :
    gridHamiltonian d x V (fun i => ∑ p ∈ s, c p * f p i) i = ∑ p ∈ s, c p * gridHamiltonian d x V (f p) i := by
  unfold gridHamiltonian
  simp only [mul_sum, ← sum_add_distrib, ← sum_sub_distrib, sum_div]
  refine sum_congr rfl fun p _ => ?_
  ring

/-- The sum of the densities of the first states is bounded by the energy. -/
theorem Fam.bessel {num : ℕ} {w : ℕ → ℝ} {f : ℕ → ℕ → ℂ} (F : Fam V L num w f) (hL : 0 < L) {m : ℝ}
    (hm : ∀ i : ℕ, 1 ≤ i → i < num - 1 → m ≤ V (-L + i * dx L num)) {k : ℕ} (hk : k < num - 2) {i : ℕ}
    (hi : i ≤ num - 1) : ∑ p ∈ range (k + 1), ‖f p i‖ ^ 2 ≤ 4 * L * (w k - m) := by
  have hlow := F.lower hL hm hk
  obtain ⟨n, rfl⟩ : ∃ n, num = n + 2 := ⟨num - 2, by omega⟩
  have hdx := dx_pos hL (by omega : 2 ≤ n + 2)
  have hmul := dx_mul L (by omega : 2 ≤ n + 2)
  set d := dx L (n + 2) with hd
  rw [show n + 2 - 2 = n by omega] at hk
  set x : ℕ → ℝ := fun i => -L + i * d with hx
  set S := ∑ p ∈ range (k + 1), ‖f p i‖ ^ 2 with hS
  have hS0 : 0 ≤ S := sum_nonneg fun _ _ => by positivity
  set φ : ℕ → ℂ := fun j => ∑ p ∈ range (k + 1), (starRingEnd ℂ) (f p i) * f p j with hφ
  have hlt : ∀ p ∈ range (k + 1), p < n + 2 - 2 := fun p hp => by have := mem_range.1 hp; omega
  have hφ0 : φ 0 = 0 := sum_eq_zero fun p hp => by rw [F.left p (hlt p hp), mul_zero]
  have hφn : φ (n + 1) = 0 := sum_eq_zero fun p hp => by
    rw [show f p (n + 1) = 0 from F.right p (hlt p hp), mul_zero]
  have hφi : φ i = (S : ℂ) := by
    rw [hφ, hS, Complex.ofReal_sum]
    refine sum_congr rfl fun p _ => ?_
    rw [Complex.conj_mul']
    push_cast
    rfl
  have hSc : ∀ u : ℕ → ℂ, (d : ℂ) * ∑ j ∈ range n, (starRingEnd ℂ) (φ (j + 1))
      * ∑ p ∈ range (k + 1), u p * f p (j + 1) = ∑ p ∈ range (k + 1), f p i * u p := by
    intro u
    calc _ = ∑ q ∈ range (k + 1), ∑ p ∈ range (k + 1), f q i * u p
          * ((d : ℂ) * ∑ j ∈ range n, (starRingEnd ℂ) (f q (j + 1)) * f p (j + 1)) := by
          simp only [hφ, map_sum, map_mul, Complex.conj_conj, sum_mul, mul_sum]
          rw [sum_comm]
          refine Eq.symm ?_
          rw [sum_comm]
          refine sum_congr rfl fun p _ => ?_
          rw [sum_comm]
          refine sum_congr rfl fun j _ => sum_congr rfl fun q _ => ?_
          ring
      _ = ∑ q ∈ range (k + 1), ∑ p ∈ range (k + 1), f q i * u p * (if q = p then 1 else 0) := by
          refine sum_congr rfl fun q hq => sum_congr rfl fun p hp => ?_
          rw [← F.orth q p (hlt q hq) (hlt p hp)]
          rfl
      _ = _ := by
          refine sum_congr rfl fun q hq => ?_
          simp only [mul_ite, mul_one, mul_zero, sum_ite_eq, if_pos hq]
  have hnorm : d * ∑ j ∈ range n, ‖φ (j + 1)‖ ^ 2 = S := by
    have h := hSc fun p => (starRingEnd ℂ) (f p i)
    have e : (d : ℂ) * ∑ j ∈ range n, (starRingEnd ℂ) (φ (j + 1)) * φ (j + 1)
        = ((d * ∑ j ∈ range n, ‖φ (j + 1)‖ ^ 2 : ℝ) : ℂ) := by
      rw [Complex.ofReal_mul, Complex.ofReal_sum]
      congr 1
      refine sum_congr rfl fun j _ => ?_
      rw [Complex.conj_mul']
      push_cast
      rfl
    have e2 : ∑ p ∈ range (k + 1), f p i * (starRingEnd ℂ) (f p i) = (S : ℂ) := by
      rw [← hφi]
      exact sum_congr rfl fun p _ => mul_comm _ _
    have := e.symm.trans (h.trans e2)
    exact_mod_cast this
  have hen : d * (1 / (2 * d ^ 2) * (∑ k ∈ range (n + 1), ‖φ (k + 1) - φ k‖ ^ 2)
      + ∑ k ∈ range n, V (x (k + 1)) * ‖φ (k + 1)‖ ^ 2) ≤ w k * S := by
    have h := hSc fun p => (starRingEnd ℂ) (f p i) * w p
    have e : (d : ℂ) * ∑ j ∈ range n, (starRingEnd ℂ) (φ (j + 1)) * ∑ p ∈ range (k + 1),
        (starRingEnd ℂ) (f p i) * (w p) * f p (j + 1)
        = (d : ℂ) * ∑ j ∈ range n, (starRingEnd ℂ) (φ (j + 1)) * gridHamiltonian d x V φ (j + 1) := by
      congr 1
      refine sum_congr rfl fun j hj => ?_
      congr 1
      rw [hφ, ham_sum]
      refine sum_congr rfl fun p hp => ?_
      rw [F.eigen p (hlt p hp) (j + 1) (by omega) (by have := mem_range.1 hj; omega)]
      ring
    have e2 : ∑ p ∈ range (k + 1), f p i * ((starRingEnd ℂ) (f p i) * (w p))
        = ((∑ p ∈ range (k + 1), w p * ‖f p i‖ ^ 2 : ℝ) : ℂ) := by
      rw [Complex.ofReal_sum]
      refine sum_congr rfl fun p _ => ?_
      rw [← mul_assoc, Complex.mul_conj']
      push_cast
      ring
    have h2 := e.symm.trans (h.trans e2)
    rw [form hdx x V hφ0 hφn] at h2
    have h3 : d * (1 / (2 * d ^ 2) * (∑ k ∈ range (n + 1), ‖φ (k + 1) - φ k‖ ^ 2)
        + ∑ k ∈ range n, V (x (k + 1)) * ‖φ (k + 1)‖ ^ 2) = ∑ p ∈ range (k + 1), w p * ‖f p i‖ ^ 2 := by
      rw [← Complex.ofReal_mul] at h2
      exact Complex.ofReal_injective h2
    rw [h3, hS, mul_sum]
    refine sum_le_sum fun p hp => mul_le_mul_of_nonneg_right ?_ (by positivity)
    exact F.sorted p k (by have := mem_range.1 hp; omega) (by omega)
  have hpot : m * S ≤ d * ∑ k ∈ range n, V (x (k + 1)) * ‖φ (k + 1)‖ ^ 2 := by
    rw [← hnorm, ← mul_assoc, mul_comm m d, mul_assoc, mul_sum]
    refine mul_le_mul_of_nonneg_left (sum_le_sum fun j hj => ?_) hdx.le
    exact mul_le_mul_of_nonneg_right (hm (j + 1) (by omega) (by have := mem_range.1 hj; omega)) (by positivity)
  have htel := telescope φ hφ0 (n := n + 1) (i := i) (by omega)
  rw [hφi, Complex.norm_real, Real.norm_of_nonneg hS0] at htel
  set T := ∑ k ∈ range (n + 1), ‖φ (k + 1) - φ k‖ ^ 2 with hT
  have h1 : T ≤ 2 * d * ((w k - m) * S) := by
    have : d * (1 / (2 * d ^ 2) * T) ≤ (w k - m) * S := by linarith
    have e : T = 2 * d * (d * (1 / (2 * d ^ 2) * T)) := by field_simp
    rw [e]
    exact mul_le_mul_of_nonneg_left this (by positivity)
  have hmul' : ((n + 1 : ℕ) : ℝ) * d = 2 * L := hmul
  have h2 : S ^ 2 ≤ 4 * L * (w k - m) * S := by
    calc S ^ 2 ≤ ((n + 1 : ℕ) : ℝ) * T := htel
      _ ≤ ((n + 1 : ℕ) : ℝ) * (2 * d * ((w k - m) * S)) := mul_le_mul_of_nonneg_left h1 (Nat.cast_nonneg _)
      _ = 2 * (((n + 1 : ℕ) : ℝ) * d) * ((w k - m) * S) := by ring
      _ = _ := by rw [hmul']; ring
  rcases hS0.eq_or_lt with h | h
  · rw [← h]
    exact mul_nonneg (by linarith) (by linarith)
  · rw [sq] at h2
    exact le_of_mul_le_mul_right h2 h

/-- The energies grow with the number of the state. -/
theorem Fam.growth {num : ℕ} {w : ℕ → ℝ} {f : ℕ → ℕ → ℂ} (F : Fam V L num w f) (hL : 0 < L) {m : ℝ}
    (hm : ∀ i : ℕ, 1 ≤ i → i < num - 1 → m ≤ V (-L + i * dx L num)) {k : ℕ} (hk : k < num - 2) :
    m + (k + 1) / (8 * L ^ 2) ≤ w k := by
  have hlow := F.lower hL hm hk
  have hdx := dx_pos hL (by omega : 2 ≤ num)
  have hone : ∀ p ∈ range (k + 1), dx L num * ∑ j ∈ range (num - 2), ‖f p (j + 1)‖ ^ 2 = 1 := by
    intro p hp
    have hp' : p < num - 2 := by have := mem_range.1 hp; omega
    have := F.orth p p hp' hp'
    rw [if_pos rfl] at this
    have e : (dx L num : ℂ) * ∑ j ∈ range (num - 2), (starRingEnd ℂ) (f p (j + 1)) * f p (j + 1)
        = ((dx L num * ∑ j ∈ range (num - 2), ‖f p (j + 1)‖ ^ 2 : ℝ) : ℂ) := by
      rw [Complex.ofReal_mul, Complex.ofReal_sum]
      congr 1
      refine sum_congr rfl fun j _ => ?_
      rw [Complex.conj_mul']
      push_cast
      rfl
    rw [e] at this
    exact_mod_cast this
  have h1 : ((k + 1 : ℕ) : ℝ) = dx L num * ∑ j ∈ range (num - 2), ∑ p ∈ range (k + 1), ‖f p (j + 1)‖ ^ 2 := by
    rw [sum_comm, mul_sum, sum_congr rfl hone, sum_const, card_range, nsmul_eq_mul, mul_one]
  have h2 : ∑ j ∈ range (num - 2), ∑ p ∈ range (k + 1), ‖f p (j + 1)‖ ^ 2
      ≤ ((num - 2 : ℕ) : ℝ) * (4 * L * (w k - m)) := by
    refine (sum_le_card_nsmul _ _ _ fun j hj => F.bessel hL hm hk
      (by have := mem_range.1 hj; omega)).trans (le_of_eq ?_)
    rw [card_range, nsmul_eq_mul]
  have h3 : ((num - 2 : ℕ) : ℝ) ≤ ((num - 1 : ℕ) : ℝ) := by exact_mod_cast (by omega : num - 2 ≤ num - 1)
  have h4 : ((k + 1 : ℕ) : ℝ) ≤ 8 * L ^ 2 * (w k - m) := by
    have h5 : 0 ≤ 4 * L * (w k - m) := mul_nonneg (by linarith) (by linarith)
    calc _ ≤ dx L num * (((num - 2 : ℕ) : ℝ) * (4 * L * (w k - m))) := h1 ▸ mul_le_mul_of_nonneg_left h2 hdx.le
      _ ≤ dx L num * (((num - 1 : ℕ) : ℝ) * (4 * L * (w k - m))) :=
          mul_le_mul_of_nonneg_left (mul_le_mul_of_nonneg_right h3 h5) hdx.le
      _ = (((num - 1 : ℕ) : ℝ) * dx L num) * (4 * L * (w k - m)) := by ring
      _ = _ := by rw [dx_mul L (by omega)]; ring
  have h6 : ((k : ℝ) + 1) / (8 * L ^ 2) ≤ w k - m := by
    rw [div_le_iff₀ (by positivity)]
    push_cast at h4
    linarith
  linarith

/-- A function on `[-L, L]` with its derivative: a solution with energy `μ` that vanishes at the walls. -/
structure Solution (V : ℝ → ℝ) (L μ : ℝ) (F G : ℝ → ℂ) : Prop where
  left : F (-L) = 0
  right : F L = 0
  deriv : ∀ x ∈ Set.Icc (-L) L, HasDerivWithinAt F (G x) (Set.Icc (-L) L) x
  eq : ∀ x ∈ Set.Icc (-L) L, HasDerivWithinAt G (2 * (V x - μ) * F x) (Set.Icc (-L) L) x

variable {U : Ultrafilter ℕ}

theorem mem_grid (hL : 0 < L) {num : ℕ} (h : 2 ≤ num) {i : ℕ} (hi : i ≤ num - 1) :
    -L + i * dx L num ∈ Set.Icc (-L) L := by
  have hdx := dx_pos hL h
  have h1 : (i : ℝ) ≤ ((num - 1 : ℕ) : ℝ) := by exact_mod_cast hi
  have h2 := dx_mul L h
  have h3 : (0 : ℝ) ≤ i := Nat.cast_nonneg i
  constructor <;> nlinarith

/-- The states with bounded energies have limits, and the limits are solutions. -/
theorem exists_state (hL : 0 < L) (hU : (U : Filter ℕ) ≤ atTop) (hV : ContinuousOn V (Set.Icc (-L) L))
    {w : ℕ → ℕ → ℝ} {f : ℕ → ℕ → ℕ → ℂ} (hF : ∀ num ≥ 3, Fam V L num (w num) (f num)) {p : ℕ} {C : ℝ}
    (hw : ∀ᶠ num in (U : Filter ℕ), w num p ≤ C) :
    ∃ μ F G, Tendsto (fun num => w num p) U (𝓝 μ) ∧ Bdd U (fun num i => f num p i) ∧ Equi L U (fun num i => f num p i) ∧
      IsLim L U (fun num i => f num p i) F ∧ Solution V L μ F G := by
  obtain ⟨B, hB⟩ := (isCompact_Icc (a := -L) (b := L)).exists_bound_of_continuousOn hV
  have hlow : ∀ num ≥ p + 3, -B < w num p := fun num hn => by
    refine (hF num (by omega)).lower hL (fun i _ hi => ?_) (by omega)
    exact (abs_le.1 (hB _ (mem_grid hL (by omega) (by omega)))).1
  have hwb : ∀ᶠ num in (U : Filter ℕ), |w num p| ≤ |B| + |C| := by
    filter_upwards [hw, eventually_ge hU (p + 3)] with num h1 h2
    have := hlow num h2
    rw [abs_le]
    constructor
    · linarith [le_abs_self B, abs_nonneg C]
    · linarith [le_abs_self C, abs_nonneg B]
  obtain ⟨μ, hμ⟩ := exists_real_lim_of_bdd hwb
  have hbdd : Bdd U (fun num i => f num p i) := by
    refine ⟨4 * L * (|C| + |B|) + 1, ?_⟩
    filter_upwards [hw, eventually_ge hU (p + 3)] with num h1 h2 i hi
    have hb := (hF num (by omega)).bessel hL (m := -B) (fun i _ hi => (abs_le.1 (hB _ (mem_grid hL (by omega)
      (by omega)))).1) (k := p) (by omega) hi
    have h3 : ‖f num p i‖ ^ 2 ≤ ∑ q ∈ range (p + 1), ‖f num q i‖ ^ 2 :=
      single_le_sum (f := fun q => ‖f num q i‖ ^ 2) (fun _ _ => by positivity) (mem_range.2 (Nat.lt_succ_self p))
    have h4 : ‖f num p i‖ ^ 2 ≤ 4 * L * (|C| + |B|) :=
      (h3.trans hb).trans (mul_le_mul_of_nonneg_left (by linarith [le_abs_self C, le_abs_self B]) (by linarith))
    nlinarith [sq_nonneg (‖f num p i‖ - 1)]
  set φ : ℕ → ℕ → ℂ := fun num i => f num p i with hφ
  set κ : ℕ → ℕ → ℂ := fun num i => 2 * ((V (-L + i * dx L num) : ℂ) - w num p) with hκ
  obtain ⟨eV, bV, lV⟩ := equi_of_continuousOn (U := U) hL hU (f := fun x => (V x : ℂ))
    (Complex.continuous_ofReal.comp_continuousOn hV)
  have eκ : Equi L U κ := by
    intro ε hε
    obtain ⟨δ, hδ, h⟩ := eV (ε / 2) (by positivity)
    refine ⟨δ, hδ, h.mono fun num h i j hij hj hd => ?_⟩
    have := h i j hij hj hd
    have e : κ num j - κ num i = 2 * ((V (-L + j * dx L num) : ℂ) - V (-L + i * dx L num)) := by
      simp only [hκ]
      ring
    rw [e, norm_mul, Complex.norm_ofNat]
    linarith
  have bκ : Bdd U κ := by
    obtain ⟨D, hD⟩ := bV
    refine ⟨2 * (D + (|B| + |C|)), ?_⟩
    filter_upwards [hD, hwb] with num h1 h2 i hi
    simp only [hκ]
    rw [norm_mul, Complex.norm_ofNat]
    have := norm_sub_le ((V (-L + i * dx L num) : ℂ)) (w num p)
    rw [Complex.norm_real (w num p), Real.norm_eq_abs] at this
    linarith [h1 i hi]
  have lκ : IsLim L U κ fun x => 2 * ((V x : ℂ) - μ) := fun x hx =>
    ((lV x hx).sub ((Complex.continuous_ofReal.tendsto _).comp hμ)).const_mul 2
  set c : ℕ → ℕ → ℂ := fun num i => κ num i * φ num i with hc
  have bc : Bdd U c := bκ.mul hbdd
  set D : ℕ → ℕ → ℂ := fun num i => if i < num - 1 then (φ num (i + 1) - φ num i) / dx L num
    else (φ num i - φ num (i - 1)) / dx L num with hD
  have hDc : ∀ num ≥ p + 3, ∀ i < num - 1, D num (i + 1) - D num i = dx L num * c num (i + 1) := by
    intro num hn i hi
    have hd := dx_pos hL (by omega : 2 ≤ num)
    have hdc : (dx L num : ℂ) ≠ 0 := by exact_mod_cast hd.ne'
    have Fm := hF num (by omega)
    simp only [hD, if_pos hi]
    by_cases h : i + 1 < num - 1
    · rw [if_pos h]
      have := (Fm.eigen p (by omega)).step hd.ne' (i := i) (by omega)
      simp only [hc, hκ, hφ]
      rw [show i + 1 + 1 = i + 2 by ring, this]
      field_simp
      push_cast
      ring
    · obtain rfl : i = num - 2 := by omega
      rw [if_neg h, Nat.add_sub_cancel, sub_self]
      simp only [hc, hφ]
      rw [show num - 2 + 1 = num - 1 by omega, Fm.right p (by omega), mul_zero, mul_zero]
  have sφ : Step L U φ D := by
    intro ε hε
    filter_upwards [dx_small hL hU one_pos] with num hd i hi
    have hdc : (dx L num : ℂ) ≠ 0 := by exact_mod_cast hd.2.ne'
    simp only [hD, if_pos hi]
    rw [mul_div_cancel₀ _ hdc, sub_self, norm_zero]
    exact mul_nonneg hε.le hd.2.le
  have bD : Bdd U D := by
    obtain ⟨K, hK⟩ := bc
    refine ⟨4 * L * |K|, ?_⟩
    filter_upwards [hK, eventually_ge hU (p + 3)] with num hK hn
    have hd := dx_pos hL (by omega : 2 ≤ num)
    have hdc : (dx L num : ℂ) ≠ 0 := by exact_mod_cast hd.ne'
    have hmul := dx_mul L (by omega : 2 ≤ num)
    have Fm := hF num (by omega)
    have h1 : ∀ j ≤ num - 1, ‖D num j - D num 0‖ ≤ j * (dx L num * |K|) := by
      intro j hj
      induction j with
      | zero => simp
      | succ j ih =>
        have h2 := hDc num hn j (by omega)
        have h3 : ‖D num (j + 1) - D num j‖ ≤ dx L num * |K| := by
          rw [h2, norm_mul, Complex.norm_real, Real.norm_of_nonneg hd.le]
          exact mul_le_mul_of_nonneg_left ((hK _ hj).trans (le_abs_self K)) hd.le
        have h4 := norm_add_le (D num (j + 1) - D num j) (D num j - D num 0)
        rw [sub_add_sub_cancel] at h4
        push_cast
        linarith [ih (by omega)]
    have h2 : ∀ j ≤ num - 1, ‖D num j - D num 0‖ ≤ 2 * L * |K| := by
      intro j hj
      have : (j : ℝ) ≤ ((num - 1 : ℕ) : ℝ) := by exact_mod_cast hj
      calc _ ≤ j * (dx L num * |K|) := h1 j hj
        _ ≤ ((num - 1 : ℕ) : ℝ) * (dx L num * |K|) := mul_le_mul_of_nonneg_right this (by positivity)
        _ = _ := by rw [← mul_assoc, hmul]
    have h3 : ∑ j ∈ range (num - 1), D num j = 0 := by
      have : ∑ j ∈ range (num - 1), D num j = ∑ j ∈ range (num - 1), (φ num (j + 1) - φ num j) / dx L num :=
        sum_congr rfl fun j hj => by simp only [hD, if_pos (mem_range.1 hj)]
      rw [this, ← sum_div, sum_range_sub]
      simp only [hφ]
      rw [Fm.right p (by omega), Fm.left p (by omega), sub_zero, zero_div]
    have h4 : ‖D num 0‖ ≤ 2 * L * |K| := by
      have e : ((num - 1 : ℕ) : ℂ) * D num 0 = -∑ j ∈ range (num - 1), (D num j - D num 0) := by
        rw [sum_sub_distrib, h3, sum_const, card_range, nsmul_eq_mul]
        ring
      have h5 := congrArg norm e
      rw [norm_mul, norm_neg, Complex.norm_natCast] at h5
      have h6 : ‖∑ j ∈ range (num - 1), (D num j - D num 0)‖ ≤ ((num - 1 : ℕ) : ℝ) * (2 * L * |K|) := by
        refine (norm_sum_le _ _).trans ((sum_le_card_nsmul _ _ _ fun j hj => h2 j (mem_range.1 hj).le).trans
          (le_of_eq ?_))
        rw [card_range, nsmul_eq_mul]
      rw [← h5] at h6
      exact le_of_mul_le_mul_left h6 (by exact_mod_cast (by omega : 0 < num - 1))
    intro i hi
    have h5 := norm_add_le (D num i - D num 0) (D num 0)
    rw [sub_add_cancel] at h5
    linarith [h2 i hi]
  have eφ : Equi L U φ := sφ.equi hL hU bD
  have ec : Equi L U c := eκ.mul eφ bκ hbdd
  have sD : Step L U D c := by
    intro ε hε
    obtain ⟨δ, hδ, h⟩ := ec ε hε
    filter_upwards [h, dx_small hL hU hδ, eventually_ge hU (p + 3)] with num h1 h2 h3 i hi
    rw [hDc num h3 i hi, ← mul_sub, norm_mul, Complex.norm_real, Real.norm_of_nonneg h2.2.le, mul_comm]
    refine mul_le_mul_of_nonneg_right (h1 i (i + 1) (by omega) (by omega) ?_) h2.2.le
    push_cast
    linarith [h2.1]
  have eD : Equi L U D := sD.equi hL hU bc
  obtain ⟨F, lF⟩ := exists_lim hL hU hbdd
  obtain ⟨G, lG⟩ := exists_lim hL hU bD
  refine ⟨μ, F, G, hμ, hbdd, eφ, lF, ?_, ?_, fun x hx => hasDeriv hL hU sφ eD lF lG hx,
    fun x hx => hasDeriv hL hU sD ec lG (lκ.mul lF) hx⟩
  · refine tendsto_nhds_unique (lF (-L) ⟨le_rfl, by linarith⟩) (tendsto_const_nhds.congr' ?_)
    filter_upwards [eventually_ge hU (p + 3)] with num hn
    rw [idx_left]
    exact ((hF num (by omega)).left p (by omega)).symm
  · refine tendsto_nhds_unique (lF L ⟨by linarith, le_rfl⟩) (tendsto_const_nhds.congr' ?_)
    filter_upwards [eventually_ge hU (p + 3)] with num hn
    rw [idx_right hL (by omega)]
    exact ((hF num (by omega)).right p (by omega)).symm

/-! ### The limits -/

theorem anti_unique {L : ℝ} {P Q A : ℝ → ℂ} (hP : ∀ x ∈ Set.Icc (-L) L, HasDerivWithinAt P (A x) (Set.Icc (-L) L) x)
    (hQ : ∀ x ∈ Set.Icc (-L) L, HasDerivWithinAt Q (A x) (Set.Icc (-L) L) x) (h0 : P (-L) = Q (-L)) {x : ℝ}
    (hx : x ∈ Set.Icc (-L) L) : P x = Q x := by
  have h := (convex_Icc (-L) L).norm_image_sub_le_of_norm_hasDerivWithin_le (f := fun x => P x - Q x) (f' := fun _ => 0)
    (C := 0) (fun y hy => ((hP y hy).sub (hQ y hy)).congr_deriv (sub_self _)) (fun _ _ => by simp) (x := -L) (y := x)
    ⟨le_rfl, hx.1.trans hx.2⟩ hx
  rw [zero_mul, norm_le_zero_iff, h0, sub_self, sub_zero] at h
  exact sub_eq_zero.1 h

/-- A solution that vanishes at the left wall with its derivative is zero. -/
theorem solution_zero (hV : ContinuousOn V (Set.Icc (-L) L)) {μ : ℝ} {F G : ℝ → ℂ} (hF0 : F (-L) = 0) (hG0 : G (-L) = 0)
    (hF : ∀ x ∈ Set.Icc (-L) L, HasDerivWithinAt F (G x) (Set.Icc (-L) L) x)
    (hG : ∀ x ∈ Set.Icc (-L) L, HasDerivWithinAt G (2 * (V x - μ) * F x) (Set.Icc (-L) L) x) {x : ℝ}
    (hx : x ∈ Set.Icc (-L) L) : F x = 0 := by
  obtain ⟨B, hB⟩ := (isCompact_Icc (a := -L) (b := L)).exists_bound_of_continuousOn hV
  have hB' : ∀ x ∈ Set.Icc (-L) L, ‖2 * ((V x : ℂ) - μ)‖ ≤ 2 * (|B| + |μ|) := by
    intro x hx
    rw [norm_mul, Complex.norm_ofNat, ← Complex.ofReal_sub, Complex.norm_real, Real.norm_eq_abs]
    have := abs_sub (V x) μ
    have h2 := (hB x hx).trans (le_abs_self B)
    rw [Real.norm_eq_abs] at h2
    linarith
  have h := eq_zero_of_abs_deriv_le_mul_abs_self_of_eq_zero_right (f := fun x => (F x, G x))
    (f' := fun x => (G x, 2 * ((V x : ℂ) - μ) * F x)) (K := max 1 (2 * (|B| + |μ|))) (a := -L) (b := L)
    (fun x hx => ((hF x hx).continuousWithinAt.prodMk (hG x hx).continuousWithinAt))
    (fun x hx => ((hF x ⟨hx.1, hx.2.le⟩).prodMk (hG x ⟨hx.1, hx.2.le⟩)).mono_of_mem_nhdsWithin
      (Icc_mem_nhdsGE_of_mem hx)) (by simp [hF0, hG0])
    (fun x hx => by
      rw [Prod.norm_mk, Prod.norm_mk]
      refine max_le ?_ ?_
      · calc ‖G x‖ = 1 * ‖G x‖ := (one_mul _).symm
          _ ≤ _ := mul_le_mul (le_max_left _ _) (le_max_right _ _) (norm_nonneg _) (by positivity)
      · rw [norm_mul]
        exact mul_le_mul ((hB' x ⟨hx.1, hx.2.le⟩).trans (le_max_right _ _)) (le_max_left _ _) (norm_nonneg _)
          (by positivity)) x hx
  exact congrArg Prod.fst h

/-- Solutions with the same energy are proportional. -/
theorem Solution.proportional (hL : 0 < L) (hV : ContinuousOn V (Set.Icc (-L) L)) {μ : ℝ} {F G F' G' : ℝ → ℂ}
    (h : Solution V L μ F G) (h' : Solution V L μ F' G') (hne : ∃ x ∈ Set.Icc (-L) L, F x ≠ 0) :
    ∃ c : ℂ, ∀ x ∈ Set.Icc (-L) L, F' x = c * F x := by
  have hl : -L ∈ Set.Icc (-L) L := ⟨le_rfl, by linarith⟩
  have hG : G (-L) ≠ 0 := fun h0 => by
    obtain ⟨x, hx, hx'⟩ := hne
    exact hx' (solution_zero hV h.left h0 h.deriv h.eq hx)
  refine ⟨G' (-L) / G (-L), fun x hx => ?_⟩
  have := solution_zero hV (μ := μ) (F := fun x => F' x - G' (-L) / G (-L) * F x)
    (G := fun x => G' x - G' (-L) / G (-L) * G x) (by simp [h.left, h'.left])
    (by rw [div_mul_cancel₀ _ hG, sub_self])
    (fun x hx => (h'.deriv x hx).sub ((h.deriv x hx).const_mul _))
    (fun x hx => by
      refine ((h'.eq x hx).sub ((h.eq x hx).const_mul _)).congr_deriv ?_
      ring) hx
  exact sub_eq_zero.1 this

/-- The integral of `conj F * K` over `[-L, L]` is `c`. -/
def Overlap (L : ℝ) (F K : ℝ → ℂ) (c : ℂ) : Prop :=
  ∃ P : ℝ → ℂ, P (-L) = 0 ∧ P L = c ∧
    ∀ x ∈ Set.Icc (-L) L, HasDerivWithinAt P ((starRingEnd ℂ) (F x) * K x) (Set.Icc (-L) L) x

theorem limit_overlap (hL : 0 < L) (hU : (U : Filter ℕ) ≤ atTop) {w : ℕ → ℕ → ℝ} {f : ℕ → ℕ → ℕ → ℂ}
    (hF : ∀ num ≥ 3, Fam V L num (w num) (f num)) {p q : ℕ} {F K : ℝ → ℂ}
    (bp : Bdd U fun num i => f num p i) (ep : Equi L U fun num i => f num p i) (lp : IsLim L U (fun num i => f num p i) F)
    (bq : Bdd U fun num i => f num q i) (eq : Equi L U fun num i => f num q i) (lq : IsLim L U (fun num i => f num q i) K) :
    Overlap L F K (if p = q then 1 else 0) := by
  obtain ⟨P, -, h0, hd, hend⟩ := cumulative hL hU (bp.conj.mul bq) (ep.conj.mul eq bp.conj bq) (lp.conj.mul lq)
  refine ⟨P, h0, tendsto_nhds_unique hend (tendsto_const_nhds.congr' ?_), hd⟩
  filter_upwards [eventually_ge hU (p + q + 3)] with num hn
  have Fm := hF num (by omega)
  rw [← Fm.orth p q (by omega) (by omega), show num - 1 = num - 2 + 1 by omega, sum_range_succ' _ (num - 2),
    Fm.left p (by omega), map_zero, zero_mul, add_zero]

theorem Overlap.ne_zero (hL : 0 < L) {F : ℝ → ℂ} (h : Overlap L F F 1) : ∃ x ∈ Set.Icc (-L) L, F x ≠ 0 := by
  by_contra hc
  push Not at hc
  obtain ⟨P, h0, h1, hd⟩ := h
  have := anti_unique (A := fun x => (starRingEnd ℂ) (F x) * F x) hd (Q := fun _ => 0)
    (fun x hx => by rw [hc x hx, mul_zero]; exact hasDerivWithinAt_const _ _ _) h0 (x := L) ⟨by linarith, le_rfl⟩
  rw [h1] at this
  exact one_ne_zero this

theorem Overlap.unique (hL : 0 < L) {F K F' K' : ℝ → ℂ} {c c' a : ℂ} (h : Overlap L F K c) (h' : Overlap L F' K' c')
    (he : ∀ x ∈ Set.Icc (-L) L, (starRingEnd ℂ) (F' x) * K' x = a * ((starRingEnd ℂ) (F x) * K x)) : c' = a * c := by
  obtain ⟨P, h0, h1, hd⟩ := h
  obtain ⟨P', h0', h1', hd'⟩ := h'
  have := anti_unique hd' (Q := fun x => a * P x)
    (fun x hx => ((hd x hx).const_mul a).congr_deriv (he x hx).symm) (by simp [h0, h0']) (x := L) ⟨by linarith, le_rfl⟩
  rw [← h1, ← h1', this]

/-! ### Trial functions -/

/-- The central difference quotient. -/
theorem second {a b : ℝ} {ψ ψ' q : ℝ → ℝ} (h1 : ∀ x ∈ Set.Icc a b, HasDerivWithinAt ψ (ψ' x) (Set.Icc a b) x)
    (h2 : ∀ x ∈ Set.Icc a b, HasDerivWithinAt ψ' (q x) (Set.Icc a b) x) {x h ε : ℝ} (hh : 0 ≤ h) (ha : a ≤ x - h)
    (hb : x + h ≤ b) (hq : ∀ y ∈ Set.Icc (x - h) (x + h), |q y - q x| ≤ ε) :
    |ψ (x + h) - 2 * ψ x + ψ (x - h) - h ^ 2 * q x| ≤ 2 * ε * h ^ 2 := by
  have hsub : Set.Icc (x - h) (x + h) ⊆ Set.Icc a b := Set.Icc_subset_Icc ha hb
  have hxm : x ∈ Set.Icc (x - h) (x + h) := ⟨by linarith, by linarith⟩
  have hε : 0 ≤ ε := (abs_nonneg _).trans (hq x hxm)
  have d1 : ∀ y ∈ Set.Icc (x - h) (x + h), |ψ' y - ψ' x - (y - x) * q x| ≤ ε * h := by
    intro y hy
    have := (convex_Icc (x - h) (x + h)).norm_image_sub_le_of_norm_hasDerivWithin_le
      (f := fun y => ψ' y - ψ' x - (y - x) * q x) (f' := fun y => q y - q x) (C := ε)
      (fun z hz => by
        have h3 := ((h2 z (hsub hz)).mono hsub).sub_const (ψ' x)
        have h4 := (((hasDerivWithinAt_id z (Set.Icc (x - h) (x + h))).sub_const x).mul_const (q x))
        exact (h3.sub h4).congr_deriv (by simp)) hq hxm hy
    simp only [sub_self, zero_mul, sub_zero, Real.norm_eq_abs] at this
    refine this.trans (mul_le_mul_of_nonneg_left ?_ hε)
    rw [abs_le]
    constructor <;> linarith [hy.1, hy.2]
  have d0 : ∀ y ∈ Set.Icc (x - h) (x + h), |ψ y - ψ x - (y - x) * ψ' x - (y - x) ^ 2 / 2 * q x| ≤ ε * h * h := by
    intro y hy
    have := (convex_Icc (x - h) (x + h)).norm_image_sub_le_of_norm_hasDerivWithin_le
      (f := fun y => ψ y - ψ x - (y - x) * ψ' x - (y - x) ^ 2 / 2 * q x)
      (f' := fun y => ψ' y - ψ' x - (y - x) * q x) (C := ε * h)
      (fun z hz => by
        have h3 := ((h1 z (hsub hz)).mono hsub).sub_const (ψ x)
        have h5 := (hasDerivWithinAt_id z (Set.Icc (x - h) (x + h))).sub_const x
        have h4 := h5.mul_const (ψ' x)
        have h6 := ((h5.pow 2).div_const 2).mul_const (q x)
        refine ((h3.sub h4).sub h6).congr_deriv ?_
        simp) d1 hxm hy
    simp only [sub_self, zero_mul, sub_zero, Real.norm_eq_abs, ne_eq, OfNat.ofNat_ne_zero, not_false_eq_true, zero_pow,
      zero_div] at this
    refine this.trans (mul_le_mul_of_nonneg_left ?_ (by positivity))
    rw [abs_le]
    constructor <;> linarith [hy.1, hy.2]
  have e1 := d0 (x + h) ⟨by linarith, le_rfl⟩
  have e2 := d0 (x - h) ⟨le_rfl, by linarith⟩
  rw [abs_le] at e1 e2 ⊢
  constructor <;> nlinarith [e1.1, e1.2, e2.1, e2.2]

theorem trial_sum {d I S ε ε' η W n n' L : ℝ} (hdx : 0 < d) (hI : 0 < I) (hε : 0 < ε) (hε' : ε' ^ 2 = ε * I / (4 * L))
    (hmul : n' * d = 2 * L) (hn : n ≤ n') (hS : I ≤ d * S) (hW : W ^ 2 * S ≤ 2 * η ^ 2 * S + n * (2 * ε' ^ 2)) :
    W ^ 2 ≤ 2 * η ^ 2 + ε := by
  rcases eq_or_ne L 0 with h0 | h0
  · rw [h0, mul_zero, div_zero] at hε'
    rw [hε', mul_zero, mul_zero, add_zero] at hW
    have hS0 : 0 < S := by
      by_contra hc
      nlinarith [not_lt.1 hc]
    have := le_of_mul_le_mul_right hW hS0
    linarith
  have h5 : d * (n * (2 * ε' ^ 2)) ≤ ε * (d * S) := by
    calc _ ≤ d * (n' * (2 * ε' ^ 2)) :=
          mul_le_mul_of_nonneg_left (mul_le_mul_of_nonneg_right hn (by positivity)) hdx.le
      _ = (n' * d) * (2 * ε' ^ 2) := by ring
      _ = ε * I := by rw [hmul, hε']; field_simp; ring
      _ ≤ _ := mul_le_mul_of_nonneg_left hS hε.le
  have h6 : W ^ 2 * (d * S) ≤ (2 * η ^ 2 + ε) * (d * S) := by
    calc _ = d * (W ^ 2 * S) := by ring
      _ ≤ d * (2 * η ^ 2 * S + n * (2 * ε' ^ 2)) := mul_le_mul_of_nonneg_left hW hdx.le
      _ = 2 * η ^ 2 * (d * S) + d * (n * (2 * ε' ^ 2)) := by ring
      _ ≤ 2 * η ^ 2 * (d * S) + ε * (d * S) := by linarith
      _ = _ := by ring
  exact le_of_mul_le_mul_right h6 (hI.trans_le hS)

theorem trial_row {v0 vp vm qx Vx E η ε' d : ℝ} (hdx : 0 < d) (hs : |vp - 2 * v0 + vm - d ^ 2 * qx| ≤ 2 * ε' * d ^ 2)
    (hη : |-(1 / 2) * qx + Vx * v0 - E * v0| ≤ η * |v0|) :
    ‖-(1 / 2) * (((vp : ℂ) - 2 * (v0 : ℂ) + (vm : ℂ)) / (d : ℂ) ^ 2) + (Vx : ℂ) * (v0 : ℂ) - (E : ℂ) * (v0 : ℂ)‖ ^ 2
      ≤ 2 * η ^ 2 * v0 ^ 2 + 2 * ε' ^ 2 := by
  have e : -(1 / 2) * (((vp : ℂ) - 2 * (v0 : ℂ) + (vm : ℂ)) / (d : ℂ) ^ 2) + (Vx : ℂ) * (v0 : ℂ) - (E : ℂ) * (v0 : ℂ)
      = (((-(1 / 2) * qx + Vx * v0 - E * v0) - (1 / (2 * d ^ 2)) * (vp - 2 * v0 + vm - d ^ 2 * qx) : ℝ) : ℂ) := by
    have : -(1 / 2) * ((vp - 2 * v0 + vm) / d ^ 2) + Vx * v0 - E * v0
        = (-(1 / 2) * qx + Vx * v0 - E * v0) - (1 / (2 * d ^ 2)) * (vp - 2 * v0 + vm - d ^ 2 * qx) := by
      field_simp
      ring
    rw [← this]
    push_cast
    rfl
  rw [e, Complex.norm_real, Real.norm_eq_abs, sq_abs]
  set u := -(1 / 2) * qx + Vx * v0 - E * v0
  set v := (1 / (2 * d ^ 2)) * (vp - 2 * v0 + vm - d ^ 2 * qx) with hv
  have hv' : |v| ≤ ε' := by
    rw [hv, abs_mul, abs_of_pos (by positivity : 0 < 1 / (2 * d ^ 2))]
    calc _ ≤ 1 / (2 * d ^ 2) * (2 * ε' * d ^ 2) := mul_le_mul_of_nonneg_left hs (by positivity)
      _ = ε' := by field_simp
  have hu2 : u ^ 2 ≤ η ^ 2 * v0 ^ 2 := by
    rw [← sq_abs u, ← sq_abs v0, ← mul_pow]
    exact pow_le_pow_left₀ (abs_nonneg _) hη 2
  have hv2 : v ^ 2 ≤ ε' ^ 2 := by
    rw [← sq_abs v]
    exact pow_le_pow_left₀ (abs_nonneg _) hv' 2
  nlinarith [sq_nonneg (u + v)]

/-- A function that nearly solves the equation is near a state of fine grids. -/
theorem trial (hL : 0 < L) (hU : (U : Filter ℕ) ≤ atTop) {w : ℕ → ℕ → ℝ} {f : ℕ → ℕ → ℕ → ℂ}
    (hF : ∀ num ≥ 3, Fam V L num (w num) (f num)) {ψ ψ' q : ℝ → ℝ}
    (h1 : ∀ x ∈ Set.Icc (-L) L, HasDerivWithinAt ψ (ψ' x) (Set.Icc (-L) L) x)
    (h2 : ∀ x ∈ Set.Icc (-L) L, HasDerivWithinAt ψ' (q x) (Set.Icc (-L) L) x)
    (hq : ContinuousOn q (Set.Icc (-L) L)) (hl : ψ (-L) = 0) (hr : ψ L = 0) (hne : ∃ x ∈ Set.Icc (-L) L, ψ x ≠ 0)
    {E η : ℝ} (hη : ∀ x ∈ Set.Icc (-L) L, |-(1 / 2) * q x + V x * ψ x - E * ψ x| ≤ η * |ψ x|) {ε : ℝ} (hε : 0 < ε) :
    ∀ᶠ num in (U : Filter ℕ), ∃ p < num - 2, (w num p - E) ^ 2 ≤ 2 * η ^ 2 + ε := by
  obtain ⟨x₀, hx₀, hx₀'⟩ := hne
  obtain ⟨eψ, bψ, lψ⟩ := equi_of_continuousOn (U := U) hL hU (f := fun x => (ψ x : ℂ))
    (Complex.continuous_ofReal.comp_continuousOn fun x hx => (h1 x hx).continuousWithinAt)
  obtain ⟨I, hI, hIs⟩ := square_pos hL hU bψ eψ lψ hx₀ (by simpa using hx₀')
  set ε' := Real.sqrt (ε * I / (4 * L)) with hε'
  have hε'0 : 0 < ε' := Real.sqrt_pos.2 (by positivity)
  have hε'2 : ε' ^ 2 = ε * I / (4 * L) := Real.sq_sqrt (by positivity)
  have hu := isCompact_Icc.uniformContinuousOn_of_continuous hq
  rw [Metric.uniformContinuousOn_iff_le] at hu
  obtain ⟨δ, hδ, hu⟩ := hu ε' hε'0
  filter_upwards [hIs, dx_small hL hU hδ, eventually_ge hU 3] with num hI' hd hn
  have hdx := hd.2
  have Fm := hF num hn
  have hmul := dx_mul L (by omega : 2 ≤ num)
  set d := dx L num with hdd
  have hlast : -L + ((num - 1 : ℕ) : ℝ) * d = L := by linarith
  obtain ⟨p, hp, hres⟩ := Fm.residual (fun i => ((ψ (-L + i * d) : ℝ) : ℂ)) E (by simp [hl]) (by
    simp only [hlast, hr, Complex.ofReal_zero])
  refine ⟨p, hp, ?_⟩
  have hrow : ∀ k ∈ range (num - 2), ‖gridHamiltonian d (fun i => -L + i * d) V (fun i => ((ψ (-L + i * d) : ℝ) : ℂ))
      (k + 1) - E * ((ψ (-L + (k + 1 : ℕ) * d) : ℝ) : ℂ)‖ ^ 2
        ≤ 2 * η ^ 2 * ψ (-L + (k + 1 : ℕ) * d) ^ 2 + 2 * ε' ^ 2 := by
    intro k hk
    have hk := mem_range.1 hk
    have m0 := (mem_grid hL (by omega : 2 ≤ num) (by omega : k ≤ num - 1)).1
    have m2 := (mem_grid hL (by omega : 2 ≤ num) (by omega : k + 2 ≤ num - 1)).2
    unfold gridHamiltonian
    have ea : -L + ((k + 1 + 1 : ℕ) : ℝ) * d = -L + (k + 1 : ℕ) * d + d := by push_cast; ring
    have eb : -L + ((k + 1 - 1 : ℕ) : ℝ) * d = -L + (k + 1 : ℕ) * d - d := by
      rw [Nat.add_sub_cancel]
      push_cast
      ring
    have m0' : -L ≤ -L + ((k + 1 : ℕ) : ℝ) * d - d := by rw [← eb, Nat.add_sub_cancel]; exact m0
    have m2' : -L + ((k + 1 : ℕ) : ℝ) * d + d ≤ L := by rw [← ea]; exact m2
    dsimp only
    rw [ea, eb]
    set x := -L + ((k + 1 : ℕ) : ℝ) * d with hx
    have hxm : x ∈ Set.Icc (-L) L := ⟨by linarith, by linarith⟩
    have hs := second h1 h2 hdx.le m0' m2' (ε := ε') (fun y hy => by
      have := hu y ⟨by linarith [hy.1], by linarith [hy.2]⟩ x hxm (by
        rw [Real.dist_eq, abs_le]
        constructor <;> linarith [hy.1, hy.2, hd.1])
      rwa [Real.dist_eq] at this)
    exact trial_row hdx hs (hη x hxm)
  have hsum := hres.trans (sum_le_sum hrow)
  rw [sum_add_distrib, ← mul_sum, sum_const, card_range, nsmul_eq_mul, sq_abs] at hsum
  simp only [Complex.norm_real, Real.norm_eq_abs, sq_abs] at hsum
  have hI'' : I ≤ d * ∑ k ∈ range (num - 2), ψ (-L + (k + 1 : ℕ) * d) ^ 2 := by
    refine hI'.trans (le_of_eq ?_)
    rw [show num - 1 = num - 2 + 1 by omega, sum_range_succ' _ (num - 2)]
    simp [hl]
  exact trial_sum hdx hI hε hε'2 hmul (by exact_mod_cast (by omega : num - 2 ≤ num - 1)) hI'' hsum

end QS.GridLimit
