import Mathlib.Order.Filter.Ultrafilter.Basic
import Mathlib.Topology.Compactness.Compact
import Mathlib.Analysis.Calculus.Deriv.Basic
import Mathlib.Analysis.Calculus.MeanValue
import Mathlib.Analysis.Complex.Basic
import Mathlib.Analysis.SpecificLimits.Basic

/-!
# Limits of functions on finer and finer grids

`a num i` is the value at the `i`-th of `num` equidistant points of `[-L, L]`.  Limits are taken along an ultrafilter,
so that every bounded family has one.
-/

namespace QS.GridLimit

open Filter Topology

/-- The spacing of the grid. -/
noncomputable def dx (L : ℝ) (num : ℕ) : ℝ := 2 * L / ((num : ℝ) - 1)

/-- The last grid point not above `x`. -/
noncomputable def idx (L : ℝ) (num : ℕ) (x : ℝ) : ℕ := ⌊(x + L) / dx L num⌋₊

/-- `A` is the limit of the family `a`. -/
def IsLim (L : ℝ) (U : Ultrafilter ℕ) (a : ℕ → ℕ → ℂ) (A : ℝ → ℂ) : Prop :=
  ∀ x ∈ Set.Icc (-L) L, Tendsto (fun num => a num (idx L num x)) U (𝓝 (A x))

/-- The family is bounded. -/
def Bdd (U : Ultrafilter ℕ) (a : ℕ → ℕ → ℂ) : Prop :=
  ∃ C, ∀ᶠ num in (U : Filter ℕ), ∀ i ≤ num - 1, ‖a num i‖ ≤ C

/-- The family is equicontinuous. -/
def Equi (L : ℝ) (U : Ultrafilter ℕ) (a : ℕ → ℕ → ℂ) : Prop :=
  ∀ ε > 0, ∃ δ > 0, ∀ᶠ num in (U : Filter ℕ), ∀ i j : ℕ, i ≤ j → j ≤ num - 1 → ((j : ℝ) - i) * dx L num ≤ δ →
    ‖a num j - a num i‖ ≤ ε

/-- `b` is the derivative of `a` on the grids. -/
def Step (L : ℝ) (U : Ultrafilter ℕ) (a b : ℕ → ℕ → ℂ) : Prop :=
  ∀ ε > 0, ∀ᶠ num in (U : Filter ℕ), ∀ i < num - 1, ‖a num (i + 1) - a num i - dx L num * b num i‖ ≤ ε * dx L num

variable {L : ℝ} {U : Ultrafilter ℕ}

theorem dx_pos (hL : 0 < L) {num : ℕ} (h : 2 ≤ num) : 0 < dx L num := by
  have : (2 : ℝ) ≤ num := by exact_mod_cast h
  exact div_pos (by linarith) (by linarith)

theorem dx_mul (L : ℝ) {num : ℕ} (h : 2 ≤ num) : ((num - 1 : ℕ) : ℝ) * dx L num = 2 * L := by
  have : (2 : ℝ) ≤ num := by exact_mod_cast h
  unfold dx
  rw [Nat.cast_sub (by omega), Nat.cast_one]
  field_simp [(by linarith : (num : ℝ) - 1 ≠ 0)]

theorem dx_tendsto (L : ℝ) : Tendsto (dx L) atTop (𝓝 0) := by
  unfold dx
  refine tendsto_const_nhds.div_atTop ?_
  exact tendsto_atTop_add_const_right _ (-1) tendsto_natCast_atTop_atTop

theorem eventually_ge (hU : (U : Filter ℕ) ≤ atTop) (n : ℕ) : ∀ᶠ num in (U : Filter ℕ), n ≤ num :=
  hU (eventually_ge_atTop n)

theorem dx_small (hL : 0 < L) (hU : (U : Filter ℕ) ≤ atTop) {δ : ℝ} (hδ : 0 < δ) :
    ∀ᶠ num in (U : Filter ℕ), dx L num ≤ δ ∧ 0 < dx L num := by
  filter_upwards [hU ((dx_tendsto L).eventually_lt_const hδ), eventually_ge hU 2] with num h1 h2
  exact ⟨h1.le, dx_pos hL h2⟩

theorem idx_bounds (hL : 0 < L) {num : ℕ} (h : 2 ≤ num) {x : ℝ} (hx : x ∈ Set.Icc (-L) L) :
    idx L num x ≤ num - 1 ∧ -L + idx L num x * dx L num ≤ x ∧ x < -L + idx L num x * dx L num + dx L num := by
  have hd := dx_pos hL h
  have h0 : 0 ≤ (x + L) / dx L num := div_nonneg (by linarith [hx.1]) hd.le
  have h1 := Nat.floor_le h0
  have h2 := Nat.lt_floor_add_one ((x + L) / dx L num)
  rw [le_div_iff₀ hd] at h1
  rw [div_lt_iff₀ hd] at h2
  refine ⟨?_, by unfold idx; linarith, by unfold idx; linarith⟩
  unfold idx
  rw [← Nat.floor_natCast (R := ℝ) (num - 1)]
  refine Nat.floor_mono ?_
  rw [div_le_iff₀ hd, dx_mul L h]
  linarith [hx.2]

theorem idx_left (L : ℝ) (num : ℕ) : idx L num (-L) = 0 := by simp [idx]

theorem idx_right (hL : 0 < L) {num : ℕ} (h : 2 ≤ num) : idx L num L = num - 1 := by
  have hd := dx_pos hL h
  unfold idx
  rw [← dx_mul L h |>.trans (by ring : 2 * L = L + L), mul_div_assoc, div_self hd.ne', mul_one, Nat.floor_natCast]

/-- The grid points near `x` tend to `x`. -/
theorem idx_tendsto (hL : 0 < L) (hU : (U : Filter ℕ) ≤ atTop) {x : ℝ} (hx : x ∈ Set.Icc (-L) L) :
    Tendsto (fun num => -L + idx L num x * dx L num) U (𝓝 x) := by
  have h1 : Tendsto (fun num => x - dx L num) U (𝓝 x) := by
    simpa using (tendsto_const_nhds (x := x)).sub ((dx_tendsto L).mono_left hU)
  refine tendsto_of_tendsto_of_tendsto_of_le_of_le' h1 tendsto_const_nhds ?_ ?_
  · filter_upwards [eventually_ge hU 2] with num h
    linarith [(idx_bounds hL h hx).2.2]
  · filter_upwards [eventually_ge hU 2] with num h
    exact (idx_bounds hL h hx).2.1

/-- Bounded sequences converge along an ultrafilter. -/
theorem exists_lim_of_bdd {a : ℕ → ℂ} {C : ℝ} (h : ∀ᶠ num in (U : Filter ℕ), ‖a num‖ ≤ C) :
    ∃ z, Tendsto a U (𝓝 z) := by
  have hc := isCompact_closedBall (0 : ℂ) C
  have : ((U.map a : Ultrafilter ℂ) : Filter ℂ) ≤ 𝓟 (Metric.closedBall 0 C) := by
    rw [le_principal_iff]
    show ∀ᶠ num in (U : Filter ℕ), a num ∈ Metric.closedBall 0 C
    filter_upwards [h] with num hn
    simpa using hn
  obtain ⟨z, -, hz⟩ := hc.ultrafilter_le_nhds _ this
  exact ⟨z, hz⟩

theorem exists_real_lim_of_bdd {a : ℕ → ℝ} {C : ℝ} (h : ∀ᶠ num in (U : Filter ℕ), |a num| ≤ C) :
    ∃ z, Tendsto a U (𝓝 z) := by
  obtain ⟨z, hz⟩ := exists_lim_of_bdd (U := U) (a := fun n => (a n : ℂ)) (C := C) (by simpa using h)
  exact ⟨z.re, (Complex.continuous_re.tendsto z).comp hz⟩

theorem exists_lim (hL : 0 < L) (hU : (U : Filter ℕ) ≤ atTop) {a : ℕ → ℕ → ℂ} (ha : Bdd U a) : ∃ A, IsLim L U a A := by
  obtain ⟨C, hC⟩ := ha
  have : ∀ x : ℝ, ∃ z, x ∈ Set.Icc (-L) L → Tendsto (fun num => a num (idx L num x)) U (𝓝 z) := by
    intro x
    by_cases hx : x ∈ Set.Icc (-L) L
    · obtain ⟨z, hz⟩ := exists_lim_of_bdd (U := U) (a := fun num => a num (idx L num x)) (C := C) (by
        filter_upwards [hC, eventually_ge hU 2] with num h h2
        exact h _ (idx_bounds hL h2 hx).1)
      exact ⟨z, fun _ => hz⟩
    · exact ⟨0, fun h => absurd h hx⟩
  choose A hA using this
  exact ⟨A, fun x hx => hA x hx⟩

/-- The increments on a grid. -/
theorem increment {b a : ℕ → ℂ} {d ε : ℝ} (hd : 0 ≤ d) {i j : ℕ} (hij : i ≤ j) {β : ℂ}
    (hs : ∀ m, i ≤ m → m < j → ‖a (m + 1) - a m - d * b m‖ ≤ ε * d) (hb : ∀ m, i ≤ m → m < j → ‖b m - β‖ ≤ ε) :
    ‖a j - a i - ((j : ℝ) - i : ℝ) * d * β‖ ≤ 2 * ε * (((j : ℝ) - i) * d) := by
  induction j, hij using Nat.le_induction with
  | base => simp
  | succ j hij ih =>
    have h1 := ih (fun m h1 h2 => hs m h1 (by omega)) (fun m h1 h2 => hb m h1 (by omega))
    have h2 := hs j hij (by omega)
    have h3 : ‖(d : ℂ) * (b j - β)‖ ≤ d * ε := by
      rw [norm_mul, Complex.norm_real, Real.norm_of_nonneg hd]
      exact mul_le_mul_of_nonneg_left (hb j hij (by omega)) hd
    have e : a (j + 1) - a i - (((j + 1 : ℕ) : ℝ) - i : ℝ) * d * β
        = (a j - a i - ((j : ℝ) - i : ℝ) * d * β) + ((a (j + 1) - a j - d * b j) + d * (b j - β)) := by
      push_cast
      ring
    rw [e]
    refine (norm_add_le _ _).trans ((add_le_add h1 ((norm_add_le _ _).trans (add_le_add h2 h3))).trans (le_of_eq ?_))
    push_cast
    ring

/-- The limit of the derivatives on the grids is the derivative of the limit. -/
theorem hasDeriv (hL : 0 < L) (hU : (U : Filter ℕ) ≤ atTop) {a b : ℕ → ℕ → ℂ} {A B : ℝ → ℂ} (hs : Step L U a b)
    (hb : Equi L U b) (hA : IsLim L U a A) (hB : IsLim L U b B) {x : ℝ} (hx : x ∈ Set.Icc (-L) L) :
    HasDerivWithinAt A (B x) (Set.Icc (-L) L) x := by
  rw [hasDerivWithinAt_iff_isLittleO, Asymptotics.isLittleO_iff]
  intro c hc
  obtain ⟨δ, hδ, hd⟩ := hb (c / 2) (by positivity)
  have hnear : ∀ᶠ y in 𝓝[Set.Icc (-L) L] x, |y - x| < δ / 2 := by
    refine nhdsWithin_le_nhds ?_
    have : Tendsto (fun y : ℝ => |y - x|) (𝓝 x) (𝓝 |x - x|) := (continuous_abs.comp (continuous_sub_right x)).tendsto x
    rw [sub_self, abs_zero] at this
    exact this.eventually_lt_const (by positivity)
  filter_upwards [hnear, self_mem_nhdsWithin] with y hy hyI
  have tx := idx_tendsto hL hU hx
  have ty := idx_tendsto hL hU hyI
  have tdiff : Tendsto (fun num => ((idx L num y : ℝ) - idx L num x) * dx L num) U (𝓝 (y - x)) := by
    refine (ty.sub tx).congr fun num => ?_
    ring
  have hlim : Tendsto (fun num => ‖a num (idx L num y) - a num (idx L num x)
      - (((idx L num y : ℝ) - idx L num x) * dx L num : ℝ) * b num (idx L num x)‖) U
      (𝓝 ‖A y - A x - ((y - x : ℝ) : ℂ) * B x‖) := by
    refine (((hA y hyI).sub (hA x hx)).sub (Tendsto.mul ?_ (hB x hx))).norm
    exact (Complex.continuous_ofReal.tendsto _).comp tdiff
  have hrhs : Tendsto (fun num => c * |((idx L num y : ℝ) - idx L num x) * dx L num|) U (𝓝 (c * |y - x|)) :=
    (tdiff.abs).const_mul c
  have hle := le_of_tendsto_of_tendsto hlim hrhs (by
    filter_upwards [hd, hs (c / 2) (by positivity), eventually_ge hU 2,
      (tdiff.abs).eventually_lt_const (hy.trans (by linarith : δ / 2 < δ))] with num h1 h2 h3 h4
    have hdx := dx_pos hL h3
    have bx := (idx_bounds hL h3 hx).1
    have bye := (idx_bounds hL h3 hyI).1
    rcases le_total (idx L num x) (idx L num y) with h | h
    · have hcast : (idx L num x : ℝ) ≤ idx L num y := by exact_mod_cast h
      have hn : 0 ≤ ((idx L num y : ℝ) - idx L num x) * dx L num := mul_nonneg (by linarith) hdx.le
      rw [abs_of_nonneg hn] at h4 ⊢
      have := increment (a := a num) (b := b num) (ε := c / 2) hdx.le h (β := b num (idx L num x))
        (fun m _ hm => h2 m (by omega)) (fun m h5 h6 => h1 _ m h5 (by omega) (by
          have : (m : ℝ) ≤ idx L num y := by exact_mod_cast h6.le
          nlinarith))
      push_cast at this ⊢
      refine this.trans (le_of_eq ?_)
      ring
    · have hcast : (idx L num y : ℝ) ≤ idx L num x := by exact_mod_cast h
      have hn : ((idx L num y : ℝ) - idx L num x) * dx L num ≤ 0 := mul_nonpos_of_nonpos_of_nonneg (by linarith) hdx.le
      rw [abs_of_nonpos hn] at h4 ⊢
      have := increment (a := a num) (b := b num) (ε := c / 2) hdx.le h (β := b num (idx L num x))
        (fun m _ hm => h2 m (by omega)) (fun m h5 h6 => by
          rw [norm_sub_rev]
          refine h1 m _ h6.le bx ?_
          have : (idx L num y : ℝ) ≤ m := by exact_mod_cast h5
          nlinarith)
      rw [← norm_neg]
      push_cast at this ⊢
      refine le_trans (le_of_eq ?_) (this.trans (le_of_eq ?_))
      · congr 1
        ring
      · ring)
  simpa [Complex.real_smul] using hle

/-- Families with bounded derivatives are equicontinuous. -/
theorem Step.equi (hL : 0 < L) (hU : (U : Filter ℕ) ≤ atTop) {a b : ℕ → ℕ → ℂ} (hs : Step L U a b) (hb : Bdd U b) :
    Equi L U a := by
  obtain ⟨C, hC⟩ := hb
  intro ε hε
  refine ⟨ε / (2 * (|C| + 1)), by positivity, ?_⟩
  filter_upwards [hC, hs 1 one_pos, eventually_ge hU 2] with num h1 h2 h3 i j hij hj hd
  have hdx := dx_pos hL h3
  have hcast : (i : ℝ) ≤ j := by exact_mod_cast hij
  have := increment (a := a num) (b := b num) (ε := |C| + 1) hdx.le hij (β := 0)
    (fun m _ hm => (h2 m (by omega)).trans (mul_le_mul_of_nonneg_right (by linarith [abs_nonneg C]) hdx.le))
    (fun m _ hm => by
      rw [sub_zero]
      exact (h1 m (by omega)).trans (by linarith [le_abs_self C]))
  rw [mul_zero, sub_zero] at this
  refine this.trans ?_
  rw [le_div_iff₀ (by positivity)] at hd
  linarith

theorem Equi.mul {a b : ℕ → ℕ → ℂ} (ha : Equi L U a) (hb : Equi L U b) (ha' : Bdd U a) (hb' : Bdd U b) :
    Equi L U fun num i => a num i * b num i := by
  obtain ⟨C, hC⟩ := ha'
  obtain ⟨D, hD⟩ := hb'
  intro ε hε
  obtain ⟨δ, hδ, h1⟩ := ha (ε / (2 * (|D| + 1))) (by positivity)
  obtain ⟨δ', hδ', h2⟩ := hb (ε / (2 * (|C| + 1))) (by positivity)
  refine ⟨min δ δ', lt_min hδ hδ', ?_⟩
  filter_upwards [hC, hD, h1, h2] with num c d k1 k2 i j hij hj hd
  have e : a num j * b num j - a num i * b num i
      = (a num j - a num i) * b num j + a num i * (b num j - b num i) := by ring
  rw [e]
  refine (norm_add_le _ _).trans ?_
  rw [norm_mul, norm_mul]
  have b1 : ‖b num j‖ ≤ |D| + 1 := (d j hj).trans (by linarith [le_abs_self D])
  have b2 : ‖a num i‖ ≤ |C| + 1 := (c i (hij.trans hj)).trans (by linarith [le_abs_self C])
  have e1 := mul_le_mul (k1 i j hij hj (hd.trans (min_le_left _ _))) b1 (norm_nonneg _) (by positivity)
  have e2 := mul_le_mul b2 (k2 i j hij hj (hd.trans (min_le_right _ _))) (norm_nonneg _) (by positivity)
  have e3 : ε / (2 * (|D| + 1)) * (|D| + 1) = ε / 2 := by field_simp
  have e4 : (|C| + 1) * (ε / (2 * (|C| + 1))) = ε / 2 := by field_simp
  linarith

theorem Bdd.mul {a b : ℕ → ℕ → ℂ} (ha : Bdd U a) (hb : Bdd U b) : Bdd U fun num i => a num i * b num i := by
  obtain ⟨C, hC⟩ := ha
  obtain ⟨D, hD⟩ := hb
  refine ⟨C * D, ?_⟩
  filter_upwards [hC, hD] with num c d i hi
  rw [norm_mul]
  exact mul_le_mul (c i hi) (d i hi) (norm_nonneg _) ((norm_nonneg _).trans (c i hi))

theorem IsLim.mul {a b : ℕ → ℕ → ℂ} {A B : ℝ → ℂ} (ha : IsLim L U a A) (hb : IsLim L U b B) :
    IsLim L U (fun num i => a num i * b num i) fun x => A x * B x := fun x hx => (ha x hx).mul (hb x hx)

theorem IsLim.conj {a : ℕ → ℕ → ℂ} {A : ℝ → ℂ} (ha : IsLim L U a A) :
    IsLim L U (fun num i => (starRingEnd ℂ) (a num i)) fun x => (starRingEnd ℂ) (A x) := fun x hx =>
  (Complex.continuous_conj.tendsto _).comp (ha x hx)

theorem Equi.conj {a : ℕ → ℕ → ℂ} (ha : Equi L U a) : Equi L U fun num i => (starRingEnd ℂ) (a num i) := by
  intro ε hε
  obtain ⟨δ, hδ, h⟩ := ha ε hε
  refine ⟨δ, hδ, h.mono fun num h i j hij hj hd => ?_⟩
  rw [← map_sub, RCLike.norm_conj]
  exact h i j hij hj hd

theorem Bdd.conj {a : ℕ → ℕ → ℂ} (ha : Bdd U a) : Bdd U fun num i => (starRingEnd ℂ) (a num i) := by
  obtain ⟨C, hC⟩ := ha
  refine ⟨C, hC.mono fun num h i hi => ?_⟩
  rw [RCLike.norm_conj]
  exact h i hi

/-- Values of a continuous function. -/
theorem equi_of_continuousOn (hL : 0 < L) (hU : (U : Filter ℕ) ≤ atTop) {f : ℝ → ℂ}
    (hf : ContinuousOn f (Set.Icc (-L) L)) : Equi L U (fun num i => f (-L + i * dx L num)) ∧
      Bdd U (fun num i => f (-L + i * dx L num)) ∧ IsLim L U (fun num i => f (-L + i * dx L num)) f := by
  have hmem : ∀ {num : ℕ}, 2 ≤ num → ∀ i ≤ num - 1, -L + i * dx L num ∈ Set.Icc (-L) L := by
    intro num h i hi
    have hdx := dx_pos hL h
    have h1 : (i : ℝ) ≤ ((num - 1 : ℕ) : ℝ) := by exact_mod_cast hi
    have h2 := dx_mul L h
    have h3 : (0 : ℝ) ≤ i := Nat.cast_nonneg i
    constructor <;> nlinarith
  refine ⟨?_, ?_, ?_⟩
  · intro ε hε
    have hu := isCompact_Icc.uniformContinuousOn_of_continuous hf
    rw [Metric.uniformContinuousOn_iff_le] at hu
    obtain ⟨δ, hδ, h⟩ := hu ε hε
    refine ⟨δ, hδ, ?_⟩
    filter_upwards [eventually_ge hU 2] with num h2 i j hij hj hd
    have hdx := dx_pos hL h2
    have hcast : (i : ℝ) ≤ j := by exact_mod_cast hij
    have := h _ (hmem h2 j hj) _ (hmem h2 i (hij.trans hj)) (by
      rw [Real.dist_eq]
      rw [show -L + (j : ℝ) * dx L num - (-L + i * dx L num) = ((j : ℝ) - i) * dx L num by ring,
        abs_of_nonneg (mul_nonneg (by linarith) hdx.le)]
      exact hd)
    rwa [dist_eq_norm] at this
  · obtain ⟨C, hC⟩ := (isCompact_Icc (a := -L) (b := L)).exists_bound_of_continuousOn hf
    refine ⟨C, ?_⟩
    filter_upwards [eventually_ge hU 2] with num h2 i hi
    exact hC _ (hmem h2 i hi)
  · intro x hx
    refine (hf x hx).tendsto.comp (tendsto_nhdsWithin_iff.2 ⟨idx_tendsto hL hU hx, ?_⟩)
    filter_upwards [eventually_ge hU 2] with num h2
    exact hmem h2 _ (idx_bounds hL h2 hx).1

/-- The sums up to the points of the grids. -/
noncomputable def cum (L : ℝ) (a : ℕ → ℕ → ℂ) (num i : ℕ) : ℂ := dx L num * ∑ j ∈ Finset.range i, a num j

theorem cum_step (hL : 0 < L) (hU : (U : Filter ℕ) ≤ atTop) (a : ℕ → ℕ → ℂ) : Step L U (cum L a) a := by
  intro ε hε
  filter_upwards [dx_small hL hU one_pos] with num h i _
  rw [cum, cum, Finset.sum_range_succ, mul_add, add_sub_cancel_left, sub_self, norm_zero]
  exact mul_nonneg hε.le h.2.le

theorem cum_bdd (hL : 0 < L) (hU : (U : Filter ℕ) ≤ atTop) {a : ℕ → ℕ → ℂ} (ha : Bdd U a) : Bdd U (cum L a) := by
  obtain ⟨C, hC⟩ := ha
  refine ⟨2 * L * |C|, ?_⟩
  filter_upwards [hC, eventually_ge hU 2] with num h h2 i hi
  have hd := dx_pos hL h2
  rw [cum, norm_mul, Complex.norm_real, Real.norm_of_nonneg hd.le]
  have h1 : ‖∑ j ∈ Finset.range i, a num j‖ ≤ i * |C| := by
    refine (norm_sum_le _ _).trans ((Finset.sum_le_card_nsmul _ _ |C| fun j hj => ?_).trans (le_of_eq (by simp)))
    exact (h j (by have := Finset.mem_range.1 hj; omega)).trans (le_abs_self C)
  have h2' : (i : ℝ) ≤ ((num - 1 : ℕ) : ℝ) := by exact_mod_cast hi
  calc _ ≤ dx L num * (i * |C|) := mul_le_mul_of_nonneg_left h1 hd.le
    _ ≤ dx L num * (((num - 1 : ℕ) : ℝ) * |C|) :=
        mul_le_mul_of_nonneg_left (mul_le_mul_of_nonneg_right h2' (abs_nonneg _)) hd.le
    _ = (((num - 1 : ℕ) : ℝ) * dx L num) * |C| := by ring
    _ = _ := by rw [dx_mul L h2]

/-- The sums tend to an antiderivative. -/
theorem cumulative (hL : 0 < L) (hU : (U : Filter ℕ) ≤ atTop) {a : ℕ → ℕ → ℂ} {A : ℝ → ℂ} (hb : Bdd U a)
    (he : Equi L U a) (hA : IsLim L U a A) : ∃ P : ℝ → ℂ, IsLim L U (cum L a) P ∧ P (-L) = 0 ∧
      (∀ x ∈ Set.Icc (-L) L, HasDerivWithinAt P (A x) (Set.Icc (-L) L) x) ∧
      Tendsto (fun num => dx L num * ∑ j ∈ Finset.range (num - 1), a num j) U (𝓝 (P L)) := by
  obtain ⟨P, hP⟩ := exists_lim hL hU (cum_bdd hL hU hb)
  refine ⟨P, hP, ?_, fun x hx => hasDeriv hL hU (cum_step hL hU a) he hP hA hx, ?_⟩
  · refine tendsto_nhds_unique (hP (-L) ⟨le_rfl, by linarith⟩) ?_
    simp only [idx_left, cum, Finset.range_zero, Finset.sum_empty, mul_zero]
    exact tendsto_const_nhds
  · refine (hP L ⟨by linarith, le_rfl⟩).congr' ?_
    filter_upwards [eventually_ge hU 2] with num h2
    rw [idx_right hL h2, cum]

/-- A continuous function with a nonzero value has a sum of squares bounded away from zero. -/
theorem square_pos (hL : 0 < L) (hU : (U : Filter ℕ) ≤ atTop) {a : ℕ → ℕ → ℂ} {A : ℝ → ℂ} (hb : Bdd U a)
    (he : Equi L U a) (hA : IsLim L U a A) {x₀ : ℝ} (hx₀ : x₀ ∈ Set.Icc (-L) L) (hne : A x₀ ≠ 0) :
    ∃ I > 0, ∀ᶠ num in (U : Filter ℕ), I ≤ dx L num * ∑ j ∈ Finset.range (num - 1), ‖a num j‖ ^ 2 := by
  obtain ⟨P, hP, -, hd, hend⟩ := cumulative hL hU (hb.conj.mul hb) (he.conj.mul he hb.conj hb) (hA.conj.mul hA)
  have hcast : ∀ num i, cum L (fun num i => (starRingEnd ℂ) (a num i) * a num i) num i
      = ((dx L num * ∑ j ∈ Finset.range i, ‖a num j‖ ^ 2 : ℝ) : ℂ) := by
    intro num i
    unfold cum
    rw [Complex.ofReal_mul, Complex.ofReal_sum]
    congr 1
    refine Finset.sum_congr rfl fun j _ => ?_
    dsimp only
    rw [Complex.conj_mul']
    push_cast
    rfl
  have hre : Tendsto (fun num => dx L num * ∑ j ∈ Finset.range (num - 1), ‖a num j‖ ^ 2) U (𝓝 (P L).re) := by
    refine ((Complex.continuous_re.tendsto _).comp hend).congr fun num => ?_
    have := hcast num (num - 1)
    unfold cum at this
    exact (congrArg Complex.re this).trans (Complex.ofReal_re _)
  suffices hpos : 0 < (P L).re by
    exact ⟨(P L).re / 2, by linarith, (hre.eventually_const_le (by linarith : (P L).re / 2 < (P L).re))⟩
  by_contra hc
  have hzero : ∀ x ∈ Set.Icc (-L) L, P x = 0 := by
    intro x hx
    have h1 := hP x hx
    have h2 : Tendsto (fun num => ‖cum L (fun num i => (starRingEnd ℂ) (a num i) * a num i) num (idx L num x)‖) U
      (𝓝 ‖P x‖) := h1.norm
    have h3 : ‖P x‖ ≤ (P L).re := by
      refine le_of_tendsto_of_tendsto h2 hre ?_
      filter_upwards [eventually_ge hU 2] with num hn
      have hdx := dx_pos hL hn
      rw [hcast, Complex.norm_real, Real.norm_of_nonneg (by positivity)]
      refine mul_le_mul_of_nonneg_left ?_ hdx.le
      refine Finset.sum_le_sum_of_subset_of_nonneg ?_ fun _ _ _ => by positivity
      exact Finset.range_mono (idx_bounds hL hn hx).1
    exact norm_le_zero_iff.1 (h3.trans (not_lt.1 hc))
  have h1 := hd x₀ hx₀
  have h2 : HasDerivWithinAt P 0 (Set.Icc (-L) L) x₀ :=
    (hasDerivWithinAt_const x₀ _ (0 : ℂ)).congr (fun y hy => hzero y hy) (hzero x₀ hx₀)
  have h3 := (uniqueDiffOn_Icc (by linarith : -L < L) x₀ hx₀).eq_deriv _ h1 h2
  rw [mul_eq_zero, map_eq_zero, or_self] at h3
  exact hne h3

end QS.GridLimit
