import Verif.Lemmas.GridStates
import Verif.Spec.Box
import Mathlib.Analysis.SpecialFunctions.Trigonometric.Deriv
import Mathlib.Order.Filter.Ultrafilter.Defs
import Mathlib.Analysis.Complex.RealDeriv

/-!
# The spectrum on fine grids
-/

namespace QS.GridLimit

open Filter Topology OneDim Spec Finset

variable {V : ℝ → ℝ} {L : ℝ} {U : Ultrafilter ℕ} {w : ℕ → ℕ → ℝ} {f : ℕ → ℕ → ℕ → ℂ}

/-- Every level stays bounded on fine grids. -/
theorem upper (hL : 0 < L) (hU : (U : Filter ℕ) ≤ atTop) (hV : ContinuousOn V (Set.Icc (-L) L))
    (hF : ∀ num ≥ 3, Fam V L num (w num) (f num)) (k : ℕ) : ∃ C, ∀ᶠ num in (U : Filter ℕ), w num k ≤ C := by
  obtain ⟨B, hB⟩ := (isCompact_Icc (a := -L) (b := L)).exists_bound_of_continuousOn hV
  have hsin : ∀ n : ℕ, 1 ≤ n → ∀ᶠ num in (U : Filter ℕ), ∃ p < num - 2,
      |w num p - (n * (Real.pi / (2 * L))) ^ 2 / 2| ≤ 2 * |B| + 1 := by
    intro n hn
    set a := (n : ℝ) * (Real.pi / (2 * L)) with ha
    have hn' : (0 : ℝ) < n := by exact_mod_cast hn
    have ha0 : 0 < a := mul_pos hn' (div_pos Real.pi_pos (by linarith))
    have haL : a * (2 * L) = n * Real.pi := by rw [ha]; field_simp
    have hlin : ∀ x : ℝ, HasDerivAt (fun x => a * (x + L)) a x := fun x => by
      simpa using ((hasDerivAt_id x).add_const L).const_mul a
    have hn1 : (1 : ℝ) ≤ n := by exact_mod_cast hn
    have := trial hL hU hF (ψ := fun x => Real.sin (a * (x + L))) (ψ' := fun x => Real.cos (a * (x + L)) * a)
      (q := fun x => -Real.sin (a * (x + L)) * a * a) (fun x _ => (hlin x).sin.hasDerivWithinAt)
      (fun x _ => ((hlin x).cos.mul_const a).hasDerivWithinAt) (by fun_prop) (by simp)
      (by rw [show a * (L + L) = n * Real.pi by rw [← haL]; ring]; exact Real.sin_nat_mul_pi n)
      ⟨-L + Real.pi / (2 * a), ⟨by linarith [div_pos Real.pi_pos (by linarith : 0 < 2 * a)], by
          have : Real.pi / (2 * a) ≤ 2 * L := by
            rw [div_le_iff₀ (by linarith)]
            nlinarith [Real.pi_pos]
          linarith⟩, by
        rw [show a * (-L + Real.pi / (2 * a) + L) = Real.pi / 2 by field_simp; ring, Real.sin_pi_div_two]
        exact one_ne_zero⟩ (E := a ^ 2 / 2) (η := |B|) (fun x hx => by
          rw [show -(1 / 2) * (-Real.sin (a * (x + L)) * a * a) + V x * Real.sin (a * (x + L))
            - a ^ 2 / 2 * Real.sin (a * (x + L)) = V x * Real.sin (a * (x + L)) by ring, abs_mul]
          exact mul_le_mul_of_nonneg_right ((hB x hx).trans (le_abs_self B)) (abs_nonneg _)) one_pos
    filter_upwards [this] with num h
    obtain ⟨p, hp, h⟩ := h
    refine ⟨p, hp, abs_le_of_sq_le_sq (h.trans ?_) (by positivity)⟩
    nlinarith [abs_nonneg B]
  have key : ∀ k : ℕ, ∃ C, ∀ᶠ num in (U : Filter ℕ), ∃ p < num - 2, k ≤ p ∧ w num p ≤ C := by
    intro k
    induction k with
    | zero =>
      refine ⟨((1 : ℕ) * (Real.pi / (2 * L))) ^ 2 / 2 + (2 * |B| + 1), ?_⟩
      filter_upwards [hsin 1 le_rfl] with num h
      obtain ⟨p, hp, h⟩ := h
      exact ⟨p, hp, Nat.zero_le _, by linarith [(abs_le.1 h).2]⟩
    | succ k ih =>
      obtain ⟨C, hC⟩ := ih
      have hb : 0 < Real.pi / (2 * L) := div_pos Real.pi_pos (by linarith)
      obtain ⟨n, hn⟩ := exists_nat_gt ((2 * (|C| + 2 * |B| + 1) + 1) / (Real.pi / (2 * L)))
      rw [div_lt_iff₀ hb] at hn
      have hn1 : 1 ≤ n := by
        rcases Nat.eq_zero_or_pos n with h | h
        · rw [h, Nat.cast_zero, zero_mul] at hn
          linarith [abs_nonneg C, abs_nonneg B]
        · exact h
      set e := (n : ℝ) * (Real.pi / (2 * L)) with he
      have he2 : |C| + (2 * |B| + 1) < e ^ 2 / 2 := by
        nlinarith [abs_nonneg C, abs_nonneg B]
      refine ⟨e ^ 2 / 2 + (2 * |B| + 1), ?_⟩
      filter_upwards [hC, hsin n hn1, eventually_ge hU 3] with num h1 h2 h3
      obtain ⟨p, hp, hkp, hw⟩ := h1
      obtain ⟨p', hp', h⟩ := h2
      refine ⟨p', hp', ?_, by linarith [(abs_le.1 h).2]⟩
      by_contra hc
      have := (hF num h3).sorted p' p (by omega) hp
      linarith [(abs_le.1 h).1, le_abs_self C]
  obtain ⟨C, hC⟩ := key k
  refine ⟨C, ?_⟩
  filter_upwards [hC, eventually_ge hU 3] with num h h3
  obtain ⟨p, hp, hkp, hw⟩ := h
  exact ((hF num h3).sorted k p hkp hp).trans hw

/-- All states have limits along an ultrafilter. -/
theorem limit_states (hL : 0 < L) (hU : (U : Filter ℕ) ≤ atTop) (hV : ContinuousOn V (Set.Icc (-L) L))
    (hF : ∀ num ≥ 3, Fam V L num (w num) (f num)) : ∃ (μ : ℕ → ℝ) (F G : ℕ → ℝ → ℂ), StrictMono μ ∧
      (∀ k, Tendsto (fun num => w num k) U (𝓝 (μ k)) ∧ Equi L U (fun num i => f num k i) ∧
        Bdd U (fun num i => f num k i) ∧ IsLim L U (fun num i => f num k i) (F k) ∧ Solution V L (μ k) (F k) (G k)) ∧
      ∀ p q, Overlap L (F p) (F q) (if p = q then 1 else 0) := by
  have h : ∀ k, ∃ μ F G, Tendsto (fun num => w num k) U (𝓝 μ) ∧ Bdd U (fun num i => f num k i) ∧
      Equi L U (fun num i => f num k i) ∧ IsLim L U (fun num i => f num k i) F ∧ Solution V L μ F G := fun k => by
    obtain ⟨C, hC⟩ := upper hL hU hV hF k
    exact exists_state hL hU hV hF hC
  choose μ F G hμ hb he hl hs using h
  have hov : ∀ p q, Overlap L (F p) (F q) (if p = q then 1 else 0) := fun p q =>
    limit_overlap hL hU hF (hb p) (he p) (hl p) (hb q) (he q) (hl q)
  refine ⟨μ, F, G, fun p q hpq => lt_of_le_of_ne ?_ fun hc => ?_, fun k => ⟨hμ k, he k, hb k, hl k, hs k⟩, hov⟩
  · refine le_of_tendsto_of_tendsto (hμ p) (hμ q) ?_
    filter_upwards [eventually_ge hU (q + 3)] with num hn
    exact (hF num (by omega)).sorted p q hpq.le (by omega)
  · have hpp := hov p p
    have hqq := hov q q
    have hpq' := hov p q
    rw [if_pos rfl] at hpp hqq
    rw [if_neg hpq.ne] at hpq'
    obtain ⟨c, hc'⟩ := (hs p).proportional hL hV (hc ▸ hs q) (hpp.ne_zero hL)
    have h0 := Overlap.unique hL hpp hpq' (a := c) fun x hx => by rw [hc' x hx]; ring
    rw [mul_one] at h0
    obtain ⟨x, hx, hne⟩ := hqq.ne_zero hL
    exact hne (by rw [hc' x hx, ← h0, zero_mul])

/-- The real or the imaginary part of a solution is a state. -/
theorem Solution.level {μ : ℝ} {F G : ℝ → ℂ} (h : Solution V L μ F G) (hne : ∃ x ∈ Set.Icc (-L) L, F x ≠ 0) :
    BoxLevel V L μ := by
  obtain ⟨x, hx, hne⟩ := hne
  have hre : ∀ {H H' : ℝ → ℂ}, (∀ x ∈ Set.Icc (-L) L, HasDerivWithinAt H (H' x) (Set.Icc (-L) L) x) →
      ∀ x ∈ Set.Icc (-L) L, HasDerivWithinAt (fun x => (H x).re) (H' x).re (Set.Icc (-L) L) x := fun h x hx =>
    Complex.reCLM.hasFDerivAt.comp_hasDerivWithinAt x (h x hx)
  have him : ∀ {H H' : ℝ → ℂ}, (∀ x ∈ Set.Icc (-L) L, HasDerivWithinAt H (H' x) (Set.Icc (-L) L) x) →
      ∀ x ∈ Set.Icc (-L) L, HasDerivWithinAt (fun x => (H x).im) (H' x).im (Set.Icc (-L) L) x := fun h x hx =>
    Complex.imCLM.hasFDerivAt.comp_hasDerivWithinAt x (h x hx)
  by_cases h0 : (F x).re = 0
  · refine ⟨fun x => (F x).im, by simp [h.left], by simp [h.right], ⟨x, hx, fun hc => hne (Complex.ext h0 hc)⟩,
      fun x => (G x).im, fun x => (2 * (V x - μ) * F x).im, fun x hx => ⟨him h.deriv x hx, him h.eq x hx, ?_⟩⟩
    simp
    ring
  · refine ⟨fun x => (F x).re, by simp [h.left], by simp [h.right], ⟨x, hx, h0⟩,
      fun x => (G x).re, fun x => (2 * (V x - μ) * F x).re, fun x hx => ⟨hre h.deriv x hx, hre h.eq x hx, ?_⟩⟩
    simp
    ring

/-- The limits of the levels are all energies of the box. -/
theorem limit_levels (hL : 0 < L) (hU : (U : Filter ℕ) ≤ atTop) (hV : ContinuousOn V (Set.Icc (-L) L))
    (hF : ∀ num ≥ 3, Fam V L num (w num) (f num)) : ∃ μ : ℕ → ℝ, StrictMono μ ∧ Set.range μ = {e | BoxLevel V L e} ∧
      ∀ k, Tendsto (fun num => w num k) U (𝓝 (μ k)) := by
  obtain ⟨μ, F, G, hm, hst, hov⟩ := limit_states hL hU hV hF
  refine ⟨μ, hm, Set.Subset.antisymm ?_ ?_, fun k => (hst k).1⟩
  · rintro _ ⟨k, rfl⟩
    have := hov k k
    rw [if_pos rfl] at this
    exact (hst k).2.2.2.2.level (this.ne_zero hL)
  · rintro e ⟨ψ, hl, hr, hne, ψ', ψ'', hψ⟩
    obtain ⟨B, hB⟩ := (isCompact_Icc (a := -L) (b := L)).exists_bound_of_continuousOn hV
    have htr : ∀ ε > 0, ∀ᶠ num in (U : Filter ℕ), ∃ p < num - 2, (w num p - e) ^ 2 ≤ ε := by
      intro ε hε
      have hq : ∀ x ∈ Set.Icc (-L) L, ψ'' x = 2 * (V x - e) * ψ x := fun x hx => by linarith [(hψ x hx).2.2]
      have := trial hL hU hF (ψ := ψ) (ψ' := ψ') (q := ψ'') (fun x hx => (hψ x hx).1) (fun x hx => (hψ x hx).2.1)
        (ContinuousOn.congr (((hV.sub continuousOn_const).const_smul (2 : ℝ)).mul
          (fun x hx => (hψ x hx).1.continuousWithinAt)) hq) hl hr hne (E := e) (η := 0)
        (fun x hx => by rw [(hψ x hx).2.2, sub_self, abs_zero, zero_mul]) hε
      simpa using this
    obtain ⟨K, hK⟩ : ∃ K, e + 1 < μ K := by
      obtain ⟨K, hK⟩ := exists_nat_gt ((e + 1 + |B|) * (8 * L ^ 2))
      refine ⟨K, ?_⟩
      have hge : -|B| + ((K : ℝ) + 1) / (8 * L ^ 2) ≤ μ K := by
        refine ge_of_tendsto (hst K).1 ?_
        filter_upwards [eventually_ge hU (K + 3)] with num hn
        refine (hF num (by omega)).growth hL (fun i _ hi => ?_) (by omega)
        have := (abs_le.1 (hB _ (mem_grid hL (by omega : 2 ≤ num) (by omega : i ≤ num - 1)))).1
        linarith [le_abs_self B]
      have : e + 1 + |B| < ((K : ℝ) + 1) / (8 * L ^ 2) := by
        rw [lt_div_iff₀ (by positivity)]
        linarith
      linarith
    by_contra hnot
    have hsep : ∀ K : ℕ, ∃ ε > 0, ∀ᶠ num in (U : Filter ℕ), ∀ p < K, ε < (w num p - e) ^ 2 := by
      intro K
      induction K with
      | zero => exact ⟨1, one_pos, Eventually.of_forall fun _ p hp => absurd hp (by omega)⟩
      | succ K ih =>
        obtain ⟨ε, hε, h⟩ := ih
        have hne' : 0 < (μ K - e) ^ 2 := by
          have : μ K - e ≠ 0 := fun hc => hnot ⟨K, by linarith⟩
          positivity
        have ht : Tendsto (fun num => (w num K - e) ^ 2) U (𝓝 ((μ K - e) ^ 2)) := ((hst K).1.sub_const e).pow 2
        refine ⟨min ε ((μ K - e) ^ 2 / 2), lt_min hε (by linarith), ?_⟩
        filter_upwards [h, ht.eventually_const_lt (by linarith : (μ K - e) ^ 2 / 2 < (μ K - e) ^ 2)] with num h1 h2 p hp
        rcases Nat.lt_succ_iff_lt_or_eq.1 hp with h | rfl
        · exact (min_le_left _ _).trans_lt (h1 p h)
        · exact (min_le_right _ _).trans_lt h2
    obtain ⟨ε, hε, hs⟩ := hsep K
    have hfalse : ∀ᶠ num in (U : Filter ℕ), False := by
      filter_upwards [hs, htr (min ε 1) (lt_min hε one_pos), (hst K).1.eventually_const_lt hK,
        eventually_ge hU 3] with num h1 h2 h3 h4
      obtain ⟨p, hp, hpe⟩ := h2
      rcases Nat.lt_or_ge p K with h | h
      · exact absurd ((h1 p h).trans_le hpe) (not_lt.2 (min_le_left _ _))
      · have := (hF num h4).sorted K p h hp
        have h5 := hpe.trans (min_le_right ε 1)
        nlinarith
    exact hfalse.exists.choose_spec

/-- The levels on the grids converge to the energies of the box. -/
theorem levels_tendsto (hL : 0 < L) (hV : ContinuousOn V (Set.Icc (-L) L))
    (hF : ∀ num ≥ 3, Fam V L num (w num) (f num)) : ∃ μ : ℕ → ℝ, StrictMono μ ∧ Set.range μ = {e | BoxLevel V L e} ∧
      ∀ k, Tendsto (fun num => w num k) atTop (𝓝 (μ k)) := by
  obtain ⟨μ, hm, hr, -⟩ := limit_levels (U := hyperfilter ℕ) hL Nat.hyperfilter_le_atTop hV hF
  refine ⟨μ, hm, hr, fun k => ?_⟩
  rw [tendsto_iff_ultrafilter]
  intro U hU
  obtain ⟨ν, hn, hr', ht⟩ := limit_levels (U := U) hL hU hV hF
  have : μ = ν := (StrictMono.range_inj hm hn).1 (hr.trans hr'.symm)
  rw [this]
  exact ht k

end QS.GridLimit
