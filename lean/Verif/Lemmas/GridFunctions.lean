import Verif.Lemmas.GridSpectrum
import Verif.Lemmas.Riemann

/-!
# The functions on fine grids
-/

namespace QS.GridLimit

open Filter Topology OneDim Spec Finset Riemann

variable {V : ℝ → ℝ} {L : ℝ} {U : Ultrafilter ℕ} {w : ℕ → ℕ → ℝ} {f : ℕ → ℕ → ℕ → ℂ}

/-- The limit of an equicontinuous family is uniform. -/
theorem uniform (hL : 0 < L) (hU : (U : Filter ℕ) ≤ atTop) {a : ℕ → ℕ → ℂ} {A : ℝ → ℂ} (he : Equi L U a)
    (hA : IsLim L U a A) (hc : ContinuousOn A (Set.Icc (-L) L)) {ε : ℝ} (hε : 0 < ε) :
    ∀ᶠ num in (U : Filter ℕ), ∀ i ≤ num - 1, ‖a num i - A (-L + i * dx L num)‖ ≤ ε := by
  by_contra hcon
  rw [← Ultrafilter.eventually_not] at hcon
  have hex : ∀ num : ℕ, ∃ i, (¬∀ i ≤ num - 1, ‖a num i - A (-L + i * dx L num)‖ ≤ ε) →
      i ≤ num - 1 ∧ ε < ‖a num i - A (-L + i * dx L num)‖ := by
    intro num
    by_cases h : ∀ i ≤ num - 1, ‖a num i - A (-L + i * dx L num)‖ ≤ ε
    · exact ⟨0, fun hn => absurd h hn⟩
    · push Not at h
      obtain ⟨i, h1, h2⟩ := h
      exact ⟨i, fun _ => ⟨h1, h2⟩⟩
  choose i hi using hex
  set y : ℕ → ℝ := fun num => -L + i num * dx L num with hy
  have hyI : ∀ᶠ num in (U : Filter ℕ), y num ∈ Set.Icc (-L) L := by
    filter_upwards [hcon, eventually_ge hU 2] with num h1 h2
    exact mem_grid hL h2 (hi num h1).1
  obtain ⟨x, hx⟩ := exists_real_lim_of_bdd (U := U) (a := y) (C := L) (by
    filter_upwards [hyI] with num h
    exact abs_le.2 h)
  have hxI : x ∈ Set.Icc (-L) L := isClosed_Icc.mem_of_tendsto hx hyI
  obtain ⟨δ, hδ, hd⟩ := he (ε / 3) (by positivity)
  have hid := idx_tendsto hL hU hxI
  have hdiff : Tendsto (fun num => |y num - (-L + idx L num x * dx L num)|) U (𝓝 0) := by
    simpa using (hx.sub hid).abs
  have hAy : Tendsto (fun num => ‖A (y num) - A x‖) U (𝓝 0) := by
    have := ((hc x hxI).tendsto.comp (tendsto_nhdsWithin_iff.2 ⟨hx, hyI⟩)).sub_const (A x)
    simpa using this.norm
  have hax : Tendsto (fun num => ‖a num (idx L num x) - A x‖) U (𝓝 0) := by
    simpa using ((hA x hxI).sub_const (A x)).norm
  have hfalse : ∀ᶠ num in (U : Filter ℕ), False := by
    filter_upwards [hcon, hd, hdiff.eventually_lt_const hδ, hAy.eventually_lt_const (by positivity : 0 < ε / 3),
      hax.eventually_lt_const (by positivity : 0 < ε / 3), eventually_ge hU 2] with num h1 h2 h3 h4 h5 h6
    obtain ⟨k1, k2⟩ := hi num h1
    have hdx := dx_pos hL h6
    have bx := (idx_bounds hL h6 hxI).1
    have e : y num - (-L + idx L num x * dx L num) = ((i num : ℝ) - idx L num x) * dx L num := by
      simp only [hy]
      ring
    rw [e] at h3
    have h7 : ‖a num (i num) - a num (idx L num x)‖ ≤ ε / 3 := by
      rcases le_total (idx L num x) (i num) with h | h
      · exact h2 _ _ h k1 ((le_abs_self _).trans h3.le)
      · rw [norm_sub_rev]
        refine h2 _ _ h bx (le_trans (le_of_eq ?_) ((neg_le_abs _).trans h3.le))
        ring
    have h8 : a num (i num) - A (y num) = (a num (i num) - a num (idx L num x)) + ((a num (idx L num x) - A x)
        - (A (y num) - A x)) := by ring
    have h9 := norm_add_le (a num (i num) - a num (idx L num x)) ((a num (idx L num x) - A x) - (A (y num) - A x))
    have h10 := norm_sub_le (a num (idx L num x) - A x) (A (y num) - A x)
    rw [← h8] at h9
    have : ‖a num (i num) - A (y num)‖ < ε := by linarith
    exact absurd this (not_lt.2 k2.le)
  exact hfalse.exists.choose_spec

theorem Overlap.smul {F K F' K' : ℝ → ℂ} {c a : ℂ} (h : Overlap L F K c)
    (he : ∀ x ∈ Set.Icc (-L) L, (starRingEnd ℂ) (F' x) * K' x = a * ((starRingEnd ℂ) (F x) * K x)) :
    Overlap L F' K' (a * c) := by
  obtain ⟨P, h0, h1, hd⟩ := h
  exact ⟨fun x => a * P x, by simp [h0], by simp [h1], fun x hx => ((hd x hx).const_mul a).congr_deriv (he x hx).symm⟩

theorem Overlap.integral (hL : 0 < L) {F K : ℝ → ℂ} {c : ℂ} (h : Overlap L F K c) (hF : ContinuousOn F (Set.Icc (-L) L))
    (hK : ContinuousOn K (Set.Icc (-L) L)) : ∫ x in (-L)..L, (starRingEnd ℂ) (F x) * K x = c := by
  obtain ⟨P, h0, h1, hd⟩ := h
  have hle : -L ≤ L := by linarith
  have hcont : ContinuousOn (fun x => (starRingEnd ℂ) (F x) * K x) (Set.Icc (-L) L) :=
    (Complex.continuous_conj.comp_continuousOn hF).mul hK
  have := intervalIntegral.integral_eq_sub_of_hasDeriv_right_of_le hle (f := P)
    (f' := fun x => (starRingEnd ℂ) (F x) * K x) (fun x hx => (hd x hx).continuousWithinAt)
    (fun x hx => ((hd x ⟨hx.1.le, hx.2.le⟩).hasDerivAt (Icc_mem_nhds hx.1 hx.2)).hasDerivWithinAt)
    (hcont.intervalIntegrable_of_Icc hle)
  rw [this, h0, h1, sub_zero]

/-- A state as a complex solution. -/
theorem box_solution {e : ℝ} {ψ : ℝ → ℝ} (h : BoxState V L e ψ) :
    ∃ G, Solution V L e (fun x => (ψ x : ℂ)) G := by
  obtain ⟨hl, hr, -, ψ', ψ'', hψ⟩ := h
  refine ⟨fun x => (ψ' x : ℂ), by simp [hl], by simp [hr], fun x hx => (hψ x hx).1.ofReal_comp, fun x hx => ?_⟩
  refine (hψ x hx).2.1.ofReal_comp.congr_deriv ?_
  rw [show ψ'' x = 2 * (V x - e) * ψ x by linarith [(hψ x hx).2.2]]
  push_cast
  ring

theorem box_congr {e c : ℝ} (hc : c ≠ 0) {ψ φ : ℝ → ℝ} (h : BoxState V L e ψ) (hL : 0 < L)
    (he : ∀ x ∈ Set.Icc (-L) L, φ x = c * ψ x) : BoxState V L e φ := by
  obtain ⟨hl, hr, ⟨x, hx, hne⟩, ψ', ψ'', hψ⟩ := h
  refine ⟨by rw [he _ ⟨le_rfl, by linarith⟩, hl, mul_zero], by rw [he _ ⟨by linarith, le_rfl⟩, hr, mul_zero],
    ⟨x, hx, by rw [he x hx]; exact mul_ne_zero hc hne⟩, fun x => c * ψ' x, fun x => c * ψ'' x, fun x hx => ⟨?_, ?_, ?_⟩⟩
  · exact (((hψ x hx).1.const_mul c)).congr he (he x hx)
  · exact (hψ x hx).2.1.const_mul c
  · rw [he x hx]
    linear_combination c * (hψ x hx).2.2

/-- There are orthonormal states for all energies, continuous on the whole line. -/
theorem box_basis (hL : 0 < L) (hV : ContinuousOn V (Set.Icc (-L) L))
    (hF : ∀ num ≥ 3, Fam V L num (w num) (f num)) : ∃ (E : ℕ → ℝ) (ψ : ℕ → ℝ → ℝ), StrictMono E ∧
      (∀ e, BoxLevel V L e ↔ ∃ k, E k = e) ∧ (∀ k, Tendsto (fun num => w num k) atTop (𝓝 (E k))) ∧
      (∀ k, Continuous (ψ k) ∧ BoxState V L (E k) (ψ k)) ∧
      ∀ p q, Overlap L (fun x => (ψ p x : ℂ)) (fun x => (ψ q x : ℂ)) (if p = q then 1 else 0) := by
  obtain ⟨E, hE, hr, ht⟩ := levels_tendsto hL hV hF
  obtain ⟨μ, F, G, -, hst, hov⟩ := limit_states (U := hyperfilter ℕ) hL Nat.hyperfilter_le_atTop hV hF
  have hμ : ∀ k, μ k = E k := fun k => tendsto_nhds_unique (hst k).1 ((ht k).mono_left Nat.hyperfilter_le_atTop)
  have hne : ∀ k, ∃ x ∈ Set.Icc (-L) L, F k x ≠ 0 := fun k => by
    have := hov k k
    rw [if_pos rfl] at this
    exact this.ne_zero hL
  have hψ : ∀ k, ∃ (ψ : ℝ → ℝ) (c : ℂ), BoxState V L (E k) ψ ∧ c ≠ 0 ∧ ∀ x ∈ Set.Icc (-L) L, (ψ x : ℂ) = c * F k x := by
    intro k
    obtain ⟨ψ, hb⟩ := (hst k).2.2.2.2.level (hne k)
    rw [hμ k] at hb
    obtain ⟨G', hs⟩ := box_solution hb
    obtain ⟨c, hc⟩ := (hμ k ▸ (hst k).2.2.2.2 : Solution V L (E k) (F k) (G k)).proportional hL hV hs (hne k)
    refine ⟨ψ, c, hb, fun h0 => ?_, hc⟩
    obtain ⟨-, -, ⟨x, hx, hx'⟩, -⟩ := hb
    have := hc x hx
    rw [h0, zero_mul, Complex.ofReal_eq_zero] at this
    exact hx' this
  choose ψ c hb hc hcF using hψ
  set φ : ℕ → ℝ → ℝ := fun k x => ‖c k‖⁻¹ * ψ k (max (-L) (min L x)) with hφ
  have hclamp : ∀ x ∈ Set.Icc (-L) L, max (-L) (min L x) = x := fun x hx => by
    rw [min_eq_right hx.2, max_eq_right hx.1]
  have hφe : ∀ k, ∀ x ∈ Set.Icc (-L) L, φ k x = ‖c k‖⁻¹ * ψ k x := fun k x hx => by
    simp only [hφ]
    rw [hclamp x hx]
  refine ⟨E, φ, hE, fun e => (Set.ext_iff.1 hr e).symm, ht, fun k => ⟨?_, ?_⟩, fun p q => ?_⟩
  · have hcon : ContinuousOn (ψ k) (Set.Icc (-L) L) := by
      obtain ⟨-, -, -, ψ', ψ'', h⟩ := hb k
      exact fun x hx => (h x hx).1.continuousWithinAt
    have h2 : Continuous fun x => ψ k (max (-L) (min L x)) :=
      hcon.comp_continuous (by fun_prop) fun x => ⟨le_max_left _ _, max_le (by linarith) (min_le_left _ _)⟩
    exact continuous_const.mul h2
  · exact box_congr (inv_ne_zero (norm_ne_zero_iff.2 (hc k))) (hb k) hL (hφe k)
  · have h := (hov p q).smul (F' := fun x => (φ p x : ℂ)) (K' := fun x => (φ q x : ℂ))
      (a := (starRingEnd ℂ) (c p) * c q / (‖c p‖ * ‖c q‖)) fun x hx => by
        have hp : (‖c p‖ : ℂ) ≠ 0 := by exact_mod_cast norm_ne_zero_iff.2 (hc p)
        have hq : (‖c q‖ : ℂ) ≠ 0 := by exact_mod_cast norm_ne_zero_iff.2 (hc q)
        rw [hφe p x hx, hφe q x hx, Complex.ofReal_mul, Complex.ofReal_mul, hcF p x hx, hcF q x hx]
        simp only [map_mul, Complex.ofReal_inv, map_inv₀, Complex.conj_ofReal]
        field_simp
    convert h using 1
    by_cases hpq : p = q
    · subst hpq
      have hp : (‖c p‖ : ℂ) ≠ 0 := by exact_mod_cast norm_ne_zero_iff.2 (hc p)
      rw [if_pos rfl, mul_one, Complex.conj_mul', sq, div_self (mul_ne_zero hp hp)]
    · rw [if_neg hpq, mul_zero]

/-- The phase of a number. -/
noncomputable def phase (z : ℂ) : ℂ := if z = 0 then 1 else z / ‖z‖

theorem norm_phase (z : ℂ) : ‖phase z‖ = 1 := by
  unfold phase
  split
  · exact norm_one
  · rename_i h
    rw [norm_div, Complex.norm_real, norm_norm, div_self (norm_ne_zero_iff.2 h)]

/-- The functions on the grids converge uniformly, up to a phase. -/
theorem functions_near (hL : 0 < L) (hV : ContinuousOn V (Set.Icc (-L) L))
    (hF : ∀ num ≥ 3, Fam V L num (w num) (f num)) {E : ℕ → ℝ} {ψ : ℕ → ℝ → ℝ}
    (ht : ∀ k, Tendsto (fun num => w num k) atTop (𝓝 (E k))) (hψ : ∀ k, Continuous (ψ k) ∧ BoxState V L (E k) (ψ k))
    (hov : ∀ k, Overlap L (fun x => (ψ k x : ℂ)) (fun x => (ψ k x : ℂ)) 1) (k : ℕ) :
    Near (fun num i => i < num) (fun num i => f num k i)
      fun num i => phase (dx L num * ∑ j ∈ range (num - 1), (ψ k (-L + j * dx L num) : ℂ) * f num k j)
        * (ψ k (-L + i * dx L num) : ℂ) := by
  intro ε hε
  rw [Filter.Eventually, mem_iff_ultrafilter]
  intro U hU
  obtain ⟨μ, F, G, -, hst, hovU⟩ := limit_states (U := U) hL hU hV hF
  obtain ⟨hμ, he, hb, hl, hs⟩ := hst k
  have hμE : μ k = E k := tendsto_nhds_unique hμ ((ht k).mono_left hU)
  rw [hμE] at hs
  obtain ⟨G', hs'⟩ := box_solution (hψ k).2
  obtain ⟨c, hc⟩ := hs'.proportional hL hV hs ((hov k).ne_zero hL)
  have hFF := hovU k k
  rw [if_pos rfl] at hFF
  have hc1 : ‖c‖ = 1 := by
    have h1 := Overlap.unique hL (hov k) hFF (a := (starRingEnd ℂ) c * c) fun x hx => by
      rw [hc x hx]
      simp only [map_mul]
      ring
    rw [mul_one, Complex.conj_mul'] at h1
    have h2 : ‖c‖ ^ 2 = 1 := by exact_mod_cast h1.symm
    exact (pow_eq_one_iff_of_nonneg (norm_nonneg c) two_ne_zero).1 h2
  have cψ : ContinuousOn (fun x => (ψ k x : ℂ)) (Set.Icc (-L) L) :=
    (Complex.continuous_ofReal.comp (hψ k).1).continuousOn
  obtain ⟨eψ, bψ, lψ⟩ := equi_of_continuousOn (U := U) hL hU cψ
  obtain ⟨P, -, hP0, hPd, hPend⟩ := cumulative hL hU (bψ.mul hb) (eψ.mul he bψ hb) (lψ.mul hl)
  have hPL : P L = c := by
    have h1 : Overlap L (fun x => (ψ k x : ℂ)) (F k) (P L) := ⟨P, hP0, rfl, fun x hx => by
      rw [Complex.conj_ofReal]
      exact hPd x hx⟩
    have := Overlap.unique hL (hov k) h1 (a := c) fun x hx => by
      rw [hc x hx]
      ring
    rwa [mul_one] at this
  rw [hPL] at hPend
  set z : ℕ → ℂ := fun num => dx L num * ∑ j ∈ range (num - 1), (ψ k (-L + j * dx L num) : ℂ) * f num k j with hz
  have hph : Tendsto (fun num => phase (z num)) U (𝓝 c) := by
    have hc0 : c ≠ 0 := norm_ne_zero_iff.1 (by rw [hc1]; exact one_ne_zero)
    have h1 : Tendsto (fun num => z num / ‖z num‖) U (𝓝 (c / ‖c‖)) :=
      hPend.div ((Complex.continuous_ofReal.tendsto _).comp hPend.norm) (by exact_mod_cast norm_ne_zero_iff.2 hc0)
    rw [hc1, Complex.ofReal_one, div_one] at h1
    refine h1.congr' ?_
    filter_upwards [hPend.eventually_ne hc0] with num hn
    rw [phase, if_neg hn]
  obtain ⟨B, hB⟩ := (isCompact_Icc (a := -L) (b := L)).exists_bound_of_continuousOn cψ
  have hd : Tendsto (fun num => ‖c - phase (z num)‖ * (|B| + 1)) U (𝓝 0) := by
    have := ((tendsto_const_nhds (x := c)).sub hph).norm.mul_const (|B| + 1)
    simpa using this
  have cF : ContinuousOn (F k) (Set.Icc (-L) L) := fun x hx => (hs.deriv x hx).continuousWithinAt
  have hall := uniform hL hU he hl cF (by positivity : 0 < ε / 2)
  show ∀ᶠ num in (U : Filter ℕ), _
  filter_upwards [hall, hd.eventually_lt_const (by positivity : 0 < ε / 2), eventually_ge hU 2] with num h1 h2 h3 i hi
  have hm := mem_grid hL h3 (i := i) (by omega)
  have h4 := h1 i (by omega)
  rw [hc _ hm] at h4
  have h5 : f num k i - phase (z num) * (ψ k (-L + i * dx L num) : ℂ)
      = (f num k i - c * (ψ k (-L + i * dx L num) : ℂ)) + (c - phase (z num)) * (ψ k (-L + i * dx L num) : ℂ) := by ring
  rw [h5]
  refine (norm_add_le _ _).trans ?_
  have h6 : ‖(c - phase (z num)) * (ψ k (-L + i * dx L num) : ℂ)‖ ≤ ‖c - phase (z num)‖ * (|B| + 1) := by
    rw [norm_mul]
    exact mul_le_mul_of_nonneg_left ((hB _ hm).trans (by linarith [le_abs_self B])) (norm_nonneg _)
  linarith

end QS.GridLimit
