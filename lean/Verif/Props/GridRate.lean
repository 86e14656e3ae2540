import Verif.Lemmas.Weyl
import Verif.Props.GridSpectrum

/-!
# Every level of the one-dimensional quantum dots is accurate to second order (C115)
-/

namespace QS.Props

open OneDim NDArray Spec BasisSet PyM

/-- The eigenvalues are determined by the matrix. -/
theorem eigh_unique {n : ℕ} {h w v w' v' : NDArray ℂ} (F : EighOK n h w v) (F' : EighOK n h w' v') {k : ℕ} (hk : k < n) :
    w.get [k] = w'.get [k] := by
  have := F.near_of_form F' (c := 0) (fun f => by simp) hk
  exact Complex.ext (by linarith [abs_nonpos_iff.1 this]) (by rw [F.real, F'.real])

theorem grid_converge {L : ℝ} (hL : 0 < L) {V : ℝ → ℝ} (hV : ContinuousOn V (Set.Icc (-L) L)) {E : ℕ → ℝ}
    (hE : StrictMono E) (hall : ∀ e, BoxLevel V L e ↔ ∃ k, E k = e) (k : ℕ) {ε : ℝ} (hε : 0 < ε) :
    ∃ N : ℕ, k + 3 ≤ N ∧ ∀ num ≥ N, ∀ w v, EighOK (num - 2) (gridMatrix V L num) w v → |(w.get [k]).re - E k| ≤ ε := by
  obtain ⟨eigh, he⟩ := isEigh_exists
  obtain ⟨N, hN⟩ := C115_levels he hL hV hE hall k hε
  refine ⟨max N (k + 3), by omega, fun num hnum w v F => ?_⟩
  obtain ⟨w', v', F', hobj⟩ := odqd_levels he (L := L) V (by omega : 3 ≤ num)
  obtain ⟨b, h, h1, h2, h3⟩ := hobj (num - 2) le_rfl 1 1 0 false 0 false false
  obtain ⟨b', h', h1', h2', h4⟩ := hN num (by omega) (num - 2) (by omega) le_rfl 1 1 0 false 0 false false
  obtain rfl : b = b' := by simpa using h1.symm.trans h1'
  obtain rfl : h = h' := Option.some.inj (h2.symm.trans h2')
  rw [h3 k (by omega), eigh_unique F' F (by omega)] at h4
  have := (Complex.abs_re_le_norm _).trans h4
  rwa [Complex.sub_re, Complex.ofReal_re] at this

theorem grid_rate {L : ℝ} (hL : 0 < L) {V : ℝ → ℝ} (hV : ContinuousOn V (Set.Icc (-L) L)) {E : ℕ → ℝ}
    (hE : StrictMono E) (hall : ∀ e, BoxLevel V L e ↔ ∃ k, E k = e) {k : ℕ} {ψ : ℝ → ℝ} (hψ : ContDiff ℝ 4 ψ)
    (heq : ∀ x ∈ Set.Icc (-L) L, lineHamiltonian V ψ x = E k * ψ x) (hl : ψ (-L) = 0) (hr : ψ L = 0)
    (hne : ∃ x ∈ Set.Icc (-L) L, ψ x ≠ 0) : ∃ C > 0, ∃ N : ℕ, k + 3 ≤ N ∧ ∀ num ≥ N, ∀ w v,
      EighOK (num - 2) (gridMatrix V L num) w v → ‖w.get [k] - E k‖ ≤ C * (2 * L / ((num : ℝ) - 1)) ^ 2 := by
  obtain ⟨C, hC, N, h3, hN⟩ := grid_level hL hψ heq hl hr hne
  obtain ⟨g, hg, hup, hdown⟩ : ∃ g > 0, E k + g ≤ E (k + 1) ∧ ∀ j < k, E j + g ≤ E k := by
    rcases k with _ | k
    · exact ⟨E 1 - E 0, sub_pos.2 (hE (by omega)), by simp, fun j hj => by omega⟩
    · refine ⟨min (E (k + 2) - E (k + 1)) (E (k + 1) - E k), lt_min (sub_pos.2 (hE (by omega))) (sub_pos.2 (hE (by omega))),
        by linarith [min_le_left (E (k + 2) - E (k + 1)) (E (k + 1) - E k)], fun j hj => ?_⟩
      have : E j ≤ E k := hE.monotone (by omega)
      linarith [min_le_right (E (k + 2) - E (k + 1)) (E (k + 1) - E k)]
  obtain ⟨N1, hk1, hN1⟩ := grid_converge hL hV hE hall (k + 1) (ε := g / 3) (by positivity)
  obtain ⟨N2, hk2, hN2⟩ := grid_converge hL hV hE hall (k - 1) (ε := g / 3) (by positivity)
  obtain ⟨M, hM3, hM⟩ := exists_spacing L (δ := min 1 (g / 3 / C)) (lt_min one_pos (by positivity))
  refine ⟨C, hC, max (max N N1) (max N2 M), by omega, fun num hnum w v F => ?_⟩
  obtain ⟨p, hp, hb⟩ := hN num (by omega) w v F
  have hdx := dx_pos hL (by omega : 3 ≤ num)
  have hs := hM num (by omega)
  have hsmall : C * (2 * L / ((num : ℝ) - 1)) ^ 2 ≤ g / 3 := by
    have a1 := hs.trans (min_le_left _ _)
    have a2 := hs.trans (min_le_right _ _)
    rw [le_div_iff₀ hC] at a2
    nlinarith
  have h5 := (Complex.abs_re_le_norm _).trans hb
  rw [Complex.sub_re, Complex.ofReal_re] at h5
  have h5' := abs_le.1 h5
  have hpk : p = k := by
    rcases lt_trichotomy p k with h | h | h
    · exfalso
      have a1 := F.sorted p (k - 1) (by omega) (by omega)
      have a2 := abs_le.1 (hN2 num (by omega) w v F)
      have a3 := hdown (k - 1) (by omega)
      linarith
    · exact h
    · exfalso
      have a1 := F.sorted (k + 1) p (by omega) hp
      have a2 := abs_le.1 (hN1 num (by omega) w v F)
      linarith
  rwa [hpk] at hb

/-- **C115** Second order for every level: if the `k`-th energy of the box belongs to a function with four continuous
derivatives, the `k`-th diagonal element of `h` differs from it by at most a constant times the square of the spacing. -/
theorem C115_rate {eigh : NDArray ℂ → Except PyErr (NDArray ℂ × NDArray ℂ)} (he : IsEigh eigh) {L : ℝ} (hL : 0 < L) {V : ℝ → ℝ}
    (hV : ContinuousOn V (Set.Icc (-L) L)) {E : ℕ → ℝ} (hE : StrictMono E) (hall : ∀ e, BoxLevel V L e ↔ ∃ k, E k = e) {k : ℕ}
    {ψ : ℝ → ℝ} (hψ : ContDiff ℝ 4 ψ) (heq : ∀ x ∈ Set.Icc (-L) L, lineHamiltonian V ψ x = E k * ψ x) (hl : ψ (-L) = 0)
    (hr : ψ L = 0) (hne : ∃ x ∈ Set.Icc (-L) L, ψ x ≠ 0) : ∃ (C : ℝ) (N : ℕ), ∀ num ≥ N, ∀ l, k < l → l ≤ num - 2 →
      ∀ (a alpha beta : ℝ) (hm : Bool) (np : Module) (sp an : Bool),
        ∃ b h, odqd eigh l L num a alpha beta V hm np sp an = .ok b ∧ b.h = some h ∧
          ‖h.get [k, k] - E k‖ ≤ C * (2 * L / ((num : ℝ) - 1)) ^ 2 := by
  obtain ⟨C, hC, N, h3, hN⟩ := grid_rate hL hV hE hall hψ heq hl hr hne
  refine ⟨C, N, fun num hnum l hkl hln a alpha beta hm np sp an => ?_⟩
  obtain ⟨w, v, hEi, hobj⟩ := odqd_levels he (L := L) V (by omega : 3 ≤ num)
  obtain ⟨b, h, h1, h2, h4⟩ := hobj l hln a alpha beta hm np sp an
  exact ⟨b, h, h1, h2, by rw [h4 k hkl]; exact hN num hnum w v hEi⟩

end QS.Props
