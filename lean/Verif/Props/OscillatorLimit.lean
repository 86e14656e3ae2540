import Verif.Lemmas.OscillatorLevels
import Verif.Props.GridSpectrum
import Verif.Props.OneDim

/-!
# The oscillator on a grid and the analytic oscillator (C118)
-/

namespace QS.Props

open OneDim NDArray Spec BasisSet PyM Filter Topology GridLimit

/-- The states of all grids, and all `ODQD` objects on them. -/
theorem odqd_all {eigh : NDArray ℂ → Except PyErr (NDArray ℂ × NDArray ℂ)} (he : IsEigh eigh) {L : ℝ} (hL : 0 < L)
    (V : ℝ → ℝ) : ∃ (w : ℕ → ℕ → ℝ) (f : ℕ → ℕ → ℕ → ℂ), ∀ num ≥ 3, Fam V L num (w num) (f num) ∧
      ∀ l ≤ num - 2, ∀ (a alpha beta : ℝ) (hm : Bool) (np : Module) (sp an : Bool),
        ∃ b s h d u, odqd eigh l L num a alpha beta V hm np sp an = .ok b ∧ b.spf = some s ∧ b.h = some h ∧
          b.dipole = some d ∧ b.u = some u ∧ OdqdFacts l num L a alpha beta V s h d u ∧
          ∀ p < l, h.get [p, p] = (w num p : ℂ) ∧ ∀ i < num, s.get [p, i] = f num p i := by
  have hst : ∀ num : ℕ, ∃ w f, 3 ≤ num → GridLimit.Fam V L num w f ∧
      ∀ l ≤ num - 2, ∀ (a alpha beta : ℝ) (hm : Bool) (np : Module) (sp an : Bool),
        ∃ b s h d u, odqd eigh l L num a alpha beta V hm np sp an = .ok b ∧ b.spf = some s ∧ b.h = some h ∧
          b.dipole = some d ∧ b.u = some u ∧ OdqdFacts l num L a alpha beta V s h d u ∧
          ∀ p < l, h.get [p, p] = (w p : ℂ) ∧ ∀ i < num, s.get [p, i] = f p i := by
    intro num
    by_cases h3 : 3 ≤ num
    · obtain ⟨w, f, h⟩ := odqd_states he hL V h3
      exact ⟨w, f, fun _ => h⟩
    · exact ⟨fun _ => 0, fun _ _ => 0, fun h => absurd h h3⟩
  choose w f hwf using hst
  exact ⟨w, f, hwf⟩

/-- The potential of the oscillator. -/
theorem ho_call (omega : ℝ) : (Potentials.Potential.ho omega).call = fun x => 0.5 * omega ^ 2 * x ^ 2 := rfl

/-- **C118** In every box the energies of `HOPotential` lie at or above the energies `ω (k + 1/2)` of the oscillator on
the line. -/
theorem C118_above {eigh : NDArray ℂ → Except PyErr (NDArray ℂ × NDArray ℂ)} (he : IsEigh eigh) {omega : ℝ}
    (ho : 0 < omega) {L : ℝ} (hL : 0 < L) {E : ℕ → ℝ} (hE : StrictMono E)
    (hall : ∀ e, BoxLevel (Potentials.Potential.ho omega).call L e ↔ ∃ k, E k = e) (k : ℕ) :
    omega * (k + 1 / 2) ≤ E k := by
  rw [ho_call] at hall
  obtain ⟨w, f, hwf⟩ := odqd_all he hL fun x => 0.5 * omega ^ 2 * x ^ 2
  obtain ⟨E', ψ, hE', hr, -, hψ, hov⟩ := box_basis hL (V := fun x => 0.5 * omega ^ 2 * x ^ 2) (by fun_prop)
    fun num h3 => (hwf num h3).1
  have : E = E' := (StrictMono.range_inj hE hE').1 (Set.ext fun e => (hall e).symm.trans (hr e))
  rw [this]
  exact Oscillation.ho_lower ho hL hE'.monotone (fun k => (hψ k).2) hov k

/-- **C118** `ODQD` with `HOPotential(ω)` has the energies of `ODHO` with the frequency `ω` in the limit of a large box with
a fine grid: whatever the accuracy `ε`, all boxes that are large enough have the energies with error `ε` on all grids that
are fine enough. -/
theorem C118_energies {eigh : NDArray ℂ → Except PyErr (NDArray ℂ × NDArray ℂ)} (he : IsEigh eigh) {omega : ℝ}
    (ho : 0 < omega) (k : ℕ) {ε : ℝ} (hε : 0 < ε) : ∃ L₀ : ℝ, 0 < L₀ ∧ ∀ L ≥ L₀, ∃ N : ℕ, ∀ num ≥ N, ∀ l, k < l →
      l ≤ num - 2 → ∀ (a alpha beta : ℝ) (hm : Bool) (np np' : Module) (sp an sp' an' : Bool), ∃ b b' h h',
        odqd eigh l L num a alpha beta (Potentials.Potential.ho omega).call hm np sp an = .ok b ∧
        odho l L num omega a alpha beta np' sp' an' = .ok b' ∧ b.h = some h ∧ b'.h = some h' ∧
        h'.get [k, k] = ((omega * (k + 1 / 2) : ℝ) : ℂ) ∧ ‖h.get [k, k] - h'.get [k, k]‖ ≤ ε := by
  obtain ⟨L₀, h2, hL₀⟩ := Oscillation.ho_levels ho k (by linarith : 0 < ε / 2)
  refine ⟨L₀, by linarith, fun L hL => ?_⟩
  have hLp : 0 < L := by linarith
  rw [ho_call]
  obtain ⟨w, f, hwf⟩ := odqd_all he hLp fun x => 0.5 * omega ^ 2 * x ^ 2
  obtain ⟨E, ψ, hE, -, ht, hψ, hov⟩ := box_basis hLp (V := fun x => 0.5 * omega ^ 2 * x ^ 2) (by fun_prop)
    fun num h3 => (hwf num h3).1
  have hk := hL₀ L hL w f E ψ (fun num h3 => (hwf num h3).1) ht hE (fun k => (hψ k).2) hov k le_rfl
  obtain ⟨N, hN⟩ := Metric.tendsto_atTop.1 (ht k) (ε / 2) (by linarith)
  refine ⟨max N 3, fun num hnum l hkl hl a alpha beta hm np np' sp an sp' an' => ?_⟩
  obtain ⟨b, s, h, d, u, k1, -, k3, -, -, -, k6⟩ := (hwf num (by omega)).2 l hl a alpha beta hm np sp an
  obtain ⟨b', g1, -, g2, -⟩ := odho_ok l L (by omega : 2 ≤ num) omega a alpha beta np' sp' an'
  have e : ∀ h', some h' = b'.h → h'.get [k, k] = ((omega * (k + 1 / 2) : ℝ) : ℂ) := fun h' hh => by
    rw [g2] at hh
    cases hh
    rw [ofFn_get_of (by exact ⟨hkl, hkl, trivial⟩)]
    simp
  refine ⟨b, b', h, _, k1, g1, k3, g2, e _ g2.symm, ?_⟩
  rw [e _ g2.symm, (k6 k hkl).1, ← Complex.ofReal_sub, Complex.norm_real, Real.norm_eq_abs]
  have h1 := hN num (by omega)
  rw [Real.dist_eq] at h1
  have h4 := abs_add_le (w num k - E k) (E k - omega * (k + 1 / 2))
  rw [sub_add_sub_cancel] at h4
  linarith

/-- Example: the gap between the two lowest energies of `ODQD` with `HOPotential(2)` is 2 with error 1/100 on some grid. -/
example {eigh : NDArray ℂ → Except PyErr (NDArray ℂ × NDArray ℂ)} (he : IsEigh eigh) : ∃ (L : ℝ) (num : ℕ) (b : BasisSet ℂ)
    (h : NDArray ℂ), odqd eigh 2 L num 0.25 1 0 (Potentials.Potential.ho 2).call = .ok b ∧ b.h = some h ∧
      ‖h.get [1, 1] - h.get [0, 0] - 2‖ ≤ 1 / 100 := by
  obtain ⟨L₁, -, h1⟩ := C118_energies he (omega := 2) (by norm_num) 0 (ε := 1 / 200) (by norm_num)
  obtain ⟨L₂, -, h2⟩ := C118_energies he (omega := 2) (by norm_num) 1 (ε := 1 / 200) (by norm_num)
  obtain ⟨N₁, h1⟩ := h1 (max L₁ L₂) (le_max_left _ _)
  obtain ⟨N₂, h2⟩ := h2 (max L₁ L₂) (le_max_right _ _)
  obtain ⟨b, _, h, h', e1, -, e2, -, e3, e4⟩ := h1 (N₁ + N₂ + 4) (by omega) 2 (by omega) (by omega) 0.25 1 0 false 0 0
    false false false false
  obtain ⟨b₂, _, h₂, h₂', g1, -, g2, -, g3, g4⟩ := h2 (N₁ + N₂ + 4) (by omega) 2 (by omega) (by omega) 0.25 1 0 false 0 0
    false false false false
  obtain rfl : b = b₂ := Except.ok.inj (e1.symm.trans g1)
  obtain rfl : h = h₂ := Option.some.inj (e2.symm.trans g2)
  refine ⟨_, _, b, h, e1, e2, ?_⟩
  rw [e3] at e4
  rw [g3] at g4
  have := norm_sub_le (h.get [1, 1] - ((2 * ((1 : ℕ) + 1 / 2) : ℝ) : ℂ)) (h.get [0, 0] - ((2 * ((0 : ℕ) + 1 / 2) : ℝ) : ℂ))
  refine le_trans (le_of_eq ?_) (this.trans (by linarith))
  congr 1
  push_cast
  ring

end QS.Props
