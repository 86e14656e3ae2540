import Verif.Spec.Levels

/-!
# Specification: energies of a dot as a function of its frequency
-/

namespace QS.Spec

open Filter Topology

/-- The energies `E ω k` (`k < D`) of particles in a harmonic dot with the frequency `ω`: between those of particles
without interaction (`E₀`, at the frequency one) and those of the repulsion alone (`W`, at the frequency one). -/
structure Confinement (D : ℕ) (C C' : ℝ) (E : ℝ → ℕ → ℝ) (E₀ W : ℕ → ℝ) : Prop where
  /-- tighter dots have higher energies -/
  grows : ∀ ω ω', 0 < ω → ω ≤ ω' → ∀ k < D, E ω k ≤ E ω' k
  /-- in units of the frequency they have lower ones -/
  relative : ∀ ω ω', 0 < ω → ω ≤ ω' → ∀ k < D, E ω' k / ω' ≤ E ω k / ω
  /-- in units of the strength of the repulsion they have higher ones -/
  repulsion : ∀ ω ω', 0 < ω → ω ≤ ω' → ∀ k < D, E ω k / Real.sqrt ω ≤ E ω' k / Real.sqrt ω'
  tight : ∀ ω, 0 < ω → ∀ k < D, E₀ k ≤ E ω k / ω ∧ E ω k / ω ≤ E₀ k + C / Real.sqrt ω
  wide : ∀ ω, 0 < ω → ∀ k < D, W k ≤ E ω k / Real.sqrt ω ∧ E ω k / Real.sqrt ω ≤ W k + C' * Real.sqrt ω
  tight_limit : ∀ k < D, Tendsto (fun ω => E ω k / ω) atTop (𝓝 (E₀ k))
  wide_limit : ∀ k < D, Tendsto (fun ω => E ω k / Real.sqrt ω) (𝓝[>] 0) (𝓝 (W k))
  /-- the sum of the lowest `m` energies in units of the frequency is a concave function of `1/√ω` -/
  concave : ∀ ω ω₁ ω₂ lam, 0 < ω → 0 < ω₁ → 0 < ω₂ → 0 ≤ lam → lam ≤ 1 →
    1 / Real.sqrt ω = (1 - lam) * (1 / Real.sqrt ω₁) + lam * (1 / Real.sqrt ω₂) → ∀ m ≤ D,
    (1 - lam) * ∑ i ∈ Finset.range m, E ω₁ i / ω₁ + lam * ∑ i ∈ Finset.range m, E ω₂ i / ω₂ ≤
      ∑ i ∈ Finset.range m, E ω i / ω

end QS.Spec
