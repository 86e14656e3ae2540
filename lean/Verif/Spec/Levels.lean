import Verif.Spec.ManyBody
import Mathlib.Analysis.Complex.Basic

/-!
# Energies and states of `N` particles
-/

namespace QS

/-- The numbers `E 0 ≤ E 1 ≤ … ≤ E (D - 1)` are all energies, counted with multiplicity, of `N` identical fermions with
the elements `h` and `u`, and the wave functions `Ψ i` are orthonormal states with these energies: a basis of the
antisymmetric wave functions. -/
structure Spectrum {N L : ℕ} (h : Fin L → Fin L → ℂ) (u : Fin L → Fin L → Fin L → Fin L → ℂ) (D : ℕ) (E : ℕ → ℝ)
    (Ψ : ℕ → Wave ℂ N L) : Prop where
  sorted : ∀ i j, i ≤ j → j < D → E i ≤ E j
  anti : ∀ i < D, Antisymmetric (Ψ i)
  eigen : ∀ i < D, hamiltonOp h u (Ψ i) = fun x => (E i : ℂ) * Ψ i x
  orth : ∀ i < D, ∀ j < D, waveInner (Ψ i) (Ψ j) = if i = j then 1 else 0
  complete : ∀ Φ : Wave ℂ N L, Antisymmetric Φ → ∀ x, Φ x = ∑ i ∈ Finset.range D, waveInner (Ψ i) Φ * Ψ i x

/-- The energies of `N` electrons in `l` orbitals with the one-body elements `H` and the two-body elements `U`, in ascending
order. -/
def ElectronEnergies (l : ℕ) (H U : NDArray ℂ) (N : ℕ) (E : ℕ → ℝ) : Prop :=
  ∃ Ψ, Spectrum (N := N) (spinOne l H) (spinTwo l U) ((2 * l).choose N) E Ψ

end QS
