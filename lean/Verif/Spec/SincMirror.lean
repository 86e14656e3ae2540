import Verif.Spec.Continuity
import Verif.Spec.Levels

/-!
# Mirror images of electrons on a sinc-DVR grid (C158)
-/

namespace QS

open NDArray BasisSet Finset

/-- The spin orbital at the mirrored point, with the same spin. -/
def mirrorOrbital (l : ℕ) (p : Fin (2 * l)) : Fin (2 * l) := ⟨2 * (l - 1 - p.1 / 2) + p.1 % 2, by omega⟩

/-- The mirrored wave function. -/
def mirroredWave {N l : ℕ} (Ψ : Wave ℂ N (2 * l)) : Wave ℂ N (2 * l) := fun x => Ψ fun i => mirrorOrbital l (x i)

/-- Electrons that move with the elements `h`, `u`, seen in a mirror, move with `h'`, `u'`, and the density that the basis set `b`
computes is mirrored. -/
structure SincMirrors (N l : ℕ) (b : BasisSet ℂ) (h h' : ℝ → Fin (2 * l) → Fin (2 * l) → ℂ)
    (u u' : ℝ → Fin (2 * l) → Fin (2 * l) → Fin (2 * l) → Fin (2 * l) → ℂ) : Prop where
  motion : ∀ Ψ : ℝ → Wave ℂ N (2 * l), Evolves h u Ψ ↔ Evolves h' u' fun t => mirroredWave (Ψ t)
  /-- At every time the energies are the same, and mirror images of the states are the states. -/
  energies : ∀ t D E (Ψ : ℕ → Wave ℂ N (2 * l)), Spectrum (h t) (u t) D E Ψ ↔ Spectrum (h' t) (u' t) D E fun i => mirroredWave (Ψ i)
  antisymmetric : ∀ Ψ : Wave ℂ N (2 * l), Antisymmetric Ψ ↔ Antisymmetric (mirroredWave Ψ)
  density : ∀ Ψ : Wave ℂ N (2 * l), ∃ n n', ((computeParticleDensity (densityMatrix l Ψ) none none).run b).1 = .ok n ∧
    ((computeParticleDensity (densityMatrix l (mirroredWave Ψ)) none none).run b).1 = .ok n' ∧ n.shape = [l] ∧ n'.shape = [l] ∧
    ∀ i < l, n'.get [i] = n.get [l - 1 - i]

end QS
