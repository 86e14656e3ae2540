import Verif.Spec.Evolution

/-!
# Levels of `N` particles under slow changes
-/

namespace QS

/-- The `k`-th energy of `N` particles (counted from `0`) exists and no other energy is equal to it. -/
def SimpleLevel {L : ℕ} (N : ℕ) (h : Fin L → Fin L → ℂ) (u : Fin L → Fin L → Fin L → Fin L → ℂ) (k : ℕ) : Prop :=
  ∀ D E (Φ : ℕ → Wave ℂ N L), Spectrum h u D E Φ → k < D ∧ ∀ j < D, j ≠ k → E j ≠ E k

/-- A normalised state of `N` particles with the `k`-th energy. -/
def LevelState {N L : ℕ} (h : Fin L → Fin L → ℂ) (u : Fin L → Fin L → Fin L → Fin L → ℂ) (k : ℕ) (Ψ : Wave ℂ N L) : Prop :=
  ∃ D E Φ, Spectrum h u D E Φ ∧ k < D ∧ Φ k = Ψ

/-- The probability to find the particles in the state `Φ`. -/
noncomputable def population {N L : ℕ} (Φ Ψ : Wave ℂ N L) : ℝ := ‖waveInner Φ Ψ‖ ^ 2

end QS
