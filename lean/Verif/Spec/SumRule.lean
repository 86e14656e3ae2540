import Verif.Spec.Levels
import Verif.Spec.Sectors

/-!
# Oscillator strengths of `N` electrons (C146)
-/

namespace QS

open Finset

/-- `∑_m (E_m - E_n) |⟨m|D|n⟩|²` over all states of `N` particles, where `D` is the sum of the one-body operator `d` over the
particles: half the sum of the oscillator strengths of the state `n`. -/
noncomputable def strengthSum {N L : ℕ} (D : ℕ) (E : ℕ → ℝ) (Ψ : ℕ → Wave ℂ N L) (d : Fin L → Fin L → ℂ) (n : ℕ) : ℝ :=
  ∑ m ∈ range D, (E m - E n) * ‖waveInner (Ψ m) (oneBodyOp d (Ψ n))‖ ^ 2

/-- `(-1)^(p + q)` between functions with the same spin. -/
noncomputable def alternating (l : ℕ) (p q : Fin (2 * l)) : ℂ :=
  if p.1 % 2 = q.1 % 2 then (-1) ^ (p.1 / 2) * (-1) ^ (q.1 / 2) else 0

end QS
