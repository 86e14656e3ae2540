import Verif.Spec.Stability
import Mathlib.MeasureTheory.Integral.IntervalIntegral.Basic

/-!
# Weak and slow pulses
-/

namespace QS

open Finset

variable {N L : ℕ}

/-- The one-body elements with the forces `∑_k F_k d_k`. -/
noncomputable def forcedOne (n : ℕ) (h₀ : Fin L → Fin L → ℂ) (d : ℕ → Fin L → Fin L → ℂ) (F : ℕ → ℝ) : Fin L → Fin L → ℂ :=
  fun p q => h₀ p q + ∑ k ∈ range n, F k * d k p q

/-- The evolution of `N` particles under the forces `∑_k F_k(t) d_k`, compared with the evolution without them: if the elements of
`d_k` are at most `δ_k`, normalised wave functions differ at the time `b` at most by their difference at the time `a` and by
`ε = N L ∑_k δ_k ∫_a^b |F_k|`; and particles that have a given energy at the time `a` leave this state up to the time `b` at most
with the probability `ε²`. -/
structure WeakPulses (N n : ℕ) (h : ℝ → Fin L → Fin L → ℂ) (u : ℝ → Fin L → Fin L → Fin L → Fin L → ℂ)
    (h₀ : Fin L → Fin L → ℂ) (u₀ : Fin L → Fin L → Fin L → Fin L → ℂ) (F : ℕ → ℝ → ℝ) (d : ℕ → Fin L → Fin L → ℂ) : Prop where
  free : ∀ δ : ℕ → ℝ, (∀ k < n, ∀ p q, ‖d k p q‖ ≤ δ k) → (∀ k < n, 0 ≤ δ k) → ∀ Ψ Φ : ℝ → Wave ℂ N L, Evolves h u Ψ →
    Evolves (fun _ => h₀) (fun _ => u₀) Φ → ∀ a b, a ≤ b → Antisymmetric (Ψ a) → Antisymmetric (Φ a) → waveInner (Φ a) (Φ a) = 1 →
    stateDistance (Ψ b) (Φ b) ≤ stateDistance (Ψ a) (Φ a) + N * L * ∑ k ∈ range n, δ k * ∫ t in a..b, |F k t|
  stays : ∀ δ : ℕ → ℝ, (∀ k < n, ∀ p q, ‖d k p q‖ ≤ δ k) → (∀ k < n, 0 ≤ δ k) → ∀ Ψ : ℝ → Wave ℂ N L, Evolves h u Ψ →
    ∀ a b, a ≤ b → ∀ i, LevelState h₀ u₀ i (Ψ a) →
    1 - (N * L * ∑ k ∈ range n, δ k * ∫ t in a..b, |F k t|) ^ 2 ≤ population (Ψ a) (Ψ b)

end QS
