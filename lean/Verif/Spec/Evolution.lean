import Verif.Spec.TimeEvolution
import Verif.Spec.Sectors
import Mathlib.Analysis.Calculus.Deriv.Basic
import Mathlib.Analysis.Complex.Exponential

/-!
# The time evolution of `N` particles
-/

namespace QS

open Finset

variable {N L : ℕ}

/-- The wave function solves the time-dependent Schrödinger equation `i dΨ/dt = H(t) Ψ` (in units with `ħ = 1`) with the
Hamilton operator of the elements `h t` and `u t`. -/
def Evolves (h : ℝ → Fin L → Fin L → ℂ) (u : ℝ → Fin L → Fin L → Fin L → Fin L → ℂ) (Ψ : ℝ → Wave ℂ N L) : Prop :=
  ∀ t x, HasDerivAt (fun t => Ψ t x) (-Complex.I * hamiltonOp (h t) (u t) (Ψ t) x) t

/-- All elements are continuous functions of the time. -/
structure ContinuousElements (h : ℝ → Fin L → Fin L → ℂ) (u : ℝ → Fin L → Fin L → Fin L → Fin L → ℂ) : Prop where
  one : ∀ p q, Continuous fun t => h t p q
  two : ∀ p q r s, Continuous fun t => u t p q r s

/-- All elements are Hermitian at all times. -/
structure HermitianElements (h : ℝ → Fin L → Fin L → ℂ) (u : ℝ → Fin L → Fin L → Fin L → Fin L → ℂ) : Prop where
  one : ∀ t p q, star (h t p q) = h t q p
  two : ∀ t p q r s, star (u t p q r s) = u t r s p q

/-- The mean energy. -/
noncomputable def meanEnergy (h : Fin L → Fin L → ℂ) (u : Fin L → Fin L → Fin L → Fin L → ℂ) (Ψ : Wave ℂ N L) : ℂ :=
  waveInner Ψ (hamiltonOp h u Ψ)

/-- The mean value of a one-body operator. -/
noncomputable def meanOne (a : Fin L → Fin L → ℂ) (Ψ : Wave ℂ N L) : ℂ := waveInner Ψ (oneBodyOp a Ψ)

/-- The mean value of a two-body operator `½ ∑_{i ≠ j} u(i, j)`. -/
noncomputable def meanTwo (u : Fin L → Fin L → Fin L → Fin L → ℂ) (Ψ : Wave ℂ N L) : ℂ := 1 / 2 * waveInner Ψ (twoBodyOp u Ψ)

/-- The evolution of `N` particles is well defined and unitary: from every wave function at every time there is exactly one
solution for all times, inner products of solutions do not change, and identical fermions remain identical fermions. -/
structure UnitaryEvolution (N : ℕ) (h : ℝ → Fin L → Fin L → ℂ) (u : ℝ → Fin L → Fin L → Fin L → Fin L → ℂ) : Prop where
  start : ∀ (t₀ : ℝ) (Ψ₀ : Wave ℂ N L), ∃! Ψ : ℝ → Wave ℂ N L, Evolves h u Ψ ∧ Ψ t₀ = Ψ₀
  inner : ∀ Φ Ψ : ℝ → Wave ℂ N L, Evolves h u Φ → Evolves h u Ψ → ∀ s t,
    waveInner (Φ s) (Ψ s) = waveInner (Φ t) (Ψ t)
  fermions : ∀ Ψ : ℝ → Wave ℂ N L, Evolves h u Ψ → ∀ s, Antisymmetric (Ψ s) → ∀ t, Antisymmetric (Ψ t)

/-- The evolution of `N` particles with the elements `h₀` and `u₀` under the forces `∑_k F_k(t) d_k`: it is unitary; the energy
changes at the rate `∑_k F_k'(t) ⟨d_k⟩`; the energy without the forces changes by their work, at the rate
`-∑_k F_k(t) d⟨d_k⟩/dt`; and once the forces have ended the overlaps with the states of given energy only turn their phases. -/
structure DrivenEvolution (N n : ℕ) (h : ℝ → Fin L → Fin L → ℂ) (u : ℝ → Fin L → Fin L → Fin L → Fin L → ℂ)
    (h₀ : Fin L → Fin L → ℂ) (u₀ : Fin L → Fin L → Fin L → Fin L → ℂ) (F : ℕ → ℝ → ℂ) (d : ℕ → Fin L → Fin L → ℂ) : Prop where
  unitary : UnitaryEvolution N h u
  balance : ∀ Ψ : ℝ → Wave ℂ N L, Evolves h u Ψ → ∀ t (F' : ℕ → ℂ), (∀ k < n, HasDerivAt (F k) (F' k) t) →
    HasDerivAt (fun t => meanEnergy (h t) (u t) (Ψ t)) (∑ k ∈ range n, F' k * meanOne (d k) (Ψ t)) t
  work : ∀ Ψ : ℝ → Wave ℂ N L, Evolves h u Ψ → ∀ t, ∃ v : ℕ → ℂ,
    (∀ k < n, HasDerivAt (fun t => meanOne (d k) (Ψ t)) (v k) t) ∧
    HasDerivAt (fun t => meanEnergy h₀ u₀ (Ψ t)) (-∑ k ∈ range n, F k t * v k) t
  afterwards : ∀ Ψ : ℝ → Wave ℂ N L, Evolves h u Ψ → ∀ t₁, (∀ t ≥ t₁, ∀ k < n, F k t = 0) →
    ∀ D E Φ, Spectrum h₀ u₀ D E Φ → ∀ i < D, ∀ t ≥ t₁,
      waveInner (Φ i) (Ψ t) = Complex.exp (-Complex.I * (E i * (t - t₁) : ℝ)) * waveInner (Φ i) (Ψ t₁)

/-- The evolution of `N` particles with the one-body elements `h` and the interaction `f(t) u`: it is unitary; the energy changes
at the rate `f'(t) ⟨u⟩`; and once `f` is `1` the overlaps with the states of given energy of the interacting particles only turn
their phases. -/
structure SwitchedEvolution (N : ℕ) (h : ℝ → Fin L → Fin L → ℂ) (u : ℝ → Fin L → Fin L → Fin L → Fin L → ℂ)
    (h₀ : Fin L → Fin L → ℂ) (u₀ : Fin L → Fin L → Fin L → Fin L → ℂ) (f : ℝ → ℂ) : Prop where
  unitary : UnitaryEvolution N h u
  balance : ∀ Ψ : ℝ → Wave ℂ N L, Evolves h u Ψ → ∀ t f', HasDerivAt f f' t →
    HasDerivAt (fun t => meanEnergy (h t) (u t) (Ψ t)) (f' * meanTwo u₀ (Ψ t)) t
  afterwards : ∀ Ψ : ℝ → Wave ℂ N L, Evolves h u Ψ → ∀ t₁, (∀ t ≥ t₁, f t = 1) →
    ∀ D E Φ, Spectrum h₀ u₀ D E Φ → ∀ i < D, ∀ t ≥ t₁,
      waveInner (Φ i) (Ψ t) = Complex.exp (-Complex.I * (E i * (t - t₁) : ℝ)) * waveInner (Φ i) (Ψ t₁)

/-- What the quantum numbers `g` add up to does not change in time. -/
def KeepsTotal {G : Type} [AddCommMonoid G] (N : ℕ) (g : Fin L → G) (h : ℝ → Fin L → Fin L → ℂ)
    (u : ℝ → Fin L → Fin L → Fin L → Fin L → ℂ) : Prop :=
  ∀ Ψ : ℝ → Wave ℂ N L, Evolves h u Ψ → ∀ Q s, HasTotal g Q (Ψ s) → ∀ t, HasTotal g Q (Ψ t)

/-- The arrays that `h_t` and `u_t` of system `s` with the operator object `o` return at every time, after whatever was read
from the system before. -/
def Answered (w : World ℂ ℝ) (s o : ℕ) (H U : ℝ → NDArray ℂ) : Prop :=
  ∀ t, ∃ ops : List (SOp ℂ ℝ), (∀ op ∈ ops, Reading o op) ∧
    ((World.hT s t).run (afterReading w s ops)).1 = .ok (some (H t)) ∧
    ((World.uT s t).run (afterReading w s ops)).1 = .ok (some (U t))

end QS
