import Verif.Spec.Evolution

/-!
# Specification: rotated and mirrored wave functions
-/

namespace QS

open Finset

variable {N L : ℕ}

/-- A wave function with a factor for every particle. -/
noncomputable def turnedWave (c : Fin L → ℂ) (Ψ : Wave ℂ N L) : Wave ℂ N L := fun x => (∏ i, c (x i)) * Ψ x

/-- What a rotation by the angle `φ` makes of the spin orbitals whose functions have the angular momenta `m`. -/
noncomputable def turnPhase (m : ℕ → ℤ) (l : ℕ) (φ : ℝ) (p : Fin (2 * l)) : ℂ := Complex.exp (-Complex.I * (φ * m (p.1 / 2)))

/-- The elements of the angular momentum between spin orbitals. -/
def angularMomentum (m : ℕ → ℤ) (l : ℕ) (p q : Fin (2 * l)) : ℂ := if p = q then m (p.1 / 2) else 0

/-- The functions have the angular momenta `m`: the one- and two-body elements conserve it, and the dipole elements along x and y
change it by one, with the phases of a vector. -/
structure Rotates (m : ℕ → ℤ) (l : ℕ) (h u d : NDArray ℂ) : Prop where
  one : ∀ p < l, ∀ q < l, m p ≠ m q → h.get [p, q] = 0
  two : ∀ p < l, ∀ q < l, ∀ r < l, ∀ s < l, m p + m q ≠ m r + m s → u.get [p, q, r, s] = 0
  other : ∀ p < l, ∀ q < l, |m p - m q| ≠ 1 → d.get [0, p, q] = 0 ∧ d.get [1, p, q] = 0
  vector : ∀ p < l, ∀ q < l, |m p - m q| = 1 → d.get [1, p, q] = (m q - m p) * Complex.I * d.get [0, p, q]

end QS
