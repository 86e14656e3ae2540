import Verif.Spec.Evolution

/-!
# Specification: time reversal
-/

namespace QS

open Finset

variable {N L : ℕ}

/-- The complex conjugate of a wave function, with a phase for every particle. -/
noncomputable def reversedWave (c : Fin L → ℂ) (Ψ : Wave ℂ N L) : Wave ℂ N L := fun x => (∏ i, c (x i)) * star (Ψ x)

/-- The complex conjugates of the elements are the elements themselves up to phases `c_p` of the functions, and up to a sign `σ_k`
for every component of the dipole moment. -/
structure Reversible (c : ℕ → ℂ) (σ : ℕ → ℝ) (l dim : ℕ) (h u d : NDArray ℂ) : Prop where
  unit : ∀ p, star (c p) * c p = 1
  one : ∀ p < l, ∀ q < l, star (h.get [p, q]) = star (c p) * h.get [p, q] * c q
  two : ∀ p < l, ∀ q < l, ∀ r < l, ∀ s < l,
    star (u.get [p, q, r, s]) = star (c p) * star (c q) * u.get [p, q, r, s] * c r * c s
  dipole : ∀ k < dim, ∀ p < l, ∀ q < l, star (d.get [k, p, q]) = σ k * (star (c p) * d.get [k, p, q] * c q)

end QS
