import Verif.Spec.System

/-!
# Energy and Fock operator of a determinant from its density matrix

The formulas of closed-shell (`spatial`, `D` is half of the total density matrix) and general
determinants with elements in an arbitrary basis.
-/

namespace QS

open Finset

variable {K : Type} [PyScalar K]

/-- Entry `(b, a)` of `C_occ C~_occ`, the density matrix of the first `n` new orbitals in the old basis. -/
def occDensity (n : ℕ) (C Ct : NDArray K) (b a : ℕ) : K := ∑ i ∈ range n, C.get [b, i] * Ct.get [i, a]

/-- The energy of a determinant with density matrix `D` from elements in a basis of `l` functions. -/
def densityEnergy (k : SysKind) (l : ℕ) (D : ℕ → ℕ → K) (h u : NDArray K) : K :=
  match k with
  | .general => ∑ a ∈ range l, ∑ b ∈ range l, D b a * h.get [a, b] + 1 / 2 *
      ∑ a ∈ range l, ∑ b ∈ range l, ∑ c ∈ range l, ∑ d ∈ range l, D c a * D d b * u.get [a, b, c, d]
  | .spatial => 2 * ∑ a ∈ range l, ∑ b ∈ range l, D b a * h.get [a, b] +
      ∑ a ∈ range l, ∑ b ∈ range l, ∑ c ∈ range l, ∑ d ∈ range l,
        (2 * (D c a * D d b) - D d a * D c b) * u.get [a, b, c, d]

/-- The Fock operator of a determinant with density matrix `D` in a basis of `l` functions. -/
def densityFock (k : SysKind) (l : ℕ) (D : ℕ → ℕ → K) (h u : NDArray K) (a b : ℕ) : K :=
  match k with
  | .general => h.get [a, b] + ∑ c ∈ range l, ∑ d ∈ range l, D d c * u.get [a, c, b, d]
  | .spatial => h.get [a, b] + ∑ c ∈ range l, ∑ d ∈ range l,
      D d c * (2 * u.get [a, c, b, d] - u.get [a, c, d, b])

end QS
