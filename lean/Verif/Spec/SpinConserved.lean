import Verif.Spec.Spin

/-!
# Operators that commute with the spin, in an orthogonal or a non-orthogonal basis
-/

namespace QS

open Finset

variable {K : Type} [PyScalar K]

/-- `t` is the inverse of the `n × n` matrix `s`. -/
def InverseOf (n : ℕ) (s t : NDArray K) : Prop :=
  ∀ p < n, ∀ q < n, mulAt n s t p q = kd p q ∧ mulAt n t s p q = kd p q

/-- `x t y`, entry `(p, q)`: the elements of the product of the operators with elements `x` and `y` in a basis
whose overlap matrix has the inverse `t`. -/
def prodAt (n : ℕ) (x t y : NDArray K) (p q : ℕ) : K :=
  ∑ i ∈ range n, ∑ j ∈ range n, x.get [p, i] * t.get [i, j] * y.get [j, q]

/-- The one-body operators with the elements `x` and `y` commute. -/
def OneCommutes (n : ℕ) (t x y : NDArray K) : Prop :=
  ∀ p < n, ∀ q < n, prodAt n x t y p q = prodAt n y t x p q

/-- The interaction with the elements `u` commutes with the sum of the one-body operator with elements `x` over
the two particles. -/
def TotalCommutes (n : ℕ) (t x u : NDArray K) : Prop :=
  ∀ p < n, ∀ q < n, ∀ r < n, ∀ s < n,
    ∑ k ∈ range n, (mulAt n x t p k * u.get [k, q, r, s] + mulAt n x t q k * u.get [p, k, r, s]) =
    ∑ k ∈ range n, (u.get [p, q, k, s] * mulAt n t x k r + u.get [p, q, r, k] * mulAt n t x k s)

end QS
