import Verif.Spec.BasisChange
import Verif.Spec.Symmetry

/-!
# Specification of spin doubling

Spin orbital `2p + a` is spatial orbital `p` with spin `a ∈ {0, 1}`.
-/

namespace QS

open Finset

variable {K : Type} [PyScalar K]

/-- `y` holds the one-body elements of `x` in the spin-doubled basis. -/
def IsDoubledOneBody (m n : ℕ) (x y : NDArray K) : Prop :=
  y.shape = [2 * m, 2 * n] ∧ ∀ p < m, ∀ q < n, ∀ a < 2, ∀ b < 2,
    y.get [2 * p + a, 2 * q + b] = if a = b then x.get [p, q] else 0

/-- `y` holds the two-body elements of `x` in the spin-doubled basis. -/
def IsDoubledTwoBody (l : ℕ) (x y : NDArray K) : Prop :=
  y.shape = [2 * l, 2 * l, 2 * l, 2 * l] ∧
  ∀ p < l, ∀ q < l, ∀ r < l, ∀ s < l, ∀ a < 2, ∀ b < 2, ∀ c < 2, ∀ d < 2,
    y.get [2 * p + a, 2 * q + b, 2 * r + c, 2 * s + d] =
      if a = c ∧ b = d then x.get [p, q, r, s] else 0

/-- `y` holds the anti-symmetrised two-body elements of `x` in the spin-doubled basis. -/
def IsDoubledAntiTwoBody (l : ℕ) (x y : NDArray K) : Prop :=
  y.shape = [2 * l, 2 * l, 2 * l, 2 * l] ∧
  ∀ p < l, ∀ q < l, ∀ r < l, ∀ s < l, ∀ a < 2, ∀ b < 2, ∀ c < 2, ∀ d < 2,
    y.get [2 * p + a, 2 * q + b, 2 * r + c, 2 * s + d] =
      (if a = c ∧ b = d then x.get [p, q, r, s] else 0) -
      (if a = d ∧ b = c then x.get [p, q, s, r] else 0)

/-- `y` holds the dipole elements of `x` in the spin-doubled basis. -/
def IsDoubledDipole (dim l : ℕ) (x y : NDArray K) : Prop :=
  y.shape = [dim, 2 * l, 2 * l] ∧ ∀ i < dim, ∀ p < l, ∀ q < l, ∀ a < 2, ∀ b < 2,
    y.get [i, 2 * p + a, 2 * q + b] = if a = b then x.get [i, p, q] else 0

/-- Both spin orbitals of a pair hold the same spatial function. -/
def IsDoubledSpf (l : ℕ) (x y : NDArray K) : Prop :=
  y.shape = 2 * l :: x.shape.tail ∧ ∀ p < l, ∀ a < 2, ∀ g, InRange x.shape.tail g →
    y.get ((2 * p + a) :: g) = x.get (p :: g)

/-- `y[pqrs] = x[pqrs] - x[pqsr]`, same shape. -/
def IsAntiSymmetrised (l : ℕ) (x y : NDArray K) : Prop :=
  y.shape = [l, l, l, l] ∧ ∀ p < l, ∀ q < l, ∀ r < l, ∀ s < l,
    y.get [p, q, r, s] = x.get [p, q, r, s] - x.get [p, q, s, r]

/-- `b'` is the spin-doubled version of `b` (`l` spatial orbitals). -/
structure GeneralOf (b b' : BasisSet K) (l : ℕ) (anti : Bool) : Prop where
  size : b'.l = 2 * l
  spin : b'.includesSpin = true
  h : OptRel (IsDoubledOneBody l l) b.h b'.h
  s : OptRel (IsDoubledOneBody l l) b.s b'.s
  u : if anti = true ∧ b.antiSym = false then OptRel (IsDoubledAntiTwoBody l) b.u b'.u
    else OptRel (IsDoubledTwoBody l) b.u b'.u
  antiSym : b'.antiSym = (b.antiSym || anti)
  dipole : OptRel (IsDoubledDipole b.dim l) b.dipole b'.dipole
  spf : OptRel (IsDoubledSpf l) b.spf b'.spf
  bra : OptRel (IsDoubledSpf l) b.bra b'.bra
  rest : b'.grid = b.grid ∧ b'.nre = b.nre ∧ b'.dim = b.dim ∧ b'.np = b.np

/-- Inner product of two spinors. -/
def spinor (x₀ x₁ y₀ y₁ : K) : K := star x₀ * y₀ + star x₁ * y₁

/-- An orthonormal spin basis `a = (a₀, a₁)`, `b = (b₀, b₁)`. -/
structure OrthoSpin (a₀ a₁ b₀ b₁ : K) : Prop where
  aa : spinor a₀ a₁ a₀ a₁ = 1
  bb : spinor b₀ b₁ b₀ b₁ = 1
  ab : spinor a₀ a₁ b₀ b₁ = 0

/-- Matrix product of `n × n` arrays, entry `(p, q)`. -/
def mulAt (n : ℕ) (x y : NDArray K) (p q : ℕ) : K := ∑ t ∈ range n, x.get [p, t] * y.get [t, q]

/-- Kronecker delta. -/
def kd (p q : ℕ) : K := if p = q then 1 else 0

/-- The algebra of the Pauli matrices. -/
structure PauliAlgebra (x y z : NDArray K) : Prop where
  shape : x.shape = [2, 2] ∧ y.shape = [2, 2] ∧ z.shape = [2, 2]
  herm : HermMat 2 x ∧ HermMat 2 y ∧ HermMat 2 z
  square : ∀ p < 2, ∀ q < 2,
    mulAt 2 x x p q = kd p q ∧ mulAt 2 y y p q = kd p q ∧ mulAt 2 z z p q = kd p q
  product : ∀ p < 2, ∀ q < 2, mulAt 2 x y p q = PyScalar.I * z.get [p, q] ∧
    mulAt 2 y z p q = PyScalar.I * x.get [p, q] ∧ mulAt 2 z x p q = PyScalar.I * y.get [p, q]
  trace : x.get [0, 0] + x.get [1, 1] = 0 ∧ y.get [0, 0] + y.get [1, 1] = 0 ∧
    z.get [0, 0] + z.get [1, 1] = 0

/-- Entry `(p, q)` of the commutator of `n × n` arrays. -/
def commAt (n : ℕ) (x y : NDArray K) (p q : ℕ) : K := mulAt n x y p q - mulAt n y x p q

/-- Three `n × n` angular momentum matrices. -/
structure AngularMomentum (n : ℕ) (x y z : NDArray K) : Prop where
  shape : x.shape = [n, n] ∧ y.shape = [n, n] ∧ z.shape = [n, n]
  herm : HermMat n x ∧ HermMat n y ∧ HermMat n z
  comm : ∀ p < n, ∀ q < n, commAt n x y p q = PyScalar.I * z.get [p, q] ∧
    commAt n y z p q = PyScalar.I * x.get [p, q] ∧ commAt n z x p q = PyScalar.I * y.get [p, q]

/-- `Σ_i S_i[p,r] S_i[q,s]` -/
def spinTensor (x y z : NDArray K) (p q r s : ℕ) : K :=
  x.get [p, r] * x.get [q, s] + y.get [p, r] * y.get [q, s] + z.get [p, r] * z.get [q, s]

/-- Expectation value of `S²` in the determinant of the first `n` orbitals, from the one-body
elements `x` and the (plain) two-body elements `y` of `S²`. -/
def refSpinSquared (n : ℕ) (x y : NDArray K) : K :=
  ∑ i ∈ range n, x.get [i, i] +
    ∑ i ∈ range n, ∑ j ∈ range n, (y.get [i, j, i, j] - y.get [i, j, j, i])

/-- The same from anti-symmetrised two-body elements. -/
def refSpinSquaredAnti (n : ℕ) (x y : NDArray K) : K :=
  ∑ i ∈ range n, x.get [i, i] + ∑ i ∈ range n, ∑ j ∈ range n, y.get [i, j, i, j]

end QS
