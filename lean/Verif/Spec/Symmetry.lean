import Verif.Spec.WellFormed

/-! # Symmetries of matrix elements -/

namespace QS

variable {K : Type} [PyScalar K]

/-- Hermitian matrix. -/
def HermMat (l : ℕ) (x : NDArray K) : Prop := ∀ p < l, ∀ q < l, x.get [p, q] = star (x.get [q, p])

/-- Every component of a dipole array is Hermitian. -/
def HermDip (dim l : ℕ) (x : NDArray K) : Prop :=
  ∀ i < dim, ∀ p < l, ∀ q < l, x.get [i, p, q] = star (x.get [i, q, p])

/-- `u[pqrs] = conj u[rspq]` -/
def HermU (l : ℕ) (x : NDArray K) : Prop :=
  ∀ p < l, ∀ q < l, ∀ r < l, ∀ s < l, x.get [p, q, r, s] = star (x.get [r, s, p, q])

/-- `u[pqrs] = u[qpsr]` (exchange of the two particles) -/
def ExchU (l : ℕ) (x : NDArray K) : Prop :=
  ∀ p < l, ∀ q < l, ∀ r < l, ∀ s < l, x.get [p, q, r, s] = x.get [q, p, s, r]

/-- `u[pqrs] = -u[pqsr]` -/
def AntiKet (l : ℕ) (x : NDArray K) : Prop :=
  ∀ p < l, ∀ q < l, ∀ r < l, ∀ s < l, x.get [p, q, r, s] = -x.get [p, q, s, r]

/-- `u[pqrs] = -u[qprs]` -/
def AntiBra (l : ℕ) (x : NDArray K) : Prop :=
  ∀ p < l, ∀ q < l, ∀ r < l, ∀ s < l, x.get [p, q, r, s] = -x.get [q, p, r, s]

/-- A property of a populated attribute. -/
def OnSome {α : Type} (P : α → Prop) (o : Option α) : Prop := ∀ x, o = some x → P x

end QS
