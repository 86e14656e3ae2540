import Verif.Spec.WellFormed

/-!
# Specification of a change of basis

`|φ_p⟩ = Σ_a C[a,p] |χ_a⟩`, `⟨φ~_p| = Σ_a Ct[p,a] ⟨χ~_a|`, written entry by entry.
-/

namespace QS

open Finset

variable {K : Type} [PyScalar K]

/-- Both missing, or both present and related by `R`. -/
def OptRel {α β : Type} (R : α → β → Prop) : Option α → Option β → Prop
  | none, none => True
  | some x, some y => R x y
  | _, _ => False

/-- `y` holds the elements of the one-body operator `x` in the new basis. -/
def IsOneBody (C Ct : NDArray K) (l n : ℕ) (x y : NDArray K) : Prop :=
  y.shape = [n, n] ∧ ∀ p < n, ∀ q < n, y.get [p, q] =
    ∑ a ∈ range l, ∑ b ∈ range l, Ct.get [p, a] * x.get [a, b] * C.get [b, q]

/-- `y` holds the elements of the two-body operator `x` in the new basis. -/
def IsTwoBody (C Ct : NDArray K) (l n : ℕ) (x y : NDArray K) : Prop :=
  y.shape = [n, n, n, n] ∧ ∀ p < n, ∀ q < n, ∀ r < n, ∀ s < n, y.get [p, q, r, s] =
    ∑ a ∈ range l, ∑ b ∈ range l, ∑ c ∈ range l, ∑ d ∈ range l,
      Ct.get [p, a] * Ct.get [q, b] * x.get [a, b, c, d] * C.get [c, r] * C.get [d, s]

/-- Every component of `y` holds the elements of that component of `x` in the new basis. -/
def IsDipole (C Ct : NDArray K) (dim l n : ℕ) (x y : NDArray K) : Prop :=
  y.shape = [dim, n, n] ∧ ∀ i < dim, ∀ p < n, ∀ q < n, y.get [i, p, q] =
    ∑ a ∈ range l, ∑ b ∈ range l, Ct.get [p, a] * x.get [i, a, b] * C.get [b, q]

/-- `y` holds the new ket functions on the grid of `x`. -/
def IsKet (C : NDArray K) (l n : ℕ) (x y : NDArray K) : Prop :=
  y.shape = n :: x.shape.tail ∧ ∀ p < n, ∀ g, InRange x.shape.tail g →
    y.get (p :: g) = ∑ a ∈ range l, C.get [a, p] * x.get (a :: g)

/-- `y` holds the new bra functions on the grid of `x`. -/
def IsBra (Ct : NDArray K) (l n : ℕ) (x y : NDArray K) : Prop :=
  y.shape = n :: x.shape.tail ∧ ∀ p < n, ∀ g, InRange x.shape.tail g →
    y.get (p :: g) = ∑ a ∈ range l, Ct.get [p, a] * x.get (a :: g)

/-- `b'` is `b` expressed in the basis given by `C`, `Ct` (from `l` to `n` functions). -/
structure BasisChanged (b b' : BasisSet K) (C Ct : NDArray K) (l n : ℕ) : Prop where
  size : b'.l = n
  h : OptRel (IsOneBody C Ct l n) b.h b'.h
  s : OptRel (IsOneBody C Ct l n) b.s b'.s
  u : OptRel (IsTwoBody C Ct l n) b.u b'.u
  dipole : OptRel (IsDipole C Ct b.dim l n) b.dipole b'.dipole
  spf : OptRel (IsKet C l n) b.spf b'.spf
  bra : OptRel (IsBra Ct l n) b.bra b'.bra
  rest : b'.grid = b.grid ∧ b'.nre = b.nre ∧ b'.includesSpin = b.includesSpin ∧
    b'.antiSym = b.antiSym ∧ b'.dim = b.dim ∧ b'.np = b.np

/-- Two arrays with the same shape and values (the dtype may differ). -/
def SameValues (x y : NDArray K) : Prop := y.shape = x.shape ∧ ∀ i, y.get i = x.get i

/-- Two basis sets reporting the same size, elements and functions. -/
structure SameElements (b b' : BasisSet K) : Prop where
  size : b'.l = b.l
  h : OptRel SameValues b.h b'.h
  s : OptRel SameValues b.s b'.s
  u : OptRel SameValues b.u b'.u
  dipole : OptRel SameValues b.dipole b'.dipole
  spf : OptRel SameValues b.spf b'.spf
  bra : OptRel SameValues b.bra b'.bra

end QS
