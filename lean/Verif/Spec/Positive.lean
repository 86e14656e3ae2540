import Verif.Spec.Symmetry
import Verif.Spec.History
import Mathlib.Algebra.BigOperators.Group.Finset.Basic
import Mathlib.Data.Finset.Prod

/-!
# Positive operators given by their matrix elements

One-body elements act on vectors `v p`, two-body elements on pair vectors `v (p, q)`.
-/

namespace QS

open Finset

/-- `v* x v` for a vector `v` of length `l`. -/
def oneForm (l : ℕ) (x : NDArray ℂ) (v : ℕ → ℂ) : ℂ :=
  ∑ p ∈ range l, ∑ q ∈ range l, star (v p) * x.get [p, q] * v q

/-- `Σ v*[p,q] u[p,q,r,s] v[r,s]` for a pair vector `v`. -/
def pairForm (l : ℕ) (u : NDArray ℂ) (v : ℕ × ℕ → ℂ) : ℂ :=
  ∑ p ∈ range l ×ˢ range l, ∑ r ∈ range l ×ˢ range l, star (v p) * u.get [p.1, p.2, r.1, r.2] * v r

/-- The two-body elements are those of a positive operator on pairs. -/
def PosU (l : ℕ) (u : NDArray ℂ) : Prop := ∀ v, (pairForm l u v).im = 0 ∧ 0 ≤ (pairForm l u v).re

/-- The one-body elements `h` are bounded from below by `m` times the overlaps `s`. -/
def BoundedBelow (m : ℝ) (l : ℕ) (h s : NDArray ℂ) : Prop := ∀ v, m * (oneForm l s v).re ≤ (oneForm l h v).re

/-- A basis set with a Hermitian one-body part bounded from below by `m` and a repulsive interaction. -/
structure Physical (m : ℝ) (b : BasisSet ℂ) (l : ℕ) : Prop where
  wf : WellFormed b l
  one : ∃ h s, b.h = some h ∧ b.s = some s ∧ HermMat l h ∧ BoundedBelow m l h s
  two : ∃ u, b.u = some u ∧ PosU l u ∧ ExchU l u

/-- The operations that describe the same physical system in another way: changes of basis whose dual is the
conjugate, spin doubling, anti-symmetrisation, casts and module changes. -/
def Ordinary : Op ℂ → Prop
  | .changeBasis _ none => True
  | .toGeneral [_, _] [_, _] _ => True
  | .antiSymmetrize => True
  | .castToComplex => True
  | .changeModule (some _) => True
  | .readBra => True
  | _ => False

end QS
