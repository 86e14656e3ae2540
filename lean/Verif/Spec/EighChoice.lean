import Verif.Spec.OneDim
import Verif.Spec.Spin

/-!
# Specification: elements in two bases whose functions differ by phases

A solver for eigenvalue problems may return every eigenvector times any number of absolute value one.
-/

namespace QS.Spec

open NDArray

/-- `y[p, q] = c_p^* c_q x[p, q]`: a one-body operator with the functions `c_p φ_p`. -/
def PhaseOne (c : ℕ → ℂ) (l : ℕ) (x y : NDArray ℂ) : Prop :=
  y.shape = x.shape ∧ ∀ p < l, ∀ q < l, y.get [p, q] = (starRingEnd ℂ) (c p) * c q * x.get [p, q]

/-- `y[p, q, r, s] = c_p^* c_q^* c_r c_s x[p, q, r, s]`. -/
def PhaseTwo (c : ℕ → ℂ) (l : ℕ) (x y : NDArray ℂ) : Prop :=
  y.shape = x.shape ∧ ∀ p < l, ∀ q < l, ∀ r < l, ∀ s < l,
    y.get [p, q, r, s] = (starRingEnd ℂ) (c p * c q) * (c r * c s) * x.get [p, q, r, s]

/-- The same for the components of the dipole moment. -/
def PhaseDipole (c : ℕ → ℂ) (d l : ℕ) (x y : NDArray ℂ) : Prop :=
  y.shape = x.shape ∧ ∀ i < d, ∀ p < l, ∀ q < l, y.get [i, p, q] = (starRingEnd ℂ) (c p) * c q * x.get [i, p, q]

/-- `y[p, …] = c_p x[p, …]`: the functions themselves. -/
def PhaseSpf (c : ℕ → ℂ) (l : ℕ) (x y : NDArray ℂ) : Prop :=
  y.shape = x.shape ∧ ∀ p < l, ∀ g, InRange x.shape.tail g → y.get (p :: g) = c p * x.get (p :: g)

/-- The basis set `b'` has the functions of `b`, times numbers `c_p` of absolute value one, and the elements that
belong to them. -/
structure UpToPhases (c : ℕ → ℂ) (l : ℕ) (b b' : BasisSet ℂ) : Prop where
  unit : ∀ p, ‖c p‖ = 1
  size : b'.l = b.l
  dim : b'.dim = b.dim
  h : OptRel (PhaseOne c l) b.h b'.h
  s : OptRel (PhaseOne c l) b.s b'.s
  u : OptRel (PhaseTwo c l) b.u b'.u
  dipole : OptRel (PhaseDipole c b.dim l) b.dipole b'.dipole
  spf : OptRel (PhaseSpf c l) b.spf b'.spf
  rest : b'.grid = b.grid ∧ b'.np = b.np ∧ b'.includesSpin = b.includesSpin ∧ b'.antiSym = b.antiSym

end QS.Spec
