import Verif.Model.System
import Verif.Spec.Spin

/-!
# Specification of systems

Formulas for reference energies and Fock matrices, and what a consistent system object is.
-/

namespace QS

open Finset

variable {K T : Type} [PyScalar K]

/-- `Σ_i h_ii + ½ Σ_ij u_ijij` over the first `n` orbitals. -/
def energyGeneral (n : ℕ) (h u : NDArray K) : K :=
  ∑ i ∈ range n, h.get [i, i] + 1 / 2 * ∑ i ∈ range n, ∑ j ∈ range n, u.get [i, j, i, j]

/-- `2 Σ_i h_ii + Σ_ij (2 u_ijij - u_ijji)` over the first `n` orbitals. -/
def energySpatial (n : ℕ) (h u : NDArray K) : K :=
  2 * ∑ i ∈ range n, h.get [i, i] +
    ∑ i ∈ range n, ∑ j ∈ range n, (2 * u.get [i, j, i, j] - u.get [i, j, j, i])

/-- `h_pq + Σ_i u_piqi` over the first `n` orbitals. -/
def fockGeneralAt (n : ℕ) (h u : NDArray K) (p q : ℕ) : K :=
  h.get [p, q] + ∑ i ∈ range n, u.get [p, i, q, i]

/-- `h_pq + Σ_i (2 u_piqi - u_piiq)` over the first `n` orbitals. -/
def fockSpatialAt (n : ℕ) (h u : NDArray K) (p q : ℕ) : K :=
  h.get [p, q] + ∑ i ∈ range n, (2 * u.get [p, i, q, i] - u.get [p, i, i, q])

/-- The formulas by class of system. -/
def energyOf : SysKind → ℕ → NDArray K → NDArray K → K
  | .general => energyGeneral
  | .spatial => energySpatial

def fockAt : SysKind → ℕ → NDArray K → NDArray K → ℕ → ℕ → K
  | .general => fockGeneralAt
  | .spatial => fockSpatialAt

/-- The sizes and slices of a system object fit together: `o` and `v` select `0..n-1` and
`n..l-1`. -/
structure Sized (x : Sys) : Prop where
  le : x.n ≤ x.l
  m : x.m = x.l - x.n
  o : x.o = (0, x.n)
  v : x.v = (x.n, x.l)

/-- The indices that the slices `o` and `v` select are a partition of `0..l-1` into `n` and `m`
indices. -/
structure Partition (x : Sys) : Prop where
  disjoint : Disjoint (Ico x.o.1 x.o.2) (Ico x.v.1 x.v.2)
  union : Ico x.o.1 x.o.2 ∪ Ico x.v.1 x.v.2 = range x.l
  occupied : (Ico x.o.1 x.o.2).card = x.n
  virtual : (Ico x.v.1 x.v.2).card = x.m
  total : x.n + x.m = x.l

/-- In world `w`, object `s` is the system `x` with the basis set `b` (both with an array module),
and sizes and shapes of all elements match. -/
structure SysOK (w : World K T) (s : ℕ) (x : Sys) (b : BasisSet K) : Prop where
  sys : w.systems[s]? = some x
  basis : w.bases[x.basis]? = some b
  wf : WellFormed b x.l
  np : x.np = b.np
  size : Sized x

end QS
