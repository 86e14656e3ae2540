import Verif.Model.BasisSet
import Verif.Core.Loops

/-!
# Model of `random_basis.py`

The outcome of `np.random.random` is a parameter: `rand k shape` is the array that the `k`-th call in
`setup_basis` returns for that shape.
-/

namespace QS.RandomBasis

open NDArray BasisSet

variable {K : Type} [PyScalar K]

/-- `RandomBasisSet.get_random_elements(shape, np)` (`random_basis.py` 51-68), the calls `k` and `k + 1` of the
generator. -/
def getRandomElements (rand : ℕ → List ℕ → NDArray K) (k : ℕ) (shape : List ℕ) : Except PyErr (NDArray K) :=
  NDArray.add (rand k shape) (NDArray.smul .complex128 PyScalar.I (rand (k + 1) shape))

/-- `RandomBasisSet.make_hermitian(h)` (`random_basis.py` 36-38). -/
def makeHermitian (h : NDArray K) : Except PyErr (NDArray K) := do
  let x ← NDArray.add h h.conj.T
  .ok (NDArray.smul .float64 (1 / 2) x)

/-- `a[i] = x` for an array `x` of the shape of `a[i]` (no broadcasting). -/
def setRow (a : NDArray K) (i : ℕ) (x : NDArray K) : Except PyErr (NDArray K) :=
  match a.shape with
  | [] => .error .index
  | d :: sh =>
    if d ≤ i then .error .index
    else if x.shape ≠ sh then .error .value
    else .ok (a.pointwise (fun j y => if j.head? = some i then x.get j.tail else y))

/-- `RandomBasisSet.make_dipole_moment_hermitian(dipole_moment)` (`random_basis.py` 40-45). -/
def makeDipoleHermitian (d : NDArray K) : Except PyErr (NDArray K) := do
  let n ← d.len
  (List.range n).foldlM (fun d i => do
    let row ← d.item i
    let x ← makeHermitian row
    setRow d i x) d

/-- `RandomBasisSet.make_two_body_symmetry(u)` (`random_basis.py` 47-49). -/
def makeTwoBodySymmetry (u : NDArray K) : Except PyErr (NDArray K) := do
  let ut ← u.transpose [1, 0, 3, 2]
  let x ← NDArray.add u ut
  .ok (NDArray.smul .float64 (1 / 2) x)

/-- `get_random_elements` followed by a symmetrisation. -/
def symmetrised (rand : ℕ → List ℕ → NDArray K) (k : ℕ) (shape : List ℕ)
    (f : NDArray K → Except PyErr (NDArray K)) : Except PyErr (NDArray K) := do
  let x ← getRandomElements rand k shape
  f x

/-- `RandomBasisSet.setup_basis()` (`random_basis.py` 21-34); `nre` is the number drawn last. -/
def setupRandom (rand : ℕ → List ℕ → NDArray K) (nre : K) : PyM (BasisSet K) Unit := do
  let self ← PyM.get
  let l := self.l
  let h ← symmetrised rand 0 [l, l] makeHermitian
  setH (some h)
  let s ← symmetrised rand 2 [l, l] makeHermitian
  setS (some s)
  let u ← symmetrised rand 4 [l, l, l, l] makeTwoBodySymmetry
  setU (some u)
  let d ← symmetrised rand 6 [self.dim, l, l] makeDipoleHermitian
  setDipole (some d)
  setNre nre

/-- `RandomBasisSet(l, dim, np, includes_spin, anti_symmetrized_u)` (`random_basis.py` 17-19). -/
def randomBasisSet (l dim : ℕ) (rand : ℕ → List ℕ → NDArray K) (nre : K) (np : Module := 0)
    (includesSpin antiSym : Bool := false) : Except PyErr (BasisSet K) :=
  match (setupRandom rand nre).run (BasisSet.init l dim np includesSpin antiSym) with
  | (.ok (), b) => .ok b
  | (.error e, _) => .error e

end QS.RandomBasis
