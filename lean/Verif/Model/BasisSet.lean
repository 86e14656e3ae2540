import Verif.Core.PyM

/-!
# Model of `quantum_systems/basis_set.py` (class `BasisSet`) and of the overrides that
`quantum_systems/sinc_dvr/one_dim/sinc_dvr.py` (class `ODSincDVR`) makes.

The object is the record `BasisSet K`; methods are `PyM (BasisSet K)` programs that mutate it.
-/

namespace QS

open Finset

variable {K : Type}

/-- Identity of an array module (`numpy`, `cupy`, …).  All modules compute the same values. -/
abbrev Module := ℕ

/-- Which class the object is an instance of, as far as method overriding matters:
`BasisSet` and all subclasses that override none of the methods modelled here
(`RandomBasisSet`, `ODHO`, `ODQD`, the two-dimensional ones), or `ODSincDVR`. -/
inductive Cls
  | plain | sincDVR
deriving DecidableEq, Repr

/-- `basis_set.py` 32-66, `BasisSet.__init__`: the attributes.  `a`, `b` are the attributes set at
546-547.  `extraModule` says that some further attribute of the object (e.g. `self.potential`, a
`GaussianPotential`, `one_dim_potentials.py` 109-114) holds a reference to a Python module. -/
structure BasisSet (K : Type) [Zero K] where
  cls : Cls
  np : Option Module
  l : ℕ
  dim : ℕ
  grid : Option (NDArray K)
  h : Option (NDArray K)
  u : Option (NDArray K)
  s : Option (NDArray K)
  dipole : Option (NDArray K)
  sigmaX : Option (NDArray K)
  sigmaY : Option (NDArray K)
  sigmaZ : Option (NDArray K)
  spinX : Option (NDArray K)
  spinY : Option (NDArray K)
  spinZ : Option (NDArray K)
  spin2 : Option (NDArray K)
  spin2tb : Option (NDArray K)
  spf : Option (NDArray K)
  braSpf : Option (NDArray K)
  nre : K
  includesSpin : Bool
  antiSym : Bool
  a : Option (NDArray K)
  b : Option (NDArray K)
  extraModule : Bool

/-- Attribute access on a value that may be `None`: `AttributeError`. -/
def orErr {α : Type} (e : PyErr) : Option α → Except PyErr α
  | none => .error e
  | some x => .ok x

/-- Looking up a function in the module `np`: `AttributeError` if `np` is `None`. -/
def needNp (np : Option Module) : Except PyErr Unit :=
  match np with
  | none => .error .attribute
  | some _ => .ok ()

namespace BasisSet

section pure
variable [PyScalar K]

/-- `basis_set.py` 32-66, `BasisSet.__init__(l, dim, np, includes_spin, anti_symmetrized_u)`. -/
def init (l dim : ℕ) (np : Module := 0) (includesSpin antiSym : Bool := false) : BasisSet K :=
  { cls := .plain, np := some np, l := l, dim := dim, grid := none, h := none, u := none,
    s := none, dipole := none, sigmaX := none, sigmaY := none, sigmaZ := none, spinX := none,
    spinY := none, spinZ := none, spin2 := none, spin2tb := none, spf := none, braSpf := none,
    nre := 0, includesSpin := includesSpin, antiSym := antiSym, a := none, b := none,
    extraModule := false }

/-- `basis_set.py` 735-737, `check_axis_lengths(arr, length)` under `all(...)`. -/
def axesOk (arr : NDArray K) (l : ℕ) : Bool := arr.shape.all (fun d => l == d)

/-- `basis_set.py` 299-301, `transform_spf(spf, C, np)` = `np.tensordot(C, spf, axes=((0), (0)))`. -/
def transformSpf (np : Option Module) (spf C : NDArray K) : Except PyErr (NDArray K) := do
  needNp np
  NDArray.tensordot C spf 0 0

/-- `basis_set.py` 303-305, `transform_bra_spf(bra_spf, C_tilde, np)`. -/
def transformBraSpf (np : Option Module) (bra Ct : NDArray K) : Except PyErr (NDArray K) := do
  needNp np
  NDArray.tensordot Ct bra 1 0

/-- `basis_set.py` 307-312, `transform_one_body_elements(h, C, np, C_tilde=None)`.
`np.dot(None, C)` raises `TypeError`. -/
def transformOneBody (np : Option Module) (h : Option (NDArray K)) (C : NDArray K)
    (Ct : Option (NDArray K)) : Except PyErr (NDArray K) := do
  let Ct := Ct.getD C.conj.T
  needNp np
  let h ← orErr .type h
  let hC ← NDArray.dot h C
  NDArray.dot Ct hC

/-- `basis_set.py` 314-328, `transform_two_body_elements(u, C, np, C_tilde=None)`.
`np.tensordot(None, C, axes=(3, 0))` raises `IndexError`. -/
def transformTwoBody (np : Option Module) (u : Option (NDArray K)) (C : NDArray K)
    (Ct : Option (NDArray K)) : Except PyErr (NDArray K) := do
  let Ct := Ct.getD C.conj.T
  needNp np
  let u ← orErr .index u
  -- abcd, ds -> abcs
  let u₁ ← NDArray.tensordot u C 3 0
  -- abcs, cr -> absr -> abrs
  let u₂ ← NDArray.tensordot u₁ C 2 0
  let u₂ ← u₂.transpose [0, 1, 3, 2]
  -- abrs, qb -> arsq -> aqrs
  let u₃ ← NDArray.tensordot u₂ Ct 1 1
  let u₃ ← u₃.transpose [0, 3, 1, 2]
  -- pa, aqrs -> pqrs
  NDArray.tensordot Ct u₃ 1 0

/-- `basis_set.py` 706-714 (and 716-721, `add_spin_bra_spf`), `add_spin_spf(spf, np)`: even and odd rows both copy `spf`.
`spf.shape[0]` of a 0-d array raises `IndexError`. -/
def addSpinSpf (np : Option Module) (spf : NDArray K) : Except PyErr (NDArray K) :=
  match spf.shape with
  | [] => .error .index
  | d :: sh => do
    needNp np
    .ok (NDArray.ofFn spf.dtype (d * 2 :: sh) (fun i => match i with
      | [] => 0
      | k :: x => spf.get (k / 2 :: x)))

/-- `basis_set.py` 723-725, `add_spin_one_body(h, np)` = `np.kron(h, np.eye(2))`. -/
def addSpinOneBody (np : Option Module) (h : Option (NDArray K)) : Except PyErr (NDArray K) := do
  needNp np
  let h ← orErr .type h
  .ok (NDArray.kron h (NDArray.eye 2))

/-- `basis_set.py` 727-729, `add_spin_two_body(_u, np)`. -/
def addSpinTwoBodyBase (np : Option Module) (u : Option (NDArray K)) :
    Except PyErr (NDArray K) := do
  needNp np
  let d ← NDArray.einsum_pr_qs (NDArray.eye 2) (NDArray.eye (K := K) 2)
  let u ← orErr .type u
  .ok (NDArray.kron u d)

/-- `sinc_dvr.py` 201-209, `ODSincDVR.add_spin_two_body(u, np)`. -/
def addSpinTwoBodySinc (np : Option Module) (u : Option (NDArray K)) :
    Except PyErr (NDArray K) := do
  needNp np
  match u with
  | none => addSpinTwoBodyBase np none
  | some u =>
    if u.ndim = 2 then .ok (NDArray.kron u (NDArray.ones [2, 2]))
    else addSpinTwoBodyBase np (some u)

/-- `self.add_spin_two_body(u, np=self.np)` with dynamic dispatch. -/
def addSpinTwoBody (c : Cls) (np : Option Module) (u : Option (NDArray K)) :
    Except PyErr (NDArray K) :=
  match c with
  | .plain => addSpinTwoBodyBase np u
  | .sincDVR => addSpinTwoBodySinc np u

/-- `basis_set.py` 731-733, `anti_symmetrize_u(_u)` = `_u - _u.transpose(0, 1, 3, 2)`. -/
def antiSymmetrizeUBase (u : Option (NDArray K)) : Except PyErr (NDArray K) := do
  let u ← orErr .attribute u
  let ut ← u.transpose [0, 1, 3, 2]
  NDArray.sub u ut

/-- `sinc_dvr.py` 211-216, `ODSincDVR.anti_symmetrize_u(_u)`. -/
def antiSymmetrizeUSinc (u : Option (NDArray K)) : Except PyErr (NDArray K) :=
  match u with
  | some v => if v.ndim = 2 then .ok v else antiSymmetrizeUBase u
  | none => antiSymmetrizeUBase u

/-- `self.anti_symmetrize_u(u)` with dynamic dispatch. -/
def antiSymmetrizeU (c : Cls) (u : Option (NDArray K)) : Except PyErr (NDArray K) :=
  match c with
  | .plain => antiSymmetrizeUBase u
  | .sincDVR => antiSymmetrizeUSinc u

/-- `sinc_dvr.py` 91-97, `ODSincDVR.u_repr`: the representation tag by the number of axes. -/
inductive URepr
  | two | four | unknown
deriving DecidableEq, Repr

def uRepr (b : BasisSet K) : URepr :=
  match b.u with
  | none => .unknown
  | some u => if u.ndim = 2 then .two else if u.ndim = 4 then .four else .unknown

/-- `np.einsum("bs,ar,qb,pa,ab->pqrs", C, C, C_tilde, C_tilde, _u)`
(`sinc_dvr.py` 233-241).  Simplification: axis lengths that differ raise `ValueError`
(NumPy would broadcast an axis of length 1). -/
def einsumDvr (u C Ct : NDArray K) : Except PyErr (NDArray K) :=
  match u.shape, C.shape, Ct.shape with
  | [a, b], [a', r], [p, a''] =>
    if a = a' ∧ b = a' ∧ a = a'' then
      .ok (NDArray.ofFn (u.dtype.promote (C.dtype.promote Ct.dtype)) [p, p, r, r] (fun i => match i with
        | [p, q, r, s] => ∑ a ∈ range a, ∑ b ∈ range b,
            C.get [b, s] * C.get [a, r] * Ct.get [q, b] * Ct.get [p, a] * u.get [a, b]
        | _ => 0))
    else .error .value
  | _, _, _ => .error .value

/-- `np.einsum("br,as,qb,pa,ab->pqrs", C, C, C_tilde, C_tilde, _u)`
(`sinc_dvr.py` 243-251). Same simplification as `einsumDvr`. -/
def einsumDvrX (u C Ct : NDArray K) : Except PyErr (NDArray K) :=
  match u.shape, C.shape, Ct.shape with
  | [a, b], [a', r], [p, a''] =>
    if a = a' ∧ b = a' ∧ a = a'' then
      .ok (NDArray.ofFn (u.dtype.promote (C.dtype.promote Ct.dtype)) [p, p, r, r] (fun i => match i with
        | [p, q, r, s] => ∑ a ∈ range a, ∑ b ∈ range b,
            C.get [b, r] * C.get [a, s] * Ct.get [q, b] * Ct.get [p, a] * u.get [a, b]
        | _ => 0))
    else .error .value
  | _, _, _ => .error .value

/-- `sinc_dvr.py` 218-260, `ODSincDVR.transform_two_body_elements(self, u, C, np,
anti_symmetrize=False, C_tilde=None)`.  The representation tested is that of `self.u`. -/
def transformTwoBodySinc (b : BasisSet K) (np : Option Module) (u : Option (NDArray K))
    (C : NDArray K) (antiSymmetrize : Bool) (Ct : Option (NDArray K)) :
    Except PyErr (NDArray K) :=
  if b.uRepr = .two then do
    let Ct := Ct.getD C.conj.T
    needNp np
    let u ← orErr .type u
    let u' ← einsumDvr u C Ct
    if antiSymmetrize then
      let x ← einsumDvrX u C Ct
      NDArray.isub u' x
    else .ok u'
  else if antiSymmetrize then .error .assertion
  else transformTwoBody np u C Ct

/-- `self.transform_two_body_elements(u, C, np=self.np, C_tilde=C_tilde)` with dynamic dispatch. -/
def transformTwoBodyOf (b : BasisSet K) (u : Option (NDArray K)) (C : NDArray K)
    (Ct : Option (NDArray K)) : Except PyErr (NDArray K) :=
  match b.cls with
  | .plain => transformTwoBody b.np u C Ct
  | .sincDVR => transformTwoBodySinc b b.np u C false Ct

/-- A Python list of scalars as a column vector: `np.array(a).astype(np.complex128).reshape(-1, 1)`
(`basis_set.py` 546-547). -/
def column (a : List K) : NDArray K :=
  NDArray.ofFn .complex128 [a.length, 1] (fun i => match i with
    | p :: _ => a.getD p 0
    | [] => 0)

/-- A 2×2 complex array literal. -/
def lit22 (x y z w : K) : NDArray K :=
  NDArray.ofFn .complex128 [2, 2] (fun i => match i with
    | [0, 0] => x
    | [0, 1] => y
    | [1, 0] => z
    | [1, 1] => w
    | _ => 0)

/-- `basis_set.py` 638: `sigma_x_mat`. -/
def sigmaXMat : NDArray K := lit22 0 1 1 0
/-- `basis_set.py` 639: `sigma_y_mat`. -/
def sigmaYMat : NDArray K := lit22 0 (-PyScalar.I) PyScalar.I 0
/-- `basis_set.py` 640: `sigma_z_mat`. -/
def sigmaZMat : NDArray K := lit22 1 0 0 (-1)

/-- `np.dot(s.conj().T, np.dot(mat, t))` stored into one entry (`basis_set.py` 648-650): the (1,1)
result is converted to a scalar; other sizes raise `ValueError`. -/
def braket (s mat t : NDArray K) : Except PyErr K := do
  let x ← NDArray.dot mat t
  let y ← NDArray.dot s.conj.T x
  if y.shape = [1, 1] then .ok (y.get [0, 0]) else .error .value

/-- One matrix `sigma` filled by the double loop of `basis_set.py` 646-650. -/
def pauliIn (mat a b : NDArray K) : Except PyErr (NDArray K) := do
  let x ← braket a mat a
  let y ← braket a mat b
  let z ← braket b mat a
  let w ← braket b mat b
  .ok (lit22 x y z w)

/-- `basis_set.py` 593-652, `setup_pauli_matrices(a, b, np)`.  Simplification: the three matrices
are filled one after the other instead of interleaved (they are independent, and an error is
raised in either order). -/
def setupPauli (np : Option Module) (a b : NDArray K) :
    Except PyErr (NDArray K × NDArray K × NDArray K) := do
  needNp np
  let x ← pauliIn sigmaXMat a b
  let y ← pauliIn sigmaYMat a b
  let z ← pauliIn sigmaZMat a b
  .ok (x, y, z)

/-- Body of the loop of `basis_set.py` 700-702.  Simplification: `@` is `np.dot`, which agrees with it on the
2-d arrays that occur here. -/
def spinSquaredStep (overlap : NDArray K) (acc : NDArray K × NDArray K) (si : NDArray K) :
    Except PyErr (NDArray K × NDArray K) := do
  let x ← NDArray.dot si overlap
  let x ← NDArray.dot x si
  let s2 ← NDArray.iadd acc.1 x
  let e ← NDArray.einsum_pr_qs si si
  let tb ← NDArray.iadd acc.2 e
  .ok (s2, tb)

/-- `basis_set.py` 654-704, `setup_spin_squared_operator(spin_x, spin_y, spin_z, overlap, np)`. -/
def setupSpinSquared (np : Option Module) (sx sy sz overlap : NDArray K) :
    Except PyErr (NDArray K × NDArray K) := do
  let l ← sx.len
  needNp np
  let s2 := sx.zerosLike
  let tb := NDArray.zeros s2.dtype [l, l, l, l]
  let acc ← spinSquaredStep overlap (s2, tb) sx
  let acc ← spinSquaredStep overlap acc sy
  spinSquaredStep overlap acc sz

/-- `abs(np.dot(x.conj().T, y) - c) < 1e-12` used as a truth value (`basis_set.py` 550-552): a
`(1,1)` array has one; other sizes raise `ValueError`. -/
def checkOverlap (x y : NDArray K) (c : K) : Except PyErr Bool := do
  let z ← NDArray.dot x.conj.T y
  if z.shape = [1, 1] then .ok (PyScalar.small (z.get [0, 0] - c)) else .error .value

/-- Body of the inner loop of `system_helper.py` 20-25:
`rho += phi_tilde_p * rho_qp[q, p] * phi_q`. -/
def densityStep (rhoQP bra ket : NDArray K) (p q : ℕ) (rho : NDArray K) :
    Except PyErr (NDArray K) := do
  let phiTilde ← bra.item p
  let phi ← ket.item q
  let row ← rhoQP.item q
  let c ← row.item p
  if c.shape ≠ [] then .error .value else
  let x := NDArray.smul rhoQP.dtype (c.get []) phiTilde
  let y ← NDArray.mul x phi
  NDArray.iadd rho y

/-- `system_helper.py` 14-27, `compute_particle_density(rho_qp, ket_spf, bra_spf, np)`.
Simplification: `rho_qp` is a 2-d array (entries that are arrays raise `ValueError`). -/
def computeParticleDensityFn (np : Option Module) (rhoQP ket bra : NDArray K) :
    Except PyErr (NDArray K) := do
  if bra.shape ≠ ket.shape then .error .assertion else
  if bra.dtype ≠ ket.dtype then .error .assertion else
  needNp np
  let nb ← bra.shapeAt 0
  let nk ← ket.shapeAt 0
  (List.range nb).foldlM (fun rho p =>
    (List.range nk).foldlM (fun rho q => densityStep rhoQP bra ket p q rho) rho)
    (NDArray.zeros ket.dtype ket.shape.tail)

end pure

section methods
variable [PyScalar K]

open PyM

/-- `basis_set.py` 88-92, `h.setter`.  `None.shape` raises `AttributeError`. -/
def setH (arr : Option (NDArray K)) : PyM (BasisSet K) Unit := do
  let self ← PyM.get
  let arr ← orErr .attribute arr
  PyM.assert (axesOk arr self.l)
  modify fun self => { self with h := some arr }

/-- `basis_set.py` 98-102, `u.setter`. -/
def setU (arr : Option (NDArray K)) : PyM (BasisSet K) Unit := do
  let self ← PyM.get
  let arr ← orErr .attribute arr
  PyM.assert (axesOk arr self.l)
  modify fun self => { self with u := some arr }

/-- `basis_set.py` 108-112, `s.setter`. -/
def setS (arr : Option (NDArray K)) : PyM (BasisSet K) Unit := do
  let self ← PyM.get
  let arr ← orErr .attribute arr
  PyM.assert (axesOk arr self.l)
  modify fun self => { self with s := some arr }

/-- The loop `for i in range(self.dim): assert all(check_axis_lengths(dipole_moment[i], self.l))`
(`basis_set.py` 122-123). -/
def checkDipole (arr : NDArray K) (l : ℕ) : List ℕ → Except PyErr Unit
  | [] => .ok ()
  | i :: is => do
    let x ← arr.item i
    if axesOk x l then checkDipole arr l is else .error .assertion

/-- `basis_set.py` 118-125, `dipole_moment.setter`.  `len(None)` raises `TypeError`. -/
def setDipole (arr : Option (NDArray K)) : PyM (BasisSet K) Unit := do
  let self ← PyM.get
  let arr ← orErr .type arr
  let n ← arr.len
  PyM.assert (n == self.dim)
  checkDipole arr self.l (List.range self.dim)
  modify fun self => { self with dipole := some arr }

/-- `basis_set.py` 131-136, `spin_x.setter`. -/
def setSpinX (arr : Option (NDArray K)) : PyM (BasisSet K) Unit := do
  let self ← PyM.get
  PyM.assert self.includesSpin
  let arr ← orErr .attribute arr
  PyM.assert (axesOk arr self.l)
  modify fun self => { self with spinX := some arr }

/-- `basis_set.py` 142-147, `spin_y.setter`. -/
def setSpinY (arr : Option (NDArray K)) : PyM (BasisSet K) Unit := do
  let self ← PyM.get
  PyM.assert self.includesSpin
  let arr ← orErr .attribute arr
  PyM.assert (axesOk arr self.l)
  modify fun self => { self with spinY := some arr }

/-- `basis_set.py` 153-158, `spin_z.setter`. -/
def setSpinZ (arr : Option (NDArray K)) : PyM (BasisSet K) Unit := do
  let self ← PyM.get
  PyM.assert self.includesSpin
  let arr ← orErr .attribute arr
  PyM.assert (axesOk arr self.l)
  modify fun self => { self with spinZ := some arr }

/-- `basis_set.py` 164-169, `spin_2.setter`. -/
def setSpin2 (arr : Option (NDArray K)) : PyM (BasisSet K) Unit := do
  let self ← PyM.get
  PyM.assert self.includesSpin
  let arr ← orErr .attribute arr
  PyM.assert (axesOk arr self.l)
  modify fun self => { self with spin2 := some arr }

/-- `basis_set.py` 175-180, `spin_2_tb.setter`. -/
def setSpin2tb (arr : Option (NDArray K)) : PyM (BasisSet K) Unit := do
  let self ← PyM.get
  PyM.assert self.includesSpin
  let arr ← orErr .attribute arr
  PyM.assert (axesOk arr self.l)
  modify fun self => { self with spin2tb := some arr }

/-- `basis_set.py` 186-210, the `sigma_x`, `sigma_y`, `sigma_z` setters, called in this order by the
tuple assignment at 554-558. -/
def setSigma (x y z : NDArray K) : PyM (BasisSet K) Unit := do
  let self ← PyM.get
  PyM.assert self.includesSpin
  modify fun self => { self with sigmaX := some x }
  modify fun self => { self with sigmaY := some y }
  modify fun self => { self with sigmaZ := some z }

/-- The shape test of `basis_set.py` 218-220 and 234-236:
`arr.shape[0] == l` and `len(arr.shape[1:]) == dim`; `IndexError` for a 0-d array. -/
def spfOk (arr : NDArray K) (l dim : ℕ) : Except PyErr Bool :=
  match arr.shape with
  | [] => .error .index
  | d :: sh => .ok (d == l && sh.length == dim)

/-- `basis_set.py` 216-222, `spf.setter` (accepts `None`). -/
def setSpf (arr : Option (NDArray K)) : PyM (BasisSet K) Unit := do
  let self ← PyM.get
  match arr with
  | none => modify fun self => { self with spf := none }
  | some arr =>
    let ok ← spfOk arr self.l self.dim
    PyM.assert ok
    modify fun self => { self with spf := some arr }

/-- `basis_set.py` 224-230, `bra_spf` getter: creates and stores the conjugate on first read. -/
def getBra : PyM (BasisSet K) (Option (NDArray K)) := do
  let self ← PyM.get
  match self.braSpf, self.spf with
  | none, some spf =>
    modify fun self => { self with braSpf := some spf.conj }
    pure (some spf.conj)
  | bra, _ => pure bra

/-- `basis_set.py` 232-238, `bra_spf.setter` (accepts `None`). -/
def setBra (arr : Option (NDArray K)) : PyM (BasisSet K) Unit := do
  let self ← PyM.get
  match arr with
  | none => modify fun self => { self with braSpf := none }
  | some arr =>
    let ok ← spfOk arr self.l self.dim
    PyM.assert ok
    modify fun self => { self with braSpf := some arr }

/-- `basis_set.py` 244-246, `nuclear_repulsion_energy.setter`. -/
def setNre (x : K) : PyM (BasisSet K) Unit := modify fun self => { self with nre := x }

/-- `basis_set.py` 80-82, `grid.setter` (no check). -/
def setGrid (x : Option (NDArray K)) : PyM (BasisSet K) Unit :=
  modify fun self => { self with grid := x }

/-- Is some attribute of the lists at `basis_set.py` 262-274 and 283-295 populated? -/
def anyArray (b : BasisSet K) : Bool :=
  b.h.isSome || b.s.isSome || b.u.isSome || b.spf.isSome || b.braSpf.isSome ||
    b.dipole.isSome || b.spinX.isSome || b.spinY.isSome || b.spinZ.isSome ||
    b.spin2.isSome || b.spin2tb.isSome

/-- `basis_set.py` 252-275, `BasisSet.change_module(np)`.  Building the list at 262-274 reads the
`bra_spf` getter, so the dual is created if missing; `np.asarray` keeps all values, and raises
`AttributeError` when looked up in `None`. -/
def changeModuleBase (np : Option Module) : PyM (BasisSet K) Unit := do
  modify fun self => { self with np := np }
  let _ ← getBra
  let self ← PyM.get
  if self.anyArray then needNp self.np

/-- `change_module(np)` with dynamic dispatch; `sinc_dvr.py` 191-199, `ODSincDVR.change_module(np)`:
with a 2-d `u` only the module is set. -/
def changeModule (np : Option Module) : PyM (BasisSet K) Unit := do
  let self ← PyM.get
  if self.cls = .sincDVR ∧ self.uRepr = .two then
    modify fun self => { self with np := np }
  else changeModuleBase np

/-- `basis_set.py` 277-297, `cast_to_complex()`.  The getter of `bra_spf` is read first;
`np.complex128` is looked up for every populated attribute (`AttributeError` if the module is
`None`). -/
def castToComplex : PyM (BasisSet K) Unit := do
  let _ ← getBra
  let self ← PyM.get
  if self.anyArray then needNp self.np
  modify fun self => { self with
    h := self.h.map NDArray.toComplex
    s := self.s.map NDArray.toComplex
    u := self.u.map NDArray.toComplex
    spf := self.spf.map NDArray.toComplex
    braSpf := self.braSpf.map NDArray.toComplex
    dipole := self.dipole.map NDArray.toComplex
    spinX := self.spinX.map NDArray.toComplex
    spinY := self.spinY.map NDArray.toComplex
    spinZ := self.spinZ.map NDArray.toComplex
    spin2 := self.spin2.map NDArray.toComplex
    spin2tb := self.spin2tb.map NDArray.toComplex }

/-- `basis_set.py` 330-331, `get_transformed_h(C)`. -/
def getTransformedH (C : NDArray K) : PyM (BasisSet K) (NDArray K) := do
  let self ← PyM.get
  transformOneBody self.np self.h C none

/-- `basis_set.py` 333-334, `get_transformed_u(C)` (dynamic dispatch). -/
def getTransformedU (C : NDArray K) : PyM (BasisSet K) (NDArray K) := do
  let self ← PyM.get
  self.transformTwoBodyOf self.u C none

/-- The loop of `basis_set.py` 346-350: the transformed spin matrix is computed (and may raise)
but is bound to the loop variable only; no attribute is assigned. -/
def spinLoop (np : Option Module) (C Ct : NDArray K) :
    List (Option (NDArray K)) → Except PyErr Unit
  | [] => .ok ()
  | none :: rest => spinLoop np C Ct rest
  | some x :: rest => do
    let _ ← transformOneBody np (some x) C (some Ct)
    spinLoop np C Ct rest

/-- `basis_set.py` 336-350, `_change_basis_one_body_elements(C, C_tilde)`. -/
def changeBasisOneBody (C Ct : NDArray K) : PyM (BasisSet K) Unit := do
  let self ← PyM.get
  let h ← transformOneBody self.np self.h C (some Ct)
  setH (some h)
  let self ← PyM.get
  match self.s with
  | none => pure ()
  | some s =>
    let s ← transformOneBody self.np (some s) C (some Ct)
    setS (some s)
  let self ← PyM.get
  spinLoop self.np C Ct [self.spinX, self.spinY, self.spinZ, self.spin2]

/-- `basis_set.py` 352-360, `_change_basis_two_body_elements(C, C_tilde)`. -/
def changeBasisTwoBody (C Ct : NDArray K) : PyM (BasisSet K) Unit := do
  let self ← PyM.get
  let u ← self.transformTwoBodyOf self.u C (some Ct)
  setU (some u)
  let self ← PyM.get
  match self.spin2tb with
  | none => pure ()
  | some x =>
    let x ← self.transformTwoBodyOf (some x) C (some Ct)
    setSpin2tb (some x)

/-- The loop of `basis_set.py` 363-370 collecting the transformed dipole components. -/
def dipoleLoop (np : Option Module) (d C Ct : NDArray K) : List ℕ → Except PyErr (List (NDArray K))
  | [] => .ok []
  | i :: is => do
    let x ← d.item i
    let y ← transformOneBody np (some x) C (some Ct)
    let ys ← dipoleLoop np d C Ct is
    .ok (y :: ys)

/-- `basis_set.py` 362-372, `_change_basis_dipole_moment(C, C_tilde)`. -/
def changeBasisDipole (C Ct : NDArray K) : PyM (BasisSet K) Unit := do
  let self ← PyM.get
  let d ← orErr .attribute self.dipole
  let n ← d.shapeAt 0
  let ys ← dipoleLoop self.np d C Ct (List.range n)
  needNp self.np
  let arr ← NDArray.stack ys
  setDipole (some arr)

/-- `basis_set.py` 374-377, `_change_basis_spf(C, C_tilde)`. -/
def changeBasisSpf (C Ct : NDArray K) : PyM (BasisSet K) Unit := do
  let bra ← getBra
  let self ← PyM.get
  let bra ← orErr .type bra
  let bra ← transformBraSpf self.np bra Ct
  setBra (some bra)
  let self ← PyM.get
  let spf ← orErr .type self.spf
  let spf ← transformSpf self.np spf C
  setSpf (some spf)

/-- `basis_set.py` 379-427, `change_basis(C, C_tilde=None)`; the override at `sinc_dvr.py` 262-263
only forwards. -/
def changeBasis (C : NDArray K) (Ct : Option (NDArray K)) : PyM (BasisSet K) Unit := do
  -- Update basis set size
  let n ← C.shapeAt 1
  modify fun self => { self with l := n }
  -- Ensure that C_tilde is not None
  let Ct := Ct.getD C.conj.T
  changeBasisOneBody C Ct
  changeBasisTwoBody C Ct
  let self ← PyM.get
  if self.dipole.isSome then changeBasisDipole C Ct
  let self ← PyM.get
  if self.spf.isSome then changeBasisSpf C Ct

/-- `basis_set.py` 429-472, `compute_particle_density(rho_qp, C=None, C_tilde=None)`. -/
def computeParticleDensity (rhoQP : NDArray K) (C Ct : Option (NDArray K)) :
    PyM (BasisSet K) (NDArray K) := do
  let self ← PyM.get
  PyM.assert self.spf.isSome
  let ket ← orErr .assertion self.spf
  let bra ← getBra
  let bra ← orErr .assertion bra
  match C with
  | none => computeParticleDensityFn self.np rhoQP ket bra
  | some C =>
    let ket ← transformSpf self.np ket C
    let bra ← transformBraSpf self.np bra (Ct.getD C.conj.T)
    computeParticleDensityFn self.np rhoQP ket bra

/-- `basis_set.py` 474-491, `anti_symmetrize_two_body_elements()`. -/
def antiSymmetrizeTwoBody : PyM (BasisSet K) Unit := do
  let self ← PyM.get
  if !self.antiSym then
    let u ← antiSymmetrizeU self.cls self.u
    setU (some u)
    let self ← PyM.get
    match self.spin2tb with
    | none => pure ()
    | some x =>
      let x ← antiSymmetrizeU self.cls (some x)
      setSpin2tb (some x)
    modify fun self => { self with antiSym := true }

/-- `basis_set.py` 546-566: the part of the doubling that sets up the spin operators. -/
def setupSpin (overlap : NDArray K) (a b : List K) : PyM (BasisSet K) Unit := do
  let self ← PyM.get
  needNp self.np
  let a := column a
  let b := column b
  modify fun self => { self with a := some a }
  modify fun self => { self with b := some b }
  -- Check that spin basis elements are orthonormal
  let ok ← checkOverlap a a 1
  PyM.assert ok
  let ok ← checkOverlap b b 1
  PyM.assert ok
  let ok ← checkOverlap a b 0
  PyM.assert ok
  let (x, y, z) ← setupPauli self.np a b
  setSigma x y z
  setSpinX (some (NDArray.smul .float64 (1 / 2) (NDArray.kron overlap x)))
  setSpinY (some (NDArray.smul .float64 (1 / 2) (NDArray.kron overlap y)))
  setSpinZ (some (NDArray.smul .float64 (1 / 2) (NDArray.kron overlap z)))
  let self ← PyM.get
  let sx ← orErr .type self.spinX
  let sy ← orErr .type self.spinY
  let sz ← orErr .type self.spinZ
  let s ← orErr .type self.s
  let (s2, tb) ← setupSpinSquared self.np sx sy sz s
  setSpin2 (some s2)
  setSpin2tb (some tb)

/-- The list comprehension of `basis_set.py` 572-575. -/
def addSpinDipole (np : Option Module) (d : NDArray K) : List ℕ → Except PyErr (List (NDArray K))
  | [] => .ok []
  | i :: is => do
    let x ← d.item i
    let y ← addSpinOneBody np (some x)
    let ys ← addSpinDipole np d is
    .ok (y :: ys)

/-- `basis_set.py` 571-577: the part of the doubling that treats the dipole moments. -/
def doubleDipole : PyM (BasisSet K) Unit := do
  let self ← PyM.get
  match self.dipole with
  | none => pure ()
  | some d =>
    let n ← d.len
    let ys ← addSpinDipole self.np d (List.range n)
    let arr ← NDArray.stack ys
    setDipole (some arr)

/-- `basis_set.py` 579-585: the part of the doubling that treats the single-particle functions. -/
def doubleSpf : PyM (BasisSet K) Unit := do
  let self ← PyM.get
  match self.spf with
  | none => pure ()
  | some spf =>
    let spf ← addSpinSpf self.np spf
    setSpf (some spf)
    let self ← PyM.get
    match self.braSpf with
    | none => pure ()
    | some bra =>
      let bra ← addSpinSpf self.np bra
      setBra (some bra)

/-- `basis_set.py` 493-591, `BasisSet.change_to_general_orbital_basis(a, b, anti_symmetrize)`.  The
result `false` stands for the early `return` (`None`), `true` for `return self`. -/
def changeToGeneralBase (a b : List K) (antiSymmetrize : Bool) : PyM (BasisSet K) Bool := do
  let self ← PyM.get
  if self.includesSpin then return false
  modify fun self => { self with includesSpin := true }
  modify fun self => { self with l := 2 * self.l }
  let self ← PyM.get
  let overlap ← orErr .attribute self.s
  let h ← addSpinOneBody self.np self.h
  setH (some h)
  let self ← PyM.get
  let s ← addSpinOneBody self.np self.s
  setS (some s)
  let self ← PyM.get
  let u ← addSpinTwoBody self.cls self.np self.u
  setU (some u)
  let self ← PyM.get
  if ¬ (self.cls = .sincDVR ∧ self.uRepr = .two) then
    setupSpin overlap a b
  if antiSymmetrize then antiSymmetrizeTwoBody
  doubleDipole
  doubleSpf
  castToComplex
  return true

/-- `sinc_dvr.py` 126-144, `set_u_repr(new_repr)`: computes `new_u` but assigns no attribute.
`new_repr` outside {"2d", "4d"} raises `ValueError` (unless it equals `u_repr`). -/
def setURepr (new : URepr) : PyM (BasisSet K) Unit := do
  let self ← PyM.get
  if new = self.uRepr then pure ()
  else match new with
    | .unknown => raise .value
    | _ =>
      -- `self.u[coords0, coords1]` resp. `self.u[coords0, coords1, coords0, coords1]`
      let _ ← orErr .attribute self.u
      pure ()

/-- `sinc_dvr.py` 179-189, `ODSincDVR.change_to_general_orbital_basis(anti_symmetrize=True)`. -/
def changeToGeneralSinc (antiSymmetrize : Bool) : PyM (BasisSet K) Bool := do
  let self ← PyM.get
  if antiSymmetrize && decide (self.uRepr = .two) then
    setURepr .four
  changeToGeneralBase [1, 0] [0, 1] antiSymmetrize

/-- `basis_set.change_to_general_orbital_basis(a=a, b=b, anti_symmetrize=...)` as
`general_orbital_system.py` 44-46 calls it, with dynamic dispatch: the override in `ODSincDVR` takes
no `a` and `b`, so the call raises `TypeError`. -/
def changeToGeneralAB (a b : List K) (antiSymmetrize : Bool) : PyM (BasisSet K) Bool := do
  let self ← PyM.get
  match self.cls with
  | .plain => changeToGeneralBase a b antiSymmetrize
  | .sincDVR => raise .type

/-- `basis_set.py` 739-760, `copy_basis()`.  `copy.deepcopy` raises `TypeError` if a module is
reachable from the object (`self.np` is set to `None` first for that reason).  The copy is
returned; the object itself also goes through `change_module`. -/
def copyBasis : PyM (BasisSet K) (BasisSet K) := do
  let self ← PyM.get
  let np := self.np
  modify fun self => { self with np := none }
  if self.extraModule then raise .type
  let new ← PyM.get
  -- `new_basis.change_module(np)` acts on the copy only
  let r := changeModule np new
  let () ← r.1
  changeModule np
  pure r.2

end methods

end BasisSet

end QS
