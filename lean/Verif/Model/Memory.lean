import Verif.Model.System

/-!
# Array objects of a basis set

`BasisSet` (`Verif/Model/BasisSet.lean`) treats arrays as values.  Here an attribute holds a
*reference* to an array object (a cell of `Mem`), as in Python, so that two attributes, or an
attribute and a variable of the caller, may be the same array.  The methods of `basis_set.py` and
their overrides in `sinc_dvr.py` are written once more on this level, with the NumPy rules on what
is a new array object and what is an old one:

* the results of `np.dot`, `np.tensordot`, `np.einsum`, `np.kron`, `-`, `*`, `np.array`,
  `np.zeros`, `.astype(...)` and `.copy()` are new objects,
* `arr.conj()` is `arr` itself unless the dtype is complex,
* `np.asarray(arr)` is `arr` itself when `arr` is an array of the module `np` (flag `same`),
  and a new object otherwise,
* `copy.deepcopy` copies every array once (the memo keeps shared arrays shared).

Not modelled: temporaries and views that no attribute keeps, the arrays held by the potential of a
`ODQD`, and objects that several threads use at once.  `C` and `C_tilde` are passed as values: the
methods only read them, and keep no reference to them.
-/

namespace QS

/-- `basis_set.py` 32-66, `BasisSet.__init__`: the attributes, arrays as references.  The fields
are those of `BasisSet`. -/
structure HBasis (K : Type) where
  cls : Cls
  np : Option Module
  l : ℕ
  dim : ℕ
  grid : Option ℕ
  h : Option ℕ
  u : Option ℕ
  s : Option ℕ
  dipole : Option ℕ
  sigmaX : Option ℕ
  sigmaY : Option ℕ
  sigmaZ : Option ℕ
  spinX : Option ℕ
  spinY : Option ℕ
  spinZ : Option ℕ
  spin2 : Option ℕ
  spin2tb : Option ℕ
  spf : Option ℕ
  braSpf : Option ℕ
  nre : K
  includesSpin : Bool
  antiSym : Bool
  a : Option ℕ
  b : Option ℕ
  extraModule : Bool

/-- A basis-set object (`basis_set.py` 32-66) together with all array objects there are. -/
structure HState (K : Type) [Zero K] where
  mem : Mem K
  obj : HBasis K

/-- The array an attribute (`basis_set.py` 32-66) refers to, `None` if it is `None`. -/
def Mem.val [Zero K] (m : Mem K) (r : Option ℕ) : Option (NDArray K) := r.bind fun i => m[i]?

/-- What is seen of an object (`basis_set.py` 32-66): the attributes with the present contents of
their arrays. -/
def HBasis.view [Zero K] (o : HBasis K) (m : Mem K) : BasisSet K :=
  { cls := o.cls, np := o.np, l := o.l, dim := o.dim, grid := m.val o.grid, h := m.val o.h,
    u := m.val o.u, s := m.val o.s, dipole := m.val o.dipole, sigmaX := m.val o.sigmaX,
    sigmaY := m.val o.sigmaY, sigmaZ := m.val o.sigmaZ, spinX := m.val o.spinX,
    spinY := m.val o.spinY, spinZ := m.val o.spinZ, spin2 := m.val o.spin2,
    spin2tb := m.val o.spin2tb, spf := m.val o.spf, braSpf := m.val o.braSpf, nre := o.nre,
    includesSpin := o.includesSpin, antiSym := o.antiSym, a := m.val o.a, b := m.val o.b,
    extraModule := o.extraModule }

/-- What is seen of the object in a state (`basis_set.py` 32-66). -/
def HState.view [Zero K] (st : HState K) : BasisSet K := st.obj.view st.mem

namespace HBasis
variable [PyScalar K]
open PyM

/-- A new array object, kept by an attribute later (all over `basis_set.py` 336-591). -/
def new (x : NDArray K) : PyM (HState K) ℕ := do
  let st ← PyM.get
  modify fun st => { st with mem := st.mem ++ [x] }
  pure st.mem.length

/-- The object `self` (`basis_set.py` 32-66). -/
def self : PyM (HState K) (HBasis K) := do
  let st ← PyM.get
  pure st.obj

/-- The contents of the array of an attribute (`basis_set.py` 84-246, the getters). -/
def fetch (r : Option ℕ) : PyM (HState K) (Option (NDArray K)) := do
  let st ← PyM.get
  pure (st.mem.val r)

/-- Assignment to attributes of `self` (`basis_set.py` 84-246). -/
def assign (f : HBasis K → HBasis K) : PyM (HState K) Unit :=
  modify fun st => { st with obj := f st.obj }

/-- A write into an existing array object by whoever holds a reference to it, e.g. `h[0, 1] = 3`,
`h += x` or `h.fill(0)`; no method of `basis_set.py` 32-760 does this to an array it did not create itself. -/
def poke (r : ℕ) (x : NDArray K) (st : HState K) : HState K := { st with mem := st.mem.set r x }

/-- `basis_set.py` 88-92, `h.setter`: the attribute refers to the caller's array afterwards. -/
def setH (r : Option ℕ) : PyM (HState K) Unit := do
  let self ← self
  let arr ← fetch r
  let arr ← orErr .attribute arr
  PyM.assert (BasisSet.axesOk arr self.l)
  assign fun self => { self with h := r }

/-- `basis_set.py` 98-102, `u.setter`. -/
def setU (r : Option ℕ) : PyM (HState K) Unit := do
  let self ← self
  let arr ← fetch r
  let arr ← orErr .attribute arr
  PyM.assert (BasisSet.axesOk arr self.l)
  assign fun self => { self with u := r }

/-- `basis_set.py` 108-112, `s.setter`. -/
def setS (r : Option ℕ) : PyM (HState K) Unit := do
  let self ← self
  let arr ← fetch r
  let arr ← orErr .attribute arr
  PyM.assert (BasisSet.axesOk arr self.l)
  assign fun self => { self with s := r }

/-- `basis_set.py` 118-125, `dipole_moment.setter`. -/
def setDipole (r : Option ℕ) : PyM (HState K) Unit := do
  let self ← self
  let arr ← fetch r
  let arr ← orErr .type arr
  let n ← arr.len
  PyM.assert (n == self.dim)
  BasisSet.checkDipole arr self.l (List.range self.dim)
  assign fun self => { self with dipole := r }

/-- `basis_set.py` 131-136, `spin_x.setter`. -/
def setSpinX (r : Option ℕ) : PyM (HState K) Unit := do
  let self ← self
  PyM.assert self.includesSpin
  let arr ← fetch r
  let arr ← orErr .attribute arr
  PyM.assert (BasisSet.axesOk arr self.l)
  assign fun self => { self with spinX := r }

/-- `basis_set.py` 142-147, `spin_y.setter`. -/
def setSpinY (r : Option ℕ) : PyM (HState K) Unit := do
  let self ← self
  PyM.assert self.includesSpin
  let arr ← fetch r
  let arr ← orErr .attribute arr
  PyM.assert (BasisSet.axesOk arr self.l)
  assign fun self => { self with spinY := r }

/-- `basis_set.py` 153-158, `spin_z.setter`. -/
def setSpinZ (r : Option ℕ) : PyM (HState K) Unit := do
  let self ← self
  PyM.assert self.includesSpin
  let arr ← fetch r
  let arr ← orErr .attribute arr
  PyM.assert (BasisSet.axesOk arr self.l)
  assign fun self => { self with spinZ := r }

/-- `basis_set.py` 164-169, `spin_2.setter`. -/
def setSpin2 (r : Option ℕ) : PyM (HState K) Unit := do
  let self ← self
  PyM.assert self.includesSpin
  let arr ← fetch r
  let arr ← orErr .attribute arr
  PyM.assert (BasisSet.axesOk arr self.l)
  assign fun self => { self with spin2 := r }

/-- `basis_set.py` 175-180, `spin_2_tb.setter`. -/
def setSpin2tb (r : Option ℕ) : PyM (HState K) Unit := do
  let self ← self
  PyM.assert self.includesSpin
  let arr ← fetch r
  let arr ← orErr .attribute arr
  PyM.assert (BasisSet.axesOk arr self.l)
  assign fun self => { self with spin2tb := r }

/-- `basis_set.py` 186-210, the `sigma_x`, `sigma_y`, `sigma_z` setters, called in this order by the
tuple assignment at 554-558. -/
def setSigma (x y z : ℕ) : PyM (HState K) Unit := do
  let self ← self
  PyM.assert self.includesSpin
  assign fun self => { self with sigmaX := some x }
  assign fun self => { self with sigmaY := some y }
  assign fun self => { self with sigmaZ := some z }

/-- `basis_set.py` 216-222, `spf.setter` (accepts `None`). -/
def setSpf (r : Option ℕ) : PyM (HState K) Unit := do
  let self ← self
  let arr ← fetch r
  match arr with
  | none => assign fun self => { self with spf := none }
  | some arr =>
    let ok ← BasisSet.spfOk arr self.l self.dim
    PyM.assert ok
    assign fun self => { self with spf := r }

/-- `arr.conj()` (`basis_set.py` 228): an array that is not complex is returned as it is. -/
def conjRef (r : ℕ) (x : NDArray K) : PyM (HState K) ℕ :=
  if x.dtype = .complex128 then new x.conj else pure r

/-- `basis_set.py` 224-230, `bra_spf` getter: creates and stores the conjugate on first read. -/
def getBra : PyM (HState K) (Option ℕ) := do
  let self ← self
  let x ← fetch self.spf
  match self.braSpf, self.spf, x with
  | none, some r, some x =>
    let c ← conjRef r x
    assign fun self => { self with braSpf := some c }
    pure (some c)
  | bra, _, _ => pure bra

/-- `basis_set.py` 232-238, `bra_spf.setter` (accepts `None`). -/
def setBra (r : Option ℕ) : PyM (HState K) Unit := do
  let self ← self
  let arr ← fetch r
  match arr with
  | none => assign fun self => { self with braSpf := none }
  | some arr =>
    let ok ← BasisSet.spfOk arr self.l self.dim
    PyM.assert ok
    assign fun self => { self with braSpf := r }

/-- `basis_set.py` 80-82, `grid.setter` (no check). -/
def setGrid (r : Option ℕ) : PyM (HState K) Unit := assign fun self => { self with grid := r }

/-- Is some attribute of the lists at `basis_set.py` 262-274 and 283-295 populated? -/
def anyArray (o : HBasis K) : Bool :=
  o.h.isSome || o.s.isSome || o.u.isSome || o.spf.isSome || o.braSpf.isSome ||
    o.dipole.isSome || o.spinX.isSome || o.spinY.isSome || o.spinZ.isSome ||
    o.spin2.isSome || o.spin2tb.isSome

/-- A function applied to the contents of an attribute that is not `None`, the result being a new
array (`basis_set.py` 275 and 296-297). -/
def renew (f : NDArray K → NDArray K) (r : Option ℕ) : PyM (HState K) (Option ℕ) := do
  let x ← fetch r
  match x with
  | none => pure none
  | some x =>
    let c ← new (f x)
    pure (some c)

/-- The loops of `basis_set.py` 262-275 and 282-297: all eleven arrays are replaced by new ones. -/
def renewAll (f : NDArray K → NDArray K) : PyM (HState K) Unit := do
  let o ← self
  let h ← renew f o.h
  assign fun self => { self with h := h }
  let s ← renew f o.s
  assign fun self => { self with s := s }
  let u ← renew f o.u
  assign fun self => { self with u := u }
  let spf ← renew f o.spf
  assign fun self => { self with spf := spf }
  let bra ← renew f o.braSpf
  assign fun self => { self with braSpf := bra }
  let dipole ← renew f o.dipole
  assign fun self => { self with dipole := dipole }
  let x ← renew f o.spinX
  assign fun self => { self with spinX := x }
  let y ← renew f o.spinY
  assign fun self => { self with spinY := y }
  let z ← renew f o.spinZ
  assign fun self => { self with spinZ := z }
  let s2 ← renew f o.spin2
  assign fun self => { self with spin2 := s2 }
  let tb ← renew f o.spin2tb
  assign fun self => { self with spin2tb := tb }

/-- `basis_set.py` 252-275, `BasisSet.change_module(np)`; `same` says that the arrays are arrays of
`np` already, so that `np.asarray` at 250 returns its argument. -/
def changeModuleBase (same : Bool) (np : Option Module) : PyM (HState K) Unit := do
  assign fun self => { self with np := np }
  let _ ← getBra
  let self ← self
  if self.anyArray then needNp self.np
  if !same then renewAll id

/-- `sinc_dvr.py` 91-97, `ODSincDVR.u_repr`. -/
def uRepr (m : Mem K) (o : HBasis K) : BasisSet.URepr :=
  match m.val o.u with
  | none => .unknown
  | some u => if u.ndim = 2 then .two else if u.ndim = 4 then .four else .unknown

/-- `change_module(np)` with dynamic dispatch; `sinc_dvr.py` 191-199. -/
def changeModule (same : Bool) (np : Option Module) : PyM (HState K) Unit := do
  let st ← PyM.get
  if st.obj.cls = .sincDVR ∧ uRepr st.mem st.obj = .two then
    assign fun self => { self with np := np }
  else changeModuleBase same np

/-- `basis_set.py` 277-297, `cast_to_complex()`; `astype` always copies. -/
def castToComplex : PyM (HState K) Unit := do
  let _ ← getBra
  let self ← self
  if self.anyArray then needNp self.np
  renewAll NDArray.toComplex

/-- `basis_set.py` 336-350, `_change_basis_one_body_elements(C, C_tilde)`. -/
def changeBasisOneBody (C Ct : NDArray K) : PyM (HState K) Unit := do
  let o ← self
  let h ← fetch o.h
  let h ← BasisSet.transformOneBody o.np h C (some Ct)
  let r ← new h
  setH (some r)
  let o ← self
  let s ← fetch o.s
  match s with
  | none => pure ()
  | some s =>
    let s ← BasisSet.transformOneBody o.np (some s) C (some Ct)
    let r ← new s
    setS (some r)
  let st ← PyM.get
  -- the loop of 346-350 assigns no attribute
  BasisSet.spinLoop st.obj.np C Ct [st.mem.val st.obj.spinX, st.mem.val st.obj.spinY,
    st.mem.val st.obj.spinZ, st.mem.val st.obj.spin2]

/-- `self.transform_two_body_elements(u, C, np=self.np, C_tilde=C_tilde)` with dynamic dispatch
(`basis_set.py` 314-328, `sinc_dvr.py` 218-260): every path returns a new array. -/
def transformTwoBodyOf (u : Option (NDArray K)) (C Ct : NDArray K) : PyM (HState K) ℕ := do
  let st ← PyM.get
  let x ← st.view.transformTwoBodyOf u C (some Ct)
  new x

/-- `basis_set.py` 352-360, `_change_basis_two_body_elements(C, C_tilde)`. -/
def changeBasisTwoBody (C Ct : NDArray K) : PyM (HState K) Unit := do
  let o ← self
  let u ← fetch o.u
  let r ← transformTwoBodyOf u C Ct
  setU (some r)
  let o ← self
  let x ← fetch o.spin2tb
  match x with
  | none => pure ()
  | some x =>
    let r ← transformTwoBodyOf (some x) C Ct
    setSpin2tb (some r)

/-- `basis_set.py` 362-372, `_change_basis_dipole_moment(C, C_tilde)`. -/
def changeBasisDipole (C Ct : NDArray K) : PyM (HState K) Unit := do
  let o ← self
  let d ← fetch o.dipole
  let d ← orErr .attribute d
  let n ← d.shapeAt 0
  let ys ← BasisSet.dipoleLoop o.np d C Ct (List.range n)
  needNp o.np
  let arr ← NDArray.stack ys
  let r ← new arr
  setDipole (some r)

/-- `basis_set.py` 374-377, `_change_basis_spf(C, C_tilde)`. -/
def changeBasisSpf (C Ct : NDArray K) : PyM (HState K) Unit := do
  let bra ← getBra
  let o ← self
  let bra ← fetch bra
  let bra ← orErr .type bra
  let bra ← BasisSet.transformBraSpf o.np bra Ct
  let r ← new bra
  setBra (some r)
  let o ← self
  let spf ← fetch o.spf
  let spf ← orErr .type spf
  let spf ← BasisSet.transformSpf o.np spf C
  let r ← new spf
  setSpf (some r)

/-- `basis_set.py` 379-427, `change_basis(C, C_tilde=None)`. -/
def changeBasis (C : NDArray K) (Ct : Option (NDArray K)) : PyM (HState K) Unit := do
  let n ← C.shapeAt 1
  assign fun self => { self with l := n }
  let Ct := Ct.getD C.conj.T
  changeBasisOneBody C Ct
  changeBasisTwoBody C Ct
  let o ← self
  if o.dipole.isSome then changeBasisDipole C Ct
  let o ← self
  if o.spf.isSome then changeBasisSpf C Ct

/-- `self.anti_symmetrize_u(u)` with dynamic dispatch (`basis_set.py` 731-733, `sinc_dvr.py`
211-216): the difference is a new array; `ODSincDVR` returns a 2-d `u` itself. -/
def antiSymmetrizeU (r : Option ℕ) : PyM (HState K) (Option ℕ) := do
  let o ← self
  let x ← fetch r
  let y ← BasisSet.antiSymmetrizeU o.cls x
  match o.cls, x with
  | .sincDVR, some v =>
    if v.ndim = 2 then pure r
    else do
      let c ← new y
      pure (some c)
  | _, _ => do
    let c ← new y
    pure (some c)

/-- `basis_set.py` 474-491, `anti_symmetrize_two_body_elements()`. -/
def antiSymmetrizeTwoBody : PyM (HState K) Unit := do
  let o ← self
  if !o.antiSym then
    let r ← antiSymmetrizeU o.u
    setU r
    let o ← self
    let x ← fetch o.spin2tb
    match x with
    | none => pure ()
    | some _ =>
      let r ← antiSymmetrizeU o.spin2tb
      setSpin2tb r
    assign fun self => { self with antiSym := true }

/-- `basis_set.py` 546-566: the part of the doubling that sets up the spin operators. -/
def setupSpin (overlap : NDArray K) (a b : List K) : PyM (HState K) Unit := do
  let o ← self
  needNp o.np
  let a := BasisSet.column a
  let b := BasisSet.column b
  let ra ← new a
  assign fun self => { self with a := some ra }
  let rb ← new b
  assign fun self => { self with b := some rb }
  let ok ← BasisSet.checkOverlap a a 1
  PyM.assert ok
  let ok ← BasisSet.checkOverlap b b 1
  PyM.assert ok
  let ok ← BasisSet.checkOverlap a b 0
  PyM.assert ok
  let xyz ← BasisSet.setupPauli o.np a b
  let rx ← new xyz.1
  let ry ← new xyz.2.1
  let rz ← new xyz.2.2
  setSigma rx ry rz
  let r ← new (NDArray.smul .float64 (1 / 2) (NDArray.kron overlap xyz.1))
  setSpinX (some r)
  let r ← new (NDArray.smul .float64 (1 / 2) (NDArray.kron overlap xyz.2.1))
  setSpinY (some r)
  let r ← new (NDArray.smul .float64 (1 / 2) (NDArray.kron overlap xyz.2.2))
  setSpinZ (some r)
  let o ← self
  let sx ← fetch o.spinX
  let sx ← orErr .type sx
  let sy ← fetch o.spinY
  let sy ← orErr .type sy
  let sz ← fetch o.spinZ
  let sz ← orErr .type sz
  let s ← fetch o.s
  let s ← orErr .type s
  let sq ← BasisSet.setupSpinSquared o.np sx sy sz s
  let r ← new sq.1
  setSpin2 (some r)
  let r ← new sq.2
  setSpin2tb (some r)

/-- `basis_set.py` 571-577: the part of the doubling that treats the dipole moments. -/
def doubleDipole : PyM (HState K) Unit := do
  let o ← self
  let d ← fetch o.dipole
  match d with
  | none => pure ()
  | some d =>
    let n ← d.len
    let ys ← BasisSet.addSpinDipole o.np d (List.range n)
    let arr ← NDArray.stack ys
    let r ← new arr
    setDipole (some r)

/-- `basis_set.py` 579-585: the part of the doubling that treats the single-particle functions. -/
def doubleSpf : PyM (HState K) Unit := do
  let o ← self
  let spf ← fetch o.spf
  match spf with
  | none => pure ()
  | some spf =>
    let spf ← BasisSet.addSpinSpf o.np spf
    let r ← new spf
    setSpf (some r)
    let o ← self
    let bra ← fetch o.braSpf
    match bra with
    | none => pure ()
    | some bra =>
      let bra ← BasisSet.addSpinSpf o.np bra
      let r ← new bra
      setBra (some r)

/-- `basis_set.py` 493-591, `BasisSet.change_to_general_orbital_basis(a, b, anti_symmetrize)`. -/
def changeToGeneralBase (a b : List K) (antiSymmetrize : Bool) : PyM (HState K) Bool := do
  let o ← self
  if o.includesSpin then return false
  assign fun self => { self with includesSpin := true }
  assign fun self => { self with l := 2 * self.l }
  let o ← self
  let overlap ← fetch o.s
  let overlap ← orErr .attribute overlap
  let h ← fetch o.h
  let h ← BasisSet.addSpinOneBody o.np h
  let r ← new h
  setH (some r)
  let o ← self
  let s ← fetch o.s
  let s ← BasisSet.addSpinOneBody o.np s
  let r ← new s
  setS (some r)
  let o ← self
  let u ← fetch o.u
  let u ← BasisSet.addSpinTwoBody o.cls o.np u
  let r ← new u
  setU (some r)
  let st ← PyM.get
  if ¬ (st.obj.cls = .sincDVR ∧ uRepr st.mem st.obj = .two) then
    setupSpin overlap a b
  if antiSymmetrize then antiSymmetrizeTwoBody
  doubleDipole
  doubleSpf
  castToComplex
  return true

/-- `copy.deepcopy` of one attribute (`basis_set.py` 753): an array copied before is looked up in
the memo, a new one is copied and entered. -/
def deepcopyRef (memo : List (ℕ × ℕ)) (r : Option ℕ) :
    PyM (HState K) (Option ℕ × List (ℕ × ℕ)) := do
  let x ← fetch r
  match r, x with
  | some i, some x =>
    match memo.lookup i with
    | some j => pure (some j, memo)
    | none => do
      let j ← new x
      pure (some j, (i, j) :: memo)
  | _, _ => pure (none, memo)

/-- `copy.deepcopy` of all array attributes (`basis_set.py` 753), one after the other. -/
def deepcopyRefs : List (ℕ × ℕ) → List (Option ℕ) → PyM (HState K) (List (Option ℕ))
  | _, [] => pure []
  | memo, r :: rs => do
    let c ← deepcopyRef memo r
    let cs ← deepcopyRefs c.2 rs
    pure (c.1 :: cs)

/-- All array attributes (`basis_set.py` 32-66 and 546-547), in the order of the fields. -/
def slots (o : HBasis K) : List (Option ℕ) :=
  [o.grid, o.h, o.u, o.s, o.dipole, o.sigmaX, o.sigmaY, o.sigmaZ, o.spinX, o.spinY, o.spinZ,
    o.spin2, o.spin2tb, o.spf, o.braSpf, o.a, o.b]

/-- An object with the given array attributes (`basis_set.py` 32-66 and 546-547). -/
def withSlots (o : HBasis K) (c : List (Option ℕ)) : HBasis K :=
  { o with
    grid := c.getD 0 none
    h := c.getD 1 none
    u := c.getD 2 none
    s := c.getD 3 none
    dipole := c.getD 4 none
    sigmaX := c.getD 5 none
    sigmaY := c.getD 6 none
    sigmaZ := c.getD 7 none
    spinX := c.getD 8 none
    spinY := c.getD 9 none
    spinZ := c.getD 10 none
    spin2 := c.getD 11 none
    spin2tb := c.getD 12 none
    spf := c.getD 13 none
    braSpf := c.getD 14 none
    a := c.getD 15 none
    b := c.getD 16 none }

/-- `basis_set.py` 739-760, `copy_basis()`; the copy is returned.  `new_basis.change_module(np)`
works on the copy and on the same collection of arrays. -/
def copyBasis (same : Bool) : PyM (HState K) (HBasis K) := do
  let o ← self
  let np := o.np
  assign fun self => { self with np := none }
  if o.extraModule then raise .type
  let o ← self
  let c ← deepcopyRefs [] o.slots
  let st ← PyM.get
  let r := changeModule same np { st with obj := o.withSlots c }
  modify fun st => { st with mem := r.2.mem }
  let () ← r.1
  changeModule same np
  pure r.2.obj

end HBasis

end QS
