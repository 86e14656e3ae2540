import Verif.Model.BasisSet

/-!
# Model of `quantum_systems/system.py`, `general_orbital_system.py`, `spatial_orbital_system.py` and
`time_evolution_operators/operator.py`

Python objects live in a `World`: lists of basis sets, systems and time-evolution operators, referred
to by their position.  `T` is the type of times.
-/

namespace QS

open Finset

variable {K T : Type}

/-- A number or an array, the values that pulses, weights and polarisations take. -/
inductive Val (K : Type) [Zero K]
  | scalar (dt : DType) (c : K)
  | array (x : NDArray K)

/-- The value of an attribute such as `_laser_pulse`: a plain value, a callable given by the user, or
a `lambda t: tmp` created by the library, which reads the cell of the local variable `tmp` of the
call that created it (`operator.py` 92-93, 101-102, 141-142). -/
inductive Attr (K T : Type) [Zero K]
  | const (v : Val K)
  | fn (f : T → Val K)
  | closure (cell : ℕ)

/-- The classes of `operator.py` with their attributes: `TimeEvolutionOperator` (4-76), `LaserField`
(79-108), `AdiabaticSwitching` (111-125), `CustomOneBodyOperator` (128-144). -/
inductive OpKind (K T : Type) [Zero K]
  | base
  | laser (pulse : Attr K T) (pol : Option (Attr K T))
  | adiabatic (f : Attr K T)
  | custom (weight : Attr K T) (operator : NDArray K)

/-- A time-evolution operator object.  `system` is the attribute `_system` (missing before
`set_system`); `cells` are the cells of the local variables that its lambdas captured. -/
structure TEOp (K T : Type) [Zero K] where
  kind : OpKind K T
  system : Option ℕ
  cells : List (Val K)

/-- The two concrete subclasses of `QuantumSystem`. -/
inductive SysKind
  | general | spatial
deriving DecidableEq, Repr

/-- A `QuantumSystem` object: `system.py` 19-48.  `o` and `v` are the bounds of the slices. -/
structure Sys where
  kind : SysKind
  basis : ℕ
  np : Option Module
  n : ℕ
  l : ℕ
  m : ℕ
  o : ℕ × ℕ
  v : ℕ × ℕ
  op : Option ℕ
deriving DecidableEq, Repr

/-- All objects. -/
structure World (K T : Type) [Zero K] where
  bases : List (BasisSet K)
  systems : List Sys
  ops : List (TEOp K T)

section numeric
variable [PyScalar K]

/-- `c * x` for the value `c` of a pulse, weight or switching function. -/
def Val.mul (c : Val K) (x : NDArray K) : Except PyErr (NDArray K) :=
  match c with
  | .scalar dt c => .ok (NDArray.smul dt c x)
  | .array y => NDArray.mul y x

/-- Calling an attribute with a time.  A plain value is not callable (`TypeError`); an unbound cell
raises `NameError`. -/
def Attr.call (cells : List (Val K)) (t : T) : Attr K T → Except PyErr (Val K)
  | .const _ => .error .type
  | .fn f => .ok (f t)
  | .closure c => match cells[c]? with
    | none => .error .name
    | some v => .ok v

/-- `np.tensordot(p, d, axes=(0, 0))` (`operator.py` 104-108) for a polarisation `p`; a number has
no axis 0 (`IndexError`), and neither has `None`. -/
def polDot (p : Val K) (d : Option (NDArray K)) : Except PyErr (NDArray K) :=
  match p, d with
  | .array p, some d => NDArray.tensordot p d 0 0
  | _, _ => .error .index

/-- `general_orbital_system.py` 76-96, `compute_reference_energy()` on the attributes `np`, `h`, `u`
and `o`.  `None[o, o]` raises `TypeError`. -/
def refEnergyGeneral (np : Option Module) (h u : Option (NDArray K)) (o : ℕ × ℕ) :
    Except PyErr (NDArray K) := do
  needNp np
  let h ← orErr .type h
  let h ← h.slice [some o, some o]
  let e₁ ← h.trace 0 1
  let u ← orErr .type u
  let u ← u.slice [some o, some o, some o, some o]
  let u ← u.trace 1 3
  let e₂ ← u.trace 0 1
  NDArray.add e₁ (NDArray.smul .float64 (1 / 2) e₂)

/-- `spatial_orbital_system.py` 106-129, `compute_reference_energy()`. -/
def refEnergySpatial (np : Option Module) (h u : Option (NDArray K)) (o : ℕ × ℕ) :
    Except PyErr (NDArray K) := do
  needNp np
  let h ← orErr .type h
  let h ← h.slice [some o, some o]
  let e₁ ← h.trace 0 1
  let u ← orErr .type u
  let u ← u.slice [some o, some o, some o, some o]
  let d ← u.trace 1 3
  let e₂ ← d.trace 0 1
  let e₁₂ ← NDArray.add (NDArray.smul .int64 2 e₁) (NDArray.smul .int64 2 e₂)
  let x ← u.trace 1 2
  let e₃ ← x.trace 0 1
  NDArray.sub e₁₂ e₃

/-- Memory cells holding arrays, so that `f` may be the same array object as `h` or `u`. -/
abbrev Mem (K : Type) [Zero K] := List (NDArray K)

/-- Read an array object. -/
def Mem.read (r : ℕ) : PyM (Mem K) (NDArray K) := do
  let m ← PyM.get
  match m[r]? with
  | none => PyM.raise .name
  | some x => pure x

/-- Overwrite the contents of an array object. -/
def Mem.write (r : ℕ) (x : NDArray K) : PyM (Mem K) Unit := PyM.modify fun m => m.set r x

/-- A new array object. -/
def Mem.alloc (x : NDArray K) : PyM (Mem K) ℕ := do
  let m ← PyM.get
  PyM.modify fun m => m ++ [x]
  pure m.length

/-- `f` or a new `np.zeros_like(h)` (`general_orbital_system.py` 130-131,
`spatial_orbital_system.py` 162-163). -/
def fockBuffer (np : Option Module) (h : ℕ) (f : Option ℕ) : PyM (Mem K) ℕ :=
  match f with
  | some f => pure f
  | none => do
    needNp np
    let x ← Mem.read h
    Mem.alloc x.zerosLike

/-- `x += y` on the array object `f`. -/
def iaddAt (f : ℕ) (y : NDArray K) : PyM (Mem K) Unit := do
  let x ← Mem.read f
  let r ← NDArray.iadd x y
  Mem.write f r

/-- `x -= y` on the array object `f`. -/
def isubAt (f : ℕ) (y : NDArray K) : PyM (Mem K) Unit := do
  let x ← Mem.read f
  let r ← NDArray.isub x y
  Mem.write f r

/-- `general_orbital_system.py` 98-138, `construct_fock_matrix(h, u, f=None)`; `h`, `u`, `f` are
references to array objects, the result is a reference too. -/
def fockGeneral (np : Option Module) (o : ℕ × ℕ) (h u : ℕ) (f : Option ℕ) : PyM (Mem K) ℕ := do
  let f ← fockBuffer np h f
  let x ← Mem.read f
  Mem.write f x.fillZero
  let y ← Mem.read h
  iaddAt f y
  needNp np
  let z ← Mem.read u
  let z ← z.slice [none, some o, none, some o]
  let z ← z.einsum_piqi
  iaddAt f z
  pure f

/-- `spatial_orbital_system.py` 131-171, `construct_fock_matrix(h, u, f=None)`. -/
def fockSpatial (np : Option Module) (o : ℕ × ℕ) (h u : ℕ) (f : Option ℕ) : PyM (Mem K) ℕ := do
  let f ← fockBuffer np h f
  let x ← Mem.read f
  Mem.write f x.fillZero
  let y ← Mem.read h
  iaddAt f y
  needNp np
  let z ← Mem.read u
  let z ← z.slice [none, some o, none, some o]
  let z ← z.einsum_piqi
  iaddAt f (NDArray.smul .int64 2 z)
  let z ← Mem.read u
  let z ← z.slice [none, some o, some o, none]
  let z ← z.einsum_piiq
  isubAt f z
  pure f

end numeric

namespace World
variable [PyScalar K]

open PyM

/-! ### access to objects (a dangling reference, impossible in Python, raises `NameError`) -/

def getSys (s : ℕ) : PyM (World K T) Sys := do
  let w ← PyM.get
  orErr .name w.systems[s]?

def setSys (s : ℕ) (x : Sys) : PyM (World K T) Unit :=
  modify fun w => { w with systems := w.systems.set s x }

def getBasis (b : ℕ) : PyM (World K T) (BasisSet K) := do
  let w ← PyM.get
  orErr .name w.bases[b]?

def getOp (o : ℕ) : PyM (World K T) (TEOp K T) := do
  let w ← PyM.get
  orErr .name w.ops[o]?

def setOp (o : ℕ) (x : TEOp K T) : PyM (World K T) Unit :=
  modify fun w => { w with ops := w.ops.set o x }

/-- Call a method of the basis set object `b`. -/
def onBasis {α : Type} (b : ℕ) (m : PyM (BasisSet K) α) : PyM (World K T) α := fun w =>
  match w.bases[b]? with
  | none => (.error .name, w)
  | some x => ((m.run x).1, { w with bases := w.bases.set b (m.run x).2 })

/-- A new basis set object. -/
def newBasis (x : BasisSet K) : PyM (World K T) ℕ := do
  let w ← PyM.get
  modify fun w => { w with bases := w.bases ++ [x] }
  pure w.bases.length

/-- A new time-evolution operator object. -/
def newOp (x : TEOp K T) : PyM (World K T) ℕ := do
  let w ← PyM.get
  modify fun w => { w with ops := w.ops ++ [x] }
  pure w.ops.length

/-! ### `QuantumSystem` -/

/-- `system.py` 29-48, `set_system_size(n, l)`, on an existing object. -/
def setSystemSize (s n l : ℕ) : PyM (World K T) Unit := do
  PyM.assert (decide (n ≤ l))
  let x ← getSys s
  setSys s { x with n := n, l := l, m := l - n, o := (0, n), v := (n, l) }

/-- `system.py` 19-27, `QuantumSystem.__init__(n, basis_set)`.  Simplification: `n ≥ 0`. -/
def initSystem (kind : SysKind) (n b : ℕ) : PyM (World K T) ℕ := do
  let x ← getBasis b
  PyM.assert (decide (n ≤ x.l))
  let w ← PyM.get
  let s := w.systems.length
  modify fun w => { w with systems := w.systems ++
    [{ kind := kind, basis := b, np := x.np, n := 0, l := 0, m := 0, o := (0, 0), v := (0, 0),
       op := none }] }
  setSystemSize s n x.l
  pure s

/-- `general_orbital_system.py` 39-54, `GeneralOrbitalSystem.__init__(n, basis_set, a, b,
anti_symmetrize)`.  The call at 44 returns the basis set itself. -/
def generalInit (n r : ℕ) (a b : List K) (anti : Bool) : PyM (World K T) ℕ := do
  let x ← getBasis r
  if !x.includesSpin then
    let _ ← onBasis r (BasisSet.changeToGeneralAB a b anti)
  if anti then
    onBasis r BasisSet.antiSymmetrizeTwoBody
  initSystem .general n r

/-- `spatial_orbital_system.py` 40-50, `SpatialOrbitalSystem.__init__(n, basis_set)`. -/
def spatialInit (n r : ℕ) : PyM (World K T) ℕ := do
  PyM.assert (decide (n % 2 = 0))
  let x ← getBasis r
  PyM.assert (!x.includesSpin)
  initSystem .spatial (n / 2) r

/-- `system.py` 54-64, `change_module(np)`. -/
def changeModule (s : ℕ) (np : Option Module) : PyM (World K T) Unit := do
  let x ← getSys s
  setSys s { x with np := np }
  onBasis x.basis (BasisSet.changeModule np)

/-- `system.py` 66-68, `change_basis(C, C_tilde)`. -/
def changeBasis (s : ℕ) (C : NDArray K) (Ct : Option (NDArray K)) : PyM (World K T) Unit := do
  let x ← getSys s
  onBasis x.basis (BasisSet.changeBasis C Ct)
  let b ← getBasis x.basis
  setSystemSize s x.n b.l

/-- `system.py` 78-81, `compute_particle_density(rho_qp, C, C_tilde)`. -/
def computeParticleDensity (s : ℕ) (rho : NDArray K) (C Ct : Option (NDArray K)) :
    PyM (World K T) (NDArray K) := do
  let x ← getSys s
  onBasis x.basis (BasisSet.computeParticleDensity rho C Ct)

/-- `system.py` 87-90, the property `h`. -/
def h (s : ℕ) : PyM (World K T) (Option (NDArray K)) := do
  let x ← getSys s
  let b ← getBasis x.basis
  pure b.h

/-- `system.py` 92-95, the property `u`. -/
def u (s : ℕ) : PyM (World K T) (Option (NDArray K)) := do
  let x ← getSys s
  let b ← getBasis x.basis
  pure b.u

/-- `system.py` 102-105, the property `dipole_moment`. -/
def dipole (s : ℕ) : PyM (World K T) (Option (NDArray K)) := do
  let x ← getSys s
  let b ← getBasis x.basis
  pure b.dipole

/-- `system.py` 121-125, `set_time_evolution_operator(op)`, and `operator.py` 29-40,
`set_system(system)`. -/
def setTimeEvolutionOperator (s : ℕ) (op : Option ℕ) : PyM (World K T) Unit := do
  let x ← getSys s
  setSys s { x with op := op }
  match op with
  | none => pure ()
  | some o =>
    let y ← getOp o
    setOp o { y with system := some s }

/-- `operator.py` 5-27, 84-86, 118-120, 133-135: `is_one_body_operator`, `is_two_body_operator`. -/
def opFlags : OpKind K T → Bool × Bool
  | .base => (false, false)
  | .laser _ _ => (true, false)
  | .adiabatic _ => (false, true)
  | .custom _ _ => (true, false)

/-- `system.py` 127-132, `has_one_body_time_evolution_operator`. -/
def hasOneBody (s : ℕ) : PyM (World K T) Bool := do
  let x ← getSys s
  match x.op with
  | none => pure false
  | some o =>
    let y ← getOp o
    pure (opFlags y.kind).1

/-- `system.py` 134-139, `has_two_body_time_evolution_operator`. -/
def hasTwoBody (s : ℕ) : PyM (World K T) Bool := do
  let x ← getSys s
  match x.op with
  | none => pure false
  | some o =>
    let y ← getOp o
    pure (opFlags y.kind).2

/-! ### time-evolution operators -/

/-- `operator.py` 80-82, `LaserField(laser_pulse, polarization_vector=None)`. -/
def laserField (pulse : Attr K T) (pol : Option (Attr K T)) : TEOp K T :=
  ⟨.laser pulse pol, none, []⟩

/-- `operator.py` 112-116, `AdiabaticSwitching(switching_function)`: a plain value is wrapped in a
lambda that captures the constructor's argument. -/
def adiabaticSwitching (f : Attr K T) : TEOp K T :=
  match f with
  | .const v => ⟨.adiabatic (.fn fun _ => v), none, []⟩
  | f => ⟨.adiabatic f, none, []⟩

/-- `operator.py` 129-131, `CustomOneBodyOperator(weight, operator)`. -/
def customOneBodyOperator (weight : Attr K T) (operator : NDArray K) : TEOp K T :=
  ⟨.custom weight operator, none, []⟩

/-- The default polarisation `(1, 0, …)` of `operator.py` 97-98: `dipole_moment.shape` of `None` is an
`AttributeError`, `shape[0]` of a 0-d array and `[0] = 1` on an empty array an `IndexError`. -/
def defaultPol (d : Option (NDArray K)) : Except PyErr (NDArray K) := do
  let d ← orErr .attribute d
  let n ← d.shapeAt 0
  if n = 0 then .error .index else
  .ok (NDArray.ofFn .float64 [n] (fun i => match i with
    | [0] => 1
    | _ => 0))

/-- `cells[i] = v`: assignment to the local variable with cell `i` (a new cell if it is the first
assignment in this call). -/
def storeCell (cells : List (Val K)) (i : ℕ) (v : Val K) : List (Val K) :=
  if i < cells.length then cells.set i v else cells ++ [v]

/-- `operator.py` 91-93: a plain pulse becomes `lambda t: tmp`, where `tmp` is the local variable of
this call. -/
def wrapPulse (o frame : ℕ) : PyM (World K T) Unit := do
  let y ← getOp o
  match y.kind with
  | .laser (.const v) pol =>
    setOp o { y with kind := .laser (.closure frame) pol, cells := storeCell y.cells frame v }
  | _ => pure ()

/-- `operator.py` 95-98: a missing polarisation is replaced by the default. -/
def fillPol (o s : ℕ) : PyM (World K T) Unit := do
  let y ← getOp o
  match y.kind with
  | .laser p none =>
    let x ← getSys s
    needNp x.np
    let d ← dipole s
    let e ← defaultPol d
    setOp o { y with kind := .laser p (some (.const (.array e))) }
  | _ => pure ()

/-- `operator.py` 100-102: a plain polarisation becomes `lambda t: tmp` with the **same** local
variable `tmp` as in 91-93. -/
def wrapPol (o frame : ℕ) : PyM (World K T) Unit := do
  let y ← getOp o
  match y.kind with
  | .laser p (some (.const v)) =>
    setOp o { y with kind := .laser p (some (.closure frame)), cells := storeCell y.cells frame v }
  | _ => pure ()

/-- `operator.py` 104-108: the value returned by `LaserField.h_t`. -/
def laserValue (o s : ℕ) (t : T) : PyM (World K T) (NDArray K) := do
  let x ← getSys s
  let hs ← h s
  let y ← getOp o
  match y.kind with
  | .laser p (some e) =>
    let c ← p.call y.cells t
    needNp x.np
    let v ← e.call y.cells t
    let d ← dipole s
    let z ← polDot v d
    let z ← c.mul z
    let hs ← orErr .type hs
    NDArray.add hs z
  | _ => raise .type

/-- `operator.py` 88-108, `LaserField.h_t(current_time)`. -/
def laserHT (o s : ℕ) (t : T) : PyM (World K T) (NDArray K) := do
  let y ← getOp o
  let frame := y.cells.length
  wrapPulse o frame
  fillPol o s
  wrapPol o frame
  laserValue o s t

/-- `operator.py` 140-142. -/
def wrapWeight (o frame : ℕ) : PyM (World K T) Unit := do
  let y ← getOp o
  match y.kind with
  | .custom (.const v) a =>
    setOp o { y with kind := .custom (.closure frame) a, cells := storeCell y.cells frame v }
  | _ => pure ()

/-- `operator.py` 137-144, `CustomOneBodyOperator.h_t(current_time)`. -/
def customHT (o s : ℕ) (t : T) : PyM (World K T) (NDArray K) := do
  let y ← getOp o
  wrapWeight o y.cells.length
  let hs ← h s
  let y ← getOp o
  match y.kind with
  | .custom w a =>
    let c ← w.call y.cells t
    let z ← c.mul a
    let hs ← orErr .type hs
    NDArray.add hs z
  | _ => raise .type

/-- `h_t(current_time)` of an operator object with dynamic dispatch (`operator.py` 42-58 for the
classes that do not override it).  `_system` is missing before `set_system`: `AttributeError`. -/
def opHT (o : ℕ) (t : T) : PyM (World K T) (Option (NDArray K)) := do
  let y ← getOp o
  let s ← orErr .attribute y.system
  match y.kind with
  | .base => h s
  | .adiabatic _ => h s
  | .laser _ _ => do
    let r ← laserHT o s t
    pure (some r)
  | .custom _ _ => do
    let r ← customHT o s t
    pure (some r)

/-- `u_t(current_time)` of an operator object (`operator.py` 60-76, and 122-125 for
`AdiabaticSwitching`). -/
def opUT (o : ℕ) (t : T) : PyM (World K T) (Option (NDArray K)) := do
  let y ← getOp o
  let s ← orErr .attribute y.system
  match y.kind with
  | .adiabatic f => do
    let c ← f.call y.cells t
    let us ← u s
    let us ← orErr .type us
    let r ← c.mul us
    pure (some r)
  | _ => u s

/-- `system.py` 141-145, `h_t(current_time)`. -/
def hT (s : ℕ) (t : T) : PyM (World K T) (Option (NDArray K)) := do
  let x ← getSys s
  match x.op with
  | none => h s
  | some o => opHT o t

/-- `system.py` 147-151, `u_t(current_time)`. -/
def uT (s : ℕ) (t : T) : PyM (World K T) (Option (NDArray K)) := do
  let x ← getSys s
  match x.op with
  | none => u s
  | some o => opUT o t

/-- `system.py` 153-156, `transform_one_body_elements(h, C, C_tilde)`. -/
def transformOneBody (s : ℕ) (x C : NDArray K) (Ct : Option (NDArray K)) :
    PyM (World K T) (NDArray K) := do
  let y ← getSys s
  BasisSet.transformOneBody y.np (some x) C Ct

/-- `system.py` 158-161, `transform_two_body_elements(u, C, C_tilde)` (dynamic dispatch on the basis
set). -/
def transformTwoBody (s : ℕ) (x C : NDArray K) (Ct : Option (NDArray K)) :
    PyM (World K T) (NDArray K) := do
  let y ← getSys s
  let b ← getBasis y.basis
  match b.cls with
  | .plain => BasisSet.transformTwoBody y.np (some x) C Ct
  | .sincDVR => BasisSet.transformTwoBodySinc b y.np (some x) C false Ct

/-- `compute_reference_energy()` with dynamic dispatch. -/
def referenceEnergy (s : ℕ) : PyM (World K T) (NDArray K) := do
  let x ← getSys s
  let hs ← h s
  let us ← u s
  match x.kind with
  | .general => refEnergyGeneral x.np hs us x.o
  | .spatial => refEnergySpatial x.np hs us x.o

/-- `construct_fock_matrix(h, u, f)` with dynamic dispatch, on array objects. -/
def constructFock (x : Sys) (h u : ℕ) (f : Option ℕ) : PyM (Mem K) ℕ :=
  match x.kind with
  | .general => fockGeneral x.np x.o h u f
  | .spatial => fockSpatial x.np x.o h u f

/-- `general_orbital_system.py` 140-148 and `spatial_orbital_system.py` 173-175,
`change_to_hf_basis`. -/
def changeToHfBasis (_s : ℕ) : PyM (World K T) Unit := raise .notImplemented

/-! ### copies -/

/-- The systems reachable from system `s` (system → operator → system → …), `s` first. -/
def reach (w : World K T) : ℕ → ℕ → List ℕ → List ℕ
  | 0, _, acc => acc
  | fuel + 1, s, acc =>
    if s ∈ acc then acc
    else match w.systems[s]? with
      | none => acc
      | some x => match x.op with
        | none => acc ++ [s]
        | some o => match (w.ops[o]?).bind TEOp.system with
          | none => acc ++ [s]
          | some s' => reach w fuel s' (acc ++ [s])

/-- The operators reachable from a list of systems. -/
def reachOps (w : World K T) (ss : List ℕ) : List ℕ :=
  ss.filterMap fun s => (w.systems[s]?).bind Sys.op

/-- The basis sets reachable from a list of systems. -/
def reachBases (w : World K T) (ss : List ℕ) : List ℕ :=
  ss.filterMap fun s => (w.systems[s]?).map Sys.basis

/-- Does one of the systems, or its basis set, hold a reference to a Python module? -/
def holdsModule (w : World K T) (ss : List ℕ) : Bool :=
  ss.any fun s => match w.systems[s]? with
    | none => false
    | some x => x.np.isSome || match w.bases[x.basis]? with
      | none => false
      | some b => b.np.isSome || b.extraModule

/-- New reference of an object that is copied: position in the list of copied objects, counted from
`base`; other references are kept. -/
def rename (base : ℕ) (rs : List ℕ) (r : ℕ) : ℕ := if r ∈ rs then base + rs.idxOf r else r

/-- Append copies of the given objects, with the references among them renamed. -/
def copyObjects (w : World K T) (ss bs os : List ℕ) : World K T :=
  let ρs := rename w.systems.length ss
  let ρb := rename w.bases.length bs
  let ρo := rename w.ops.length os
  { bases := w.bases ++ bs.filterMap fun b => w.bases[b]?
    systems := w.systems ++ ss.filterMap fun s => (w.systems[s]?).map fun x =>
      { x with basis := ρb x.basis, op := x.op.map ρo }
    ops := w.ops ++ os.filterMap fun o => (w.ops[o]?).map fun y =>
      { y with system := y.system.map ρs } }

/-- `copy.deepcopy(system)`: all reachable objects are copied; `TypeError` ("cannot pickle 'module'
object") if one of them holds a module.  Functions (pulses, lambdas) are shared by `deepcopy`; the
cells they read are never written again, so copying them makes no difference. -/
def deepcopySystem (s : ℕ) : PyM (World K T) ℕ := do
  let w ← PyM.get
  let ss := w.reach (w.systems.length + 1) s []
  if w.holdsModule ss then raise .type else
  modify fun w => w.copyObjects ss (w.reachBases ss).dedup (w.reachOps ss).dedup
  pure (rename w.systems.length ss s)

/-- The systems reachable from an operator object. -/
def reachFromOp (w : World K T) (y : TEOp K T) : List ℕ :=
  match y.system with
  | none => []
  | some s => w.reach (w.systems.length + 1) s []

/-- `copy.deepcopy(operator)`. -/
def deepcopyOp (o : ℕ) : PyM (World K T) ℕ := do
  let w ← PyM.get
  let y ← getOp o
  let ss := w.reachFromOp y
  if w.holdsModule ss then raise .type else
  let os := (o :: w.reachOps ss).dedup
  modify fun w => w.copyObjects ss (w.reachBases ss).dedup os
  pure (rename w.ops.length os o)

/-- `system.py` 163-186, `copy_system()`. -/
def copySystem (s : ℕ) : PyM (World K T) ℕ := do
  let x ← getSys s
  let np := x.np
  setSys s { x with np := none }
  onBasis x.basis (modify fun b => { b with np := none })
  let new ← deepcopySystem s
  changeModule new np
  changeModule s np
  let x ← getSys s
  PyM.assert (decide (x.np = np))
  let b ← getBasis x.basis
  PyM.assert (decide (b.np = np))
  pure new

/-- `spatial_orbital_system.py` 52-104, `construct_general_orbital_system(a, b, anti_symmetrize)`. -/
def constructGeneral (s : ℕ) (a b : List K) (anti : Bool) : PyM (World K T) ℕ := do
  let x ← getSys s
  let c ← onBasis x.basis BasisSet.copyBasis
  let r ← newBasis c
  let gos ← generalInit (x.n * 2) r a b anti
  match x.op with
  | none => pure gos
  | some o =>
    let o' ← deepcopyOp o
    setTimeEvolutionOperator gos (some o')
    pure gos

end World

end QS
