import Verif.Model.Memory

/-!
# Array objects of a system

`World` (`Verif/Model/System.lean`) treats the arrays of basis sets as values.  Here basis sets hold
references to array objects (`Verif/Model/Memory.lean`), and the time-dependent matrix elements of a
system are references too: `h_t` and `u_t` hand out either the array object of the basis set itself or
a new one.

Not modelled: the arrays that an operator object holds (polarisation, custom operator) are values, so
a caller who writes into *these* arrays is outside the model; the callables of a caller are functions of
the time.
-/

namespace QS

/-- All objects, with the arrays of the basis sets as array objects (`system.py` 19-27, `basis_set.py`
32-66). -/
structure HWorld (K T : Type) [Zero K] where
  mem : Mem K
  bases : List (HBasis K)
  systems : List Sys
  ops : List (TEOp K T)

namespace HWorld

/-- What is seen of all objects (`system.py` 19-27). -/
def view [Zero K] (w : HWorld K T) : World K T :=
  { bases := w.bases.map fun b => b.view w.mem, systems := w.systems, ops := w.ops }

/-- A write into an existing array object by whoever holds a reference to it, e.g. `h += x` on the
array `h` that `h_t` (`system.py` 141-145) has returned. -/
def poke [Zero K] (r : ℕ) (x : NDArray K) (w : HWorld K T) : HWorld K T :=
  { w with mem := w.mem.set r x }

variable [PyScalar K]
open PyM

/-- A call that reads array objects and stores results in operator objects only, e.g. `operator.py`
88-108: it is run on what is seen, and changes neither array objects nor basis sets. -/
def reading {α : Type} (p : PyM (World K T) α) : PyM (HWorld K T) α := fun w =>
  ((p.run w.view).1, { w with ops := (p.run w.view).2.ops })

/-- The result of a NumPy expression (`operator.py` 104-108, 125, 144) is a new array object. -/
def new (x : NDArray K) : PyM (HWorld K T) ℕ := do
  let w ← PyM.get
  modify fun w => { w with mem := w.mem ++ [x] }
  pure w.mem.length

/-- A call on array objects only (`general_orbital_system.py` 98-138, `spatial_orbital_system.py`
131-171). -/
def onMem {α : Type} (p : PyM (Mem K) α) : PyM (HWorld K T) α := fun w =>
  ((p.run w.mem).1, { w with mem := (p.run w.mem).2 })

/-- The basis set of a system (`system.py` 19-27). -/
def basisOf (s : ℕ) : PyM (HWorld K T) (HBasis K) := do
  let w ← PyM.get
  let x ← orErr .name w.systems[s]?
  orErr .name w.bases[x.basis]?

/-- `system.py` 87-90, the property `h`: the array object of the basis set. -/
def h (s : ℕ) : PyM (HWorld K T) (Option ℕ) := do
  let b ← basisOf s
  pure b.h

/-- `system.py` 92-95, the property `u`. -/
def u (s : ℕ) : PyM (HWorld K T) (Option ℕ) := do
  let b ← basisOf s
  pure b.u

/-- `h_t(current_time)` of an operator object: `operator.py` 42-58 returns `self._system.h` (also for
`AdiabaticSwitching`), 88-108 and 137-144 return a sum. -/
def opHT (o : ℕ) (t : T) : PyM (HWorld K T) (Option ℕ) := do
  let w ← PyM.get
  let y ← orErr .name w.ops[o]?
  let s ← orErr .attribute y.system
  match y.kind with
  | .base => h s
  | .adiabatic _ => h s
  | .laser _ _ => do
    let x ← reading (World.laserHT o s t)
    let r ← new x
    pure (some r)
  | .custom _ _ => do
    let x ← reading (World.customHT o s t)
    let r ← new x
    pure (some r)

/-- `u_t(current_time)` of an operator object: `operator.py` 60-76 returns `self._system.u`, 122-125
(`AdiabaticSwitching`) a product. -/
def opUT (o : ℕ) (t : T) : PyM (HWorld K T) (Option ℕ) := do
  let w ← PyM.get
  let y ← orErr .name w.ops[o]?
  let s ← orErr .attribute y.system
  match y.kind with
  | .adiabatic f => do
    let c ← f.call y.cells t
    let us ← u s
    let us ← orErr .type (w.mem.val us)
    let x ← c.mul us
    let r ← new x
    pure (some r)
  | _ => u s

/-- `system.py` 141-145, `h_t(current_time)`. -/
def hT (s : ℕ) (t : T) : PyM (HWorld K T) (Option ℕ) := do
  let w ← PyM.get
  let x ← orErr .name w.systems[s]?
  match x.op with
  | none => h s
  | some o => opHT o t

/-- `system.py` 147-151, `u_t(current_time)`. -/
def uT (s : ℕ) (t : T) : PyM (HWorld K T) (Option ℕ) := do
  let w ← PyM.get
  let x ← orErr .name w.systems[s]?
  match x.op with
  | none => u s
  | some o => opUT o t

/-- `f = system.construct_fock_matrix(system.h_t(t), system.u_t(t), f)`: `general_orbital_system.py`
98-138, `spatial_orbital_system.py` 131-171.  Simplification: if `h_t` or `u_t` is `None`, the
`TypeError` comes before `f` is touched. -/
def fockStep (s : ℕ) (t : T) (f : Option ℕ) : PyM (HWorld K T) ℕ := do
  let h ← hT s t
  let u ← uT s t
  let w ← PyM.get
  let x ← orErr .name w.systems[s]?
  let h ← orErr .type h
  let u ← orErr .type u
  onMem (World.constructFock x h u f)

/-- The loop of a caller, `for t in ts: f = system.construct_fock_matrix(system.h_t(t), system.u_t(t),
f)`, around `general_orbital_system.py` 98-138: the Fock matrix of one time is the buffer of the next. -/
def fockLoop (s : ℕ) : List T → Option ℕ → PyM (HWorld K T) (Option ℕ)
  | [], f => pure f
  | t :: ts, f => do
    let r ← fockStep s t f
    fockLoop s ts (some r)

end HWorld

end QS
