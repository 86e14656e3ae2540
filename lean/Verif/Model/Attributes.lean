import Verif.Model.System

/-! # The attributes of systems: `system.py` 83-119, `general_orbital_system.py` 56-74 -/

namespace QS

/-- The attributes that systems take over from their basis sets. -/
inductive SysAttr
  | grid | h | u | s | dipole | spf | bra | nre | spinX | spinY | spinZ | spin2 | spin2tb
deriving DecidableEq, Repr

/-- Attributes of `GeneralOrbitalSystem` (`general_orbital_system.py` 56-74) that `SpatialOrbitalSystem` does not
have. -/
def SysAttr.generalOnly : SysAttr → Bool
  | .spinX | .spinY | .spinZ | .spin2 | .spin2tb => true
  | _ => false

/-- What an attribute is: an array or `None`, or (nuclear repulsion energy) a number. -/
inductive AttrVal (K : Type) [Zero K]
  | array (x : Option (NDArray K))
  | number (x : K)

namespace BasisSet

variable {K : Type} [PyScalar K]

/-- The getters of the basis set: `basis_set.py` 76-78, 84-86, 94-96, 104-106, 114-116, 127-129, 138-140, 149-151,
160-162, 171-173, 212-214, 224-230, 240-242. -/
def readAttr : SysAttr → PyM (BasisSet K) (AttrVal K)
  | .grid => do let b ← PyM.get; pure (.array b.grid)
  | .h => do let b ← PyM.get; pure (.array b.h)
  | .u => do let b ← PyM.get; pure (.array b.u)
  | .s => do let b ← PyM.get; pure (.array b.s)
  | .dipole => do let b ← PyM.get; pure (.array b.dipole)
  | .spf => do let b ← PyM.get; pure (.array b.spf)
  | .bra => do let x ← getBra; pure (.array x)
  | .nre => do let b ← PyM.get; pure (.number b.nre)
  | .spinX => do let b ← PyM.get; pure (.array b.spinX)
  | .spinY => do let b ← PyM.get; pure (.array b.spinY)
  | .spinZ => do let b ← PyM.get; pure (.array b.spinZ)
  | .spin2 => do let b ← PyM.get; pure (.array b.spin2)
  | .spin2tb => do let b ← PyM.get; pure (.array b.spin2tb)

end BasisSet

namespace World

variable {K T : Type} [PyScalar K]

/-- `getattr(system, name)`: `system.py` 83-119, `general_orbital_system.py` 56-74. -/
def readAttr (s : ℕ) (name : SysAttr) : PyM (World K T) (AttrVal K) := do
  let x ← getSys s
  match x.kind with
  | .general => onBasis x.basis (BasisSet.readAttr name)
  | .spatial =>
    if name.generalOnly then PyM.raise .attribute
    else onBasis x.basis (BasisSet.readAttr name)

end World

end QS
