import Verif.Spec.BasisChange

/-!
# Histories of operations on a basis set
-/

namespace QS

variable {K : Type} [PyScalar K]

/-- Every axis of `x` has length `l`. -/
def AxesAre (l : ℕ) (x : NDArray K) : Prop := ∀ d ∈ x.shape, d = l

/-- `dim` components, each with all axes of length `l` (nothing is said about the components if there
are none). -/
def DipoleAxes (dim l : ℕ) (x : NDArray K) : Prop :=
  ∃ sh, x.shape = dim :: sh ∧ (0 < dim → ∀ d ∈ sh, d = l)

/-- `l` functions on a grid with `dim` axes. -/
def SpfAxes (dim l : ℕ) (x : NDArray K) : Prop := ∃ g, x.shape = l :: g ∧ g.length = dim

/-- The axis lengths of the populated elements and functions match `l` (and `dim`). -/
structure CoreMatch (b : BasisSet K) : Prop where
  h : ∀ x, b.h = some x → AxesAre b.l x
  s : ∀ x, b.s = some x → AxesAre b.l x
  u : ∀ x, b.u = some x → AxesAre b.l x
  tb : ∀ x, b.spin2tb = some x → AxesAre b.l x
  dipole : ∀ x, b.dipole = some x → DipoleAxes b.dim b.l x
  spf : ∀ x, b.spf = some x → SpfAxes b.dim b.l x

/-- The same for the one-body spin matrices. -/
structure SpinMatch (b : BasisSet K) : Prop where
  x : ∀ m, b.spinX = some m → AxesAre b.l m
  y : ∀ m, b.spinY = some m → AxesAre b.l m
  z : ∀ m, b.spinZ = some m → AxesAre b.l m
  two : ∀ m, b.spin2 = some m → AxesAre b.l m

/-- The same for the dual functions. -/
def BraMatch (b : BasisSet K) : Prop := ∀ x, b.braSpf = some x → SpfAxes b.dim b.l x

/-- The public operations on a basis set. -/
inductive Op (K : Type) [PyScalar K]
  | setH (x : Option (NDArray K))
  | setU (x : Option (NDArray K))
  | setS (x : Option (NDArray K))
  | setDipole (x : Option (NDArray K))
  | setSpinX (x : Option (NDArray K))
  | setSpinY (x : Option (NDArray K))
  | setSpinZ (x : Option (NDArray K))
  | setSpin2 (x : Option (NDArray K))
  | setSpin2tb (x : Option (NDArray K))
  | setSpf (x : Option (NDArray K))
  | setBra (x : Option (NDArray K))
  | setNre (x : K)
  | setGrid (x : Option (NDArray K))
  | readBra
  | changeBasis (C : NDArray K) (Ct : Option (NDArray K))
  | toGeneral (a b : List K) (anti : Bool)
  | antiSymmetrize
  | castToComplex
  | changeModule (np : Option Module)

open BasisSet in
/-- Perform one operation, dropping its result. -/
def Op.run : Op K → PyM (BasisSet K) Unit
  | .setH x => BasisSet.setH x
  | .setU x => BasisSet.setU x
  | .setS x => BasisSet.setS x
  | .setDipole x => BasisSet.setDipole x
  | .setSpinX x => BasisSet.setSpinX x
  | .setSpinY x => BasisSet.setSpinY x
  | .setSpinZ x => BasisSet.setSpinZ x
  | .setSpin2 x => BasisSet.setSpin2 x
  | .setSpin2tb x => BasisSet.setSpin2tb x
  | .setSpf x => BasisSet.setSpf x
  | .setBra x => BasisSet.setBra x
  | .setNre x => BasisSet.setNre x
  | .setGrid x => BasisSet.setGrid x
  | .readBra => do let _ ← getBra; pure ()
  | .changeBasis C Ct => BasisSet.changeBasis C Ct
  | .toGeneral a b anti => do let _ ← changeToGeneralBase a b anti; pure ()
  | .antiSymmetrize => antiSymmetrizeTwoBody
  | .castToComplex => BasisSet.castToComplex
  | .changeModule np => BasisSet.changeModule np

/-- A history: every operation succeeds, leading from `b` to `b'`; the intermediate states satisfy
`Q` together with the operation about to be performed. -/
inductive History (Q : BasisSet K → Op K → Prop) : BasisSet K → List (Op K) → BasisSet K → Prop
  | nil (b) : History Q b [] b
  | cons {b b₁ b' op ops} (hq : Q b op) (h : (op.run).run b = (.ok (), b₁))
      (t : History Q b₁ ops b') : History Q b (op :: ops) b'

end QS
