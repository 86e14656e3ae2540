import Verif.Spec.WellFormed

/-! # Same contents up to dtype -/

namespace QS.Spec

variable {K : Type} [PyScalar K]

/-- Same shape and same values; the dtypes may differ. -/
def SameValues (x y : NDArray K) : Prop := x.shape = y.shape ∧ ∀ i, x.get i = y.get i

/-- Both attributes are populated with the same values or both are not populated. -/
def SameOpt (x y : Option (NDArray K)) : Prop :=
  match x, y with
  | none, none => True
  | some x, some y => SameValues x y
  | _, _ => False

/-- Every attribute of the two basis sets reads the same, up to the dtype of the arrays and the array module
(`bra_spf` is read through its getter). -/
structure SameContents (b b' : BasisSet K) : Prop where
  h : SameOpt b.h b'.h
  s : SameOpt b.s b'.s
  u : SameOpt b.u b'.u
  dipole : SameOpt b.dipole b'.dipole
  spf : SameOpt b.spf b'.spf
  bra : SameOpt b.bra b'.bra
  spinX : SameOpt b.spinX b'.spinX
  spinY : SameOpt b.spinY b'.spinY
  spinZ : SameOpt b.spinZ b'.spinZ
  spin2 : SameOpt b.spin2 b'.spin2
  spin2tb : SameOpt b.spin2tb b'.spin2tb
  grid : SameOpt b.grid b'.grid
  sigma : b'.sigmaX = b.sigmaX ∧ b'.sigmaY = b.sigmaY ∧ b'.sigmaZ = b.sigmaZ
  spinors : b'.a = b.a ∧ b'.b = b.b
  size : b'.l = b.l ∧ b'.dim = b.dim ∧ b'.nre = b.nre
  flags : b'.includesSpin = b.includesSpin ∧ b'.antiSym = b.antiSym
  cls : b'.cls = b.cls

/-- An attribute is complex if it is populated. -/
def ComplexOpt (x : Option (NDArray K)) : Prop := ∀ y, x = some y → y.dtype = .complex128

/-- All matrix elements and single-particle functions are complex. -/
structure AllComplex (b : BasisSet K) : Prop where
  h : ComplexOpt b.h
  s : ComplexOpt b.s
  u : ComplexOpt b.u
  dipole : ComplexOpt b.dipole
  spf : ComplexOpt b.spf
  bra : ComplexOpt b.bra
  spinX : ComplexOpt b.spinX
  spinY : ComplexOpt b.spinY
  spinZ : ComplexOpt b.spinZ
  spin2 : ComplexOpt b.spin2
  spin2tb : ComplexOpt b.spin2tb

end QS.Spec
