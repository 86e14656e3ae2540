import Verif.Spec.EighChoice

/-!
# Specification: the same system in other units

With another unit of length every length is multiplied by one number `c`; an energy `ħ²/(m x²)` is multiplied by `1/c²`.
-/

namespace QS.Spec

open NDArray

/-- Every entry is multiplied by `k`. -/
def ScaledArr (k : ℝ) (x y : NDArray ℂ) : Prop := y.shape = x.shape ∧ ∀ i, InRange x.shape i → y.get i = (k : ℂ) * x.get i

/-- The basis set `b'` is `b` with lengths multiplied by `c`, one-body elements by `e` and two-body elements by `v`;
functions of `dim` lengths with squares that integrate to one are divided by `√(c^dim)`. -/
structure InUnits (c e v : ℝ) (b b' : BasisSet ℂ) : Prop where
  size : b'.l = b.l
  dim : b'.dim = b.dim
  h : OptRel (ScaledArr e) b.h b'.h
  s : OptRel (ScaledArr 1) b.s b'.s
  u : OptRel (ScaledArr v) b.u b'.u
  dipole : OptRel (ScaledArr c) b.dipole b'.dipole
  spf : OptRel (ScaledArr (1 / Real.sqrt (c ^ b.dim))) b.spf b'.spf
  bra : OptRel (ScaledArr (1 / Real.sqrt (c ^ b.dim))) b.bra b'.bra
  rest : b'.np = b.np ∧ b'.includesSpin = b.includesSpin ∧ b'.antiSym = b.antiSym

end QS.Spec
