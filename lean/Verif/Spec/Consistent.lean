import Verif.Spec.Symmetry

/-!
# What a freshly constructed basis set of spatial functions must hold
-/

namespace QS

/-- A complete, orthonormal basis set of `l` functions in `d` dimensions with Hermitian elements: the sizes
agree, the flags are `sp` and `an`, there are no spin operators, and the dual functions are the conjugate
functions. -/
structure Consistent (b : BasisSet ℂ) (l d : ℕ) (np : Module) (sp an : Bool) : Prop where
  wf : WellFormed b l
  dim_eq : b.dim = d
  np_eq : b.np = some np
  spin_eq : b.includesSpin = sp
  anti_eq : b.antiSym = an
  noSpin : NoSpinOps b
  tb_eq : b.spin2tb = none
  s : ∃ s, b.s = some s ∧ ∀ p < l, ∀ q < l, s.get [p, q] = if p = q then 1 else 0
  h : ∃ h, b.h = some h ∧ HermMat l h
  u : ∃ u, b.u = some u ∧ HermU l u ∧ ExchU l u
  dipole : ∃ x, b.dipole = some x ∧ HermDip d l x
  spf : ∃ x y, b.spf = some x ∧ b.bra = some y ∧ y.shape = x.shape ∧
    ∀ i, InRange x.shape i → y.get i = (starRingEnd ℂ) (x.get i)

end QS
