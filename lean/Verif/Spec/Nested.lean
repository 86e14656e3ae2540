import Verif.Model.BasisSet

/-!
# Basis sets that are parts of larger ones
-/

namespace QS

/-- The `l` functions of `b` are the first `l` functions of `b'`: all elements and all values of the functions are the same. -/
structure Nested (l : ℕ) (b b' : BasisSet ℂ) : Prop where
  one : ∃ h h', b.h = some h ∧ b'.h = some h' ∧ ∀ p < l, ∀ q < l, h.get [p, q] = h'.get [p, q]
  overlap : ∃ s s', b.s = some s ∧ b'.s = some s' ∧ ∀ p < l, ∀ q < l, s.get [p, q] = s'.get [p, q]
  two : ∃ u u', b.u = some u ∧ b'.u = some u' ∧
    ∀ p < l, ∀ q < l, ∀ r < l, ∀ s < l, u.get [p, q, r, s] = u'.get [p, q, r, s]
  dim : b.dim = b'.dim
  dipole : ∃ d d', b.dipole = some d ∧ b'.dipole = some d' ∧
    ∀ k < b.dim, ∀ p < l, ∀ q < l, d.get [k, p, q] = d'.get [k, p, q]
  functions : ∃ f f', b.spf = some f ∧ b'.spf = some f' ∧ f.shape.tail = f'.shape.tail ∧
    ∀ p < l, ∀ i, InRange f.shape.tail i → f.get (p :: i) = f'.get (p :: i)

end QS
