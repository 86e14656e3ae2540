import Verif.Model.BasisSet

/-!
# What a basis set "with matching shapes" is

Predicates on the attributes of a basis set, used as hypotheses of the property theorems and
independent of the methods.
-/

namespace QS

variable {K : Type} [PyScalar K]

/-- What reading `bra_spf` returns: the assigned dual, else the conjugate of `spf`. -/
def BasisSet.bra (b : BasisSet K) : Option (NDArray K) :=
  match b.braSpf with
  | some x => some x
  | none => b.spf.map NDArray.conj

/-- A basis set of `l` functions with `h` and `u` (four-index) populated, all populated arrays having
the documented shapes, and an array module set.  `s`, the dipole moments, `spf` and `bra_spf` may be
missing (but there is no `bra_spf` without `spf`); nothing is said about the one-body spin matrices (see `SpinShaped`). -/
structure WellFormed (b : BasisSet K) (l : ℕ) : Prop where
  l_eq : b.l = l
  np : ∃ m, b.np = some m
  h : ∃ x, b.h = some x ∧ x.shape = [l, l]
  u : ∃ x, b.u = some x ∧ x.shape = [l, l, l, l]
  s : ∀ x, b.s = some x → x.shape = [l, l]
  dipole : ∀ x, b.dipole = some x → 0 < b.dim ∧ x.shape = [b.dim, l, l]
  spf : ∀ x, b.spf = some x → ∃ g, x.shape = l :: g ∧ g.length = b.dim
  bra : ∀ x, b.braSpf = some x → ∃ g, x.shape = l :: g ∧ g.length = b.dim
  braNeedsSpf : b.spf = none → b.braSpf = none
  tb : ∀ x, b.spin2tb = some x → x.shape = [l, l, l, l] ∧ b.includesSpin = true

/-- The populated one-body spin matrices match `l` (true of spatial sets, which have none, and right
after spin doubling). -/
structure SpinShaped (b : BasisSet K) (l : ℕ) : Prop where
  x : ∀ m, b.spinX = some m → m.shape = [l, l]
  y : ∀ m, b.spinY = some m → m.shape = [l, l]
  z : ∀ m, b.spinZ = some m → m.shape = [l, l]
  two : ∀ m, b.spin2 = some m → m.shape = [l, l]

/-- No one-body spin matrices are populated, as for every basis set of spatial orbitals. -/
structure NoSpinOps (b : BasisSet K) : Prop where
  x : b.spinX = none
  y : b.spinY = none
  z : b.spinZ = none
  two : b.spin2 = none

theorem NoSpinOps.spinShaped {b : BasisSet K} (h : NoSpinOps b) (l : ℕ) : SpinShaped b l := by
  constructor <;> intro m hm <;> simp_all [h.x, h.y, h.z, h.two]

end QS
