import Verif.Model.System

/-! # Which objects hang together -/

namespace QS.World

open QS

variable {K T : Type} [PyScalar K]

/-- Every reference leads to an object, as always in Python. -/
structure Closed (w : World K T) : Prop where
  basis : ∀ (s : ℕ) (x : Sys), w.systems[s]? = some x → ∃ c, w.bases[x.basis]? = some c
  op : ∀ (s : ℕ) (x : Sys) (o : ℕ), w.systems[s]? = some x → x.op = some o → ∃ y, w.ops[o]? = some y
  sys : ∀ (o : ℕ) (y : TEOp K T) (q : ℕ), w.ops[o]? = some y → y.system = some q → ∃ x, w.systems[q]? = some x

/-- The operator of system `r` is bound to system `q`. -/
def Leads (w : World K T) (r q : ℕ) : Prop :=
  ∃ x, w.systems[r]? = some x ∧ ∃ o, x.op = some o ∧ ∃ y, w.ops[o]? = some y ∧ y.system = some q

/-- The systems that can be reached from system `s` through operators. -/
inductive Reaches (w : World K T) (s : ℕ) : ℕ → Prop
  | refl : Reaches w s s
  | step {r q : ℕ} : Reaches w s r → Leads w r q → Reaches w s q

end QS.World
