import Verif.Model.Potentials

/-! # Where the potentials are defined -/

namespace QS.Spec

open Potentials

/-- The parameters and points for which the expressions of the potential make sense and the potential is smooth:
no division by zero, no root of a number that is not positive, no cusp. -/
def Regular : Potential → ℝ → Prop
  | .dw _ _, x => x ≠ 0
  | .dwSmooth a, _ => a ≠ 0
  | .gaussian _ _ deviation, _ => deviation ≠ 0
  | .gaussianHardWall _ _ deviation xWall, x => deviation ≠ 0 ∧ |x| ≠ xWall
  | .atomic _ c, x => 0 < x ^ 2 + c
  | _, _ => True

end QS.Spec
