import Verif.Core.PyM
import Mathlib.Analysis.SpecialFunctions.Pow.Real
import Mathlib.Analysis.SpecialFunctions.Sqrt
import Mathlib.Analysis.SpecialFunctions.ExpDeriv

/-!
# Model of `quantum_dots/one_dim/one_dim_potentials.py`

The potentials act elementwise on arrays; the model is the function of one number.  Floats are real numbers.
-/

namespace QS.Potentials

/-- `np.heaviside(x, h0)`. -/
noncomputable def heaviside (x h0 : ℝ) : ℝ := if x < 0 then 0 else if x = 0 then h0 else 1

/-- The potential objects, one constructor per class with the arguments of its `__init__`
(`one_dim_potentials.py` 14-16, 25-28, 45-52, 73-82, 91-100, 109-114, 125-135, 151-154); the array module that
`GaussianPotential` holds is left out. -/
inductive Potential
  | ho (omega : ℝ)
  | dw (omega l : ℝ)
  | dwSmooth (a : ℝ)
  | symmetricDW (a b c : ℝ)
  | asymmetricDW (a b c : ℝ)
  | gaussian (weight center deviation : ℝ)
  | gaussianHardWall (weight center deviation xWall : ℝ)
  | atomic (Za c : ℝ)

/-- `HOPotential.__call__` (18-19). -/
noncomputable def hoCall (omega x : ℝ) : ℝ := 0.5 * omega ^ 2 * x ^ 2

/-- `HOPotential.derivative` (21-22). -/
def hoDerivative (omega x : ℝ) : ℝ := omega ^ 2 * x

/-- `GaussianPotential.__call__` (116-119). -/
noncomputable def gaussianCall (weight center deviation x : ℝ) : ℝ :=
  -weight * Real.exp (-(x - center) ^ 2 / (2.0 * deviation ^ 2))

/-- `__call__(x)` of the classes (18-19, 30-33, 54-59, 84-85, 102-103, 116-119, 137-148, 156-157).  For
`GaussianPotentialHardWall` this is one entry of the array that the loop of 139-142 and the expression of
144-148 give. -/
noncomputable def Potential.call : Potential → ℝ → ℝ
  | .ho omega, x => hoCall omega x
  | .dw omega l, x => hoCall omega x + 0.5 * omega ^ 2 * (0.25 * l ^ 2 - l * |x|)
  | .dwSmooth a, x => (1.0 / (2 * a ^ 2)) * (x + 0.5 * a) ^ 2 * (x - 0.5 * a) ^ 2
  | .symmetricDW a b c, x => a * x ^ 6 + b * x ^ 4 + c * x ^ 2
  | .asymmetricDW a b c, x => a * x ^ 4 + b * x ^ 3 + c * x ^ 2
  | .gaussian weight center deviation, x => gaussianCall weight center deviation x
  | .gaussianHardWall weight center deviation xWall, x =>
    gaussianCall weight center deviation x + (if |x| > xWall then 1e5 else 0)
  | .atomic Za c, x => -Za / Real.sqrt (x ^ 2 + c)

/-- `derivative(x)` of the classes (10-11, 21-22, 35-42, 61-70, 87-88, 105-106, 121-122, 159-160); the base class
raises `NotImplementedError`. -/
noncomputable def Potential.derivative : Potential → ℝ → Except PyErr ℝ
  | .ho omega, x => .ok (hoDerivative omega x)
  | .dw omega l, x => .ok (hoDerivative omega x - l * omega ^ 2 * (heaviside x 0.5 - 0.5))
  | .dwSmooth a, x => .ok (1 / a ^ 2 * ((x + 0.5 * a) * (x - 0.5 * a) ^ 2 + (x - 0.5 * a) * (x + 0.5 * a) ^ 2))
  | .symmetricDW a b c, x => .ok (6 * a * x ^ 5 + 3 * b * x ^ 3 + 2 * c * x)
  | .asymmetricDW a b c, x => .ok (4 * a * x ^ 3 + 3 * b * x ^ 2 + 2 * c * x)
  | .gaussian weight center deviation, x =>
    .ok (-(x - center) / deviation ^ 2 * gaussianCall weight center deviation x)
  | .gaussianHardWall .., _ => .error .notImplemented
  | .atomic Za c, x => .ok (Za * x / (x ^ 2 + c) ^ ((3 : ℝ) / 2))

end QS.Potentials
