import Verif.Spec.Adiabatic
import Verif.Spec.System
import Mathlib.Analysis.SpecialFunctions.Sqrt

/-!
# Distances between wave functions
-/

namespace QS

/-- The distance of two wave functions: the square root of the integral (sum) of the square of their difference. -/
noncomputable def stateDistance {N L : ℕ} (Φ Ψ : Wave ℂ N L) : ℝ := Real.sqrt (∑ x, ‖Φ x - Ψ x‖ ^ 2)

/-- In the world `w`, the operator object `o` has been set on the system `s` with the basis set `b`, and it is a `LaserField` with
the pulse `c` and the polarisation `e`, at least one of them given as a callable. -/
def LaserRun (w : World ℂ ℝ) (s o : ℕ) (b : BasisSet ℂ) (c : ℝ → ℂ) (e : ℝ → ℕ → ℂ) : Prop :=
  ∃ (w₀ : World ℂ ℝ) (x : Sys) (y : TEOp ℂ ℝ) (pulse : Attr ℂ ℝ) (pol : Option (Attr ℂ ℝ)) (f : ℝ → Val ℂ),
    SysOK w₀ s x b ∧ b.dipole.isSome = true ∧ w₀.ops[o]? = some y ∧ y.kind = .laser pulse pol ∧ Given pulse f ∧
    (∀ t, IsNumber (f t) (c t)) ∧ GivenPol pol b.dim e ∧ (IsCallable pulse ∨ ∃ a, pol = some a ∧ IsCallable a) ∧
    (World.setTimeEvolutionOperator s (some o)).run w₀ = (.ok (), w)

end QS
