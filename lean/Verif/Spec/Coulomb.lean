import Mathlib.Analysis.SpecialFunctions.Gamma.Basic
import Mathlib.Analysis.SpecialFunctions.Sqrt
import Mathlib.Data.Nat.Choose.Basic

/-!
# The Coulomb elements of Anisimovas and Matulis

E. Anisimovas and A. Matulis, J. Phys.: Condens. Matter 10, 601 (1998), written with factorials,
binomial coefficients, powers and Gamma functions.
-/

namespace QS.Spec

open Finset

/-- The inner sum over `l₁ … l₄` for given `γ₁ … γ₄`. -/
noncomputable def amInner (γ1 γ2 γ3 γ4 : ℕ) : ℝ :=
  ∑ l1 ∈ range (γ1 + 1), ∑ l2 ∈ range (γ2 + 1), ∑ l3 ∈ range (γ3 + 1), ∑ l4 ∈ range (γ4 + 1),
    if l1 + l2 = l3 + l4 then
      (-1 : ℝ) ^ (γ2 + γ3 - l2 - l3)
        * (γ1.choose l1 * γ2.choose l2 * γ3.choose l3 * γ4.choose l4)
        * Real.Gamma (1 + ((l1 + l2 + l3 + l4 : ℕ) : ℝ) / 2)
        * Real.Gamma ((((γ1 + γ2 + γ3 + γ4 : ℕ) : ℝ) - (l1 + l2 + l3 + l4 : ℕ) + 1) / 2)
    else 0

/-- The interaction element `⟨ij|V|kl⟩` in the convention of Anisimovas and Matulis, where particle 1 is
in the states `i` and `l` and particle 2 in `j` and `k`. -/
noncomputable def anisimovasMatulis (ni nj nk nl : ℕ) (mi mj mk ml : ℤ) : ℝ :=
  if mi + mj = mk + ml then
    Real.sqrt (
      ((ni.factorial : ℝ) / (ni + mi.natAbs).factorial) * (nj.factorial / (nj + mj.natAbs).factorial)
        * (nk.factorial / (nk + mk.natAbs).factorial) * (nl.factorial / (nl + ml.natAbs).factorial))
    * ∑ j1 ∈ range (ni + 1), ∑ j2 ∈ range (nj + 1), ∑ j3 ∈ range (nk + 1), ∑ j4 ∈ range (nl + 1),
        let γ1 := j1 + j4 + mi.toNat + (-ml).toNat
        let γ2 := j2 + j3 + mj.toNat + (-mk).toNat
        let γ3 := j2 + j3 + mk.toNat + (-mj).toNat
        let γ4 := j1 + j4 + ml.toNat + (-mi).toNat
        (-1 : ℝ) ^ (j1 + j2 + j3 + j4)
          / (j1.factorial * j2.factorial * j3.factorial * j4.factorial)
          * ((ni + mi.natAbs).choose (ni - j1) * (nj + mj.natAbs).choose (nj - j2)
              * (nk + mk.natAbs).choose (nk - j3) * (nl + ml.natAbs).choose (nl - j4))
          * (Real.sqrt 2 ^ (γ1 + γ2 + γ3 + γ4 + 1))⁻¹
          * amInner γ1 γ2 γ3 γ4
  else 0

end QS.Spec
