import Verif.Spec.Coulomb

/-!
# The size of the terms of the interaction elements
-/

namespace QS.Spec

open Finset

/-- The inner sum with all terms positive. -/
noncomputable def amInnerScale (γ1 γ2 γ3 γ4 : ℕ) : ℝ :=
  ∑ l1 ∈ range (γ1 + 1), ∑ l2 ∈ range (γ2 + 1), ∑ l3 ∈ range (γ3 + 1), ∑ l4 ∈ range (γ4 + 1),
    if l1 + l2 = l3 + l4 then
      (γ1.choose l1 * γ2.choose l2 * γ3.choose l3 * γ4.choose l4)
        * Real.Gamma (1 + ((l1 + l2 + l3 + l4 : ℕ) : ℝ) / 2)
        * Real.Gamma ((((γ1 + γ2 + γ3 + γ4 : ℕ) : ℝ) - (l1 + l2 + l3 + l4 : ℕ) + 1) / 2)
    else 0

/-- The sum of the absolute values of the terms of the formula of Anisimovas and Matulis for one element. -/
noncomputable def amScale (ni nj nk nl : ℕ) (mi mj mk ml : ℤ) : ℝ :=
  Real.sqrt (
      ((ni.factorial : ℝ) / (ni + mi.natAbs).factorial) * (nj.factorial / (nj + mj.natAbs).factorial)
        * (nk.factorial / (nk + mk.natAbs).factorial) * (nl.factorial / (nl + ml.natAbs).factorial))
    * ∑ j1 ∈ range (ni + 1), ∑ j2 ∈ range (nj + 1), ∑ j3 ∈ range (nk + 1), ∑ j4 ∈ range (nl + 1),
        let γ1 := j1 + j4 + mi.toNat + (-ml).toNat
        let γ2 := j2 + j3 + mj.toNat + (-mk).toNat
        let γ3 := j2 + j3 + mk.toNat + (-mj).toNat
        let γ4 := j1 + j4 + ml.toNat + (-mi).toNat
        1 / (j1.factorial * j2.factorial * j3.factorial * j4.factorial)
          * ((ni + mi.natAbs).choose (ni - j1) * (nj + mj.natAbs).choose (nj - j2)
              * (nk + mk.natAbs).choose (nk - j3) * (nl + ml.natAbs).choose (nl - j4))
          * (Real.sqrt 2 ^ (γ1 + γ2 + γ3 + γ4 + 1))⁻¹
          * amInnerScale γ1 γ2 γ3 γ4

/-- The sum of the energies of the four functions, in units of the oscillator frequency and without the
zero-point energies. -/
def quanta (ni nj nk nl : ℕ) (mi mj mk ml : ℤ) : ℕ :=
  2 * (ni + nj + nk + nl) + (mi.natAbs + mj.natAbs + mk.natAbs + ml.natAbs)

end QS.Spec
