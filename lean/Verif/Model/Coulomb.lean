import Verif.Core.Loops
import Verif.Model.Indices
import Mathlib.Analysis.SpecialFunctions.Log.Basic
import Mathlib.Analysis.SpecialFunctions.Gamma.Basic

/-!
# Model of `quantum_dots/two_dim/coulomb_elements.py` and of `_get_coulomb_elements` in
`two_dim_helper.py` 252-271

Floats are real numbers (no rounding, `fastmath` re-association has no effect); the four-entry integer
arrays `n`, `m`, `j`, `l`, `g` are functions on `Fin 4`.
-/

namespace QS.Coulomb

open Idx

/-- `log_factorial(n)` (`coulomb_elements.py` 95-102): `for a in range(2, n + 1): fac += np.log(a)`. -/
noncomputable def logFactorial (n : ℤ) : ℝ :=
  (List.range (n - 1).toNat).foldl (fun (fac : ℝ) (a : ℕ) => fac + Real.log ((a : ℝ) + 2)) 0

/-- `log_ratio_1(n_arr)` (`coulomb_elements.py` 105-112). -/
noncomputable def logRatio1 (j : Fin 4 → ℤ) : ℝ :=
  (List.finRange 4).foldl (fun (ratio : ℝ) i => ratio - logFactorial (j i)) 0

/-- `log_ratio_2(G)` (`coulomb_elements.py` 115-117). -/
noncomputable def logRatio2 (G : ℤ) : ℝ := -(1 / 2) * (G + 1) * Real.log 2

/-- `log_product_1(n, m)` (`coulomb_elements.py` 120-128). -/
noncomputable def logProduct1 (n m : Fin 4 → ℤ) : ℝ :=
  Real.exp (1 / 2 * (List.finRange 4).foldl (fun (prod : ℝ) i =>
    prod + logFactorial (n i) - logFactorial (n i + |m i|)) 0)

/-- `log_product_2(n, m, j)` (`coulomb_elements.py` 131-140). -/
noncomputable def logProduct2 (n m j : Fin 4 → ℤ) : ℝ :=
  (List.finRange 4).foldl (fun (prod : ℝ) i =>
    prod + logFactorial (n i + |m i|) - logFactorial (n i - j i) - logFactorial (j i + |m i|)) 0

/-- `log_product_3(l, g)` (`coulomb_elements.py` 143-152). -/
noncomputable def logProduct3 (l g : Fin 4 → ℤ) : ℝ :=
  (List.finRange 4).foldl (fun (prod : ℝ) i =>
    prod + logFactorial (g i) - logFactorial (l i) - logFactorial (g i - l i)) 0

/-- `math.lgamma(x)`: the logarithm of the absolute value of the Gamma function. -/
noncomputable def lgamma (x : ℝ) : ℝ := Real.log |Real.Gamma x|

/-- `0.5 * (abs(m) + m)` (`coulomb_elements.py` 22, 25, 28, 31). -/
def bigM (m : ℤ) : ℚ := 1 / 2 * (|m| + m)

/-- `0.5 * (abs(m) - m)` (`coulomb_elements.py` 23, 26, 29, 32). -/
def dm (m : ℤ) : ℚ := 1 / 2 * (|m| - m)

/-- `-2 * (k & 0x1) + 1` (`coulomb_elements.py` 75-77, 85). -/
def sign (k : ℤ) : ℝ := ((-2 * (k % 2) + 1 : ℤ) : ℝ)

/-- The array `g` (`coulomb_elements.py` 49-52).  Storing a float in an `int64` array cuts off its
fractional part; the values are never negative. -/
def gArr (mi mj mk ml : ℤ) (j1 j2 j3 j4 : ℕ) : Fin 4 → ℤ :=
  ![⌊(j1 : ℚ) + j4 + bigM mi + dm ml⌋, ⌊(j2 : ℚ) + j3 + bigM mj + dm mk⌋,
    ⌊(j3 : ℚ) + j2 + bigM mk + dm mj⌋, ⌊(j4 : ℚ) + j1 + bigM ml + dm mi⌋]

/-- The four inner loops (`coulomb_elements.py` 59-82), the value of `temp` after them. -/
noncomputable def innerLoops (g : Fin 4 → ℤ) : ℝ :=
  let G : ℤ := g 0 + g 1 + g 2 + g 3
  (List.range (g 0 + 1).toNat).foldl (fun (temp : ℝ) (l1 : ℕ) =>
    (List.range (g 1 + 1).toNat).foldl (fun (temp : ℝ) (l2 : ℕ) =>
      (List.range (g 2 + 1).toNat).foldl (fun (temp : ℝ) (l3 : ℕ) =>
        (List.range (g 3 + 1).toNat).foldl (fun (temp : ℝ) (l4 : ℕ) =>
          if l1 + l2 ≠ l3 + l4 then temp
          else
            let l : Fin 4 → ℤ := ![l1, l2, l3, l4]
            let L : ℤ := l 0 + l 1 + l 2 + l 3
            temp + sign (g 1 + g 2 - l 1 - l 2)
              * Real.exp (logProduct3 l g + lgamma (1 + 1 / 2 * L) + lgamma (1 / 2 * (G - L + 1))))
          temp) temp) temp) 0

/-- `coulomb_ho(n_i, m_i, n_j, m_j, n_l, m_l, n_k, m_k)` (`coulomb_elements.py` 6-92). -/
noncomputable def coulombHo (ni mi nj mj nl ml nk mk : ℤ) : ℝ :=
  if mi + mj ≠ mk + ml then 0
  else
    let n : Fin 4 → ℤ := ![ni, nj, nk, nl]
    let m : Fin 4 → ℤ := ![mi, mj, mk, ml]
    let element :=
      (List.range (ni + 1).toNat).foldl (fun (element : ℝ) (j1 : ℕ) =>
        (List.range (nj + 1).toNat).foldl (fun (element : ℝ) (j2 : ℕ) =>
          (List.range (nk + 1).toNat).foldl (fun (element : ℝ) (j3 : ℕ) =>
            (List.range (nl + 1).toNat).foldl (fun (element : ℝ) (j4 : ℕ) =>
              let j : Fin 4 → ℤ := ![j1, j2, j3, j4]
              let g := gArr mi mj mk ml j1 j2 j3 j4
              let G : ℤ := g 0 + g 1 + g 2 + g 3
              let ratio1 := logRatio1 j
              let prod2 := logProduct2 n m j
              let ratio2 := logRatio2 G
              let temp := innerLoops g
              element + sign (j 0 + j 1 + j 2 + j 3) * Real.exp (ratio1 + prod2 + ratio2) * temp)
            element) element) element) 0
    element * logProduct1 n m

/-- `_get_coulomb_elements(num_orbitals)` (`two_dim_helper.py` 252-271).  The iterations of `prange` write
different entries; they are done in order here, and by threads in `Model/ParallelCoulomb`. -/
noncomputable def getCoulombElementsRaw (num : ℕ) : Except PyErr (NDArray ℂ) :=
  (List.range num).foldlM (fun u p =>
    (List.range num).foldlM (fun u q =>
      (List.range num).foldlM (fun u r =>
        (List.range num).foldlM (fun u s =>
          NDArray.setItem u [p, q, r, s] (coulombHo
            (getIndicesNm p).1 (getIndicesNm p).2 (getIndicesNm q).1 (getIndicesNm q).2
            (getIndicesNm r).1 (getIndicesNm r).2 (getIndicesNm s).1 (getIndicesNm s).2 : ℝ)) u) u) u)
    (NDArray.zeros .float64 [num, num, num, num])

end QS.Coulomb
