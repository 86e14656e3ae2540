import Verif.Model.Rounding
import Verif.Model.Coulomb

/-!
# `coulomb_ho` in floating-point arithmetic

`Model/Coulomb` computes exactly.  Here a result of `coulomb_ho` is a relation: `np.log`, `math.lgamma`, `np.exp` and
every product and sum have a relative error of at most `u` (no overflow, no underflow).  The routine is compiled with
`fastmath=True`, so the compiler may inline the loops of `log_factorial` and may change the order and the grouping of
every sum: each exponent is the sum of a list of logarithms in an arbitrary order, and so are the sums over `l` and
over `j`.  Integers, signs and multiplications by `0.5` are exact.  Not modelled: distributing a product over a sum.
-/

namespace QS.Rounding

open Coulomb

/-- The numbers added up by `s * log_factorial(n)` (`coulomb_elements.py` 95-102). -/
noncomputable def logTerms (s : ℝ) (n : ℤ) : List ℝ :=
  (List.range (n - 1).toNat).map fun a : ℕ => s * Real.log ((a : ℝ) + 2)

/-- The numbers added up in `ratio_1 + prod_2 + ratio_2` (`coulomb_elements.py` 55-57, 86). -/
noncomputable def outerTerms (n m j : Fin 4 → ℤ) (G : ℤ) : List ℝ :=
  ((List.finRange 4).flatMap fun i => logTerms (-1) (j i)) ++
  ((List.finRange 4).flatMap fun i =>
    logTerms 1 (n i + |m i|) ++ logTerms (-1) (n i - j i) ++ logTerms (-1) (j i + |m i|)) ++
  [logRatio2 G]

/-- The numbers added up in the exponent of the inner loops (`coulomb_elements.py` 78-82). -/
noncomputable def innerTerms (g l : Fin 4 → ℤ) : List ℝ :=
  ((List.finRange 4).flatMap fun i =>
    logTerms 1 (g i) ++ logTerms (-1) (l i) ++ logTerms (-1) (g i - l i)) ++
  [lgamma (1 + 1 / 2 * ((l 0 + l 1 + l 2 + l 3 : ℤ) : ℝ)),
    lgamma (1 / 2 * (((g 0 + g 1 + g 2 + g 3 : ℤ) : ℝ) - ((l 0 + l 1 + l 2 + l 3 : ℤ) : ℝ) + 1))]

/-- The numbers added up in the exponent of `log_product_1` (`coulomb_elements.py` 120-128). -/
noncomputable def normTerms (n m : Fin 4 → ℤ) : List ℝ :=
  (List.finRange 4).flatMap fun i => logTerms (1 / 2) (n i) ++ logTerms (-(1 / 2)) (n i + |m i|)

/-- `e` is a possible result of `np.exp` of the sum of the numbers of a list, each of which has two roundings (the
logarithm and its factor), with at most `d` additions. -/
def FloatExp (u : ℝ) (d : ℕ) (E : List ℝ) (e : ℝ) : Prop :=
  ∃ (t : ℕ → ℝ) (X : ℝ), (∀ i < E.length, ∃ y : ℝ, Near u (E.getD i 0 : ℝ) y ∧ Near u y (t i)) ∧
    FloatTrace u d E.length (fun i => (t i : ℂ)) X ∧ Near u (Real.exp X : ℝ) e

/-- The tuples `(l_1, l_2, l_3, l_4)` that the inner loops do not skip (`coulomb_elements.py` 60-70). -/
def innerList (g : Fin 4 → ℤ) : List (ℕ × ℕ × ℕ × ℕ) :=
  (List.range (g 0 + 1).toNat).flatMap fun l1 => (List.range (g 1 + 1).toNat).flatMap fun l2 =>
    (List.range (g 2 + 1).toNat).flatMap fun l3 =>
      ((List.range (g 3 + 1).toNat).filter fun l4 => l1 + l2 = l3 + l4).map fun l4 => (l1, l2, l3, l4)

/-- The tuples `(j_1, j_2, j_3, j_4)` of the outer loops (`coulomb_elements.py` 40-47). -/
def outerList (ni nj nk nl : ℤ) : List (ℕ × ℕ × ℕ × ℕ) :=
  (List.range (ni + 1).toNat).flatMap fun j1 => (List.range (nj + 1).toNat).flatMap fun j2 =>
    (List.range (nk + 1).toNat).flatMap fun j3 => (List.range (nl + 1).toNat).map fun j4 => (j1, j2, j3, j4)

/-- A tuple as an integer array. -/
def arr (l : ℕ × ℕ × ℕ × ℕ) : Fin 4 → ℤ := ![l.1, l.2.1, l.2.2.1, l.2.2.2]

/-- `z` is a possible value of `temp` after the inner loops (`coulomb_elements.py` 59-82). -/
def FloatInner (u : ℝ) (d : ℕ) (g : Fin 4 → ℤ) (z : ℝ) : Prop :=
  ∃ e : ℕ × ℕ × ℕ × ℕ → ℝ, (∀ l ∈ innerList g, FloatExp u d (innerTerms g (arr l)) (e l)) ∧
    ∃ d' ≤ d, FloatSum u (fun l => ((sign (g 1 + g 2 - arr l 1 - arr l 2) * e l : ℝ) : ℂ)) (innerList g) d' z

/-- `z` is a possible result of `coulomb_ho(n_i, m_i, n_j, m_j, n_l, m_l, n_k, m_k)` (`coulomb_elements.py` 6-92). -/
def FloatCoulomb (u : ℝ) (d : ℕ) (ni mi nj mj nl ml nk mk : ℤ) (z : ℝ) : Prop :=
  if mi + mj ≠ mk + ml then z = 0
  else
    let n : Fin 4 → ℤ := ![ni, nj, nk, nl]
    let m : Fin 4 → ℤ := ![mi, mj, mk, ml]
    let g (j : ℕ × ℕ × ℕ × ℕ) : Fin 4 → ℤ := gArr mi mj mk ml j.1 j.2.1 j.2.2.1 j.2.2.2
    ∃ (e temp t : ℕ × ℕ × ℕ × ℕ → ℝ) (el N : ℝ),
      (∀ j ∈ outerList ni nj nk nl,
        FloatExp u d (outerTerms n m (arr j) (g j 0 + g j 1 + g j 2 + g j 3)) (e j) ∧ FloatInner u d (g j) (temp j) ∧
        Near u (sign (arr j 0 + arr j 1 + arr j 2 + arr j 3) * e j * temp j : ℝ) (t j)) ∧
      (∃ d' ≤ d, FloatSum u (fun j => (t j : ℂ)) (outerList ni nj nk nl) d' el) ∧
      FloatExp u d (normTerms n m) N ∧ Near u (el * N : ℝ) z

/-- `U` is a possible result of `_get_coulomb_elements(num_orbitals)` (`two_dim_helper.py` 252-271): every entry comes
from one call of `coulomb_ho`. -/
def FloatTable (u : ℝ) (d num : ℕ) (U : ℕ → ℕ → ℕ → ℕ → ℝ) : Prop :=
  ∀ p < num, ∀ q < num, ∀ r < num, ∀ s < num,
    FloatCoulomb u d (Idx.getIndicesNm p).1 (Idx.getIndicesNm p).2 (Idx.getIndicesNm q).1 (Idx.getIndicesNm q).2
      (Idx.getIndicesNm r).1 (Idx.getIndicesNm r).2 (Idx.getIndicesNm s).1 (Idx.getIndicesNm s).2 (U p q r s)

end QS.Rounding
