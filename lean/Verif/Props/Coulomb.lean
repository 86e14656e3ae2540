import Verif.Lemmas.Coulomb
import Verif.Props.Indices
import Mathlib.Analysis.SpecialFunctions.Gaussian.GaussianIntegral

/-!
# Coulomb elements of the two-dimensional oscillator (C44–C46)
-/

namespace QS.Props

open Coulomb Idx Spec NDArray

/-! ## C44 -/

/-- **C44** The table of Coulomb elements is computed for every size, and an element with
`m_p + m_q ≠ m_r + m_s` is zero. -/
theorem C44_selection_rule (num : ℕ) : ∃ u, getCoulombElementsRaw num = .ok u ∧
    u.shape = [num, num, num, num] ∧
    ∀ p q r s, (getIndicesNm p).2 + (getIndicesNm q).2 ≠ (getIndicesNm r).2 + (getIndicesNm s).2 →
      u.get [p, q, r, s] = 0 := by
  refine ⟨_, getCoulombElementsRaw_eq num, rfl, fun p q r s hm => ?_⟩
  by_cases hi : InRange [num, num, num, num] [p, q, r, s]
  · rw [ofFn_get_of hi]
    simp only [List.getD_cons_zero, List.getD_cons_succ]
    rw [coulombHo, if_pos (by rwa [add_comm (getIndicesNm s).2])]
    simp
  · exact if_neg hi

/-- `m = -1, 1, -2` for the orbitals 1, 2, 3, so `u[1, 2, 3, 0] = 0`. -/
example : ∃ u, getCoulombElementsRaw 6 = .ok u ∧ u.get [1, 2, 3, 0] = 0 := by
  obtain ⟨u, h, -, h0⟩ := C44_selection_rule 6
  exact ⟨u, h, h0 1 2 3 0 (by decide +kernel)⟩

/-! ## C46 -/

/-- **C46** `coulomb_ho` equals the formula of Anisimovas and Matulis, for all quantum numbers. -/
theorem C46_formula (ni nj nl nk : ℕ) (mi mj ml mk : ℤ) :
    coulombHo ni mi nj mj nl ml nk mk = anisimovasMatulis ni nj nk nl mi mj mk ml :=
  coulombHo_eq ni nj nk nl mi mj mk ml

/-- `⟨00|u|00⟩ = √(π/2)`. -/
example : coulombHo 0 0 0 0 0 0 0 0 = Real.sqrt (Real.pi / 2) := by
  have h := C46_formula 0 0 0 0 0 0 0 0
  simp only [Nat.cast_zero] at h
  rw [h]
  have hg : Real.Gamma 2⁻¹ = Real.sqrt Real.pi := by rw [← one_div, Real.Gamma_one_half_eq]
  simp [anisimovasMatulis, amInner, hg]
  ring

/-- **C46** The stored table holds these elements, `u[p,q,r,s]` being the formula with particle 1 in `p` and
`r` and particle 2 in `q` and `s`. -/
theorem C46_table (num : ℕ) : ∃ u, getCoulombElementsRaw num = .ok u ∧
    u.shape = [num, num, num, num] ∧ ∀ p q r s, p < num → q < num → r < num → s < num →
      u.get [p, q, r, s] = (anisimovasMatulis (getIndicesNm p).1.toNat (getIndicesNm q).1.toNat
        (getIndicesNm s).1.toNat (getIndicesNm r).1.toNat (getIndicesNm p).2 (getIndicesNm q).2
        (getIndicesNm s).2 (getIndicesNm r).2 : ℝ) := by
  refine ⟨_, getCoulombElementsRaw_eq num, rfl, fun p q r s hp hq hr hs => ?_⟩
  rw [ofFn_get_of (show InRange [num, num, num, num] [p, q, r, s] from ⟨hp, hq, hr, hs, trivial⟩)]
  simp only [List.getD_cons_zero, List.getD_cons_succ]
  rw [← C46_formula, Int.toNat_of_nonneg (C42_nonneg p), Int.toNat_of_nonneg (C42_nonneg q),
    Int.toNat_of_nonneg (C42_nonneg r), Int.toNat_of_nonneg (C42_nonneg s)]

example : ∃ u, getCoulombElementsRaw 2 = .ok u ∧
    u.get [0, 1, 0, 1] = (anisimovasMatulis 0 0 0 0 0 (-1) (-1) 0 : ℝ) := by
  obtain ⟨u, h, -, h0⟩ := C46_table 2
  refine ⟨u, h, (h0 0 1 0 1 (by simp) (by simp) (by simp) (by simp)).trans ?_⟩
  rw [show getIndicesNm 0 = (0, 0) by decide +kernel, show getIndicesNm 1 = (0, -1) by decide +kernel]
  rfl

/-! ## C45 -/

/-- **C45** For all quantum numbers the elements are unchanged if the particles are exchanged, if bra and ket
are exchanged, and if every `m` changes sign. -/
theorem C45_quantum_numbers (np nq nr ns : ℕ) (mp mq mr ms : ℤ) :
    coulombHo nq mq np mp ns ms nr mr = coulombHo np mp nq mq nr mr ns ms ∧
    coulombHo nr mr ns ms np mp nq mq = coulombHo np mp nq mq nr mr ns ms ∧
    coulombHo np (-mp) nq (-mq) nr (-mr) ns (-ms) = coulombHo np mp nq mq nr mr ns ms := by
  simp only [coulombHo_eq]
  exact ⟨am_exchange np nq ns nr mp mq ms mr, am_hermitian np nq ns nr mp mq ms mr,
    am_reflect np nq ns nr mp mq ms mr⟩

example : coulombHo 1 (-2) 0 3 2 0 0 1 = coulombHo 0 3 1 (-2) 0 1 2 0 :=
  (C45_quantum_numbers 0 1 0 2 3 (-2) 1 0).1

/-- **C45** For every size and all orbitals, `u[pqrs] = u[qpsr] = u[rspq]`, and `u[pqrs] = u[p'q'r's']`
where the primed orbitals have the same `n` and opposite `m`. -/
theorem C45_table (num : ℕ) : ∃ u, getCoulombElementsRaw num = .ok u ∧
    ∀ p q r s, p < num → q < num → r < num → s < num →
      u.get [q, p, s, r] = u.get [p, q, r, s] ∧ u.get [r, s, p, q] = u.get [p, q, r, s] ∧
      ∀ p' q' r' s', p' < num → q' < num → r' < num → s' < num →
        getIndicesNm p' = ((getIndicesNm p).1, -(getIndicesNm p).2) →
        getIndicesNm q' = ((getIndicesNm q).1, -(getIndicesNm q).2) →
        getIndicesNm r' = ((getIndicesNm r).1, -(getIndicesNm r).2) →
        getIndicesNm s' = ((getIndicesNm s).1, -(getIndicesNm s).2) →
        u.get [p', q', r', s'] = u.get [p, q, r, s] := by
  obtain ⟨u, hu, -, h⟩ := C46_table num
  refine ⟨u, hu, fun p q r s hp hq hr hs => ⟨?_, ?_, ?_⟩⟩
  · rw [h p q r s hp hq hr hs, h q p s r hq hp hs hr, am_exchange]
  · rw [h p q r s hp hq hr hs, h r s p q hr hs hp hq, am_hermitian]
  · intro p' q' r' s' hp' hq' hr' hs' ep eq er es
    rw [h p q r s hp hq hr hs, h p' q' r' s' hp' hq' hr' hs', ep, eq, er, es, am_reflect]

/-- Orbital 1 has `m = -1` and orbital 2 has `m = 1`. -/
example : ∃ u, getCoulombElementsRaw 3 = .ok u ∧ u.get [1, 0, 1, 0] = u.get [2, 0, 2, 0] := by
  obtain ⟨u, hu, h⟩ := C45_table 3
  refine ⟨u, hu, ((h 2 0 2 0 (by simp) (by simp) (by simp) (by simp)).2.2 1 0 1 0 (by simp) (by simp)
    (by simp) (by simp) ?_ ?_ ?_ ?_)⟩ <;> decide +kernel

end QS.Props
