import Verif.Lemmas.RoundingCoulomb
import Verif.Props.Coulomb
import Verif.Props.Indices
import Mathlib.Analysis.SpecialFunctions.Gamma.BohrMollerup
import Mathlib.Data.Nat.Choose.Central

/-!
# Property C126: rounding errors of the interaction elements of two-dimensional dots
-/

namespace QS.Props

open Finset Spec Coulomb Idx QS.Rounding

/-! ## The size of the exponents -/

theorem logFactorial_bounds (k : ℕ) : 0 ≤ logFactorial k ∧ logFactorial k ≤ (k : ℝ) ^ 2 := by
  rw [logFactorial_nat]
  have h1 : (1 : ℝ) ≤ k.factorial := by exact_mod_cast k.factorial_pos
  refine ⟨Real.log_nonneg h1, ?_⟩
  rcases Nat.eq_zero_or_pos k with rfl | hk
  · simp
  have h2 : (k.factorial : ℝ) ≤ (k : ℝ) ^ k := by exact_mod_cast Nat.factorial_le_pow k
  calc Real.log k.factorial ≤ Real.log ((k : ℝ) ^ k) := Real.log_le_log (by linarith) h2
    _ = k * Real.log k := Real.log_pow _ _
    _ ≤ k * k := mul_le_mul_of_nonneg_left (Real.log_le_self (by positivity)) (by positivity)
    _ = (k : ℝ) ^ 2 := by ring

theorem absSum_append (A B : List ℝ) : absSum (A ++ B) = absSum A + absSum B := by
  simp [absSum]

theorem absSum_logTerms (s : ℝ) (n : ℤ) : absSum (logTerms s n) = |s| * logFactorial n := by
  rw [absSum, logTerms, List.map_map, list_sum_range, logFactorial, NDArray.foldl_range_add, zero_add, mul_sum]
  refine sum_congr rfl fun a _ => ?_
  rw [Function.comp_apply, abs_mul, abs_of_nonneg (Real.log_nonneg _)]
  have : (0 : ℝ) ≤ a := by positivity
  linarith

/-- The logarithm of the Gamma function at half-integers. -/
theorem lgamma_half (n : ℕ) : |lgamma (((n : ℝ) + 1) / 2)| ≤ ((n : ℝ) + 1) ^ 2 := by
  induction n using Nat.strong_induction_on with
  | _ n ih =>
    match n with
    | 0 =>
      have h1 : Real.sqrt Real.pi ≤ 2 := by
        rw [Real.sqrt_le_left (by norm_num)]; linarith [Real.pi_le_four]
      have h2 : 1 ≤ Real.sqrt Real.pi := Real.one_le_sqrt.2 (by linarith [Real.two_le_pi])
      rw [Nat.cast_zero, zero_add, lgamma, Real.Gamma_one_half_eq,
        abs_of_nonneg (a := Real.sqrt Real.pi) (by linarith), abs_of_nonneg (Real.log_nonneg h2)]
      have := Real.log_le_sub_one_of_pos (show 0 < Real.sqrt Real.pi by linarith)
      linarith
    | 1 => norm_num [lgamma]
    | k + 2 =>
      have hp : (0 : ℝ) < ((k : ℝ) + 1) / 2 := by positivity
      have e : ((((k + 2 : ℕ) : ℝ)) + 1) / 2 = ((k : ℝ) + 1) / 2 + 1 := by push_cast; ring
      have hg := Real.Gamma_pos_of_pos hp
      have i := ih k (by omega)
      rw [e, lgamma, Real.Gamma_add_one hp.ne', abs_of_pos (mul_pos hp hg), Real.log_mul hp.ne' hg.ne']
      rw [lgamma, abs_of_pos hg] at i
      have h1 : |Real.log (((k : ℝ) + 1) / 2)| ≤ (k : ℝ) + 1 := by
        rw [abs_le]
        constructor
        · have := Real.one_sub_inv_le_log_of_pos hp
          have : (((k : ℝ) + 1) / 2)⁻¹ ≤ 2 := by
            rw [inv_div, div_le_iff₀ (by positivity)]
            have : (0 : ℝ) ≤ k := by positivity
            linarith
          have : (0 : ℝ) ≤ k := by positivity
          linarith
        · have := Real.log_le_sub_one_of_pos hp
          have : (0 : ℝ) ≤ k := by positivity
          linarith
      have := abs_add_le (Real.log (((k : ℝ) + 1) / 2)) (Real.log (Real.Gamma (((k : ℝ) + 1) / 2)))
      push_cast
      have : (0 : ℝ) ≤ k := by positivity
      nlinarith

theorem mem_innerList {a b c d : ℕ} {l : ℕ × ℕ × ℕ × ℕ} (h : l ∈ innerList ![(a : ℤ), b, c, d]) :
    l.1 ≤ a ∧ l.2.1 ≤ b ∧ l.2.2.1 ≤ c ∧ l.2.2.2 ≤ d := by
  have t (k : ℕ) : ((k : ℤ) + 1).toNat = k + 1 := by omega
  simp only [innerList, Matrix.cons_val, t, List.mem_flatMap, List.mem_map, List.mem_filter, List.mem_range] at h
  obtain ⟨l1, h1, l2, h2, l3, h3, l4, h4, rfl⟩ := h
  exact ⟨Nat.lt_succ_iff.1 h1, Nat.lt_succ_iff.1 h2, Nat.lt_succ_iff.1 h3, Nat.lt_succ_iff.1 h4.1⟩

theorem mem_outerList {a b c d : ℕ} {l : ℕ × ℕ × ℕ × ℕ} :
    l ∈ outerList a b c d ↔ l.1 ≤ a ∧ l.2.1 ≤ b ∧ l.2.2.1 ≤ c ∧ l.2.2.2 ≤ d := by
  have t (k : ℕ) : ((k : ℤ) + 1).toNat = k + 1 := by omega
  simp only [outerList, t, List.mem_flatMap, List.mem_map, List.mem_range]
  constructor
  · rintro ⟨l1, h1, l2, h2, l3, h3, l4, h4, rfl⟩
    exact ⟨Nat.lt_succ_iff.1 h1, Nat.lt_succ_iff.1 h2, Nat.lt_succ_iff.1 h3, Nat.lt_succ_iff.1 h4⟩
  · intro h
    exact ⟨l.1, by omega, l.2.1, by omega, l.2.2.1, by omega, l.2.2.2, by omega, rfl⟩

theorem sq_add_sq_le {x y : ℝ} (hx : 0 ≤ x) (hy : 0 ≤ y) : x ^ 2 + y ^ 2 ≤ (x + y) ^ 2 := by
  nlinarith [mul_nonneg hx hy]

theorem nine_quarters {Q : ℝ} (hQ : 0 ≤ Q) : 9 / 4 * Q ^ 2 + (Q + 1) ≤ 3 * (Q + 2) ^ 2 := by nlinarith

theorem inner_bound {a b c d : ℕ} {l : ℕ × ℕ × ℕ × ℕ} (h : l ∈ innerList ![(a : ℤ), b, c, d]) {Q : ℕ}
    (hQ : a + b + c + d ≤ Q) : absSum (innerTerms ![(a : ℤ), b, c, d] (arr l)) ≤ 4 * ((Q : ℝ) + 2) ^ 2 := by
  obtain ⟨h1, h2, h3, h4⟩ := mem_innerList h
  obtain ⟨l1, l2, l3, l4⟩ := l
  dsimp only at h1 h2 h3 h4
  obtain ⟨a', rfl⟩ := Nat.exists_eq_add_of_le h1
  obtain ⟨b', rfl⟩ := Nat.exists_eq_add_of_le h2
  obtain ⟨c', rfl⟩ := Nat.exists_eq_add_of_le h3
  obtain ⟨d', rfl⟩ := Nat.exists_eq_add_of_le h4
  have sub (x y : ℕ) : ((x + y : ℕ) : ℤ) - (x : ℤ) = (y : ℕ) := by push_cast; ring
  have lg1 := lgamma_half (l1 + l2 + l3 + l4 + 1)
  have lg2 := lgamma_half (a' + b' + c' + d')
  have e1 : (1 : ℝ) + 1 / 2 * (((l1 : ℤ) + l2 + l3 + l4 : ℤ) : ℝ) = (((l1 + l2 + l3 + l4 + 1 : ℕ) : ℝ) + 1) / 2 := by
    push_cast; ring
  have e2 : 1 / 2 * (((((l1 + a' : ℕ) : ℤ) + (l2 + b' : ℕ) + (l3 + c' : ℕ) + (l4 + d' : ℕ) : ℤ) : ℝ) -
      (((l1 : ℤ) + l2 + l3 + l4 : ℤ) : ℝ) + 1) = (((a' + b' + c' + d' : ℕ) : ℝ) + 1) / 2 := by
    push_cast; ring
  have hq : ((l1 + a' + (l2 + b') + (l3 + c') + (l4 + d') : ℕ) : ℝ) ≤ Q := by exact_mod_cast hQ
  simp only [innerTerms, finRange4, List.flatMap_cons, List.flatMap_nil, List.append_nil, absSum_append,
    absSum_logTerms, arr, Matrix.cons_val, sub, e1, e2]
  simp only [absSum, List.map_cons, List.map_nil, List.sum_cons, List.sum_nil, abs_neg, abs_one, one_mul]
  have f1 := logFactorial_bounds (l1 + a')
  have f2 := logFactorial_bounds (l2 + b')
  have f3 := logFactorial_bounds (l3 + c')
  have f4 := logFactorial_bounds (l4 + d')
  have g1 := logFactorial_bounds l1
  have g2 := logFactorial_bounds l2
  have g3 := logFactorial_bounds l3
  have g4 := logFactorial_bounds l4
  have k1 := logFactorial_bounds a'
  have k2 := logFactorial_bounds b'
  have k3 := logFactorial_bounds c'
  have k4 := logFactorial_bounds d'
  push_cast at *
  have p1 : (0 : ℝ) ≤ l1 := by positivity
  have p2 : (0 : ℝ) ≤ l2 := by positivity
  have p3 : (0 : ℝ) ≤ l3 := by positivity
  have p4 : (0 : ℝ) ≤ l4 := by positivity
  have q1 : (0 : ℝ) ≤ a' := by positivity
  have q2 : (0 : ℝ) ≤ b' := by positivity
  have q3 : (0 : ℝ) ≤ c' := by positivity
  have q4 : (0 : ℝ) ≤ d' := by positivity
  generalize (l1 : ℝ) = x1 at *
  generalize (l2 : ℝ) = x2 at *
  generalize (l3 : ℝ) = x3 at *
  generalize (l4 : ℝ) = x4 at *
  generalize (a' : ℝ) = y1 at *
  generalize (b' : ℝ) = y2 at *
  generalize (c' : ℝ) = y3 at *
  generalize (d' : ℝ) = y4 at *
  have s1 := sq_add_sq_le p1 q1
  have s2 := sq_add_sq_le p2 q2
  have s3 := sq_add_sq_le p3 q3
  have s4 := sq_add_sq_le p4 q4
  have s5 := sq_add_sq_le (x := x1 + y1) (y := x2 + y2) (by linarith) (by linarith)
  have s6 := sq_add_sq_le (x := x1 + y1 + (x2 + y2)) (y := x3 + y3) (by linarith) (by linarith)
  have s7 := sq_add_sq_le (x := x1 + y1 + (x2 + y2) + (x3 + y3)) (y := x4 + y4) (by linarith) (by linarith)
  have s8 : (x1 + y1 + (x2 + y2) + (x3 + y3) + (x4 + y4)) ^ 2 ≤ ((Q : ℝ) + 2) ^ 2 :=
    pow_le_pow_left₀ (by linarith) (by linarith) 2
  have s9 : (x1 + x2 + x3 + x4 + 1 + 1) ^ 2 ≤ ((Q : ℝ) + 2) ^ 2 := pow_le_pow_left₀ (by linarith) (by linarith) 2
  have s10 : (y1 + y2 + y3 + y4 + 1) ^ 2 ≤ ((Q : ℝ) + 2) ^ 2 := pow_le_pow_left₀ (by linarith) (by linarith) 2
  linarith

theorem g_sum (mi mj mk ml : ℤ) (j1 j2 j3 j4 : ℕ) :
    (j1 + j4 + mi.toNat + (-ml).toNat) + (j2 + j3 + mj.toNat + (-mk).toNat) + (j2 + j3 + mk.toNat + (-mj).toNat) +
      (j1 + j4 + ml.toNat + (-mi).toNat) =
    2 * (j1 + j2 + j3 + j4) + (mi.natAbs + mj.natAbs + mk.natAbs + ml.natAbs) := by
  omega

theorem four_logs (x y z : ℕ) : logFactorial (x : ℤ) + (logFactorial ((x + y + z : ℕ) : ℤ) + logFactorial (y : ℤ) +
    logFactorial ((x + z : ℕ) : ℤ)) ≤ 9 / 4 * (2 * (x + y) + z : ℝ) ^ 2 := by
  have f1 := logFactorial_bounds x
  have f2 := logFactorial_bounds (x + y + z)
  have f3 := logFactorial_bounds y
  have f4 := logFactorial_bounds (x + z)
  push_cast at *
  have p1 : (0 : ℝ) ≤ x := by positivity
  have p2 : (0 : ℝ) ≤ y := by positivity
  have p3 : (0 : ℝ) ≤ z := by positivity
  nlinarith [mul_nonneg p1 p2, mul_nonneg p1 p3, mul_nonneg p2 p3, mul_nonneg p3 p3, mul_nonneg p2 p2,
    mul_nonneg p1 p1]

theorem outer_bound {ni nj nk nl : ℕ} {mi mj mk ml : ℤ} {j : ℕ × ℕ × ℕ × ℕ} (h : j ∈ outerList ni nj nk nl) :
    absSum (outerOf ni nj nk nl mi mj mk ml j) ≤ 3 * ((quanta ni nj nk nl mi mj mk ml : ℝ) + 2) ^ 2 := by
  obtain ⟨h1, h2, h3, h4⟩ := mem_outerList.1 h
  obtain ⟨j1, j2, j3, j4⟩ := j
  dsimp only at h1 h2 h3 h4
  obtain ⟨a, rfl⟩ := Nat.exists_eq_add_of_le h1
  obtain ⟨b, rfl⟩ := Nat.exists_eq_add_of_le h2
  obtain ⟨c, rfl⟩ := Nat.exists_eq_add_of_le h3
  obtain ⟨d, rfl⟩ := Nat.exists_eq_add_of_le h4
  have sub (x y : ℕ) : ((x + y : ℕ) : ℤ) - (x : ℤ) = (y : ℕ) := by push_cast; ring
  have hG := g_sum mi mj mk ml j1 j2 j3 j4
  simp only [outerOf, gOf, gArr_eq, outerTerms, finRange4, List.flatMap_cons, List.flatMap_nil, List.append_nil,
    absSum_append, absSum_logTerms, arr, Matrix.cons_val, sub, Int.abs_eq_natAbs]
  simp only [← Nat.cast_add, hG, quanta]
  clear hG
  generalize mi.natAbs = u1 at *
  generalize mj.natAbs = u2 at *
  generalize mk.natAbs = u3 at *
  generalize ml.natAbs = u4 at *
  simp only [absSum, List.map_cons, List.map_nil, List.sum_cons, List.sum_nil, abs_neg, abs_one, one_mul]
  have hr : |logRatio2 ((2 * (j1 + j2 + j3 + j4) + (u1 + u2 + u3 + u4) : ℕ) : ℤ)| ≤
      ((2 * (j1 + j2 + j3 + j4) + (u1 + u2 + u3 + u4) : ℕ) : ℝ) + 1 := by
    have l1 : Real.log 2 ≤ 1 := by
      have := Real.log_le_sub_one_of_pos (show (0 : ℝ) < 2 by norm_num)
      linarith
    have l0 : 0 ≤ Real.log 2 := Real.log_nonneg (by norm_num)
    generalize (2 * (j1 + j2 + j3 + j4) + (u1 + u2 + u3 + u4) : ℕ) = G
    have hG : (0 : ℝ) ≤ G := by positivity
    rw [logRatio2, Int.cast_natCast, abs_mul, abs_mul, abs_of_nonneg l0, abs_neg, abs_of_pos (by norm_num : (0:ℝ) < 1 / 2),
      abs_of_nonneg (by linarith)]
    nlinarith
  have A1 := four_logs j1 a u1
  have A2 := four_logs j2 b u2
  have A3 := four_logs j3 c u3
  have A4 := four_logs j4 d u4
  have q (x y z : ℕ) : (0 : ℝ) ≤ 2 * ((x : ℝ) + y) + z := by positivity
  have q1 := q j1 a u1
  have q2 := q j2 b u2
  have q3 := q j3 c u3
  have q4 := q j4 d u4
  have r1 : (0 : ℝ) ≤ a := by positivity
  have r2 : (0 : ℝ) ≤ b := by positivity
  have r3 : (0 : ℝ) ≤ c := by positivity
  have r4 : (0 : ℝ) ≤ d := by positivity
  push_cast at hr ⊢
  have s1 := sq_add_sq_le q1 q2
  have s2 := sq_add_sq_le (add_nonneg q1 q2) q3
  have s3 := sq_add_sq_le (add_nonneg (add_nonneg q1 q2) q3) q4
  have hQ := add_nonneg (add_nonneg (add_nonneg q1 q2) q3) q4
  have e : (2 * ((j1 : ℝ) + a + (j2 + b) + (j3 + c) + (j4 + d)) + (u1 + u2 + u3 + u4)) =
    2 * ((j1 : ℝ) + a) + u1 + (2 * ((j2 : ℝ) + b) + u2) + (2 * ((j3 : ℝ) + c) + u3) + (2 * ((j4 : ℝ) + d) + u4) := by
    ring
  rw [e]
  push_cast at A1 A2 A3 A4
  have hG : 2 * ((j1 : ℝ) + j2 + j3 + j4) + (u1 + u2 + u3 + u4) ≤
    2 * ((j1 : ℝ) + a) + u1 + (2 * ((j2 : ℝ) + b) + u2) + (2 * ((j3 : ℝ) + c) + u3) + (2 * ((j4 : ℝ) + d) + u4) := by
    linarith
  have := nine_quarters hQ
  linarith

theorem norm_bound (ni nj nk nl : ℕ) (mi mj mk ml : ℤ) :
    absSum (normTerms ![(ni : ℤ), nj, nk, nl] ![mi, mj, mk, ml]) ≤ ((quanta ni nj nk nl mi mj mk ml : ℝ) + 2) ^ 2 := by
  simp only [normTerms, finRange4, List.flatMap_cons, List.flatMap_nil, List.append_nil, absSum_append,
    absSum_logTerms, Matrix.cons_val, Int.abs_eq_natAbs, quanta]
  generalize mi.natAbs = u1 at *
  generalize mj.natAbs = u2 at *
  generalize mk.natAbs = u3 at *
  generalize ml.natAbs = u4 at *
  rw [abs_neg, abs_of_pos (by norm_num : (0:ℝ) < 1 / 2)]
  simp only [← Nat.cast_add]
  have A (x z : ℕ) : 1 / 2 * logFactorial (x : ℤ) + 1 / 2 * logFactorial ((x + z : ℕ) : ℤ) ≤ (2 * x + z : ℝ) ^ 2 := by
    have f1 := logFactorial_bounds x
    have f2 := logFactorial_bounds (x + z)
    push_cast at *
    have p1 : (0 : ℝ) ≤ x := by positivity
    have p3 : (0 : ℝ) ≤ z := by positivity
    nlinarith [mul_nonneg p1 p3, mul_nonneg p3 p3, mul_nonneg p1 p1]
  have A1 := A ni u1
  have A2 := A nj u2
  have A3 := A nk u3
  have A4 := A nl u4
  have q (x z : ℕ) : (0 : ℝ) ≤ 2 * (x : ℝ) + z := by positivity
  have q1 := q ni u1
  have q2 := q nj u2
  have q3 := q nk u3
  have q4 := q nl u4
  have s1 := sq_add_sq_le q1 q2
  have s2 := sq_add_sq_le (add_nonneg q1 q2) q3
  have s3 := sq_add_sq_le (add_nonneg (add_nonneg q1 q2) q3) q4
  have hQ := add_nonneg (add_nonneg (add_nonneg q1 q2) q3) q4
  push_cast at *
  have e : (2 * ((ni : ℝ) + nj + nk + nl) + (u1 + u2 + u3 + u4)) =
    2 * (ni : ℝ) + u1 + (2 * (nj : ℝ) + u2) + (2 * (nk : ℝ) + u3) + (2 * (nl : ℝ) + u4) := by ring
  rw [e]
  have := pow_le_pow_left₀ hQ (le_add_of_nonneg_right (show (0 : ℝ) ≤ 2 by norm_num)) 2
  linarith

/-- The relative error of `coulomb_ho`: `u` bounds the error of one operation, `d` the number of additions in one sum,
`Q` is the number of quanta of the four functions. -/
noncomputable def coulombError (u : ℝ) (d Q : ℕ) : ℝ :=
  Real.exp (((1 + u) ^ (d + 2) - 1) * (8 * ((Q : ℝ) + 2) ^ 2)) * (1 + u) ^ (2 * d + 5) - 1

theorem coulombError_nonneg {u : ℝ} (hu : 0 ≤ u) (d Q : ℕ) : 0 ≤ coulombError u d Q := by
  rw [coulombError, sub_nonneg]
  exact one_le_mul_of_one_le_of_one_le (Real.one_le_exp (mul_nonneg (sub_nonneg.2 (pow_ge hu _)) (by positivity)))
    (pow_ge hu _)

/-- **C126** Every floating-point result of `coulomb_ho`, in whatever order the logarithms and the terms are added, is
close to the formula of Anisimovas and Matulis relative to the sum of the absolute values of its terms. -/
theorem C126_element {u : ℝ} (hu : 0 ≤ u) {d ni nj nk nl : ℕ} {mi mj mk ml : ℤ} {z : ℝ}
    (h : FloatCoulomb u d ni mi nj mj nl ml nk mk z) :
    |z - anisimovasMatulis ni nj nk nl mi mj mk ml| ≤
      coulombError u d (quanta ni nj nk nl mi mj mk ml) * amScale ni nj nk nl mi mj mk ml := by
  rw [← C46_formula]
  have hs : 0 ≤ amScale ni nj nk nl mi mj mk ml := by
    rw [← scale_list]
    refine mul_nonneg (List.sum_nonneg fun x hx => ?_) (Real.exp_pos _).le
    obtain ⟨j, -, rfl⟩ := List.mem_map.1 hx
    refine mul_nonneg (Real.exp_pos _).le (List.sum_nonneg fun x hx => ?_)
    obtain ⟨l, -, rfl⟩ := List.mem_map.1 hx
    exact (Real.exp_pos _).le
  by_cases hm : mi + mj = mk + ml
  · have hi : ∀ j ∈ outerList ni nj nk nl, ∀ l ∈ innerList (gOf mi mj mk ml j),
        absSum (innerTerms (gOf mi mj mk ml j) (arr l)) ≤ 4 * ((quanta ni nj nk nl mi mj mk ml : ℝ) + 2) ^ 2 := by
      intro j hj l hl
      obtain ⟨h1, h2, h3, h4⟩ := mem_outerList.1 hj
      rw [gOf, gArr_eq] at hl ⊢
      refine inner_bound hl ?_
      rw [g_sum, quanta]
      omega
    have := FloatCoulomb.close hu hm (by positivity) (by positivity) (fun j hj => outer_bound hj) hi
      (norm_bound ni nj nk nl mi mj mk ml) h
    refine this.trans (le_of_eq ?_)
    rw [coulombError]
    congr 4
    ring
  · rw [FloatCoulomb, if_pos (by simpa using hm)] at h
    rw [h, coulombHo, if_pos (by simpa using hm)]
    simpa using mul_nonneg (coulombError_nonneg hu _ _) hs

/-- **C126** Elements that vanish by the conservation of angular momentum are computed exactly. -/
theorem C126_zero {u : ℝ} {d : ℕ} {ni nj nk nl mi mj mk ml : ℤ} {z : ℝ} (hm : mi + mj ≠ mk + ml)
    (h : FloatCoulomb u d ni mi nj mj nl ml nk mk z) : z = 0 := by
  rwa [FloatCoulomb, if_pos hm] at h

/-- **C126** The same for every entry of a table computed by `_get_coulomb_elements`. -/
theorem C126_table {u : ℝ} (hu : 0 ≤ u) {d num : ℕ} {U : ℕ → ℕ → ℕ → ℕ → ℝ} (h : FloatTable u d num U) :
    ∃ x, getCoulombElementsRaw num = .ok x ∧ ∀ p < num, ∀ q < num, ∀ r < num, ∀ s < num,
      ‖((U p q r s : ℝ) : ℂ) - x.get [p, q, r, s]‖ ≤
        coulombError u d (quanta (getIndicesNm p).1.toNat (getIndicesNm q).1.toNat (getIndicesNm s).1.toNat
          (getIndicesNm r).1.toNat (getIndicesNm p).2 (getIndicesNm q).2 (getIndicesNm s).2 (getIndicesNm r).2) *
        amScale (getIndicesNm p).1.toNat (getIndicesNm q).1.toNat (getIndicesNm s).1.toNat (getIndicesNm r).1.toNat
          (getIndicesNm p).2 (getIndicesNm q).2 (getIndicesNm s).2 (getIndicesNm r).2 := by
  obtain ⟨x, h1, -, h2⟩ := C46_table num
  refine ⟨x, h1, fun p hp q hq r hr s hs => ?_⟩
  have t (k : ℕ) : (((getIndicesNm k).1.toNat : ℕ) : ℤ) = (getIndicesNm k).1 := Int.toNat_of_nonneg (C42_nonneg k)
  rw [h2 p q r s hp hq hr hs, ← Complex.ofReal_sub, Complex.norm_real, Real.norm_eq_abs]
  refine C126_element hu (d := d) ?_
  rw [t, t, t, t]
  exact h p hp q hq r hr s hs

/-- **C126** With a fixed number of additions the error goes to zero with the error of one operation. -/
theorem C126_limit (d Q : ℕ) : Filter.Tendsto (fun u => coulombError u d Q) (nhds 0) (nhds 0) := by
  have : Continuous fun u => coulombError u d Q := by
    unfold coulombError
    fun_prop
  have h := this.tendsto 0
  simpa [coulombError] using h

/-! ## Results that the model permits -/

theorem floatSum_list {ι : Type} {u : ℝ} (hu : 0 ≤ u) (t : ι → ℂ) (L : List ι) :
    FloatSum u t L L.length (L.map t).sum := by
  induction L with
  | nil => exact .nil
  | cons i L ih =>
    have := FloatSum.add (.single i) ih (near_self hu _)
    rw [List.length_cons, List.map_cons, List.sum_cons]
    simpa [Nat.add_comm] using this

theorem floatExp_of {u : ℝ} (hu : 0 ≤ u) {d : ℕ} {E : List ℝ} {e : ℝ} (hd : E.length ≤ d)
    (he : Near u (Real.exp E.sum : ℝ) e) : FloatExp u d E e := by
  refine ⟨fun i => E.getD i 0, E.sum, fun i _ => ⟨_, near_self hu _, near_self hu _⟩, ⟨E.length, hd, ?_⟩, he⟩
  have := floatSum_list hu (fun i => ((E.getD i 0 : ℝ) : ℂ)) (List.range E.length)
  rw [list_sum_range, ← Complex.ofReal_sum, sum_getD E (fun x => x), List.map_id', List.length_range] at this
  exact this

/-- All roundings but those of the inner exponentials may be exact. -/
theorem floatCoulomb_of {u : ℝ} (hu : 0 ≤ u) {ni nj nk nl mi mj mk ml : ℤ} (hm : mi + mj = mk + ml)
    (e : ℕ × ℕ × ℕ × ℕ → ℕ × ℕ × ℕ × ℕ → ℝ)
    (he : ∀ j ∈ outerList ni nj nk nl, ∀ l ∈ innerList (gOf mi mj mk ml j),
      Near u (Real.exp (innerTerms (gOf mi mj mk ml j) (arr l)).sum : ℝ) (e j l)) :
    ∃ d, FloatCoulomb u d ni mi nj mj nl ml nk mk (((outerList ni nj nk nl).map fun j =>
      sign (arr j 0 + arr j 1 + arr j 2 + arr j 3) * Real.exp (outerOf ni nj nk nl mi mj mk ml j).sum *
        ((innerList (gOf mi mj mk ml j)).map fun l =>
          sign (gOf mi mj mk ml j 1 + gOf mi mj mk ml j 2 - arr l 1 - arr l 2) * e j l).sum).sum *
      Real.exp (normTerms ![ni, nj, nk, nl] ![mi, mj, mk, ml]).sum) := by
  let O := outerList ni nj nk nl
  let I (j : ℕ × ℕ × ℕ × ℕ) := innerList (gOf mi mj mk ml j)
  let a (j : ℕ × ℕ × ℕ × ℕ) : ℕ := (outerOf ni nj nk nl mi mj mk ml j).length + (I j).length +
    ((I j).map fun l => (innerTerms (gOf mi mj mk ml j) (arr l)).length).sum
  let d := (O.map a).sum + O.length + (normTerms ![ni, nj, nk, nl] ![mi, mj, mk, ml]).length
  have ha : ∀ j ∈ O, a j ≤ d := fun j hj => by
    have := List.le_sum_of_mem (List.mem_map_of_mem (f := a) hj)
    omega
  refine ⟨d, ?_⟩
  rw [FloatCoulomb, if_neg (by simpa using hm)]
  refine ⟨fun j => Real.exp (outerOf ni nj nk nl mi mj mk ml j).sum, fun j => ((I j).map fun l =>
      sign (gOf mi mj mk ml j 1 + gOf mi mj mk ml j 2 - arr l 1 - arr l 2) * e j l).sum, _, _, _,
    fun j hj => ⟨floatExp_of hu ?_ (near_self hu _), ⟨e j, fun l hl => floatExp_of hu ?_ (he j hj l hl),
      (I j).length, ?_, ?_⟩, near_self hu _⟩, ⟨O.length, by omega, ?_⟩, floatExp_of hu ?_ (near_self hu _),
    near_self hu _⟩
  · have := ha j hj
    show (outerOf ni nj nk nl mi mj mk ml j).length ≤ d
    dsimp only [a] at this
    omega
  · have := ha j hj
    show (innerTerms (gOf mi mj mk ml j) (arr l)).length ≤ d
    have h2 := List.le_sum_of_mem (List.mem_map_of_mem (f := fun l => (innerTerms (gOf mi mj mk ml j) (arr l)).length) hl)
    dsimp only [a] at this
    exact h2.trans (le_trans (Nat.le_add_left _ _) this)
  · have := ha j hj
    dsimp only [a] at this
    omega
  · rw [ofReal_list_sum]
    exact floatSum_list hu _ _
  · rw [ofReal_list_sum]
    exact floatSum_list hu _ _
  · omega

/-- **C126** The exact value is a permitted result for every bound of the errors. -/
theorem C126_permitted {u : ℝ} (hu : 0 ≤ u) (ni nj nk nl : ℕ) (mi mj mk ml : ℤ) :
    ∃ d, FloatCoulomb u d ni mi nj mj nl ml nk mk (anisimovasMatulis ni nj nk nl mi mj mk ml) := by
  rw [← C46_formula]
  by_cases hm : mi + mj = mk + ml
  · obtain ⟨d, h⟩ := floatCoulomb_of hu (ni := ni) (nj := nj) (nk := nk) (nl := nl) hm
      (fun j l => Real.exp (innerTerms (gOf mi mj mk ml j) (arr l)).sum) (fun _ _ _ _ => near_self hu _)
    refine ⟨d, ?_⟩
    rw [coulombHo_list hm]
    simpa only [innerLoops_list] using h
  · refine ⟨0, ?_⟩
    rw [FloatCoulomb, if_pos (by simpa using hm), coulombHo, if_pos (by simpa using hm)]

theorem pick4 (A B C D a b c d : ℕ) (ha : a < A) (hb : b < B) (hc : c < C) (hd : d < D) (f : ℕ × ℕ × ℕ × ℕ → ℝ) :
    (∑ l1 ∈ range A, ∑ l2 ∈ range B, ∑ l3 ∈ range C, ∑ l4 ∈ range D,
      if (l1, l2, l3, l4) = (a, b, c, d) then f (l1, l2, l3, l4) else 0) = f (a, b, c, d) := by
  rw [sum_eq_single_of_mem a (by simpa using ha), sum_eq_single_of_mem b (by simpa using hb),
    sum_eq_single_of_mem c (by simpa using hc), sum_eq_single_of_mem d (by simpa using hd), if_pos rfl]
  · intro x _ hx
    rw [if_neg (by simp [hx])]
  · intro x _ hx
    exact sum_eq_zero fun _ _ => by rw [if_neg (by simp [hx])]
  · intro x _ hx
    exact sum_eq_zero fun _ _ => sum_eq_zero fun _ _ => by rw [if_neg (by simp [hx])]
  · intro x _ hx
    exact sum_eq_zero fun _ _ => sum_eq_zero fun _ _ => sum_eq_zero fun _ _ => by rw [if_neg (by simp [hx])]

/-- The largest term of the element of four functions with `n` nodes and no angular momentum. -/
noncomputable def bigTerm (n : ℕ) : ℝ :=
  1 / (n.factorial * n.factorial * n.factorial * n.factorial) * (Real.sqrt 2 ^ (8 * n + 1))⁻¹ *
    (((2 * n).choose n : ℝ) * (2 * n).choose n * (2 * n).choose n * (2 * n).choose n *
      Real.Gamma (1 + 2 * n) * Real.Gamma (2 * n + 1 / 2))

theorem gOf_diag (n : ℕ) : gOf 0 0 0 0 (n, n, n, n) = ![((2 * n : ℕ) : ℤ), (2 * n : ℕ), (2 * n : ℕ), (2 * n : ℕ)] := by
  rw [gOf, gArr_eq]
  simp [two_mul]

/-- One rounding of one term may change the result by this much. -/
theorem one_rounding {u : ℝ} (hu : 0 ≤ u) (n : ℕ) :
    ∃ d z, FloatCoulomb u d n 0 n 0 n 0 n 0 z ∧ |z - anisimovasMatulis n n n n 0 0 0 0| = u * bigTerm n := by
  let J : ℕ × ℕ × ℕ × ℕ := (n, n, n, n)
  let x (j l : ℕ × ℕ × ℕ × ℕ) : ℝ := Real.exp (innerTerms (gOf 0 0 0 0 j) (arr l)).sum
  let s (j l : ℕ × ℕ × ℕ × ℕ) : ℝ := sign (gOf 0 0 0 0 j 1 + gOf 0 0 0 0 j 2 - arr l 1 - arr l 2)
  let δ (j l : ℕ × ℕ × ℕ × ℕ) : ℝ := if j = J then (if l = J then u * x j l else 0) else 0
  obtain ⟨d, h⟩ := floatCoulomb_of hu (ni := n) (nj := n) (nk := n) (nl := n) (mi := 0) (mj := 0) (mk := 0) (ml := 0)
    rfl (fun j l => x j l + δ j l) (fun j _ l _ => by
      rw [Near, ← Complex.ofReal_sub, Complex.norm_real, Complex.norm_real]
      show ‖x j l + δ j l - x j l‖ ≤ u * ‖x j l‖
      rw [add_sub_cancel_left]
      dsimp only [δ]
      split_ifs
      · rw [norm_mul, Real.norm_of_nonneg hu]
      · rw [norm_zero]; positivity
      · rw [norm_zero]; positivity)
  refine ⟨d, _, h, ?_⟩
  let A (j : ℕ × ℕ × ℕ × ℕ) : ℝ :=
    sign (arr j 0 + arr j 1 + arr j 2 + arr j 3) * Real.exp (outerOf n n n n 0 0 0 0 j).sum
  let N : ℝ := Real.exp (normTerms ![(n : ℤ), n, n, n] ![0, 0, 0, 0]).sum
  have e1 : ∀ j, ((innerList (gOf 0 0 0 0 j)).map fun l => s j l * (x j l + δ j l)).sum =
      innerLoops (gOf 0 0 0 0 j) + ((innerList (gOf 0 0 0 0 j)).map fun l => s j l * δ j l).sum := by
    intro j
    rw [innerLoops_list, ← List.sum_map_add]
    congr 1
    refine List.map_congr_left fun l _ => ?_
    show s j l * (x j l + δ j l) = s j l * x j l + s j l * δ j l
    ring
  have e2 : ∀ j, ((innerList (gOf 0 0 0 0 j)).map fun l => s j l * δ j l).sum =
      if j = J then s J J * (u * x J J) else 0 := by
    intro j
    by_cases hj : j = J
    · subst hj
      rw [if_pos rfl]
      have t : ((2 * n : ℕ) + 1 : ℤ).toNat = 2 * n + 1 := by omega
      rw [sum_innerList]
      have hp := pick4 (2 * n + 1) (2 * n + 1) (2 * n + 1) (2 * n + 1) n n n n (by omega) (by omega) (by omega)
        (by omega) (fun l => s J l * (u * x J l))
      refine Eq.trans ?_ hp
      have hg (i : Fin 4) : (gOf 0 0 0 0 J i + 1).toNat = 2 * n + 1 := by
        rw [show gOf 0 0 0 0 J = _ from gOf_diag n]
        fin_cases i <;> simp <;> omega
      rw [hg, hg, hg, hg]
      refine sum_congr rfl fun l1 _ => sum_congr rfl fun l2 _ => sum_congr rfl fun l3 _ => sum_congr rfl fun l4 _ => ?_
      by_cases hl : (l1, l2, l3, l4) = (n, n, n, n)
      · rw [if_pos hl]
        have hl' := hl
        simp only [Prod.mk.injEq] at hl'
        rw [if_pos (by omega)]
        dsimp only [δ]
        rw [if_pos rfl, if_pos hl]
      · rw [if_neg hl]
        dsimp only [δ]
        rw [if_pos rfl, if_neg hl, mul_zero, ite_self]
    · rw [if_neg hj]
      refine List.sum_eq_zero fun y hy => ?_
      obtain ⟨l, -, rfl⟩ := List.mem_map.1 hy
      dsimp only [δ]
      rw [if_neg hj, mul_zero]
  have e3 : ((outerList n n n n).map fun j => A j * (if j = J then s J J * (u * x J J) else 0)).sum =
      A J * (s J J * (u * x J J)) := by
    have t : ((n : ℤ) + 1).toNat = n + 1 := by omega
    rw [sum_outerList, t]
    have hp := pick4 (n + 1) (n + 1) (n + 1) (n + 1) n n n n (by omega) (by omega) (by omega)
        (by omega) (fun j => A j * (s J J * (u * x J J)))
    refine Eq.trans ?_ hp
    refine sum_congr rfl fun l1 _ => sum_congr rfl fun l2 _ => sum_congr rfl fun l3 _ => sum_congr rfl fun l4 _ => ?_
    rw [mul_ite, mul_zero]
  have e4 : ((outerList n n n n).map fun j => A j *
      ((innerList (gOf 0 0 0 0 j)).map fun l => s j l * (x j l + δ j l)).sum).sum * N -
      coulombHo n 0 n 0 n 0 n 0 = A J * (s J J * (u * x J J)) * N := by
    rw [coulombHo_list rfl, ← sub_mul, ← e3]
    congr 1
    rw [sub_eq_iff_eq_add, ← List.sum_map_add]
    congr 1
    refine List.map_congr_left fun j _ => ?_
    rw [e1, e2]
    show A j * _ = A j * _ + A j * _
    ring
  rw [← C46_formula]
  refine (congrArg abs e4).trans ?_
  have sg (k : ℤ) : |sign k| = 1 := by
    have := sign_norm k
    rwa [Complex.norm_real, Real.norm_eq_abs] at this
  have hN : N = 1 := by
    dsimp only [N]
    rw [normTerms_sum, show (n : ℤ) = ((n : ℕ) : ℤ) from rfl, logProduct1_eq]
    have : (n.factorial : ℝ) ≠ 0 := by positivity
    simp [this]
  have hx : x J J = ((2 * n).choose n : ℝ) * (2 * n).choose n * (2 * n).choose n * (2 * n).choose n *
      Real.Gamma (1 + 2 * n) * Real.Gamma (2 * n + 1 / 2) := by
    dsimp only [x]
    rw [show gOf 0 0 0 0 J = _ from gOf_diag n, innerTerms_sum]
    simp only [arr, J, Matrix.cons_val]
    have hle : n ≤ 2 * n := by omega
    have g1 : (1 : ℝ) + 1 / 2 * (((n : ℤ) + n + n + n : ℤ) : ℝ) = 1 + 2 * n := by push_cast; ring
    have g2 : (1 / 2 : ℝ) * (((((2 * n : ℕ) : ℤ) + (2 * n : ℕ) + (2 * n : ℕ) + (2 * n : ℕ) : ℤ) : ℝ) -
      (((n : ℤ) + n + n + n : ℤ) : ℝ) + 1) = 2 * n + 1 / 2 := by push_cast; ring
    rw [g1, g2, Real.exp_add, Real.exp_add, exp_logProduct3 hle hle hle hle, exp_lgamma (by positivity),
      exp_lgamma (by positivity)]
  have hA : Real.exp (outerOf n n n n 0 0 0 0 J).sum =
      1 / (n.factorial * n.factorial * n.factorial * n.factorial) * (Real.sqrt 2 ^ (8 * n + 1))⁻¹ := by
    rw [outerOf, show gOf 0 0 0 0 J = _ from gOf_diag n, outerTerms_sum]
    simp only [arr, J, Matrix.cons_val]
    rw [Real.exp_add, Real.exp_add, exp_logRatio1, exp_logProduct2 0 0 0 0 le_rfl le_rfl le_rfl le_rfl]
    simp only [← Nat.cast_add]
    rw [exp_logRatio2, show 2 * n + 2 * n + 2 * n + 2 * n = 8 * n by ring]
    simp
  have hp : 0 ≤ bigTerm n := by
    have := Real.Gamma_pos_of_pos (show (0 : ℝ) < 1 + 2 * n by positivity)
    have := Real.Gamma_pos_of_pos (show (0 : ℝ) < 2 * n + 1 / 2 by positivity)
    rw [bigTerm]
    positivity
  have e5 : A J * (s J J * (u * x J J)) * N =
      sign (arr J 0 + arr J 1 + arr J 2 + arr J 3) * s J J * (u * bigTerm n) := by
    rw [hN, hx, bigTerm]
    dsimp only [A]
    rw [hA]
    ring
  rw [e5, abs_mul, abs_mul, sg, sg, one_mul, one_mul, abs_of_nonneg (mul_nonneg hu hp)]

/-- The largest term grows exponentially. -/
theorem bigTerm_ge {n : ℕ} (hn : 1 ≤ n) : (n.centralBinom : ℝ) ^ 6 / (4 * n * 16 ^ n) ≤ bigTerm n := by
  have hf : (0 : ℝ) < n.factorial := by positivity
  have hn' : (1 : ℝ) ≤ n := by exact_mod_cast hn
  have g1 : Real.Gamma (1 + 2 * n) = (2 * n).factorial := by
    rw [show (1 : ℝ) + 2 * n = ((2 * n : ℕ) : ℝ) + 1 by push_cast; ring, Real.Gamma_nat_eq_factorial]
  have g2 : ((2 * n).factorial : ℝ) / (2 * n) ≤ Real.Gamma (2 * n + 1 / 2) := by
    have h1 : Real.Gamma (2 * n) ≤ Real.Gamma (2 * n + 1 / 2) :=
      Real.Gamma_strictMonoOn_Ici.monotoneOn (by rw [Set.mem_Ici]; linarith) (by rw [Set.mem_Ici]; linarith)
        (by linarith)
    refine le_trans (le_of_eq ?_) h1
    have h2 := Real.Gamma_add_one (show (2 * n : ℝ) ≠ 0 by positivity)
    rw [show (2 * n : ℝ) + 1 = 1 + 2 * n by ring, g1] at h2
    rw [h2]
    field_simp
  have hc : ((2 * n).factorial : ℝ) = n.centralBinom * n.factorial * n.factorial := by
    have := Nat.choose_mul_factorial_mul_factorial (show n ≤ 2 * n by omega)
    rw [show 2 * n - n = n by omega, ← Nat.centralBinom_eq_two_mul_choose] at this
    exact_mod_cast this.symm
  have hs : (Real.sqrt 2 ^ (8 * n + 1))⁻¹ ≥ (2 * 16 ^ n)⁻¹ := by
    refine inv_anti₀ (by positivity) ?_
    have e : Real.sqrt 2 ^ (8 * n + 1) = 16 ^ n * Real.sqrt 2 := by
      rw [pow_succ, show 8 * n = 2 * (4 * n) by ring, pow_mul, Real.sq_sqrt (by norm_num), pow_mul]
      norm_num
    rw [e, mul_comm]
    have : Real.sqrt 2 ≤ 2 := by rw [Real.sqrt_le_left (by norm_num)]; norm_num
    exact mul_le_mul_of_nonneg_right this (by positivity)
  have hb : (0 : ℝ) < n.centralBinom := by exact_mod_cast n.centralBinom_pos
  rw [bigTerm, g1, ← Nat.centralBinom_eq_two_mul_choose]
  have : (n.centralBinom : ℝ) ^ 6 / (4 * n * 16 ^ n) =
      1 / (n.factorial * n.factorial * n.factorial * n.factorial) * (2 * 16 ^ n)⁻¹ *
    ((n.centralBinom : ℝ) * n.centralBinom * n.centralBinom * n.centralBinom *
      (2 * n).factorial * ((2 * n).factorial / (2 * n))) := by
    rw [hc]
    field_simp
    ring
  rw [this]
  gcongr

/-- **C126** The bound cannot be replaced by one on the error of the element itself: however small the error of one
operation is, there are functions for which a permitted result is off by more than any given number. -/
theorem C126_loss {u : ℝ} (hu : 0 < u) (M : ℝ) :
    ∃ (n d : ℕ) (z : ℝ), FloatCoulomb u d n 0 n 0 n 0 n 0 z ∧ M < |z - anisimovasMatulis n n n n 0 0 0 0| := by
  obtain ⟨k, hk⟩ := pow_unbounded_of_one_lt (M / u) (show (1 : ℝ) < 2 by norm_num)
  let n := k + 4
  obtain ⟨d, z, h1, h2⟩ := one_rounding hu.le n
  refine ⟨n, d, z, h1, ?_⟩
  rw [h2]
  have hn : (1 : ℝ) ≤ n := by exact_mod_cast (by omega : 1 ≤ k + 4)
  have hb : (4 : ℝ) ^ n ≤ n * n.centralBinom := by
    exact_mod_cast (Nat.four_pow_lt_mul_centralBinom n (by omega)).le
  have hb6 : ((4 : ℝ) ^ n) ^ 6 ≤ (n * n.centralBinom) ^ 6 := pow_le_pow_left₀ (by positivity) hb 6
  have h2n : (n : ℝ) ≤ 2 ^ n := by exact_mod_cast (Nat.lt_two_pow_self (n := n)).le
  have h2n' : (2 * n : ℝ) ≤ 2 ^ n := by
    have : n ≤ 2 ^ (n - 1) := by
      have := Nat.lt_two_pow_self (n := n - 1)
      omega
    have e : 2 ^ n = 2 * 2 ^ (n - 1) := by rw [← pow_succ', show n - 1 + 1 = n by omega]
    have : 2 * n ≤ 2 ^ n := by omega
    exact_mod_cast this
  have h7 : (2 * n : ℝ) ^ 7 ≤ (2 ^ n) ^ 7 := pow_le_pow_left₀ (by positivity) h2n' 7
  have h8 : (2 : ℝ) ^ n ≤ (n.centralBinom : ℝ) ^ 6 / (4 * n * 16 ^ n) := by
    rw [le_div_iff₀ (by positivity)]
    have e16 : (16 : ℝ) ^ n = (2 ^ n) ^ 4 := by rw [← pow_mul, mul_comm, pow_mul]; norm_num
    have e4 : (4 : ℝ) ^ n = (2 ^ n) ^ 2 := by rw [← pow_mul, mul_comm, pow_mul]; norm_num
    rw [e16]
    rw [e4] at hb6
    have hX : (0 : ℝ) < 2 ^ n := by positivity
    generalize (2 : ℝ) ^ n = X at *
    generalize (n.centralBinom : ℝ) = B at *
    have hn6 : (0 : ℝ) < (n : ℝ) ^ 6 := by positivity
    refine le_of_mul_le_mul_left ?_ hn6
    have a1 : (n : ℝ) ^ 6 * (X * (4 * n * X ^ 4)) = 4 * (n : ℝ) ^ 7 * X ^ 5 := by ring
    have a2 : 4 * (n : ℝ) ^ 7 ≤ X ^ 7 := by
      refine le_trans ?_ h7
      have : (0 : ℝ) ≤ (n : ℝ) ^ 7 := by positivity
      rw [mul_pow]
      nlinarith
    rw [a1]
    calc 4 * (n : ℝ) ^ 7 * X ^ 5 ≤ X ^ 7 * X ^ 5 := mul_le_mul_of_nonneg_right a2 (by positivity)
      _ = (X ^ 2) ^ 6 := by ring
      _ ≤ (n * B) ^ 6 := hb6
      _ = (n : ℝ) ^ 6 * B ^ 6 := by ring
  have h9 : (2 : ℝ) ^ k ≤ 2 ^ n := pow_le_pow_right₀ (by norm_num) (by omega)
  have := (hk.trans_le h9).trans_le (h8.trans (bigTerm_ge (show 1 ≤ n by omega)))
  rwa [div_lt_iff₀' hu] at this

/-- **C126** In double precision this happens for the function with ten nodes and no angular momentum. -/
theorem C126_double : ∃ (d : ℕ) (z : ℝ), FloatCoulomb ((2 : ℝ) ^ (-53 : ℤ)) d 10 0 10 0 10 0 10 0 z ∧
    100 < |z - anisimovasMatulis 10 10 10 10 0 0 0 0| := by
  obtain ⟨d, z, h1, h2⟩ := one_rounding (show (0 : ℝ) ≤ 2 ^ (-53 : ℤ) by positivity) 10
  refine ⟨d, z, by exact_mod_cast h1, ?_⟩
  rw [h2]
  have h3 := bigTerm_ge (show 1 ≤ 10 by norm_num)
  have hc : Nat.centralBinom 10 = 184756 := by decide
  rw [hc] at h3
  have : (100 : ℝ) < 2 ^ (-53 : ℤ) * ((184756 : ℕ) ^ 6 / (4 * (10 : ℕ) * 16 ^ 10)) := by norm_num
  exact this.trans_le (mul_le_mul_of_nonneg_left h3 (by positivity))

theorem am_ground : anisimovasMatulis 0 0 0 0 0 0 0 0 = Real.sqrt (Real.pi / 2) ∧
    amScale 0 0 0 0 0 0 0 0 = Real.sqrt (Real.pi / 2) := by
  have hg : Real.Gamma 2⁻¹ = Real.sqrt Real.pi := by rw [← one_div, Real.Gamma_one_half_eq]
  have hi : amInnerScale 0 0 0 0 = Real.sqrt Real.pi := by
    simp [amInnerScale, hg]
  constructor
  · simp [anisimovasMatulis, amInner, hg]
    ring
  · simp [amScale, hi]
    ring

/-- The self-interaction of the ground state: every result with the errors of double precision and at most two
additions per sum is close to `√(π/2)`. -/
example (z : ℝ) (h : FloatCoulomb ((2 : ℝ) ^ (-53 : ℤ)) 2 0 0 0 0 0 0 0 0 z) :
    |z - Real.sqrt (Real.pi / 2)| < 1 / 10 ^ 12 := by
  have h1 := C126_element (show (0 : ℝ) ≤ 2 ^ (-53 : ℤ) by positivity) (ni := 0) (nj := 0) (nk := 0) (nl := 0)
    (by exact_mod_cast h)
  obtain ⟨e1, e2⟩ := am_ground
  have e3 : Real.sqrt (Real.pi / 2) ≤ 2 := by
    rw [Real.sqrt_le_left (by norm_num)]
    linarith [Real.pi_le_four]
  have e4 : 0 ≤ Real.sqrt (Real.pi / 2) := Real.sqrt_nonneg _
  rw [e1, e2] at h1
  refine h1.trans_lt ?_
  have e5 : coulombError (2 ^ (-53 : ℤ)) 2 (quanta 0 0 0 0 0 0 0 0) ≤ 1 / (4 * 10 ^ 12) := by
    rw [coulombError]
    set x : ℝ := ((1 + 2 ^ (-53 : ℤ)) ^ (2 + 2) - 1) * (8 * (((quanta 0 0 0 0 0 0 0 0 : ℕ) : ℝ) + 2) ^ 2) with hx
    have hx' : x = ((1 + 2 ^ (-53 : ℤ)) ^ 4 - 1) * 32 := by
      rw [hx]
      norm_num [quanta]
    have h0 : 0 ≤ x := by rw [hx']; norm_num
    have h1 : x ≤ 1 / 10 ^ 13 := by rw [hx']; norm_num
    have h2 := (abs_le.1 (Real.abs_exp_sub_one_le (x := x) (by rw [abs_of_nonneg h0]; linarith))).2
    rw [abs_of_nonneg h0] at h2
    have h3 : Real.exp x ≤ 1 + 2 / 10 ^ 13 := by linarith
    have h4 : ((1 : ℝ) + 2 ^ (-53 : ℤ)) ^ (2 * 2 + 5) ≤ 1 + 1 / 10 ^ 14 := by norm_num
    have h5 := mul_le_mul h3 h4 (by positivity) (by norm_num)
    refine (sub_le_sub_right h5 1).trans ?_
    norm_num
  have e6 := coulombError_nonneg (show (0 : ℝ) ≤ 2 ^ (-53 : ℤ) by positivity) 2 (quanta 0 0 0 0 0 0 0 0)
  calc coulombError (2 ^ (-53 : ℤ)) 2 (quanta 0 0 0 0 0 0 0 0) * Real.sqrt (Real.pi / 2)
      ≤ 1 / (4 * 10 ^ 12) * 2 := mul_le_mul e5 e3 e4 (by positivity)
    _ < 1 / 10 ^ 12 := by norm_num

end QS.Props
