import Verif.Model.Coulomb
import Verif.Spec.Coulomb

/-!
# Evaluation of the Coulomb routine
-/

namespace QS.Coulomb

open Finset Spec Idx

theorem logFactorial_nat (n : ℕ) : logFactorial (n : ℤ) = Real.log n.factorial := by
  have key (k : ℕ) : (List.range k).foldl (fun (fac : ℝ) (a : ℕ) => fac + Real.log ((a : ℝ) + 2)) 0
      = Real.log (k + 1).factorial := by
    induction k with
    | zero => simp
    | succ k ih =>
      rw [List.range_succ, List.foldl_append, ih, Nat.factorial_succ (k + 1), Nat.cast_mul,
        Real.log_mul (by positivity) (by positivity), add_comm]
      simp only [List.foldl_cons, List.foldl_nil]
      push_cast
      rw [add_comm]
      congr 2
      ring
  rw [logFactorial]
  rcases Nat.eq_zero_or_pos n with rfl | hn
  · simp
  · rw [show ((n : ℤ) - 1).toNat = n - 1 by omega, key, Nat.sub_add_cancel hn]

theorem exp_logFactorial (n : ℕ) : Real.exp (logFactorial (n : ℤ)) = n.factorial := by
  rw [logFactorial_nat, Real.exp_log (by positivity)]

theorem exp_lgamma {x : ℝ} (h : 0 < x) : Real.exp (lgamma x) = Real.Gamma x := by
  rw [lgamma, abs_of_pos (Real.Gamma_pos_of_pos h), Real.exp_log (Real.Gamma_pos_of_pos h)]

theorem sign_nat (k : ℕ) : sign (k : ℤ) = (-1) ^ k := by
  rcases Nat.even_or_odd k with h | h
  · rw [h.neg_one_pow, sign]
    have : (k : ℤ) % 2 = 0 := by have := Nat.even_iff.1 h; omega
    simp [this]
  · rw [h.neg_one_pow, sign]
    have : (k : ℤ) % 2 = 1 := by have := Nat.odd_iff.1 h; omega
    rw [this]; norm_num

theorem bigM_eq (m : ℤ) : bigM m = (m.toNat : ℕ) := by
  rw [bigM]
  rcases le_total m 0 with h | h
  · rw [abs_of_nonpos h, Int.toNat_of_nonpos h]; push_cast; ring
  · obtain ⟨k, rfl⟩ := Int.eq_ofNat_of_zero_le h
    rw [abs_of_nonneg h]; simp; ring

theorem dm_eq (m : ℤ) : dm m = ((-m).toNat : ℕ) := by
  rw [← bigM_eq, dm, bigM, abs_neg]; push_cast; ring

theorem gArr_eq (mi mj mk ml : ℤ) (j1 j2 j3 j4 : ℕ) :
    gArr mi mj mk ml j1 j2 j3 j4 =
      ![((j1 + j4 + mi.toNat + (-ml).toNat : ℕ) : ℤ), ((j2 + j3 + mj.toNat + (-mk).toNat : ℕ) : ℤ),
        ((j2 + j3 + mk.toNat + (-mj).toNat : ℕ) : ℤ), ((j1 + j4 + ml.toNat + (-mi).toNat : ℕ) : ℤ)] := by
  have f (a b c d : ℕ) : ⌊(a : ℚ) + b + c + d⌋ = ((a + b + c + d : ℕ) : ℤ) := by
    rw [← Nat.cast_add, ← Nat.cast_add, ← Nat.cast_add, Int.floor_natCast]
  simp only [gArr, bigM_eq, dm_eq, f]
  rw [Nat.add_comm j3 j2, Nat.add_comm j4 j1]

theorem finRange4 : List.finRange 4 = [0, 1, 2, 3] := rfl

theorem choose_exp {a b : ℕ} (h : b ≤ a) :
    Real.exp (logFactorial (a : ℤ) - logFactorial (b : ℤ) - logFactorial ((a : ℤ) - b)) = a.choose b := by
  rw [show (a : ℤ) - b = ((a - b : ℕ) : ℤ) by omega, Real.exp_sub, Real.exp_sub, exp_logFactorial,
    exp_logFactorial, exp_logFactorial, Nat.cast_choose ℝ h, div_div]

theorem exp_logProduct3 {a b c d x y z w : ℕ} (h1 : x ≤ a) (h2 : y ≤ b) (h3 : z ≤ c) (h4 : w ≤ d) :
    Real.exp (logProduct3 ![(x : ℤ), y, z, w] ![(a : ℤ), b, c, d])
      = a.choose x * b.choose y * c.choose z * d.choose w := by
  rw [← choose_exp h1, ← choose_exp h2, ← choose_exp h3, ← choose_exp h4, ← Real.exp_add,
    ← Real.exp_add, ← Real.exp_add, logProduct3, finRange4]
  congr 1
  simp
  ring

theorem innerLoops_eq (a b c d : ℕ) :
    innerLoops ![(a : ℤ), b, c, d] = amInner a b c d := by
  have t (k : ℕ) : ((k : ℤ) + 1).toNat = k + 1 := by omega
  have step (P : Prop) [Decidable P] (x y : ℝ) :
      (if P then x else x + y) = x + (if P then 0 else y) := by split_ifs <;> simp
  simp only [innerLoops, amInner, Matrix.cons_val, t, step, NDArray.foldl_range_add, zero_add]
  refine sum_congr rfl fun l1 h1 => sum_congr rfl fun l2 h2 => sum_congr rfl fun l3 h3 =>
    sum_congr rfl fun l4 h4 => ?_
  simp only [mem_range, Nat.lt_succ_iff] at h1 h2 h3 h4
  by_cases hc : l1 + l2 = l3 + l4
  · rw [if_neg (by simpa using hc), if_pos hc,
      show (b : ℤ) + c - l2 - l3 = ((b + c - l2 - l3 : ℕ) : ℤ) by omega, sign_nat, Real.exp_add,
      Real.exp_add, exp_logProduct3 h1 h2 h3 h4, exp_lgamma, exp_lgamma]
    · rw [show (1 : ℝ) + 1 / 2 * (((l1 : ℤ) + l2 + l3 + l4 : ℤ) : ℝ)
          = 1 + ((l1 + l2 + l3 + l4 : ℕ) : ℝ) / 2 by push_cast; ring,
        show (1 / 2 : ℝ) * ((((a : ℤ) + b + c + d : ℤ) : ℝ) - (((l1 : ℤ) + l2 + l3 + l4 : ℤ) : ℝ) + 1)
          = (((a + b + c + d : ℕ) : ℝ) - (l1 + l2 + l3 + l4 : ℕ) + 1) / 2 by push_cast; ring]
      ring
    · have : ((l1 + l2 + l3 + l4 : ℕ) : ℝ) ≤ ((a + b + c + d : ℕ) : ℝ) := by exact_mod_cast (by omega)
      push_cast at this ⊢
      linarith
    · push_cast; positivity
  · rw [if_pos (by simpa using hc), if_neg hc]

theorem exp_logRatio1 (a b c d : ℕ) : Real.exp (logRatio1 ![(a : ℤ), b, c, d])
    = 1 / (a.factorial * b.factorial * c.factorial * d.factorial) := by
  rw [logRatio1, finRange4]
  simp only [List.foldl_cons, List.foldl_nil, Matrix.cons_val, Real.exp_sub, exp_logFactorial,
    Real.exp_zero]
  field_simp

theorem exp_logRatio2 (G : ℕ) : Real.exp (logRatio2 (G : ℤ)) = (Real.sqrt 2 ^ (G + 1))⁻¹ := by
  have h : Real.sqrt 2 = Real.exp (Real.log 2 / 2) := by
    rw [Real.sqrt_eq_rpow, Real.rpow_def_of_pos (by norm_num)]; congr 1; ring
  rw [h, ← Real.exp_nat_mul, ← Real.exp_neg, logRatio2]
  congr 1
  push_cast
  ring

theorem exp_choose2 {n j : ℕ} (m : ℤ) (h : j ≤ n) :
    Real.exp (logFactorial ((n : ℤ) + |m|) - logFactorial ((n : ℤ) - j) - logFactorial ((j : ℤ) + |m|))
      = (n + m.natAbs).choose (n - j) := by
  rw [show (n : ℤ) + |m| = ((n + m.natAbs : ℕ) : ℤ) by rw [Int.abs_eq_natAbs]; omega,
    show (n : ℤ) - j = ((n - j : ℕ) : ℤ) by omega,
    show (j : ℤ) + |m| = ((n + m.natAbs : ℕ) : ℤ) - ((n - j : ℕ) : ℤ) by rw [Int.abs_eq_natAbs]; omega,
    choose_exp (by omega)]

theorem exp_logProduct2 {a b c d x y z w : ℕ} (m1 m2 m3 m4 : ℤ)
    (h1 : x ≤ a) (h2 : y ≤ b) (h3 : z ≤ c) (h4 : w ≤ d) :
    Real.exp (logProduct2 ![(a : ℤ), b, c, d] ![m1, m2, m3, m4] ![(x : ℤ), y, z, w])
      = (a + m1.natAbs).choose (a - x) * (b + m2.natAbs).choose (b - y)
        * (c + m3.natAbs).choose (c - z) * (d + m4.natAbs).choose (d - w) := by
  rw [← exp_choose2 m1 h1, ← exp_choose2 m2 h2, ← exp_choose2 m3 h3, ← exp_choose2 m4 h4,
    ← Real.exp_add, ← Real.exp_add, ← Real.exp_add, logProduct2, finRange4]
  congr 1
  simp
  ring

theorem logProduct1_eq (a b c d : ℕ) (m1 m2 m3 m4 : ℤ) :
    logProduct1 ![(a : ℤ), b, c, d] ![m1, m2, m3, m4] = Real.sqrt (
      ((a.factorial : ℝ) / (a + m1.natAbs).factorial) * (b.factorial / (b + m2.natAbs).factorial)
        * (c.factorial / (c + m3.natAbs).factorial) * (d.factorial / (d + m4.natAbs).factorial)) := by
  have e (n : ℕ) (m : ℤ) : (n : ℤ) + |m| = ((n + m.natAbs : ℕ) : ℤ) := by rw [Int.abs_eq_natAbs]; omega
  have key : Real.exp ((List.finRange 4).foldl (fun (prod : ℝ) i =>
      prod + logFactorial ((![(a : ℤ), b, c, d] : Fin 4 → ℤ) i)
        - logFactorial ((![(a : ℤ), b, c, d] : Fin 4 → ℤ) i + |(![m1, m2, m3, m4] : Fin 4 → ℤ) i|)) 0)
      = ((a.factorial : ℝ) / (a + m1.natAbs).factorial) * (b.factorial / (b + m2.natAbs).factorial)
        * (c.factorial / (c + m3.natAbs).factorial) * (d.factorial / (d + m4.natAbs).factorial) := by
    rw [finRange4]
    simp only [List.foldl_cons, List.foldl_nil, Matrix.cons_val, e, Real.exp_sub, Real.exp_add,
      exp_logFactorial, Real.exp_zero]
    ring
  rw [← key, logProduct1, Real.sqrt_eq_rpow, ← Real.exp_mul]
  congr 1
  norm_num
  ring

theorem coulombHo_eq (ni nj nk nl : ℕ) (mi mj mk ml : ℤ) :
    coulombHo ni mi nj mj nl ml nk mk = anisimovasMatulis ni nj nk nl mi mj mk ml := by
  by_cases hm : mi + mj = mk + ml
  · have t (k : ℕ) : ((k : ℤ) + 1).toNat = k + 1 := by omega
    rw [coulombHo, if_neg (by simpa using hm), anisimovasMatulis, if_pos hm]
    simp only [gArr_eq, innerLoops_eq, Matrix.cons_val, t, NDArray.foldl_range_add, zero_add,
      logProduct1_eq]
    rw [mul_comm]
    congr 1
    refine sum_congr rfl fun j1 h1 => sum_congr rfl fun j2 h2 => sum_congr rfl fun j3 h3 =>
      sum_congr rfl fun j4 h4 => ?_
    simp only [mem_range, Nat.lt_succ_iff] at h1 h2 h3 h4
    congr 1
    rw [Real.exp_add, Real.exp_add, exp_logRatio1, exp_logProduct2 mi mj mk ml h1 h2 h3 h4]
    simp only [← Nat.cast_add]
    rw [exp_logRatio2, sign_nat]
    ring
  · rw [coulombHo, if_pos (by simpa using hm), anisimovasMatulis, if_neg hm]

/-! ## Symmetries of the sums -/

theorem sum4_swap (A B C D : ℕ) (f : ℕ → ℕ → ℕ → ℕ → ℝ) :
    ∑ a ∈ range A, ∑ b ∈ range B, ∑ c ∈ range C, ∑ d ∈ range D, f a b c d
      = ∑ b ∈ range B, ∑ a ∈ range A, ∑ d ∈ range D, ∑ c ∈ range C, f a b c d := by
  rw [sum_comm]
  exact sum_congr rfl fun b _ => sum_congr rfl fun a _ => sum_comm

theorem sum4_reverse (A B C D : ℕ) (f : ℕ → ℕ → ℕ → ℕ → ℝ) :
    ∑ a ∈ range A, ∑ b ∈ range B, ∑ c ∈ range C, ∑ d ∈ range D, f a b c d
      = ∑ d ∈ range D, ∑ c ∈ range C, ∑ b ∈ range B, ∑ a ∈ range A, f a b c d := by
  calc ∑ a ∈ range A, ∑ b ∈ range B, ∑ c ∈ range C, ∑ d ∈ range D, f a b c d
      = ∑ a ∈ range A, ∑ c ∈ range C, ∑ b ∈ range B, ∑ d ∈ range D, f a b c d :=
        sum_congr rfl fun _ _ => sum_comm
    _ = ∑ c ∈ range C, ∑ a ∈ range A, ∑ b ∈ range B, ∑ d ∈ range D, f a b c d := sum_comm
    _ = ∑ c ∈ range C, ∑ a ∈ range A, ∑ d ∈ range D, ∑ b ∈ range B, f a b c d :=
        sum_congr rfl fun _ _ => sum_congr rfl fun _ _ => sum_comm
    _ = ∑ c ∈ range C, ∑ d ∈ range D, ∑ a ∈ range A, ∑ b ∈ range B, f a b c d :=
        sum_congr rfl fun _ _ => sum_comm
    _ = ∑ d ∈ range D, ∑ c ∈ range C, ∑ a ∈ range A, ∑ b ∈ range B, f a b c d := sum_comm
    _ = _ := sum_congr rfl fun _ _ => sum_congr rfl fun _ _ => sum_comm

theorem amInner_swap {a b c d : ℕ} (h : a + b = c + d) : amInner b a d c = amInner a b c d := by
  rw [amInner, sum4_swap, amInner]
  refine sum_congr rfl fun l1 h1 => sum_congr rfl fun l2 h2 => sum_congr rfl fun l3 h3 =>
    sum_congr rfl fun l4 h4 => ?_
  simp only [mem_range, Nat.lt_succ_iff] at h1 h2 h3 h4
  by_cases hc : l1 + l2 = l3 + l4
  · rw [if_pos (by omega), if_pos hc]
    have hs : (-1 : ℝ) ^ (a + d - l1 - l4) = (-1) ^ (b + c - l2 - l3) := by
      rw [← Nat.mod_add_div (a + d - l1 - l4) 2, ← Nat.mod_add_div (b + c - l2 - l3) 2, pow_add,
        pow_add, pow_mul, pow_mul]
      rw [show (a + d - l1 - l4) % 2 = (b + c - l2 - l3) % 2 by omega]
      norm_num
    rw [hs, show l2 + l1 + l4 + l3 = l1 + l2 + l3 + l4 by ring,
      show b + a + d + c = a + b + c + d by ring]
    ring
  · rw [if_neg (by omega), if_neg hc]

theorem amInner_reverse (a b c d : ℕ) : amInner d c b a = amInner a b c d := by
  rw [amInner, sum4_reverse, amInner]
  refine sum_congr rfl fun l1 h1 => sum_congr rfl fun l2 h2 => sum_congr rfl fun l3 h3 =>
    sum_congr rfl fun l4 h4 => ?_
  by_cases hc : l1 + l2 = l3 + l4
  · rw [if_pos (by omega), if_pos hc, show l4 + l3 + l2 + l1 = l1 + l2 + l3 + l4 by ring,
      show d + c + b + a = a + b + c + d by ring, show c + b - l3 - l2 = b + c - l2 - l3 by omega]
    ring
  · rw [if_neg (by omega), if_neg hc]

theorem am_exchange (ni nj nk nl : ℕ) (mi mj mk ml : ℤ) :
    anisimovasMatulis nj ni nl nk mj mi ml mk = anisimovasMatulis ni nj nk nl mi mj mk ml := by
  by_cases hm : mi + mj = mk + ml
  · rw [anisimovasMatulis, if_pos (by omega), sum4_swap, anisimovasMatulis, if_pos hm]
    congr 1
    · congr 1; ring
    refine sum_congr rfl fun j1 _ => sum_congr rfl fun j2 _ => sum_congr rfl fun j3 _ =>
      sum_congr rfl fun j4 _ => ?_
    simp only []
    rw [amInner_swap (by omega), show j2 + j1 + j4 + j3 = j1 + j2 + j3 + j4 by ring,
      show ∀ x y z w : ℕ, y + x + w + z + 1 = x + y + z + w + 1 by intros; ring]
    ring
  · rw [anisimovasMatulis, if_neg (by omega), anisimovasMatulis, if_neg hm]

theorem am_hermitian (ni nj nk nl : ℕ) (mi mj mk ml : ℤ) :
    anisimovasMatulis nl nk nj ni ml mk mj mi = anisimovasMatulis ni nj nk nl mi mj mk ml := by
  by_cases hm : mi + mj = mk + ml
  · rw [anisimovasMatulis, if_pos (by omega), sum4_reverse, anisimovasMatulis, if_pos hm]
    congr 1
    · congr 1; ring
    refine sum_congr rfl fun j1 _ => sum_congr rfl fun j2 _ => sum_congr rfl fun j3 _ =>
      sum_congr rfl fun j4 _ => ?_
    simp only []
    rw [Nat.add_comm j4 j1, Nat.add_comm j3 j2, amInner_reverse,
      show j4 + j3 + j2 + j1 = j1 + j2 + j3 + j4 by ring]
    generalize j1 + j4 + ml.toNat + (-mi).toNat = w
    generalize j2 + j3 + mk.toNat + (-mj).toNat = z
    generalize j2 + j3 + mj.toNat + (-mk).toNat = y
    generalize j1 + j4 + mi.toNat + (-ml).toNat = x
    rw [show w + z + y + x + 1 = x + y + z + w + 1 by ring]
    ring
  · rw [anisimovasMatulis, if_neg (by omega), anisimovasMatulis, if_neg hm]

theorem am_reflect (ni nj nk nl : ℕ) (mi mj mk ml : ℤ) :
    anisimovasMatulis ni nj nk nl (-mi) (-mj) (-mk) (-ml)
      = anisimovasMatulis ni nj nk nl mi mj mk ml := by
  by_cases hm : mi + mj = mk + ml
  · rw [anisimovasMatulis, if_pos (by omega), anisimovasMatulis, if_pos hm]
    simp only [Int.natAbs_neg, neg_neg]
    congr 1
    refine sum_congr rfl fun j1 _ => sum_congr rfl fun j2 _ => sum_congr rfl fun j3 _ =>
      sum_congr rfl fun j4 _ => ?_
    rw [amInner_reverse, Nat.add_right_comm (j1 + j4) (-mi).toNat, Nat.add_right_comm (j1 + j4) (-ml).toNat,
      Nat.add_right_comm (j2 + j3) (-mj).toNat, Nat.add_right_comm (j2 + j3) (-mk).toNat]
    generalize j1 + j4 + ml.toNat + (-mi).toNat = w
    generalize j2 + j3 + mk.toNat + (-mj).toNat = z
    generalize j2 + j3 + mj.toNat + (-mk).toNat = y
    generalize j1 + j4 + mi.toNat + (-ml).toNat = x
    rw [show w + z + y + x + 1 = x + y + z + w + 1 by ring]
  · rw [anisimovasMatulis, if_neg (by omega), anisimovasMatulis, if_neg hm]

/-! ## The table of elements -/

theorem getCoulombElementsRaw_eq (num : ℕ) : getCoulombElementsRaw num
    = .ok (NDArray.ofFn .float64 [num, num, num, num] (fun i => ((coulombHo
        (getIndicesNm (i.getD 0 0)).1 (getIndicesNm (i.getD 0 0)).2
        (getIndicesNm (i.getD 1 0)).1 (getIndicesNm (i.getD 1 0)).2
        (getIndicesNm (i.getD 2 0)).1 (getIndicesNm (i.getD 2 0)).2
        (getIndicesNm (i.getD 3 0)).1 (getIndicesNm (i.getD 3 0)).2 : ℝ) : ℂ))) :=
  NDArray.fill4 .float64 num _

end QS.Coulomb
