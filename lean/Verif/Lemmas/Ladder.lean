import Verif.Lemmas.Polar
import Verif.Spec.Ladder

/-!
# The radial integrals of the dipole moment
-/

namespace QS.TwoDim

open Finset Idx QS.Spec MeasureTheory

theorem lagCoeff_shift (n k i : ℕ) (hi : i ≤ n) :
    lagCoeff (n + 1) k i = lagCoeff (n + 1) (k + 1) i - lagCoeff n (k + 1) i := by
  unfold lagCoeff
  have h := Nat.choose_succ_succ (n + 1 + k) (n - i)
  rw [show (n - i).succ = n + 1 - i by omega, show (n + 1 + k).succ = n + 1 + (k + 1) by omega] at h
  rw [h, show n + (k + 1) = n + 1 + k by omega]
  push_cast
  ring

/-- `L_{n+1}^k = L_{n+1}^{k+1} - L_n^{k+1}`. -/
theorem laguerre_shift (x : ℝ) (n k : ℕ) :
    assocLaguerre x (n + 1) k = assocLaguerre x (n + 1) (k + 1) - assocLaguerre x n (k + 1) := by
  simp only [assocLaguerre_eq]
  rw [sum_range_succ, sum_range_succ _ (n + 1)]
  have h0 : ∀ k, lagCoeff (n + 1) k (n + 1) = (-1) ^ (n + 1) / ((n + 1).factorial : ℝ) := by
    intro k; unfold lagCoeff; simp
  rw [h0, h0, sum_congr rfl fun i hi => by
    rw [lagCoeff_shift n k i (by have := mem_range.1 hi; omega), sub_mul], sum_sub_distrib]
  ring

theorem laguerre_zero (x : ℝ) (k : ℕ) : assocLaguerre x 0 k = 1 := by
  simp [assocLaguerre_eq, lagCoeff]

/-- Multiplying a radial function by the radius. -/
theorem radial_mul (n : ℕ) {m m' : ℤ} (mass omega r : ℝ) (h : m'.natAbs = m.natAbs + 1) :
    bohrRadius mass omega * r * spfRadial n m mass omega r = spfRadial n m' mass omega r
      - (if n = 0 then 0 else spfRadial ((n : ℤ) - 1) m' mass omega r) := by
  unfold spfRadial
  dsimp only
  rw [h]
  cases n with
  | zero => simp only [if_true, Nat.cast_zero, Int.toNat_zero, laguerre_zero]; ring
  | succ n =>
    rw [if_neg (Nat.succ_ne_zero n), Int.toNat_natCast, laguerre_shift,
      show (((n + 1 : ℕ) : ℤ) - 1).toNat = n by omega]
    ring

theorem radial_step {mass omega : ℝ} (hm : 0 < mass) (ho : 0 < omega) (n n' : ℕ) {m m' : ℤ}
    (h : m'.natAbs = m.natAbs + 1) :
    bohrRadius mass omega * radialIntegral (spfRadial n m mass omega) (spfRadial n' m' mass omega) =
      (if n' = n then ((n + m.natAbs + 1).factorial : ℝ) / (n.factorial * (2 * (mass * omega)))
        else if n' + 1 = n then -(((n + m.natAbs).factorial : ℝ) / (n'.factorial * (2 * (mass * omega))))
        else 0) := by
  unfold radialIntegral
  rw [← integral_const_mul]
  have e : ∀ r : ℝ, bohrRadius mass omega * (r * r ^ 1 * spfRadial n m mass omega r * spfRadial n' m' mass omega r)
      = r ^ 1 * spfRadial n m' mass omega r * spfRadial n' m' mass omega r
        - (if n = 0 then 0 else r ^ 1 * spfRadial ((n : ℤ) - 1) m' mass omega r * spfRadial n' m' mass omega r) := by
    intro r
    have := radial_mul n mass omega r h
    rw [show bohrRadius mass omega * (r * r ^ 1 * spfRadial n m mass omega r * spfRadial n' m' mass omega r)
      = r * (bohrRadius mass omega * r * spfRadial n m mass omega r) * spfRadial n' m' mass omega r by ring, this]
    split_ifs <;> ring
  simp only [e]
  rcases Nat.eq_zero_or_pos n with rfl | hn
  · simp only [if_true, sub_zero]
    rw [radial_orthogonal hm ho _ _ _ _ rfl, h]
    simp only [Int.toNat_natCast]
    by_cases h0 : n' = 0
    · subst h0; simp [Nat.add_assoc]
    · rw [if_neg (Ne.symm h0), if_neg h0, if_neg (by omega)]
  · simp only [if_neg hn.ne']
    rw [integral_sub (radial_integrable hm ho 1 _ _ _ _) (radial_integrable hm ho 1 _ _ _ _),
      radial_orthogonal hm ho _ _ _ _ rfl, radial_orthogonal hm ho _ _ _ _ rfl, h]
    simp only [Int.toNat_natCast]
    rw [show ((n : ℤ) - 1).toNat = n - 1 by omega, show n - 1 + (m.natAbs + 1) = n + m.natAbs by omega]
    by_cases h0 : n' = n
    · subst h0; rw [if_pos rfl, if_pos rfl, if_neg (by omega)]; simp [Nat.add_assoc]
    · rw [if_neg (Ne.symm h0), if_neg h0]
      by_cases h1 : n' + 1 = n
      · subst h1; simp
      · rw [if_neg (by omega), if_neg h1]; simp

/-- The normalised radial integrals between functions with neighbouring `|m|`. -/
theorem radial_ladder {mass omega : ℝ} (hm : 0 < mass) (ho : 0 < omega) (n n' : ℕ) {m m' : ℤ}
    (h : m'.natAbs = m.natAbs + 1) :
    spfNorm n m mass omega * spfNorm n' m' mass omega
        * radialIntegral (spfRadial n m mass omega) (spfRadial n' m' mass omega)
      = ladder n m.natAbs n' / (2 * Real.pi * bohrRadius mass omega) := by
  have hs := radial_step hm ho n n' h
  have hb := bohr_pos hm ho
  have hq := bohr_sq hm ho
  have hp := Real.pi_pos
  rw [eq_div_iff (by positivity)]
  rw [show spfNorm n m mass omega * spfNorm n' m' mass omega
        * radialIntegral (spfRadial n m mass omega) (spfRadial n' m' mass omega) * (2 * Real.pi * bohrRadius mass omega)
      = spfNorm n m mass omega * spfNorm n' m' mass omega * (2 * Real.pi) *
        (bohrRadius mass omega * radialIntegral (spfRadial n m mass omega) (spfRadial n' m' mass omega)) by ring, hs]
  unfold spfNorm ladder
  dsimp only
  have e : ∀ (n : ℕ) (m : ℤ), ((n : ℤ) + |m|).toNat = n + m.natAbs := fun n m => by
    rw [Int.abs_eq_natAbs]; omega
  rw [e, e, h, ← hq]
  simp only [Int.toNat_natCast]
  generalize bohrRadius mass omega = b at *
  generalize m.natAbs = a
  have f (m : ℕ) : (0 : ℝ) < (m.factorial : ℝ) := by positivity
  by_cases h0 : n' = n
  · subst h0
    rw [if_pos rfl, if_pos rfl, ← Nat.add_assoc, Nat.factorial_succ]
    push_cast
    have f1 := f n'
    have f2 := f (n' + a)
    have e1 : (n'.factorial : ℝ) / (Real.pi * (((n' : ℝ) + a + 1) * (n' + a).factorial))
      = (n'.factorial : ℝ) / (Real.pi * (n' + a).factorial) / ((n' : ℝ) + a + 1) := by field_simp
    rw [e1, Real.sqrt_div (x := (n'.factorial : ℝ) / (Real.pi * (n' + a).factorial)) (by positivity)]
    have hx : (0 : ℝ) < (n' : ℝ) + a + 1 := by positivity
    have k1 := Real.mul_self_sqrt (show 0 ≤ (n'.factorial : ℝ) / (Real.pi * (n' + a).factorial) by positivity)
    have k2 := Real.mul_self_sqrt hx.le
    have k3 := Real.sqrt_pos.2 hx
    generalize √((n'.factorial : ℝ) / (Real.pi * (n' + a).factorial)) = s at *
    rw [show b * s * (b * (s / √((n' : ℝ) + a + 1))) * (2 * Real.pi) * (((n' : ℝ) + a + 1) * (n' + a).factorial / (n'.factorial * (2 * b ^ 2)))
      = (s * s) * Real.pi * ((n' + a).factorial / n'.factorial) * (((n' : ℝ) + a + 1) / √((n' : ℝ) + a + 1)) by
        field_simp, k1, Real.div_sqrt]
    field_simp
  · rw [if_neg h0, if_neg h0]
    by_cases h1 : n' + 1 = n
    · subst h1
      rw [if_pos rfl, if_pos rfl, show n' + (a + 1) = n' + 1 + a by omega, Nat.factorial_succ]
      push_cast
      have f1 := f n'
      have f2 := f (n' + 1 + a)
      have hx : (0 : ℝ) < (n' : ℝ) + 1 := by positivity
      have e1 : ((n' : ℝ) + 1) * n'.factorial / (Real.pi * (n' + 1 + a).factorial)
        = ((n' : ℝ) + 1) * ((n'.factorial : ℝ) / (Real.pi * (n' + 1 + a).factorial)) := by field_simp
      rw [e1, Real.sqrt_mul hx.le]
      have k1 := Real.mul_self_sqrt (show 0 ≤ (n'.factorial : ℝ) / (Real.pi * (n' + 1 + a).factorial) by positivity)
      generalize √((n'.factorial : ℝ) / (Real.pi * (n' + 1 + a).factorial)) = s at *
      rw [show b * (√((n' : ℝ) + 1) * s) * (b * s) * (2 * Real.pi) * -(((n' + 1 + a).factorial : ℝ) / (n'.factorial * (2 * b ^ 2)))
        = -√((n' : ℝ) + 1) * ((s * s) * Real.pi * ((n' + 1 + a).factorial / n'.factorial)) by field_simp, k1]
      field_simp
    · rw [if_neg h1, if_neg h1, mul_zero]

end QS.TwoDim
