import Verif.Lemmas.SpinOps

/-! # `⟨S²⟩` of the reference determinant (helper file, no property theorems) -/

set_option linter.unusedSimpArgs false

namespace QS

open Finset

variable {K : Type} [PyScalar K]

namespace BasisSet
open NDArray PyM

section
variable {ov : NDArray K} {l : ℕ} {a₀ a₁ b₀ b₁ : K} {m : NDArray K}

/-- Entries of a spin matrix in an orthonormal basis. -/
theorem spin_entry (hov : ∀ p < l, ∀ q < l, ov.get [p, q] = kd p q) {p q : ℕ}
    (hp : p < 2 * l) (hq : q < 2 * l) :
    (spinArr ov m l).get [p, q] = if p / 2 = q / 2 then 1 / 2 * m.get [p % 2, q % 2] else 0 := by
  rw [spinArr_get hp hq, hov _ (by omega) _ (by omega), kd]
  split_ifs <;> ring

/-- Trace over complete pairs. -/
theorem spin_trace (hm : IsSigma m) (h : OrthoSpin a₀ a₁ b₀ b₁)
    (hov : ∀ p < l, ∀ q < l, ov.get [p, q] = kd p q) {k : ℕ} (hk : k ≤ l) :
    ∑ i ∈ range (2 * k), (spinArr ov (pauliOf a₀ a₁ b₀ b₁ m) l).get [i, i] = 0 := by
  rw [sum_range_two_mul]
  refine sum_eq_zero fun p hp => ?_
  have hp' := mem_range.1 hp
  rw [sum_two, spin_entry hov (by omega) (by omega), spin_entry hov (by omega) (by omega),
    if_pos rfl, if_pos rfl, idx_mod (by omega), idx_mod (by omega)]
  linear_combination 1 / 2 * sigma_trace hm h

/-- Exchange sum over complete pairs. -/
theorem spin_exch (hm : IsSigma m) (h : OrthoSpin a₀ a₁ b₀ b₁)
    (hov : ∀ p < l, ∀ q < l, ov.get [p, q] = kd p q) {k : ℕ} (hk : k ≤ l) :
    ∑ i ∈ range (2 * k), ∑ j ∈ range (2 * k),
      (spinArr ov (pauliOf a₀ a₁ b₀ b₁ m) l).get [i, j] *
        (spinArr ov (pauliOf a₀ a₁ b₀ b₁ m) l).get [j, i] = k / 2 := by
  set S := spinArr ov (pauliOf a₀ a₁ b₀ b₁ m) l
  have key : ∀ i ∈ range (2 * k), ∑ j ∈ range (2 * k), S.get [i, j] * S.get [j, i] = 1 / 4 := by
    intro i hi
    have hi' := mem_range.1 hi
    have e := spin_sq hm h hov (p := i) (q := i) (by omega) (by omega)
    simp only [mulAt, kd, if_true, mul_one] at e
    rw [← e]
    refine sum_subset (range_mono (by omega)) fun t ht ht' => ?_
    have h1 := mem_range.1 ht
    have h2 : ¬ t < 2 * k := fun h => ht' (mem_range.2 h)
    rw [spin_entry hov (by omega) h1, if_neg (by omega), zero_mul]
  rw [sum_congr rfl key, sum_const, card_range, nsmul_eq_mul]
  push_cast
  ring

/-- The last orbital of an odd determinant is not coupled to the pairs. -/
theorem spin_cross (hov : ∀ p < l, ∀ q < l, ov.get [p, q] = kd p q) {k : ℕ} (hk : k < l) :
    ∑ i ∈ range (2 * k), (spinArr ov m l).get [i, 2 * k] * (spinArr ov m l).get [2 * k, i] = 0 := by
  refine sum_eq_zero fun i hi => ?_
  have hi' := mem_range.1 hi
  rw [spin_entry hov (by omega) (by omega), if_neg (by omega), zero_mul]

/-- Direct minus exchange of one direction: minus `1/4` for each paired electron. -/
theorem spin_direct_exch (hm : IsSigma m) (h : OrthoSpin a₀ a₁ b₀ b₁)
    (hov : ∀ p < l, ∀ q < l, ov.get [p, q] = kd p q) {n : ℕ} (hn : n ≤ 2 * l) :
    ∑ i ∈ range n, ∑ j ∈ range n,
      ((spinArr ov (pauliOf a₀ a₁ b₀ b₁ m) l).get [i, i] *
        (spinArr ov (pauliOf a₀ a₁ b₀ b₁ m) l).get [j, j] -
      (spinArr ov (pauliOf a₀ a₁ b₀ b₁ m) l).get [i, j] *
        (spinArr ov (pauliOf a₀ a₁ b₀ b₁ m) l).get [j, i]) = -((n / 2 : ℕ) : K) / 2 := by
  have hk : n / 2 ≤ l := by omega
  have t := spin_trace hm h hov hk
  have e := spin_exch hm h hov hk
  have c := fun hk => spin_cross (m := pauliOf a₀ a₁ b₀ b₁ m) hov (k := n / 2) hk
  revert t e c
  set S := spinArr ov (pauliOf a₀ a₁ b₀ b₁ m) l
  intro t e c
  simp only [sum_sub_distrib, ← mul_sum, ← sum_mul]
  rcases Nat.even_or_odd' n with ⟨k, rfl | rfl⟩
  · rw [show 2 * k / 2 = k by omega] at *
    rw [t, e]
    ring
  · rw [show (2 * k + 1) / 2 = k by omega] at *
    have c' := c (by omega)
    have c'' : ∑ i ∈ range (2 * k), S.get [2 * k, i] * S.get [i, 2 * k] = 0 := by
      rw [← c']; exact sum_congr rfl fun i _ => mul_comm _ _
    simp only [sum_range_succ, t, sum_add_distrib, e, c', c'']
    ring

end

end BasisSet

end QS
