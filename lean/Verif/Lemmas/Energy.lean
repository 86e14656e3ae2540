import Verif.Lemmas.World
import Mathlib.LinearAlgebra.Matrix.NonsingularInverse

/-! # Reference energies and Fock matrices under spin doubling and basis changes -/

set_option linter.unusedSimpArgs false

namespace QS

open Finset PyM NDArray BasisSet

variable {K T : Type} [PyScalar K]

theorem energy_doubled {H H' U U' : NDArray K} {l n : ℕ} (hn : n ≤ l)
    (hh : IsDoubledOneBody l l H H') (hu : IsDoubledAntiTwoBody l U U') :
    energyGeneral (2 * n) H' U' = energySpatial n H U := by
  unfold energyGeneral energySpatial
  simp only [sum_range_two_mul, mul_sum]
  have e1 : ∀ i ∈ range n, ∑ a ∈ range 2, H'.get [2 * i + a, 2 * i + a] = 2 * H.get [i, i] := by
    intro i hi
    have hi' := mem_range.1 hi
    have : ∀ a ∈ range 2, H'.get [2 * i + a, 2 * i + a] = H.get [i, i] := fun a ha => by
      rw [hh.2 i (by omega) i (by omega) a (mem_range.1 ha) a (mem_range.1 ha), if_pos rfl]
    rw [sum_congr rfl this]; simp
  rw [sum_congr rfl e1]
  congr 1
  refine sum_congr rfl fun i hi => ?_
  rw [sum_comm]
  refine sum_congr rfl fun j hj => ?_
  have hi' := mem_range.1 hi
  have hj' := mem_range.1 hj
  have : ∀ a ∈ range 2, ∀ b ∈ range 2, U'.get [2 * i + a, 2 * j + b, 2 * i + a, 2 * j + b] =
      U.get [i, j, i, j] - if a = b then U.get [i, j, j, i] else 0 := by
    intro a ha b hb
    rw [hu.2 i (by omega) j (by omega) i (by omega) j (by omega) a (mem_range.1 ha) b (mem_range.1 hb)
      a (mem_range.1 ha) b (mem_range.1 hb)]
    simp [eq_comm]
  have h0 : (0 : ℕ) ∈ range 2 := by simp
  have h1 : (1 : ℕ) ∈ range 2 := by simp
  simp only [sum_two]
  rw [this 0 h0 0 h0, this 0 h0 1 h1, this 1 h1 0 h0, this 1 h1 1 h1]
  simp only [if_true, zero_ne_one, one_ne_zero, if_false]
  field_simp
  ring

theorem fock_doubled {H H' U U' : NDArray K} {l n : ℕ} (hn : n ≤ l)
    (hh : IsDoubledOneBody l l H H') (hu : IsDoubledAntiTwoBody l U U') {p q a b : ℕ} (hp : p < l)
    (hq : q < l) (ha : a < 2) (hb : b < 2) :
    fockGeneralAt (2 * n) H' U' (2 * p + a) (2 * q + b) =
      if a = b then fockSpatialAt n H U p q else 0 := by
  unfold fockGeneralAt fockSpatialAt
  rw [hh.2 p hp q hq a ha b hb, sum_range_two_mul]
  have : ∀ i ∈ range n, ∑ c ∈ range 2, U'.get [2 * p + a, 2 * i + c, 2 * q + b, 2 * i + c] =
      if a = b then 2 * U.get [p, i, q, i] - U.get [p, i, i, q] else 0 := by
    intro i hi
    have hi' := mem_range.1 hi
    rw [sum_two, hu.2 p hp i (by omega) q hq i (by omega) a ha 0 (by omega) b hb 0 (by omega),
      hu.2 p hp i (by omega) q hq i (by omega) a ha 1 (by omega) b hb 1 (by omega)]
    have h2 : a = 0 ∨ a = 1 := by omega
    have h3 : b = 0 ∨ b = 1 := by omega
    rcases h2 with rfl | rfl <;> rcases h3 with rfl | rfl <;> simp <;> ring
  rw [sum_congr rfl this]
  split_ifs with h
  · rfl
  · simp

/-! ### rotations among occupied orbitals -/

theorem occ_density {C Ct : NDArray K} {l n : ℕ} (hn : n ≤ l)
    (inv : ∀ p < l, ∀ q < l, ∑ a ∈ range l, Ct.get [p, a] * C.get [a, q] = kd p q)
    (hC : ∀ a < l, ∀ i < n, n ≤ a → C.get [a, i] = 0)
    (hCt : ∀ i < n, ∀ a < l, n ≤ a → Ct.get [i, a] = 0) {a b : ℕ} (ha : a < l) (hb : b < l) :
    ∑ i ∈ range n, Ct.get [i, a] * C.get [b, i] = if a = b ∧ a < n then 1 else 0 := by
  by_cases han : n ≤ a
  · rw [if_neg (by omega)]
    exact sum_eq_zero fun i hi => by rw [hCt i (mem_range.1 hi) a ha han, zero_mul]
  by_cases hbn : n ≤ b
  · rw [if_neg (by omega)]
    exact sum_eq_zero fun i hi => by rw [hC b hb i (mem_range.1 hi) hbn, mul_zero]
  let A : Matrix (Fin n) (Fin n) K := fun i a => Ct.get [i, a]
  let B : Matrix (Fin n) (Fin n) K := fun a i => C.get [a, i]
  have hAB : A * B = 1 := by
    ext p q
    have hp := p.2
    have hq := q.2
    rw [Matrix.mul_apply, Fin.sum_univ_eq_sum_range (fun a => Ct.get [p, a] * C.get [a, q]) n]
    have e := inv p (by omega) q (by omega)
    rw [← sum_subset (s₁ := range n) (range_mono hn) (by
      intro c hc hc'
      rw [hC c (mem_range.1 hc) q hq (by simpa using hc'), mul_zero])] at e
    rw [e, Matrix.one_apply]
    simp [kd, Fin.ext_iff]
  have hBA := mul_eq_one_comm.1 hAB
  have e := congrFun (congrFun hBA ⟨b, by omega⟩) ⟨a, by omega⟩
  rw [Matrix.mul_apply, Fin.sum_univ_eq_sum_range (fun i => C.get [b, i] * Ct.get [i, a]) n,
    Matrix.one_apply] at e
  simp only [mul_comm (Ct.get _)]
  rw [e]
  simp only [Fin.mk.injEq]
  have : a < n := by omega
  simp [this, eq_comm]

theorem occ_sum {C Ct : NDArray K} {l n : ℕ} (hn : n ≤ l)
    (d : ∀ a < l, ∀ b < l, ∑ i ∈ range n, Ct.get [i, a] * C.get [b, i] =
      if a = b ∧ a < n then 1 else 0) (f : ℕ → ℕ → K) :
    ∑ i ∈ range n, ∑ a ∈ range l, ∑ b ∈ range l, Ct.get [i, a] * C.get [b, i] * f a b =
      ∑ a ∈ range n, f a a := by
  rw [sum_comm]
  have : ∀ a ∈ range l, ∑ i ∈ range n, ∑ b ∈ range l, Ct.get [i, a] * C.get [b, i] * f a b =
      if a < n then f a a else 0 := by
    intro a ha
    rw [sum_comm]
    simp only [← sum_mul]
    rw [sum_congr rfl (g := fun b => (if a = b ∧ a < n then 1 else 0) * f a b) (fun b hb => by
      rw [d a (mem_range.1 ha) b (mem_range.1 hb)])]
    split_ifs with h
    · simp only [h, and_true, ite_mul, one_mul, zero_mul, sum_ite_eq]
      rw [if_pos ha]
    · simp [h]
  rw [sum_congr rfl this, sum_ite]
  simp only [sum_const_zero, add_zero]
  refine sum_congr ?_ fun _ _ => rfl
  ext a
  simp only [mem_filter, mem_range]
  omega

theorem energy_rotated {C Ct H H' U U' : NDArray K} {l n : ℕ} (hn : n ≤ l)
    (d : ∀ a < l, ∀ b < l, ∑ i ∈ range n, Ct.get [i, a] * C.get [b, i] =
      if a = b ∧ a < n then 1 else 0)
    (hh : IsOneBody C Ct l l H H') (hu : IsTwoBody C Ct l l U U') (k : SysKind) :
    energyOf k n H' U' = energyOf k n H U := by
  have e1 : ∑ i ∈ range n, H'.get [i, i] = ∑ i ∈ range n, H.get [i, i] := by
    rw [← occ_sum hn d (fun a b => H.get [a, b])]
    refine sum_congr rfl fun i hi => ?_
    have := mem_range.1 hi
    rw [hh.2 i (by omega) i (by omega)]
    exact sum_congr rfl fun a _ => sum_congr rfl fun b _ => by ring
  have e2 : ∑ i ∈ range n, ∑ j ∈ range n, U'.get [i, j, i, j] =
      ∑ i ∈ range n, ∑ j ∈ range n, U.get [i, j, i, j] := by
    rw [← occ_sum hn d (fun a c => ∑ j ∈ range n, U.get [a, j, c, j])]
    refine sum_congr rfl fun i hi => ?_
    have hi' := mem_range.1 hi
    have : ∀ a c, ∑ j ∈ range n, U.get [a, j, c, j] =
        ∑ j ∈ range n, ∑ b ∈ range l, ∑ e ∈ range l,
          Ct.get [j, b] * C.get [e, j] * U.get [a, b, c, e] :=
      fun a c => (occ_sum hn d (fun b e => U.get [a, b, c, e])).symm
    simp only [this, mul_sum]
    have r : ∀ j ∈ range n, U'.get [i, j, i, j] =
        ∑ a ∈ range l, ∑ c ∈ range l, ∑ b ∈ range l, ∑ e ∈ range l,
          Ct.get [i, a] * C.get [c, i] * (Ct.get [j, b] * C.get [e, j] * U.get [a, b, c, e]) := by
      intro j hj
      have hj' := mem_range.1 hj
      rw [hu.2 i (by omega) j (by omega) i (by omega) j (by omega)]
      refine sum_congr rfl fun a _ => ?_
      rw [sum_comm]
      refine sum_congr rfl fun c _ => sum_congr rfl fun b _ => sum_congr rfl fun e _ => by ring
    rw [sum_congr rfl r, sum_comm]
    refine sum_congr rfl fun a _ => ?_
    rw [sum_comm]
  have e3 : ∑ i ∈ range n, ∑ j ∈ range n, U'.get [i, j, j, i] =
      ∑ i ∈ range n, ∑ j ∈ range n, U.get [i, j, j, i] := by
    rw [← occ_sum hn d (fun a c => ∑ j ∈ range n, U.get [a, j, j, c])]
    refine sum_congr rfl fun i hi => ?_
    have hi' := mem_range.1 hi
    have : ∀ a c, ∑ j ∈ range n, U.get [a, j, j, c] =
        ∑ j ∈ range n, ∑ b ∈ range l, ∑ e ∈ range l,
          Ct.get [j, b] * C.get [e, j] * U.get [a, b, e, c] :=
      fun a c => (occ_sum hn d (fun b e => U.get [a, b, e, c])).symm
    simp only [this, mul_sum]
    have r : ∀ j ∈ range n, U'.get [i, j, j, i] =
        ∑ a ∈ range l, ∑ c ∈ range l, ∑ b ∈ range l, ∑ e ∈ range l,
          Ct.get [i, a] * C.get [c, i] * (Ct.get [j, b] * C.get [e, j] * U.get [a, b, e, c]) := by
      intro j hj
      have hj' := mem_range.1 hj
      rw [hu.2 i (by omega) j (by omega) j (by omega) i (by omega)]
      refine sum_congr rfl fun a _ => ?_
      symm
      rw [sum_comm]
      refine sum_congr rfl fun b _ => ?_
      rw [sum_comm]
      refine sum_congr rfl fun e _ => sum_congr rfl fun c _ => by ring
    rw [sum_congr rfl r, sum_comm]
    refine sum_congr rfl fun a _ => ?_
    rw [sum_comm]
  cases k with
  | general => simp only [energyOf, energyGeneral, e1, e2]
  | spatial => simp only [energyOf, energySpatial, sum_sub_distrib, ← mul_sum, e1, e2, e3]

end QS
