import Verif.Lemmas.Eigh
import Verif.Lemmas.Weyl

/-!
# Two results of an eigensolver for the same matrix
-/

namespace QS.Spec

open Finset

/-- Coefficient `i` of eigenvector `j` of the second result in the eigenvectors of the first. -/
noncomputable def mixing (n : ℕ) (v v' : NDArray ℂ) (i j : ℕ) : ℂ :=
  ∑ k ∈ range n, (starRingEnd ℂ) (v.get [k, i]) * v'.get [k, j]

variable {n : ℕ} {h w v w' v' : NDArray ℂ}

theorem EighOK.expand (F : EighOK n h w v) {k : ℕ} (hk : k < n) (j : ℕ) :
    v'.get [k, j] = ∑ i ∈ range n, v.get [k, i] * mixing n v v' i j := by
  simp only [mixing, mul_sum]
  rw [sum_comm]
  have : ∀ m ∈ range n, ∑ i ∈ range n, v.get [k, i] * ((starRingEnd ℂ) (v.get [m, i]) * v'.get [m, j])
      = (if k = m then 1 else 0) * v'.get [m, j] := by
    intro m hm
    rw [← F.complete hk (mem_range.1 hm), sum_mul]
    exact sum_congr rfl fun i _ => by ring
  rw [sum_congr rfl this]
  simp [hk]

theorem mixing_star (i j : ℕ) : (starRingEnd ℂ) (mixing n v v' i j) = mixing n v' v j i := by
  simp only [mixing, map_sum, map_mul, Complex.conj_conj]
  exact sum_congr rfl fun k _ => mul_comm _ _

theorem mixing_columns (F : EighOK n h w v) (F' : EighOK n h w' v') {i j : ℕ} (hi : i < n) (hj : j < n) :
    ∑ k ∈ range n, (starRingEnd ℂ) (mixing n v v' k i) * mixing n v v' k j = if i = j then 1 else 0 := by
  rw [← F'.orthonormal i j hi hj]
  simp only [mixing_star]
  have : ∀ k ∈ range n, mixing n v' v i k * mixing n v v' k j
      = ∑ m ∈ range n, (starRingEnd ℂ) (v'.get [m, i]) * (v.get [m, k] * mixing n v v' k j) := by
    intro k _
    rw [mixing, sum_mul]
    exact sum_congr rfl fun m _ => by ring
  rw [sum_congr rfl this, sum_comm]
  refine sum_congr rfl fun m hm => ?_
  rw [← mul_sum, ← F.expand (mem_range.1 hm) j]

theorem mixing_rows (F : EighOK n h w v) (F' : EighOK n h w' v') {i j : ℕ} (hi : i < n) (hj : j < n) :
    ∑ k ∈ range n, mixing n v v' i k * (starRingEnd ℂ) (mixing n v v' j k) = if i = j then 1 else 0 := by
  rw [← mixing_columns F' F hi hj]
  exact sum_congr rfl fun k _ => by rw [mixing_star, mixing_star]

/-- Only eigenvectors with the same eigenvalue mix. -/
theorem mixing_zero (F : EighOK n h w v) (F' : EighOK n h w' v') {i j : ℕ} (hi : i < n) (hj : j < n)
    (hne : w.get [i] ≠ w'.get [j]) : mixing n v v' i j = 0 := by
  have h1 : ∀ k < n, ∑ m ∈ range n, v.get [k, m] * (w.get [m] * mixing n v v' m j)
      = ∑ m ∈ range n, v.get [k, m] * (w'.get [j] * mixing n v v' m j) := by
    intro k hk
    have e1 := F'.eigen j k hj hk
    have e2 : ∀ m ∈ range n, h.get [k, m] * v'.get [m, j]
        = ∑ a ∈ range n, h.get [k, m] * v.get [m, a] * mixing n v v' a j := by
      intro m hm
      rw [F.expand (mem_range.1 hm) j, mul_sum]
      exact sum_congr rfl fun a _ => by ring
    rw [sum_congr rfl e2, sum_comm, F.expand hk j, mul_sum] at e1
    have e3 : ∀ a ∈ range n, ∑ m ∈ range n, h.get [k, m] * v.get [m, a] * mixing n v v' a j
        = v.get [k, a] * (w.get [a] * mixing n v v' a j) := by
      intro a ha
      rw [← sum_mul, F.eigen a k (mem_range.1 ha) hk]
      ring
    rw [sum_congr rfl e3] at e1
    rw [e1]
    exact sum_congr rfl fun a _ => by ring
  have h2 : ∀ g : ℕ → ℂ, ∑ k ∈ range n, (starRingEnd ℂ) (v.get [k, i]) * ∑ m ∈ range n, v.get [k, m] * g m = g i := by
    intro g
    simp only [mul_sum]
    rw [sum_comm]
    have : ∀ m ∈ range n, ∑ k ∈ range n, (starRingEnd ℂ) (v.get [k, i]) * (v.get [k, m] * g m)
        = (if i = m then 1 else 0) * g m := by
      intro m hm
      rw [← F.orthonormal i m hi (mem_range.1 hm), sum_mul]
      exact sum_congr rfl fun k _ => by ring
    rw [sum_congr rfl this]
    simp [hi]
  have h3 := h2 fun m => w.get [m] * mixing n v v' m j
  have h4 := h2 fun m => w'.get [j] * mixing n v v' m j
  rw [sum_congr rfl fun k hk => by rw [h1 k (mem_range.1 hk)]] at h3
  have h5 := h3.symm.trans h4
  have h6 : (w.get [i] - w'.get [j]) * mixing n v v' i j = 0 := by linear_combination h5
  exact (mul_eq_zero.1 h6).resolve_left (sub_ne_zero.2 hne)

/-- The projection on the eigenvectors below a gap does not depend on their choice. -/
theorem projection_unique (F : EighOK n h w v) (F' : EighOK n h w' v') {m : ℕ} (hm : m ≤ n)
    (gap : ∀ i < m, ∀ j < n, m ≤ j → w.get [i] ≠ w'.get [j] ∧ w.get [j] ≠ w'.get [i]) {a b : ℕ} (ha : a < n) (hb : b < n) :
    ∑ i ∈ range m, v'.get [a, i] * (starRingEnd ℂ) (v'.get [b, i])
      = ∑ i ∈ range m, v.get [a, i] * (starRingEnd ℂ) (v.get [b, i]) := by
  have sub : ∀ g : ℕ → ℂ, (∀ j < n, m ≤ j → g j = 0) → ∑ j ∈ range m, g j = ∑ j ∈ range n, g j := fun g hg =>
    sum_subset (range_subset_range.2 hm) fun j hj hj' => hg j (mem_range.1 hj) (by simpa using hj')
  have q : ∀ i < n, ∀ i' < n, ∑ j ∈ range m, mixing n v v' i j * (starRingEnd ℂ) (mixing n v v' i' j)
      = if i < m then (if i = i' then 1 else 0) else 0 := by
    intro i hi i' hi'
    by_cases him : i < m
    · rw [if_pos him, ← mixing_rows F F' hi hi']
      exact sub _ fun j hj hmj => by rw [mixing_zero F F' hi hj (gap i him j hj hmj).1, zero_mul]
    · rw [if_neg him]
      refine sum_eq_zero fun j hj => ?_
      rw [mixing_zero F F' hi ((mem_range.1 hj).trans_le hm) (gap j (mem_range.1 hj) i hi (by omega)).2, zero_mul]
  have e : ∀ j ∈ range m, v'.get [a, j] * (starRingEnd ℂ) (v'.get [b, j]) = ∑ i ∈ range n, ∑ i' ∈ range n,
      v.get [a, i] * (starRingEnd ℂ) (v.get [b, i']) * (mixing n v v' i j * (starRingEnd ℂ) (mixing n v v' i' j)) := by
    intro j _
    rw [F.expand (v' := v') ha j, F.expand (v' := v') hb j, map_sum, sum_mul_sum]
    refine sum_congr rfl fun i _ => sum_congr rfl fun i' _ => ?_
    rw [map_mul]
    ring
  have e' : ∑ j ∈ range m, ∑ i ∈ range n, ∑ i' ∈ range n, v.get [a, i] * (starRingEnd ℂ) (v.get [b, i']) *
      (mixing n v v' i j * (starRingEnd ℂ) (mixing n v v' i' j)) = ∑ i ∈ range n, ∑ i' ∈ range n,
        v.get [a, i] * (starRingEnd ℂ) (v.get [b, i']) * if i < m then (if i = i' then 1 else 0) else 0 := by
    rw [sum_comm]
    refine sum_congr rfl fun i hi => ?_
    rw [sum_comm]
    refine sum_congr rfl fun i' hi' => ?_
    rw [← q i (mem_range.1 hi) i' (mem_range.1 hi'), mul_sum]
  rw [sum_congr rfl e, e', ← sub _ fun i hi hmi => ?_]
  · refine sum_congr rfl fun i hi => ?_
    simp only [if_pos (mem_range.1 hi), mul_ite, mul_one, mul_zero]
    rw [sum_ite_eq, if_pos (mem_range.2 ((mem_range.1 hi).trans_le hm))]
  · simp only [if_neg (not_lt.2 hmi), mul_zero, sum_const_zero]

end QS.Spec
