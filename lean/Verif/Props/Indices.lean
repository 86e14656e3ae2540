import Verif.Lemmas.Indices

/-!
# Orbital indices of the two-dimensional oscillator and Kronecker deltas (C42, C43, C70)
-/

namespace QS.Props

open Idx

/-! ## C42 -/

/-- **C42** The loop of `get_indices_nm` stops: for every `p`, allowing any number of at least `p + 1`
tests of the loop condition, the function returns, always with the same value. -/
theorem C42_terminates (p fuel : ℕ) (hf : p < fuel) :
    getIndicesNm? fuel p = some (getIndicesNm p) := by
  obtain ⟨N, k, hk, rfl⟩ := exists_shell p
  rw [getIndicesNm?_shell N k hk (by have := le_tri N; omega), getIndicesNm_shell N k hk]

/-- `get_indices_nm(11) = (1, -2)`. -/
example : getIndicesNm? 12 11 = some (1, -2) := by decide +kernel

/-- **C42** `get_index_p(*get_indices_nm(p)) = p` for every index `p`. -/
theorem C42_index_of_numbers (p : ℕ) :
    getIndexP (getIndicesNm p).1 (getIndicesNm p).2 = p := by
  obtain ⟨N, k, hk, rfl⟩ := exists_shell p
  rw [getIndicesNm_shell N k hk]
  exact getIndexP_shell N k hk

example : getIndicesNm 17 = (2, -1) ∧ getIndexP 2 (-1) = 17 := by decide +kernel

/-- **C42** For all quantum numbers `n ≥ 0` and `m`, `get_index_p(n, m)` is a natural number, and
`get_indices_nm(get_index_p(n, m)) = (n, m)`. -/
theorem C42_numbers_of_index (n m : ℤ) (hn : 0 ≤ n) :
    0 ≤ getIndexP n m ∧ getIndicesNm (getIndexP n m).toNat = (n, m) := by
  obtain ⟨N, k, hk, rfl, rfl, -⟩ := exists_position n m hn
  rw [getIndexP_shell N k hk, Int.toNat_natCast]
  exact ⟨Int.natCast_nonneg _, getIndicesNm_shell N k hk⟩

example : getIndexP 3 (-2) = 39 ∧ getIndicesNm 39 = (3, -2) := by decide +kernel

/-- **C42** The quantum number `n` that `get_indices_nm` returns is never negative. -/
theorem C42_nonneg (p : ℕ) : 0 ≤ (getIndicesNm p).1 := by
  obtain ⟨N, k, hk, rfl⟩ := exists_shell p
  rw [getIndicesNm_shell N k hk]
  simp; omega

example : (getIndicesNm 12).1 = 2 := by decide +kernel

/-! ## C43 -/

/-- **C43** The shell energy does not decrease with the orbital index. -/
theorem C43_monotone {p q : ℕ} (h : p ≤ q) :
    getShellEnergy (getIndicesNm p).1 (getIndicesNm p).2
      ≤ getShellEnergy (getIndicesNm q).1 (getIndicesNm q).2 := by
  have key (N k : ℕ) (hk : k ≤ N) :
      getShellEnergy (getIndicesNm (tri N + k)).1 (getIndicesNm (tri N + k)).2 = N + 1 := by
    rw [getIndicesNm_shell N k hk, getShellEnergy]
    rcases le_total (2 * (k : ℤ) - N) 0 with h | h
    · simp only [abs_of_nonpos h]; rw [min_eq_left (by omega)]; ring
    · simp only [abs_of_nonneg h]; rw [min_eq_right (by omega)]; ring
  obtain ⟨N, k, hk, rfl⟩ := exists_shell p
  obtain ⟨M, j, hj, rfl⟩ := exists_shell q
  rw [key N k hk, key M j hj]
  by_contra hlt
  have := tri_mono (show M + 1 ≤ N by omega)
  simp only [tri] at this
  omega

/-- Indices 5 and 6 are in shells 3 and 4. -/
example : getShellEnergy (getIndicesNm 5).1 (getIndicesNm 5).2 = 3 ∧
    getShellEnergy (getIndicesNm 6).1 (getIndicesNm 6).2 = 4 := by decide +kernel

/-- **C43** Shell `N ≥ 1` consists of the `N` consecutive indices from `N(N-1)/2` on: an index has
shell energy `N` exactly if it is one of them. -/
theorem C43_shell (N p : ℕ) (hN : 1 ≤ N) :
    getShellEnergy (getIndicesNm p).1 (getIndicesNm p).2 = N
      ↔ N * (N - 1) / 2 ≤ p ∧ p < N * (N - 1) / 2 + N := by
  obtain ⟨N, rfl⟩ := Nat.exists_eq_add_of_le' hN
  have e : (N + 1) * (N + 1 - 1) / 2 = tri N := by
    rw [tri_eq, Nat.add_sub_cancel, Nat.mul_comm]
  rw [e]
  obtain ⟨M, j, hj, rfl⟩ := exists_shell p
  have hE : getShellEnergy (getIndicesNm (tri M + j)).1 (getIndicesNm (tri M + j)).2 = M + 1 := by
    rw [getIndicesNm_shell M j hj, getShellEnergy]
    rcases le_total (2 * (j : ℤ) - M) 0 with h | h
    · simp only [abs_of_nonpos h]; rw [min_eq_left (by omega)]; ring
    · simp only [abs_of_nonneg h]; rw [min_eq_right (by omega)]; ring
  rw [hE]
  constructor
  · intro h
    obtain rfl : M = N := by omega
    omega
  · rintro ⟨h1, h2⟩
    obtain ⟨k, hk⟩ := Nat.exists_eq_add_of_le h1
    obtain ⟨rfl, -⟩ := tri_pos_unique hj (show k ≤ N by omega) hk
    push_cast; ring

example : getShellEnergy (getIndicesNm 14).1 (getIndicesNm 14).2 = 5 ∧ 5 * (5 - 1) / 2 = 10 := by
  decide +kernel

/-- **C43** Inside shell `N`, `m` grows from `-(N-1)` to `N-1` in steps of two. -/
theorem C43_m_ladder (N k : ℕ) (hk : k < N) :
    (getIndicesNm (N * (N - 1) / 2 + k)).2 = -((N : ℤ) - 1) + 2 * k := by
  obtain ⟨N, rfl⟩ := Nat.exists_eq_add_of_le' (show 1 ≤ N by omega)
  have e : (N + 1) * (N + 1 - 1) / 2 = tri N := by
    rw [tri_eq, Nat.add_sub_cancel, Nat.mul_comm]
  rw [e, getIndicesNm_shell N k (by omega)]
  push_cast; ring

example : (List.range 4).map (fun k => (getIndicesNm (6 + k)).2) = [-3, -1, 1, 3] := by
  decide +kernel

/-! ## C70 -/

/-- **C70** `spin_delta(p, q)` is 1 if `p` and `q` have the same parity, and 0 otherwise. -/
theorem C70_spin_delta (p q : ℕ) : spinDelta p q = if p % 2 = q % 2 then 1 else 0 := by
  simp only [spinDelta, Nat.and_one_is_mod]
  rcases Nat.mod_two_eq_zero_or_one p with hp | hp <;>
    rcases Nat.mod_two_eq_zero_or_one q with hq | hq <;> simp [hp, hq]

example : spinDelta 6 10 = 1 ∧ spinDelta 6 11 = 0 ∧ spinDelta 7 11 = 1 := by decide

/-- **C70** `delta(p, q)` is true exactly if `p = q`. -/
theorem C70_delta (p q : ℕ) : delta p q = true ↔ p = q := by
  simp [delta]

example : delta 4 4 = true ∧ delta 4 6 = false := by decide

end QS.Props
