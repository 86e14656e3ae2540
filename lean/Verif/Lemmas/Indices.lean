import Verif.Model.Indices
import Mathlib.Tactic.Linarith
import Mathlib.Tactic.Ring
import Mathlib.Tactic.Positivity
import Mathlib.Tactic.NormNum
import Mathlib.Tactic.Push

/-!
# The orbital indices in closed form
-/

namespace QS.Idx

/-- The number of orbitals below shell `N + 1`. -/
def tri : ℕ → ℕ
  | 0 => 0
  | N + 1 => tri N + (N + 1)

theorem two_tri (N : ℕ) : 2 * tri N = N * (N + 1) := by
  induction N with
  | zero => rfl
  | succ N ih => simp only [tri]; linarith [ih, show (N+1)*(N+1+1) = N*(N+1) + 2*(N+1) by ring]

theorem tri_eq (N : ℕ) : tri N = N * (N + 1) / 2 := by
  have := two_tri N; omega

theorem tri_mono {M N : ℕ} (h : M ≤ N) : tri M ≤ tri N := by
  induction h with
  | refl => exact le_rfl
  | step _ ih => simp only [tri]; omega

theorem previousShell_nat (N : ℕ) : previousShell ((N : ℤ) + 1) = tri N := by
  have : ((N : ℤ) + 1 - 1).toNat = N := by omega
  rw [previousShell, this]
  induction N with
  | zero => rfl
  | succ N ih =>
    rw [List.range_succ, List.foldl_append, ih (by omega)]
    simp [tri]

/-- The shell an index is in, with its position there. -/
theorem exists_shell (p : ℕ) : ∃ N k, k ≤ N ∧ p = tri N + k := by
  induction p with
  | zero => exact ⟨0, 0, le_rfl, rfl⟩
  | succ p ih =>
    obtain ⟨N, k, hk, rfl⟩ := ih
    rcases hk.lt_or_eq with h | rfl
    · exact ⟨N, k + 1, h, rfl⟩
    · exact ⟨k + 1, 0, by omega, by simp [tri]; omega⟩

theorem run_from (N k : ℕ) (hk : k ≤ N) (M : ℕ) (hM : M ≤ N) (fuel : ℕ) (hf : N - M < fuel) :
    ShellLoop.run (tri N + k) fuel ⟨tri M, tri M + (M + 1), M + 1⟩
      = some ⟨tri N, tri N + (N + 1), N + 1⟩ := by
  induction fuel generalizing M with
  | zero => omega
  | succ fuel ih =>
    rcases hM.lt_or_eq with h | rfl
    · have hg : tri M + (M + 1) ≤ tri N + k := (tri_mono (show M + 1 ≤ N by omega)).trans (by omega)
      rw [ShellLoop.run, if_pos (by exact hg)]
      exact ih (M + 1) (by omega) (by omega)
    · rw [ShellLoop.run, if_neg (by simp only [ShellLoop.guard]; omega)]

theorem le_tri (N : ℕ) : N ≤ tri N := by
  induction N with
  | zero => rfl
  | succ N ih => simp only [tri]; omega

theorem run_start (N k : ℕ) (hk : k ≤ N) {fuel : ℕ} (hf : N < fuel) :
    ShellLoop.run (tri N + k) fuel .start = some ⟨tri N, tri N + (N + 1), N + 1⟩ :=
  run_from N k hk 0 (by omega) fuel (by omega)

theorem afterLoop_shell (N k : ℕ) (hk : k ≤ N) :
    afterLoop (tri N + k) ⟨tri N, tri N + (N + 1), N + 1⟩
      = (min (k : ℤ) (N - k), 2 * (k : ℤ) - N) := by
  have hmid : (((tri N + (N + 1) : ℕ) : ℚ) - (tri N : ℕ)) / 2 + (tri N : ℕ)
      = ((N + 1 : ℕ) : ℚ) / 2 + ((tri N : ℕ) : ℤ) := by push_cast; ring
  have hfl : ⌊(((N + 1 : ℕ) : ℚ) / 2 + ((tri N : ℕ) : ℤ))⌋ = ((N + 1) / 2 + tri N : ℕ) := by
    rw [Int.floor_add_intCast, show (((N + 1 : ℕ) : ℚ) / 2) = ((N + 1 : ℕ) : ℚ) / ((2 : ℕ) : ℚ) by norm_num,
      Rat.floor_natCast_div_natCast]
    push_cast; ring
  unfold afterLoop
  simp only [hmid, hfl]
  have e1 : tri N + (N + 1) - tri N = N + 1 := by omega
  rw [e1]
  by_cases hc : (N + 1) % 2 = 1 ∧ k = (N + 1) / 2
  · rw [if_pos ⟨hc.1, by rw [hc.2, Nat.add_comm (tri N), Int.cast_natCast, sub_self]; norm_num⟩]
    obtain ⟨h1, h2⟩ := hc
    ext <;> simp <;> omega
  · have habs : ¬ ((N + 1) % 2 = 1 ∧
        |((tri N + k : ℕ) : ℚ) - (((N + 1) / 2 + tri N : ℕ) : ℤ)| < 1 / 10 ^ 8) := by
      rintro ⟨h1, h2⟩
      apply hc ⟨h1, _⟩
      have : |(((tri N + k : ℕ) : ℤ) - (((N + 1) / 2 + tri N : ℕ) : ℤ) : ℤ)| < 1 := by
        have : (|(((tri N + k : ℕ) : ℤ) - (((N + 1) / 2 + tri N : ℕ) : ℤ) : ℤ)| : ℚ) < 1 := by
          push_cast at h2 ⊢
          exact h2.trans (by norm_num)
        exact_mod_cast this
      rw [abs_lt] at this
      omega
    rw [if_neg habs]
    have hlt : ((tri N + k : ℕ) : ℚ) < ((N + 1 : ℕ) : ℚ) / 2 + ((tri N : ℕ) : ℤ) ↔ 2 * k < N + 1 := by
      rw [show (((tri N + k : ℕ) : ℚ) < ((N + 1 : ℕ) : ℚ) / 2 + ((tri N : ℕ) : ℤ)) ↔
        ((2 * k : ℕ) : ℚ) < ((N + 1 : ℕ) : ℚ) by push_cast; constructor <;> intro h <;> linarith]
      exact Nat.cast_lt
    by_cases h2 : 2 * k < N + 1
    · rw [if_pos (hlt.2 h2)]
      ext <;> simp <;> omega
    · rw [if_neg (fun h => h2 (hlt.1 h))]
      ext <;> simp <;> omega

theorem getIndicesNm?_shell (N k : ℕ) (hk : k ≤ N) {fuel : ℕ} (hf : N < fuel) :
    getIndicesNm? fuel (tri N + k) = some (min (k : ℤ) (N - k), 2 * (k : ℤ) - N) := by
  rw [getIndicesNm?, run_start N k hk hf, Option.map_some, afterLoop_shell N k hk]

theorem getIndicesNm_shell (N k : ℕ) (hk : k ≤ N) :
    getIndicesNm (tri N + k) = (min (k : ℤ) (N - k), 2 * (k : ℤ) - N) := by
  rw [getIndicesNm, getIndicesNm?_shell N k hk (by have := le_tri N; omega)]; rfl

theorem getIndexP_shell (N k : ℕ) (hk : k ≤ N) :
    getIndexP (min (k : ℤ) (N - k)) (2 * k - N) = ((tri N + k : ℕ) : ℤ) := by
  have hN : 2 * min (k : ℤ) (N - k) + |2 * (k : ℤ) - N| + 1 = (N : ℤ) + 1 := by
    rcases le_total (2 * (k : ℤ) - N) 0 with h | h
    · rw [abs_of_nonpos h, min_eq_left (by omega)]; ring
    · rw [abs_of_nonneg h, min_eq_right (by omega)]; ring
  simp only [getIndexP, hN, previousShell_nat]
  split_ifs with h1 h2 h3
  · have : N = 0 := by omega
    subst this; simp [tri]; omega
  · omega
  · rw [min_eq_left (by omega)]; push_cast; ring
  · rw [min_eq_right (by omega)]; push_cast; ring

/-- Every pair of quantum numbers has a shell and a position. -/
theorem exists_position (n m : ℤ) (hn : 0 ≤ n) :
    ∃ N k : ℕ, k ≤ N ∧ n = min (k : ℤ) (N - k) ∧ m = 2 * k - N ∧ (N : ℤ) = 2 * n + |m| := by
  rcases le_total m 0 with h | h
  · refine ⟨(2 * n - m).toNat, n.toNat, ?_, ?_, ?_, ?_⟩ <;> (try rw [abs_of_nonpos h]) <;> omega
  · refine ⟨(2 * n + m).toNat, (n + m).toNat, ?_, ?_, ?_, ?_⟩ <;> (try rw [abs_of_nonneg h]) <;> omega

theorem tri_pos_unique {N k M j : ℕ} (hk : k ≤ N) (hj : j ≤ M) (h : tri N + k = tri M + j) :
    N = M ∧ k = j := by
  rcases lt_trichotomy N M with hl | rfl | hl
  · have := tri_mono (show N + 1 ≤ M by omega); simp only [tri] at this; omega
  · exact ⟨rfl, by omega⟩
  · have := tri_mono (show M + 1 ≤ N by omega); simp only [tri] at this; omega

end QS.Idx
