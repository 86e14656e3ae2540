import Verif.Model.MachineIndices
import Verif.Props.Indices
import Mathlib.Algebra.Order.Field.Power
import Mathlib.Tactic.NormNum
import Mathlib.Data.Nat.Prime.Int
import Mathlib.Data.Nat.Prime.Basic

/-!
# Property C111: machine arithmetic does not change the orbital indices
-/

namespace QS.Props

open QS.Idx

theorem w64_eq {x : ℤ} (h : -2 ^ 63 ≤ x) (h' : x < 2 ^ 63) : w64 x = x := by
  unfold w64
  apply Int.bmod_eq_of_le <;> norm_num at * <;> omega

theorem rd_int {rd : ℚ → ℚ} (h : CorrectRounding rd) {x : ℤ} (h1 : -2 ^ 53 ≤ x) (h2 : x ≤ 2 ^ 53) : rd x = x :=
  h.exact _ ⟨x, 0, abs_le.2 ⟨h1, h2⟩, by norm_num, by norm_num, by simp⟩

theorem rd_half {rd : ℚ → ℚ} (h : CorrectRounding rd) {x : ℤ} (h1 : -2 ^ 53 ≤ x) (h2 : x ≤ 2 ^ 53) :
    rd ((x : ℚ) / 2) = x / 2 :=
  h.exact _ ⟨x, -1, abs_le.2 ⟨h1, h2⟩, by norm_num, by norm_num, by rw [zpow_neg_one, div_eq_mul_inv]⟩

/-- The literal `1e-8` becomes a float between `2^-27` and `1`. -/
theorem rd_literal {rd : ℚ → ℚ} (h : CorrectRounding rd) : 0 < rd (1 / 10 ^ 8) ∧ rd (1 / 10 ^ 8) ≤ 1 := by
  constructor
  · have e : rd ((2 : ℚ) ^ (-27 : ℤ)) = (2 : ℚ) ^ (-27 : ℤ) :=
      h.exact _ ⟨1, -27, by norm_num, by norm_num, by norm_num, by simp⟩
    have : rd ((2 : ℚ) ^ (-27 : ℤ)) ≤ rd (1 / 10 ^ 8) := h.mono (by norm_num)
    rw [e] at this
    exact lt_of_lt_of_le (by positivity) this
  · have e : rd ((1 : ℤ) : ℚ) = ((1 : ℤ) : ℚ) := rd_int h (by norm_num) (by norm_num)
    have : rd (1 / 10 ^ 8) ≤ rd ((1 : ℤ) : ℚ) := h.mono (by norm_num)
    rw [e] at this
    simpa using this

/-- The loop with machine integers does what the loop with unbounded integers does. -/
theorem machine_run {p : ℕ} (hp : p < 2 ^ 51) (fuel : ℕ) (s : ShellLoop) (h1 : s.current = s.previous + s.counter)
    (h2 : s.counter ≤ s.current) (h3 : s.current < 2 ^ 52) :
    MachineLoop.run p fuel ⟨s.previous, s.current, s.counter⟩ =
      (ShellLoop.run p fuel s).map (fun t => ⟨t.previous, t.current, t.counter⟩) ∧
    ∀ t, ShellLoop.run p fuel s = some t → t.current = t.previous + t.counter ∧ t.counter ≤ t.current ∧
      t.current < 2 ^ 52 := by
  induction fuel generalizing s with
  | zero => exact ⟨rfl, fun t ht => absurd ht (by simp [ShellLoop.run])⟩
  | succ fuel ih =>
    have em : MachineLoop.run p (fuel + 1) ⟨s.previous, s.current, s.counter⟩ = if (s.current : ℤ) ≤ p then
      MachineLoop.run p fuel (MachineLoop.body ⟨s.previous, s.current, s.counter⟩) else
        some ⟨s.previous, s.current, s.counter⟩ := rfl
    have es : ShellLoop.run p (fuel + 1) s = if s.guard p then ShellLoop.run p fuel s.body else some s := rfl
    rw [em, es]
    by_cases hg : s.guard p
    · have hg' : s.current ≤ p := hg
      have e : MachineLoop.body ⟨s.previous, s.current, s.counter⟩ =
          ⟨s.body.previous, s.body.current, s.body.counter⟩ := by
        unfold MachineLoop.body ShellLoop.body
        simp only [Nat.cast_add, Nat.cast_one, MachineLoop.mk.injEq, true_and]
        have c : w64 ((s.counter : ℤ) + 1) = s.counter + 1 := w64_eq (by omega) (by omega)
        rw [c]
        exact ⟨w64_eq (by omega) (by omega), rfl⟩
      rw [if_pos (by exact_mod_cast hg'), if_pos hg, e]
      exact ih s.body rfl (by simp only [ShellLoop.body]; omega) (by simp only [ShellLoop.body]; omega)
    · have hg' : ¬ s.current ≤ p := hg
      rw [if_neg (by exact_mod_cast hg'), if_neg hg]
      exact ⟨rfl, fun t ht => by cases ht; exact ⟨h1, h2, h3⟩⟩

/-- The code after the loop. -/
theorem machine_after {rd : ℚ → ℚ} (hrd : CorrectRounding rd) {p : ℕ} (hp : p < 2 ^ 51) {t : ShellLoop}
    (h1 : t.current = t.previous + t.counter) (h3 : t.current < 2 ^ 52) :
    machineAfter rd p ⟨t.previous, t.current, t.counter⟩ = afterLoop p t := by
  obtain ⟨P, c, k⟩ := t
  simp only at h1 h3
  have d : w64 ((c : ℤ) - P) = c - P := w64_eq (by omega) (by omega)
  have r2 : rd 2 = 2 := by
    have := rd_int hrd (x := 2) (by norm_num) (by norm_num)
    exact_mod_cast this
  have m1 : rd (((c : ℤ) - P : ℤ) : ℚ) = (((c : ℤ) - P : ℤ) : ℚ) := rd_int hrd (by omega) (by omega)
  have m2 : rd ((((c : ℤ) - P : ℤ) : ℚ) / 2) = (((c : ℤ) - P : ℤ) : ℚ) / 2 := rd_half hrd (by omega) (by omega)
  have m3 : rd ((P : ℤ) : ℚ) = ((P : ℤ) : ℚ) := rd_int hrd (by omega) (by omega)
  have m4 : rd ((((c : ℤ) - P : ℤ) : ℚ) / 2 + ((P : ℤ) : ℚ)) = ((c : ℚ) - P) / 2 + P := by
    have := rd_half hrd (x := (c : ℤ) + P) (by omega) (by omega)
    rw [show (((c : ℤ) - P : ℤ) : ℚ) / 2 + ((P : ℤ) : ℚ) = (((c : ℤ) + P : ℤ) : ℚ) / 2 by push_cast; ring, this]
    push_cast
    ring
  have rp : rd ((p : ℤ) : ℚ) = p := by
    rw [rd_int hrd (by omega) (by omega)]; simp
  have fl : 0 ≤ ⌊((c : ℚ) - P) / 2 + P⌋ ∧ ⌊((c : ℚ) - P) / 2 + P⌋ < 2 ^ 53 := by
    constructor
    · rw [Int.floor_nonneg, show ((c : ℚ) - P) / 2 + P = (c + P) / 2 by ring]
      positivity
    · rw [Int.floor_lt]
      have hc : (c : ℚ) < 2 ^ 52 := by exact_mod_cast h3
      have hP : (P : ℚ) ≤ c := by exact_mod_cast (show P ≤ c by omega)
      push_cast
      linarith
  have c1 : (rd (w64 |w64 ((p : ℤ) - w64 ⌊((c : ℚ) - P) / 2 + P⌋)| : ℤ) < rd (1 / 10 ^ 8)) ↔
      |(p : ℚ) - ⌊((c : ℚ) - P) / 2 + P⌋| < 1 / 10 ^ 8 := by
    generalize ⌊((c : ℚ) - P) / 2 + P⌋ = f at fl
    obtain ⟨f1, f2⟩ := fl
    rw [w64_eq (x := f) (by omega) (by omega), w64_eq (x := (p : ℤ) - f) (by omega) (by omega)]
    have hb : |(p : ℤ) - f| ≤ 2 ^ 53 := abs_le.2 ⟨by omega, by omega⟩
    have hb' : 0 ≤ |(p : ℤ) - f| := abs_nonneg _
    rw [w64_eq (x := |(p : ℤ) - f|) (by omega) (by omega), rd_int hrd (by omega) hb]
    have ec : |(p : ℚ) - f| = ((|(p : ℤ) - f| : ℤ) : ℚ) := by push_cast; rfl
    rw [ec]
    generalize |(p : ℤ) - f| = y at hb'
    obtain ⟨l1, l2⟩ := rd_literal hrd
    rcases (show y = 0 ∨ 1 ≤ y by omega) with rfl | hy
    · simp only [Int.cast_zero]
      exact ⟨fun _ => by norm_num, fun _ => l1⟩
    · have hy' : (1 : ℚ) ≤ y := by exact_mod_cast hy
      constructor
      · intro h; linarith
      · intro h
        have : (1 : ℚ) / 10 ^ 8 < 1 := by norm_num
        linarith
  have c2 : ((c : ℤ) - P) % 2 = 1 ↔ (c - P) % 2 = 1 := by omega
  have hk : (k : ℤ) = c - P := by omega
  have w1 : w64 ((p : ℤ) - P) = p - P := w64_eq (by omega) (by omega)
  have w2 : w64 (2 * ((p : ℤ) - P)) = 2 * (p - P) := w64_eq (by omega) (by omega)
  have w3 : w64 ((k : ℤ) - 1) = k - 1 := w64_eq (by omega) (by omega)
  have w4 : w64 ((k : ℤ) - 1 - 2 * (p - P)) = k - 1 - 2 * (p - P) := w64_eq (by omega) (by omega)
  have w5 : w64 (-((k : ℤ) - 1 - 2 * (p - P))) = -(k - 1 - 2 * (p - P)) := w64_eq (by omega) (by omega)
  have w6 : w64 ((c : ℤ) - 1) = c - 1 := w64_eq (by omega) (by omega)
  have w7 : w64 ((c : ℤ) - 1 - p) = c - 1 - p := w64_eq (by omega) (by omega)
  have w8 : w64 (2 * ((c : ℤ) - 1 - p)) = 2 * (c - 1 - p) := w64_eq (by omega) (by omega)
  have w9 : w64 ((k : ℤ) - 1 - 2 * (c - 1 - p)) = k - 1 - 2 * (c - 1 - p) := w64_eq (by omega) (by omega)
  unfold machineAfter afterLoop
  simp only [d, r2, m1, m2, m3, m4, rp, c1, c2, w1, w2, w3, w4, w5, w6, w7, w8, w9]

/-- **C111** `get_indices_nm` computed with 64-bit integers and correctly rounded floats gives exactly the numbers of
the unbounded integers, for all indices below `2^51`. -/
theorem C111_indices_nm {rd : ℚ → ℚ} (hrd : CorrectRounding rd) {p : ℕ} (hp : p < 2 ^ 51) (fuel : ℕ) :
    machineIndicesNm rd fuel p = getIndicesNm? fuel p := by
  obtain ⟨r, inv⟩ := machine_run hp fuel .start rfl (by decide) (by decide)
  unfold machineIndicesNm getIndicesNm?
  have r' : MachineLoop.run p fuel ⟨0, 1, 1⟩ = _ := r
  rw [r', Option.map_map]
  cases e : ShellLoop.run p fuel .start with
  | none => rfl
  | some t =>
    obtain ⟨h1, h2, h3⟩ := inv t e
    exact congrArg some (machine_after hrd hp h1 h3)

/-- **C111** In particular the loop ends with the quantum numbers of the model. -/
theorem C111_terminates {rd : ℚ → ℚ} (hrd : CorrectRounding rd) {p fuel : ℕ} (hp : p < 2 ^ 51) (hf : p < fuel) :
    machineIndicesNm rd fuel p = some (getIndicesNm p) := by
  rw [C111_indices_nm hrd hp]
  exact C42_terminates p fuel hf

theorem machine_previous (N : ℕ) (hN : N ≤ 2 ^ 31) :
    (List.range N).foldl (fun (prev : ℤ) (i : ℕ) => w64 (prev + w64 ((i : ℤ) + 1))) 0 =
      (List.range N).foldl (fun (prev : ℤ) (i : ℕ) => prev + ((i : ℤ) + 1)) 0 ∧
    (List.range N).foldl (fun (prev : ℤ) (i : ℕ) => prev + ((i : ℤ) + 1)) 0 ≤ N * 2 ^ 31 ∧
    0 ≤ (List.range N).foldl (fun (prev : ℤ) (i : ℕ) => prev + ((i : ℤ) + 1)) 0 := by
  induction N with
  | zero => exact ⟨rfl, by simp, le_rfl⟩
  | succ N ih =>
    obtain ⟨i1, i2, i3⟩ := ih (by omega)
    simp only [List.range_succ, List.foldl_append, List.foldl_cons, List.foldl_nil]
    rw [i1]
    generalize (List.range N).foldl (fun (prev : ℤ) (i : ℕ) => prev + ((i : ℤ) + 1)) 0 = x at i2 i3
    have : (N : ℤ) * 2 ^ 31 ≤ 2 ^ 31 * 2 ^ 31 := by
      have : (N : ℤ) ≤ 2 ^ 31 := by omega
      exact mul_le_mul_of_nonneg_right this (by norm_num)
    rw [w64_eq (x := (N : ℤ) + 1) (by omega) (by omega), w64_eq (by omega) (by omega)]
    refine ⟨rfl, ?_, by omega⟩
    push_cast
    omega

/-- **C111** `get_index_p` computed with 64-bit integers, for all quantum numbers in the first `2^31` shells. -/
theorem C111_index_p {n m : ℤ} (hn : 0 ≤ n) (hs : 2 * n + |m| + 1 ≤ 2 ^ 31) : machineIndexP n m = getIndexP n m := by
  have hm : 0 ≤ |m| := abs_nonneg m
  have e : w64 (w64 (w64 (2 * n) + w64 |m|) + 1) = 2 * n + |m| + 1 := by
    rw [w64_eq (x := 2 * n) (by omega) (by omega), w64_eq (x := |m|) (by omega) (by omega),
      w64_eq (x := 2 * n + |m|) (by omega) (by omega), w64_eq (by omega) (by omega)]
  obtain ⟨p1, p2, p3⟩ := machine_previous (2 * n + |m| + 1 - 1).toNat (by omega)
  have p2' : ((2 * n + |m| + 1 - 1).toNat : ℤ) * 2 ^ 31 ≤ 2 ^ 31 * 2 ^ 31 :=
    mul_le_mul_of_nonneg_right (by omega) (by norm_num)
  unfold machineIndexP getIndexP previousShell
  simp only [e, p1]
  generalize (List.range (2 * n + |m| + 1 - 1).toNat).foldl (fun (prev : ℤ) (i : ℕ) => prev + ((i : ℤ) + 1)) 0 = x at *
  rw [w64_eq (x := x + (2 * n + |m| + 1)) (by omega) (by omega)]
  rw [w64_eq (x := x + (2 * n + |m| + 1) - x) (by omega) (by omega),
    w64_eq (x := x + (x + (2 * n + |m| + 1) - x) / 2) (by omega) (by omega),
    w64_eq (x := x + n) (by omega) (by omega), w64_eq (x := n + 1) (by omega) (by omega),
    w64_eq (x := x + (2 * n + |m| + 1) - (n + 1)) (by omega) (by omega)]

/-- Exact arithmetic is a rounding in the sense of this file. -/
theorem correctRounding_id : CorrectRounding id := ⟨fun _ _ => rfl, monotone_id⟩

/-- Rounding down to the grid of the subnormal numbers is one that changes numbers. -/
example : CorrectRounding (fun x : ℚ => (⌊x * 2 ^ 1074⌋ : ℚ) / 2 ^ 1074) ∧
    (⌊(1 / 3 : ℚ) * 2 ^ 1074⌋ : ℚ) / 2 ^ 1074 ≠ 1 / 3 := by
  refine ⟨⟨?_, ?_⟩, ?_⟩
  · rintro x ⟨m, e, -, h1, -, rfl⟩
    have : (m : ℚ) * 2 ^ e * 2 ^ 1074 = ((m * 2 ^ (e + 1074).toNat : ℤ) : ℚ) := by
      push_cast
      rw [mul_assoc, ← zpow_natCast (2 : ℚ) 1074, ← zpow_add₀ (by norm_num), ← zpow_natCast]
      congr 2
      push_cast
      omega
    rw [this, Int.floor_intCast, ← this, mul_div_assoc, div_self (by positivity), mul_one]
  · intro x y h
    have : (⌊x * 2 ^ 1074⌋ : ℚ) ≤ ⌊y * 2 ^ 1074⌋ := by
      exact_mod_cast Int.floor_mono (mul_le_mul_of_nonneg_right h (by positivity))
    exact div_le_div_of_nonneg_right this (by positivity)
  · intro h
    rw [div_eq_iff (by positivity)] at h
    have h3 : (3 : ℤ) * ⌊(1 / 3 : ℚ) * 2 ^ 1074⌋ = 2 ^ 1074 := by
      have : (3 : ℚ) * ⌊(1 / 3 : ℚ) * 2 ^ 1074⌋ = 2 ^ 1074 := by rw [h]; ring
      exact_mod_cast this
    have : (3 : ℤ) ∣ 2 ^ 1074 := ⟨_, h3.symm⟩
    have h4 := Int.prime_three.dvd_of_dvd_pow this
    exact absurd h4 (by decide)

/-- The last index that the theorem covers: 2251799813685247. -/
example : 2 ^ 51 - 1 = 2251799813685247 ∧ machineIndicesNm id (2 ^ 51) (2 ^ 51 - 1 : ℕ) =
    some (getIndicesNm (2 ^ 51 - 1)) :=
  ⟨rfl, C111_terminates correctRounding_id (by norm_num) (by norm_num)⟩

/-- Wrap-around exists in the model: the sum of the shells overflows. -/
example : w64 (2 ^ 63) = -2 ^ 63 ∧ w64 (2 ^ 62 + 2 ^ 62 + 5) = -2 ^ 63 + 5 := by decide +kernel

end QS.Props
