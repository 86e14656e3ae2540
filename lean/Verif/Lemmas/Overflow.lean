import Verif.Model.Overflow
import Mathlib.Tactic.Linarith
import Mathlib.Tactic.Positivity
import Mathlib.Tactic.NormNum
import Mathlib.Tactic.Ring
import Mathlib.Tactic.FieldSimp
import Mathlib.Data.Nat.Factorial.Basic

set_option exponentiation.threshold 3000

namespace QS.Overflow

/-- `y` is `x` up to the relative error `ε`. -/
def RelErr (ε x y : ℝ) : Prop := |y - x| ≤ ε * |x|

theorem RelErr.mono {ε δ x y : ℝ} (h : RelErr ε x y) (hε : ε ≤ δ) : RelErr δ x y :=
  le_trans h (mul_le_mul_of_nonneg_right hε (abs_nonneg x))

theorem RelErr.refl {ε : ℝ} (hε : 0 ≤ ε) (x : ℝ) : RelErr ε x x := by
  unfold RelErr; simp; positivity

theorem RelErr.abs_le {ε x y : ℝ} (h : RelErr ε x y) : |y| ≤ (1 + ε) * |x| := by
  have h1 : |y| ≤ |y - x| + |x| := by simpa using abs_add_le (y - x) x
  unfold RelErr at h; linarith

theorem RelErr.le_abs {ε x y : ℝ} (h : RelErr ε x y) : (1 - ε) * |x| ≤ |y| := by
  have h1 : |x| ≤ |y - x| + |y| := by
    have := abs_add_le (x - y) y
    rw [abs_sub_comm x y] at this
    simpa using this
  unfold RelErr at h; linarith

theorem RelErr.pos {ε x y : ℝ} (h : RelErr ε x y) (hε : ε < 1) (hx : 0 < x) : 0 < y := by
  unfold RelErr at h
  rw [abs_of_pos hx] at h
  have := (_root_.abs_le.mp h).1
  nlinarith

theorem RelErr.trans {ε δ x y z : ℝ} (h : RelErr ε x y) (h' : RelErr δ y z) (hδ : 0 ≤ δ) : RelErr (ε + δ + ε * δ) x z := by
  have h1 : |z - x| ≤ |z - y| + |y - x| := abs_sub_le z y x
  have h2 := h.abs_le
  have h3 : δ * |y| ≤ δ * ((1 + ε) * |x|) := mul_le_mul_of_nonneg_left h2 hδ
  unfold RelErr at *
  nlinarith

theorem RelErr.mul {ε δ x y a b : ℝ} (h : RelErr ε x a) (h' : RelErr δ y b) :
    RelErr (ε + δ + ε * δ) (x * y) (a * b) := by
  have e : a * b - x * y = (a - x) * y + a * (b - y) := by ring
  have h1 : |a * b - x * y| ≤ |a - x| * |y| + |a| * |b - y| := by
    rw [e]
    refine (abs_add_le _ _).trans ?_
    rw [abs_mul, abs_mul]
  have h2 := h.abs_le
  unfold RelErr at *
  rw [abs_mul]
  have h3 : |a - x| * |y| ≤ ε * |x| * |y| := mul_le_mul_of_nonneg_right h (abs_nonneg y)
  have h4 : |a| * |b - y| ≤ ((1 + ε) * |x|) * (δ * |y|) :=
    mul_le_mul h2 h' (abs_nonneg _) (le_trans (abs_nonneg a) h2)
  nlinarith

theorem RelErr.inv {ε x a : ℝ} (h : RelErr ε x a) (hε : ε < 1) (hx : 0 < x) : RelErr (ε / (1 - ε)) (1 / x) (1 / a) := by
  have ha := h.pos hε hx
  have hl := h.le_abs
  unfold RelErr at *
  rw [abs_of_pos hx] at h hl
  rw [abs_of_pos ha] at hl
  have e : 1 / a - 1 / x = (x - a) / (a * x) := by field_simp
  rw [e, abs_div, abs_of_pos (mul_pos ha hx), abs_sub_comm, abs_of_pos (by positivity : 0 < 1 / x)]
  have h1 : (0 : ℝ) < 1 - ε := by linarith
  rw [div_mul_div_comm, mul_one, div_le_div_iff₀ (by positivity) (by positivity)]
  have hε0 : 0 ≤ ε * x := (abs_nonneg _).trans h
  have hε1 : 0 ≤ ε := by
    rcases lt_or_ge ε 0 with h5 | h5
    · nlinarith
    · exact h5
  calc |a - x| * ((1 - ε) * x) ≤ (ε * x) * ((1 - ε) * x) := mul_le_mul_of_nonneg_right h (by positivity)
    _ ≤ (ε * x) * a := mul_le_mul_of_nonneg_left hl hε0
    _ = ε * (a * x) := by ring

theorem RelErr.sqrt {ε x a : ℝ} (h : RelErr ε x a) (hε : ε < 1) (hx : 0 < x) : RelErr ε (Real.sqrt x) (Real.sqrt a) := by
  have ha := h.pos hε hx
  unfold RelErr at *
  have hs : 0 < Real.sqrt x := Real.sqrt_pos.mpr hx
  have hs' : 0 < Real.sqrt a := Real.sqrt_pos.mpr ha
  rw [abs_of_pos hx] at h
  rw [abs_of_pos hs]
  have e : a - x = (Real.sqrt a - Real.sqrt x) * (Real.sqrt a + Real.sqrt x) := by
    have h1 := Real.mul_self_sqrt ha.le
    have h2 := Real.mul_self_sqrt hx.le
    linear_combination h2 - h1
  rw [e, abs_mul, abs_of_pos (by positivity : 0 < Real.sqrt a + Real.sqrt x)] at h
  have h2 := Real.mul_self_sqrt hx.le
  have h3 : |Real.sqrt a - Real.sqrt x| * Real.sqrt x ≤ ε * Real.sqrt x * Real.sqrt x := by
    have : |Real.sqrt a - Real.sqrt x| * Real.sqrt x ≤
        |Real.sqrt a - Real.sqrt x| * (Real.sqrt a + Real.sqrt x) :=
      mul_le_mul_of_nonneg_left (by linarith) (abs_nonneg _)
    nlinarith
  exact le_of_mul_le_mul_right h3 hs

/-- Rounding of a normal number. -/
theorem Ieee.rel {rnd : ℝ → Flt} (hr : Ieee rnd) {x : ℝ} (h1 : 1 / (2 : ℝ) ^ 1022 ≤ |x|) (h2 : |x| ≤ (2 : ℝ) ^ 1023) :
    ∃ y, rnd x = .fin y ∧ RelErr (1 / (2 : ℝ) ^ 53) x y := hr.near x h1 h2

theorem two_pow_1024 : (2 : ℝ) ^ 1024 = 2 * 2 ^ 1023 := by rw [← pow_succ']

/-- Rounding of a number that is known up to a relative error. -/
theorem rnd_rel {rnd : ℝ → Flt} (hr : Ieee rnd) {ε δ x a : ℝ} (h : RelErr ε x a) (hε1 : ε ≤ 1 / 32)
    (h1 : 17 / 16 * (1 / (2 : ℝ) ^ 1022) ≤ |x|) (h2 : |x| ≤ 15 / 16 * (2 : ℝ) ^ 1023)
    (hδ : ε + 1 / (2 : ℝ) ^ 52 ≤ δ) : ∃ z, rnd a = .fin z ∧ RelErr δ x z := by
  obtain ⟨z, hz, hz'⟩ := hr.rel (x := a)
    (by
      have := h.le_abs
      generalize (1 : ℝ) / 2 ^ 1022 = w at *
      nlinarith [abs_nonneg x, abs_nonneg a])
    (by
      have := h.abs_le
      generalize (2 : ℝ) ^ 1023 = w at *
      nlinarith [abs_nonneg x])
  refine ⟨z, hz, (h.trans hz' (by positivity)).mono (le_trans ?_ hδ)⟩
  have e : (1 : ℝ) / 2 ^ 52 = 2 * (1 / 2 ^ 53) := by norm_num
  rw [e]
  have h0 : (0 : ℝ) ≤ 1 / 2 ^ 53 := by positivity
  nlinarith

/-- A multiplication of two accurate numbers. -/
theorem mul_rel {rnd : ℝ → Flt} (hr : Ieee rnd) {ε δ γ x y a b : ℝ} (h : RelErr ε x a) (h' : RelErr δ y b)
    (hε : ε + δ + ε * δ ≤ 1 / 32) (h1 : 17 / 16 * (1 / (2 : ℝ) ^ 1022) ≤ |x * y|)
    (h2 : |x * y| ≤ 15 / 16 * (2 : ℝ) ^ 1023) (hδ : ε + δ + ε * δ + 1 / (2 : ℝ) ^ 52 ≤ γ) :
    ∃ z, mul rnd (.fin a) (.fin b) = .fin z ∧ RelErr γ (x * y) z :=
  rnd_rel hr (h.mul h') hε h1 h2 hδ

theorem tiny_le : 17 / 16 * (1 / (2 : ℝ) ^ 1022) ≤ 1 / 2 ^ 1000 := by norm_num

theorem le_huge : (2 : ℝ) ^ 1000 ≤ 15 / 16 * (2 : ℝ) ^ 1023 := by norm_num

theorem pow2_rel {rnd : ℝ → Flt} (hr : Ieee rnd) {n : ℕ} (hn : n < 1024) :
    ∃ a, pow2 rnd n = some (.fin a) ∧ RelErr (1 / (2 : ℝ) ^ 53) (2 ^ n) a := by
  have hp : (1 : ℝ) ≤ 2 ^ n := one_le_pow₀ (by norm_num)
  have hq : (2 : ℝ) ^ n ≤ 2 ^ 1023 := pow_le_pow_right₀ (by norm_num) (by omega)
  obtain ⟨y, h1, h2⟩ := hr.rel (x := 2 ^ n)
    (by
      rw [abs_of_nonneg (by positivity)]
      exact le_trans (by norm_num) hp)
    (by rw [abs_of_nonneg (by positivity)]; exact hq)
  exact ⟨y, by unfold pow2; rw [if_pos hn, h1], h2⟩

theorem fac_large {n : ℕ} (hn : 151 ≤ n) : (2 : ℝ) ^ 1026 ≤ 2 ^ n * n.factorial := by
  have h1 : (2 : ℕ) ^ 1026 ≤ 2 ^ 151 * Nat.factorial 151 := by norm_num [Nat.factorial]
  have h2 : (2 : ℕ) ^ 151 * Nat.factorial 151 ≤ 2 ^ n * n.factorial :=
    Nat.mul_le_mul (Nat.pow_le_pow_right (by norm_num) hn) (Nat.factorial_le hn)
  exact_mod_cast h1.trans h2

theorem fac_small {n : ℕ} (hn : n ≤ 150) : (2 : ℝ) ^ n * n.factorial ≤ 15 / 16 * 2 ^ 1023 := by
  have h1 : 16 * ((2 : ℕ) ^ 150 * Nat.factorial 150) ≤ 15 * 2 ^ 1023 := by norm_num [Nat.factorial]
  have h2 : (2 : ℕ) ^ n * n.factorial ≤ 2 ^ 150 * Nat.factorial 150 :=
    Nat.mul_le_mul (Nat.pow_le_pow_right (by norm_num) hn) (Nat.factorial_le hn)
  have h3 : (16 : ℝ) * (2 ^ n * n.factorial) ≤ 15 * 2 ^ 1023 := by
    exact_mod_cast (Nat.mul_le_mul_left 16 h2).trans h1
  linarith

theorem one_le_fac (n : ℕ) : (1 : ℝ) ≤ 2 ^ n * n.factorial := by
  have h1 : (1 : ℝ) ≤ 2 ^ n := one_le_pow₀ (by norm_num)
  have h2 : (1 : ℝ) ≤ n.factorial := by exact_mod_cast n.factorial_pos
  nlinarith

/-- `2 ** n * spec.factorial(n)` is infinite from `n = 151` on. -/
theorem weight_inf {rnd : ℝ → Flt} {fact : ℕ → Flt} (hr : Ieee rnd) (hf : Factorials fact) {n : ℕ} (h : 151 ≤ n)
    {a : ℝ} (ha : RelErr (1 / (2 : ℝ) ^ 53) (2 ^ n) a) : mul rnd (.fin a) (fact n) = .inf false := by
  have hp : (0 : ℝ) < 2 ^ n := by positivity
  have ha0 : 0 < a := ha.pos (by norm_num) hp
  rcases le_or_gt n 170 with h1 | h1
  · obtain ⟨b, hb, hb'⟩ := hf.near n h1
    have hn0 : (0 : ℝ) < n.factorial := by exact_mod_cast n.factorial_pos
    have hb2 : RelErr (1 / (2 : ℝ) ^ 40) n.factorial b := by
      unfold RelErr; rw [abs_of_pos hn0]; exact hb'
    have hb0 : 0 < b := hb2.pos (by norm_num) hn0
    have hm := (ha.mul hb2).le_abs
    rw [abs_of_pos (by positivity), abs_of_pos (by positivity)] at hm
    have hl := fac_large h
    have hx : (2 : ℝ) ^ 1024 ≤ a * b := by
      refine le_trans ?_ hm
      have e : (2 : ℝ) ^ 1026 = 4 * 2 ^ 1024 := by rw [show (1026 : ℕ) = 1024 + 2 by rfl, pow_add]; ring
      rw [e] at hl
      have h5 : (0 : ℝ) < 2 ^ 1024 := by positivity
      have h4 : (1 : ℝ) / 4 ≤ 1 - (1 / 2 ^ 53 + 1 / 2 ^ 40 + 1 / 2 ^ 53 * (1 / 2 ^ 40)) := by norm_num
      generalize (2 : ℝ) ^ 1024 = w at *
      generalize (1 : ℝ) - (1 / 2 ^ 53 + 1 / 2 ^ 40 + 1 / 2 ^ 53 * (1 / 2 ^ 40)) = t at *
      generalize (2 : ℝ) ^ n * n.factorial = v at *
      nlinarith
    rw [hb]
    show rnd (a * b) = _
    rw [hr.over _ (by rw [abs_of_pos (by positivity)]; exact hx)]
    have : ¬ a * b < 0 := not_lt.mpr (by positivity)
    simp [this]
  · rw [hf.over n h1]
    simp [mul, ha0.ne', not_lt.mpr ha0.le]

theorem normalization_zero {rnd : ℝ → Flt} {fact : ℕ → Flt} (hr : Ieee rnd) (hf : Factorials fact) (c : ℝ) {n : ℕ}
    (h : 151 ≤ n) (h' : n < 1024) : normalization rnd fact (.fin c) n = some (.fin 0) := by
  obtain ⟨a, h1, h2⟩ := pow2_rel hr h'
  simp only [normalization, h1, Option.pure_def, Option.bind_eq_bind, Option.bind_some, weight_inf hr hf h h2]
  simp [sqrt, div, mul, hr.zero]

theorem normalization_none {rnd : ℝ → Flt} {fact : ℕ → Flt} (c : Flt) {n : ℕ} (h : 1024 ≤ n) :
    normalization rnd fact c n = none := by
  simp [normalization, pow2, not_lt.mpr h]

theorem normalization_rel {rnd : ℝ → Flt} {fact : ℕ → Flt} (hr : Ieee rnd) (hf : Factorials fact) {n : ℕ}
    (h : n ≤ 150) {w c : ℝ} (hw1 : 1 / (2 : ℝ) ^ 200 ≤ w) (hw2 : w ≤ 2 ^ 200) (hc : RelErr (1 / (2 : ℝ) ^ 40) w c) :
    ∃ y, normalization rnd fact (.fin c) n = some (.fin y) ∧
      RelErr (1 / (2 : ℝ) ^ 36) (1 / Real.sqrt (2 ^ n * n.factorial) * w) y := by
  obtain ⟨a, ha1, ha⟩ := pow2_rel hr (show n < 1024 by omega)
  obtain ⟨b, hb1, hb'⟩ := hf.near n (by omega)
  have hn0 : (0 : ℝ) < n.factorial := by exact_mod_cast n.factorial_pos
  have hb : RelErr (1 / (2 : ℝ) ^ 40) n.factorial b := by
    unfold RelErr; rw [abs_of_pos hn0]; exact hb'
  have hv1 := one_le_fac n
  have hv2 := fac_small h
  have hv0 : (0 : ℝ) < 2 ^ n * n.factorial := by positivity
  obtain ⟨z1, e1, r1⟩ := mul_rel (γ := 1 / (2 : ℝ) ^ 39) hr ha hb (by norm_num)
    (by rw [abs_of_pos hv0]; exact le_trans (le_trans tiny_le (by norm_num)) hv1)
    (by rw [abs_of_pos hv0]; exact hv2) (by norm_num)
  have hz1 : 0 < z1 := r1.pos (by norm_num) hv0
  have hs1 : (1 : ℝ) ≤ Real.sqrt (2 ^ n * n.factorial) := Real.one_le_sqrt.mpr hv1
  have hs2 : Real.sqrt (2 ^ n * n.factorial) ≤ 2 ^ 512 := by
    rw [Real.sqrt_le_left (by positivity)]
    refine hv2.trans ?_
    norm_num
  have hs0 : 0 < Real.sqrt (2 ^ n * n.factorial) := by linarith
  obtain ⟨z2, e2, r2⟩ := rnd_rel (δ := 1 / (2 : ℝ) ^ 38) hr (r1.sqrt (by norm_num) hv0) (by norm_num)
    (by rw [abs_of_pos hs0]; exact le_trans (le_trans tiny_le (by norm_num)) hs1)
    (by rw [abs_of_pos hs0]; exact le_trans (le_trans hs2 (by norm_num)) le_huge) (by norm_num)
  have hz2 : 0 < z2 := r2.pos (by norm_num) hs0
  have hi1 : 1 / (2 : ℝ) ^ 512 ≤ 1 / Real.sqrt (2 ^ n * n.factorial) := one_div_le_one_div_of_le hs0 hs2
  have hi2 : 1 / Real.sqrt (2 ^ n * n.factorial) ≤ 1 := by rw [div_le_one hs0]; exact hs1
  have hi0 : 0 < 1 / Real.sqrt (2 ^ n * n.factorial) := by positivity
  obtain ⟨z3, e3, r3⟩ := rnd_rel (δ := 1 / (2 : ℝ) ^ 37) hr (r2.inv (by norm_num) hs0) (by norm_num)
    (by rw [abs_of_pos hi0]; exact le_trans (le_trans tiny_le (by norm_num)) hi1)
    (by rw [abs_of_pos hi0]; exact le_trans (le_trans hi2 (by norm_num)) le_huge) (by norm_num)
  have hw0 : 0 < w := lt_of_lt_of_le (by positivity) hw1
  have ht1 : 1 / (2 : ℝ) ^ 512 * (1 / 2 ^ 200) ≤ 1 / Real.sqrt (2 ^ n * n.factorial) * w :=
    mul_le_mul hi1 hw1 (by positivity) hi0.le
  have ht2 : 1 / Real.sqrt (2 ^ n * n.factorial) * w ≤ 1 * 2 ^ 200 :=
    mul_le_mul hi2 hw2 hw0.le (by norm_num)
  have ht0 : 0 < 1 / Real.sqrt (2 ^ n * n.factorial) * w := by positivity
  obtain ⟨z4, e4, r4⟩ := mul_rel (γ := 1 / (2 : ℝ) ^ 36) hr r3 hc (by norm_num)
    (by rw [abs_of_pos ht0]; exact le_trans (le_trans tiny_le (by norm_num)) ht1)
    (by rw [abs_of_pos ht0]; exact le_trans (le_trans ht2 (by norm_num)) le_huge) (by norm_num)
  refine ⟨z4, ?_, r4⟩
  simp only [normalization, ha1, Option.pure_def, Option.bind_eq_bind, Option.bind_some, hb1, e1]
  have e5 : sqrt rnd (.fin z1) = .fin z2 := by simp [sqrt, not_lt.mpr hz1.le, e2]
  have e6 : div rnd (.fin 1) (.fin z2) = .fin z3 := by
    show (if z2 = 0 then _ else rnd (1 / z2)) = _
    rw [if_neg hz2.ne', e3]
  rw [e5, e6, e4]

/-! ## Zeros and NaN -/

/-- The float is zero or NaN. -/
def ZeroOrNan (f : Flt) : Prop := f = .fin 0 ∨ f = .nan

theorem ZeroOrNan.mul_left {rnd : ℝ → Flt} (hr : Ieee rnd) {f : Flt} (h : ZeroOrNan f) (g : Flt) :
    ZeroOrNan (mul rnd f g) := by
  rcases h with rfl | rfl
  · cases g <;> simp [mul, ZeroOrNan, hr.zero]
  · cases g <;> simp [mul, ZeroOrNan]

theorem ZeroOrNan.mul_right {rnd : ℝ → Flt} (hr : Ieee rnd) {f : Flt} (h : ZeroOrNan f) (g : Flt) :
    ZeroOrNan (mul rnd g f) := by
  rcases h with rfl | rfl
  · cases g <;> simp [mul, ZeroOrNan, hr.zero]
  · cases g <;> simp [mul, ZeroOrNan]

theorem ZeroOrNan.add {rnd : ℝ → Flt} (hr : Ieee rnd) {f g : Flt} (h : ZeroOrNan f) (h' : ZeroOrNan g) :
    ZeroOrNan (add rnd f g) := by
  rcases h with rfl | rfl <;> rcases h' with rfl | rfl <;> simp [Overflow.add, ZeroOrNan, hr.zero]

theorem ZeroOrNan.div_left {rnd : ℝ → Flt} (hr : Ieee rnd) {f : Flt} (h : ZeroOrNan f) {y : ℝ} (hy : y ≠ 0) :
    ZeroOrNan (div rnd f (.fin y)) := by
  rcases h with rfl | rfl <;> simp [div, ZeroOrNan, hr.zero, hy]

theorem ZeroOrNan.trapz {rnd : ℝ → Flt} (hr : Ieee rnd) {num : ℕ} {f : ℕ → Flt} (h : ∀ i < num, ZeroOrNan (f i))
    (dx : Flt) : ZeroOrNan (trapz rnd num f dx) := by
  unfold Overflow.trapz
  refine (ZeroOrNan.mul_right hr ?_ _).mul_left hr _
  have key : ∀ (L : List ℕ) (v : Flt), ZeroOrNan v → (∀ i ∈ L, 1 ≤ i ∧ i < num) →
      ZeroOrNan (L.foldl (fun val i => Overflow.add rnd val (Overflow.add rnd (f (i - 1)) (f i))) v) := by
    intro L
    induction L with
    | nil => intro v hv _; exact hv
    | cons i L ih =>
      intro v hv hL
      have hi := hL i (by simp)
      exact ih _ (hv.add hr ((h (i - 1) (by omega)).add hr (h i hi.2))) fun j hj => hL j (by simp [hj])
  refine key _ _ (Or.inl rfl) fun i hi => ?_
  rw [List.mem_range'_1] at hi
  omega

end QS.Overflow
