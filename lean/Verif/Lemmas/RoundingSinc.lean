import Verif.Model.RoundingSinc
import Verif.Lemmas.RoundingLine
import Mathlib.Analysis.Real.Pi.Bounds

/-!
# Lemmas for the rounding errors of `ODSincDVR`
-/

namespace QS.Props

open Finset Spec QS.Rounding

/-- Positive numbers whose ratio is between `1 / c` and `c`. -/
structure Ratio (c x e : ℝ) : Prop where
  one_le : 1 ≤ c
  pos : 0 < x
  pos' : 0 < e
  le : x ≤ c * e
  ge : e ≤ c * x

theorem Ratio.refl {x : ℝ} (h : 0 < x) : Ratio 1 x x := ⟨le_rfl, h, h, by linarith, by linarith⟩

theorem Ratio.mul {c c' x y e f : ℝ} (h : Ratio c x e) (h' : Ratio c' y f) : Ratio (c * c') (x * y) (e * f) := by
  have := h.pos; have := h.pos'; have := h'.pos; have := h'.pos'; have := h.one_le; have := h'.one_le
  refine ⟨one_le_mul_of_one_le_of_one_le h.one_le h'.one_le, by positivity, by positivity, ?_, ?_⟩
  · calc x * y ≤ (c * e) * (c' * f) := mul_le_mul h.le h'.le (by positivity) (by positivity)
      _ = _ := by ring
  · calc e * f ≤ (c * x) * (c' * y) := mul_le_mul h.ge h'.ge (by positivity) (by positivity)
      _ = _ := by ring

theorem Ratio.inv {c x e : ℝ} (h : Ratio c x e) : Ratio c (1 / x) (1 / e) := by
  have hx := h.pos; have he := h.pos'
  refine ⟨h.one_le, by positivity, by positivity, ?_, ?_⟩
  · rw [mul_one_div, div_le_div_iff₀ hx he, one_mul]; exact h.ge
  · rw [mul_one_div, div_le_div_iff₀ he hx, one_mul]; exact h.le

theorem Ratio.div {c c' x y e f : ℝ} (h : Ratio c x e) (h' : Ratio c' y f) : Ratio (c * c') (x / y) (e / f) := by
  rw [div_eq_mul_one_div x, div_eq_mul_one_div e]
  exact h.mul h'.inv

theorem Ratio.sq {c x e : ℝ} (h : Ratio c x e) : Ratio (c ^ 2) (x ^ 2) (e ^ 2) := by
  rw [pow_two, pow_two, pow_two]
  exact h.mul h

theorem Ratio.near {u : ℝ} (hu : 0 ≤ u) (hu2 : u ≤ 1 / 2) {c x e z : ℝ} (h : Ratio c x e) (hz : Near u x z) :
    Ratio (c * (1 + u) ^ 2) z e := by
  obtain ⟨h1, h2⟩ := near_bounds hz h.pos.le
  have hx := h.pos; have he := h.pos'; have hc := h.one_le
  have h3 : 0 < 1 - u := by linarith
  have hz : 0 < z := lt_of_lt_of_le (by positivity) h1
  refine ⟨one_le_mul_of_one_le_of_one_le hc (pow_ge hu 2), hz, he, ?_, ?_⟩
  · have h4 : (1 + u) * x ≤ (1 + u) ^ 2 * x := mul_le_mul_of_nonneg_right (by nlinarith) hx.le
    have h5 := mul_le_mul_of_nonneg_left h.le (by positivity : 0 ≤ (1 + u) ^ 2)
    calc z ≤ (1 + u) ^ 2 * (c * e) := h2.trans (h4.trans h5)
      _ = _ := by ring
  · have h4 := inv_le_sq hu hu2
    have h5 : x ≤ (1 + u) ^ 2 * z := by
      rw [inv_le_iff_one_le_mul₀ h3] at h4
      have h6 := mul_le_mul_of_nonneg_left h1 (by positivity : 0 ≤ (1 + u) ^ 2)
      nlinarith
    calc e ≤ c * x := h.ge
      _ ≤ c * ((1 + u) ^ 2 * z) := mul_le_mul_of_nonneg_left h5 (by linarith)
      _ = _ := by ring

theorem Ratio.abs_sub {c x e : ℝ} (h : Ratio c x e) : |x - e| ≤ (c - 1) * e := by
  have hx := h.pos; have he := h.pos'; have hc := h.one_le
  rw [abs_le]
  constructor
  · have h1 : e / c ≤ x := by rw [div_le_iff₀ (by linarith)]; linarith [h.ge]
    have h2 : e - (c - 1) * e ≤ e / c := by
      rw [le_div_iff₀ (by linarith)]
      nlinarith [mul_nonneg he.le (sq_nonneg (c - 1))]
    linarith
  · linarith [h.le]

/-- The spacing. -/
theorem spacing_float {u : ℝ} (hu : 0 ≤ u) {L : ℝ} (hL : 0 < L) {l : ℕ} (h2 : 2 ≤ l) (hun : 72 * l * u ≤ 1) {x : ℕ → ℝ}
    (hx : FloatLinspace u (-L) L l x) {d : ℝ} (hd : FloatSpacing u x d) : Ratio (1 + 36 * l * u) d (2 * L / ((l : ℝ) - 1)) := by
  have hl : (2 : ℝ) ≤ l := by exact_mod_cast h2
  have hu1 : u ≤ 1 / 144 := by nlinarith
  have hsp := (close_real.1 (spacing_close hu hL.le h2 hx (i := 0) (by omega) hd)).1
  rw [show GridLimit.dx L l = 2 * L / ((l : ℝ) - 1) from rfl] at hsp
  have hd0 : 0 < 2 * L / ((l : ℝ) - 1) := div_pos (by linarith) (by linarith)
  set e := 2 * L / ((l : ℝ) - 1)
  have h4 : (1 + u) ^ 4 - 1 ≤ 5 * u := by
    have : u ^ 2 ≤ u / 144 := by nlinarith
    have : u ^ 3 ≤ u / 144 := by nlinarith
    have : u ^ 4 ≤ u / 144 := by nlinarith
    nlinarith
  have h5 : 3 * ((l : ℝ) - 1) * ((1 + u) ^ 4 - 1) ≤ 3 * ((l : ℝ) - 1) * (5 * u) := mul_le_mul_of_nonneg_left h4 (by linarith)
  have h6 : gridFactor u l ≤ 1 + 15 * l * u - 15 * u := by
    rw [gridFactor]
    linarith
  have h7 := mul_le_mul_of_nonneg_right h6 (by linarith : 0 ≤ 1 + u)
  have h8 : gridFactor u l * (1 + u) - 1 ≤ 18 * l * u := by nlinarith
  have h9 := hsp.trans (mul_le_mul_of_nonneg_right h8 hd0.le)
  have h10 := abs_le.1 h9
  have ht : 0 ≤ l * u := by positivity
  have hde : 0 < d := by nlinarith
  refine ⟨by nlinarith, hde, hd0, by nlinarith, ?_⟩
  have : (1 - 18 * (l * u)) * e ≤ d := by linarith
  have h11 : 1 ≤ (1 + 36 * (l * u)) * (1 - 18 * (l * u)) := by nlinarith
  calc e ≤ (1 + 36 * (l * u)) * (1 - 18 * (l * u)) * e := by nlinarith
    _ = (1 + 36 * (l * u)) * ((1 - 18 * (l * u)) * e) := by ring
    _ ≤ (1 + 36 * (l * u)) * d := mul_le_mul_of_nonneg_left this (by positivity)
    _ = _ := by ring

/-- The factors of the kinetic energy. -/
theorem kinetic_factor {u : ℝ} (hu : 0 ≤ u) {l : ℕ} (h2 : 2 ≤ l) (hun : 72 * l * u ≤ 1) :
    (1 + 36 * l * u) ^ 2 * (1 + u) ^ 12 - 1 ≤ 106 * l * u := by
  have hl : (2 : ℝ) ≤ l := by exact_mod_cast h2
  have hu1 : u ≤ 1 / 144 := by nlinarith
  set t := l * u with ht
  have h0 : 2 * u ≤ t := by nlinarith
  have h1 : 72 * t ≤ 1 := by linarith
  have h3 : (1 + 36 * l * u) ^ 2 ≤ 1 + 90 * t := by
    rw [show (1 + 36 * l * u) ^ 2 = 1 + 72 * t + 1296 * t * t by rw [ht]; ring]
    nlinarith
  have h4 : (1 + u) ^ 12 ≤ 1 + 13 * u := by
    have a : (1 + u) ^ 2 ≤ 1 + (2 + 1 / 100) * u := by nlinarith
    have b : (1 + u) ^ 4 ≤ 1 + (4 + 1 / 15) * u := by
      have := mul_le_mul a a (by positivity) (by positivity)
      nlinarith
    have c : (1 + u) ^ 8 ≤ 1 + (8 + 1 / 3) * u := by
      have := mul_le_mul b b (by positivity) (by positivity)
      nlinarith
    have := mul_le_mul b c (by positivity) (by positivity)
    nlinarith
  have h5 := mul_le_mul h3 h4 (by positivity) (by nlinarith)
  have : 0 ≤ t := by positivity
  nlinarith

theorem hop_ratio {u : ℝ} (hu : 0 ≤ u) (hu2 : u ≤ 1 / 2) {c d e : ℝ} (hd : Ratio c d e) {k : ℤ} (hk : k ≠ 0) {z : ℝ}
    (h : FloatHop u d k z) : Ratio (c ^ 2 * (1 + u) ^ 12) z (1 / (e ^ 2 * k ^ 2)) := by
  obtain ⟨s, g, t, h1, h3, h4, h5⟩ := h
  have hk2 : (0 : ℝ) < (k : ℝ) ^ 2 := by positivity
  have a := (((hd.sq.near hu hu2 h1).mul ((Ratio.refl hk2).near hu hu2 h3)).near hu hu2 h4).inv.near hu hu2 h5
  have b : c ^ 2 * (1 + u) ^ 2 * (1 * (1 + u) ^ 2) * (1 + u) ^ 2 * (1 + u) ^ 2 ≤ c ^ 2 * (1 + u) ^ 12 := by
    have : (1 + u) ^ 8 ≤ (1 + u) ^ 12 := pow_le_pow_right₀ (by linarith) (by norm_num)
    calc _ = c ^ 2 * (1 + u) ^ 8 := by ring
      _ ≤ _ := mul_le_mul_of_nonneg_left this (by positivity)
  exact ⟨a.one_le.trans b, a.pos, a.pos', a.le.trans (mul_le_mul_of_nonneg_right b a.pos'.le),
    a.ge.trans (mul_le_mul_of_nonneg_right b a.pos.le)⟩

theorem kinetic_ratio {u : ℝ} (hu : 0 ≤ u) (hu2 : u ≤ 1 / 2) {c d e : ℝ} (hd : Ratio c d e) {z : ℝ}
    (h : FloatKinetic u d z) : Ratio (c ^ 2 * (1 + u) ^ 12) z (Real.pi ^ 2 / (6 * e ^ 2)) := by
  obtain ⟨p, q, s, t, h1, h3, h4, h5, h6⟩ := h
  have a := ((((Ratio.refl Real.pi_pos).near hu hu2 h1).sq.near hu hu2 h3).div
    (((Ratio.refl (by norm_num : (0 : ℝ) < 6)).mul (hd.sq.near hu hu2 h4)).near hu hu2 h5)).near hu hu2 h6
  rwa [show (1 * (1 + u) ^ 2) ^ 2 * (1 + u) ^ 2 * (1 * (c ^ 2 * (1 + u) ^ 2) * (1 + u) ^ 2) * (1 + u) ^ 2 =
    c ^ 2 * (1 + u) ^ 12 by ring] at a

theorem inv_sq_sum (n : ℕ) : ∑ k ∈ range n, 1 / ((k : ℝ) + 1) ^ 2 ≤ 2 := by
  have key : ∀ n : ℕ, ∑ k ∈ range (n + 1), 1 / ((k : ℝ) + 1) ^ 2 ≤ 2 - 1 / ((n : ℝ) + 1) := by
    intro n
    induction n with
    | zero => norm_num
    | succ n ih =>
      rw [sum_range_succ]
      have h0 : (0 : ℝ) < (n : ℝ) + 1 := by positivity
      have h1 : 1 / (((n + 1 : ℕ) : ℝ) + 1) ^ 2 ≤ 1 / ((n : ℝ) + 1) - 1 / (((n + 1 : ℕ) : ℝ) + 1) := by
        push_cast
        rw [div_sub_div _ _ h0.ne' (by positivity), div_le_div_iff₀ (by positivity) (by positivity)]
        nlinarith
      linarith
  cases n with
  | zero => norm_num
  | succ n =>
    have : 0 < 1 / ((n : ℝ) + 1) := by positivity
    linarith [key n]

/-- `Σ 1 / (p - q)²` is at most 4. -/
theorem hop_sum {l p : ℕ} (hp : p < l) : ∑ q ∈ range l, (if p = q then 0 else 1 / ((p : ℝ) - q) ^ 2) ≤ 4 := by
  obtain ⟨m, rfl⟩ : ∃ m, l = p + (m + 1) := ⟨l - p - 1, by omega⟩
  rw [sum_range_add, sum_range_succ', ← sum_range_reflect]
  have h1 : ∑ j ∈ range p, (if p = p - 1 - j then 0 else 1 / ((p : ℝ) - (p - 1 - j : ℕ)) ^ 2) =
      ∑ k ∈ range p, 1 / ((k : ℝ) + 1) ^ 2 := by
    refine sum_congr rfl fun j hj => ?_
    have hj' := mem_range.1 hj
    rw [if_neg (by omega), Nat.sub_sub, Nat.cast_sub (by omega)]
    push_cast
    congr 2
    ring
  have h2 : ∑ k ∈ range m, (if p = p + (k + 1) then 0 else 1 / ((p : ℝ) - (p + (k + 1) : ℕ)) ^ 2) =
      ∑ k ∈ range m, 1 / ((k : ℝ) + 1) ^ 2 := by
    refine sum_congr rfl fun j _ => ?_
    rw [if_neg (by omega)]
    push_cast
    congr 1
    ring
  rw [h1, h2]
  simp only [add_zero, if_true]
  linarith [inv_sq_sum p, inv_sq_sum m]

end QS.Props
