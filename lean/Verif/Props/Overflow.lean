import Verif.Lemmas.Overflow
import Verif.Props.OneDim
import Mathlib.Analysis.Real.Pi.Bounds

/-!
# C124: the oscillator functions in double precision

The normalisation `1 / sqrt(2 ** n * factorial(n))` of `ODHO` is computed with floats.  The argument of the root exceeds
the largest float from `n = 151` on, so that the function number 151 and all later ones are zero (or NaN) instead of
normalised, and so are all their Coulomb and dipole elements.  Up to `n = 150` the results are accurate.
-/

set_option exponentiation.threshold 3000

namespace QS.Props

open OneDim Overflow

theorem root_bounds {omega : ℝ} (h1 : 1 / (2 : ℝ) ^ 700 ≤ omega) (h2 : omega ≤ 2 ^ 700) :
    1 / (2 : ℝ) ^ 200 ≤ (omega / Real.pi) ^ (1 / 4 : ℝ) ∧ (omega / Real.pi) ^ (1 / 4 : ℝ) ≤ 2 ^ 200 := by
  have hpi3 := Real.pi_gt_three
  have hpi4 := Real.pi_lt_four
  have ho : 0 < omega := lt_of_lt_of_le (by positivity) h1
  have e : ((2 : ℝ) ^ 200) = ((2 : ℝ) ^ 800) ^ (1 / 4 : ℝ) := by
    rw [← Real.rpow_natCast, ← Real.rpow_natCast, ← Real.rpow_mul (by norm_num)]
    norm_num
  have hx0 : 0 < omega / Real.pi := by positivity
  constructor
  · rw [e, one_div, ← Real.inv_rpow (by positivity)]
    refine Real.rpow_le_rpow (by positivity) ?_ (by norm_num)
    rw [le_div_iff₀ (by positivity)]
    refine le_trans (mul_le_mul_of_nonneg_left hpi4.le (by positivity)) (le_trans ?_ h1)
    norm_num
  · rw [e]
    refine Real.rpow_le_rpow hx0.le ?_ (by norm_num)
    rw [div_le_iff₀ (by positivity)]
    refine h2.trans (le_trans ?_ (mul_le_mul_of_nonneg_left hpi3.le (by positivity)))
    norm_num

/-- The dipole elements of `ODHO` up to the element between the functions 149 and 150. -/
theorem dipole_rel {rnd : ℝ → Flt} {fact : ℕ → Flt} (hr : Ieee rnd) (hf : Factorials fact) {n : ℕ} (h : n ≤ 149)
    {omega c p : ℝ} (ho : 1 / 16 ≤ omega) (ho' : omega ≤ 2 ^ 200)
    (hc : RelErr (1 / (2 : ℝ) ^ 40) ((omega / Real.pi) ^ (1 / 4 : ℝ)) c)
    (hp : RelErr (1 / (2 : ℝ) ^ 40) (Real.sqrt Real.pi) p) :
    ∃ y, dipole rnd fact (.fin c) (.fin p) omega n = some (.fin y) ∧
      RelErr (1 / (2 : ℝ) ^ 29) (Real.sqrt ((n + 1) / (2 * omega))) y := by
  have ho0 : 0 < omega := by linarith
  have hpi := Real.pi_pos
  have hpi3 := Real.pi_gt_three
  have hpi4 := Real.pi_lt_d2
  set w := (omega / Real.pi) ^ (1 / 4 : ℝ) with hw
  obtain ⟨hw1, hw2⟩ := root_bounds (omega := omega) (le_trans (by norm_num) ho) (ho'.trans (by norm_num))
  obtain ⟨a, ha1, ha⟩ := normalization_rel hr hf (show n ≤ 150 by omega) hw1 hw2 hc
  obtain ⟨b, hb1, hb⟩ := normalization_rel hr hf (show n + 1 ≤ 150 by omega) hw1 hw2 hc
  obtain ⟨t, ht1, ht⟩ := pow2_rel hr (show n < 1024 by omega)
  obtain ⟨g, hg1, hg'⟩ := hf.near n (by omega)
  have hn0 : (0 : ℝ) < n.factorial := by exact_mod_cast n.factorial_pos
  have hn1 : (1 : ℝ) ≤ n.factorial := by exact_mod_cast n.factorial_pos
  have hg : RelErr (1 / (2 : ℝ) ^ 40) n.factorial g := by
    unfold RelErr; rw [abs_of_pos hn0]; exact hg'
  have hm1 : (1 : ℝ) ≤ (n : ℝ) + 1 := by have := (Nat.cast_nonneg n : (0 : ℝ) ≤ n); linarith
  have hm2 : (n : ℝ) + 1 ≤ 150 := by
    have : (n : ℝ) ≤ 149 := by exact_mod_cast h
    linarith
  obtain ⟨k, hk1, hk⟩ := rnd_rel (δ := 1 / (2 : ℝ) ^ 40) hr (RelErr.refl (le_refl (0 : ℝ)) ((n : ℝ) + 1)) (by norm_num)
    (by rw [abs_of_pos (by positivity)]; exact le_trans (by norm_num) hm1)
    (by rw [abs_of_pos (by positivity)]; exact le_trans hm2 (by norm_num)) (by norm_num)
  -- the exact intermediate results
  have hD := odhoDip_eq ho0 n
  set N := OneDim.normalization omega n with hN
  set M := OneDim.normalization omega (n + 1) with hM
  have hN0 : 0 < N := by rw [hN]; unfold OneDim.normalization; positivity
  have hM0 : 0 < M := by rw [hM]; unfold OneDim.normalization; positivity
  have hsp0 : 0 < Real.sqrt Real.pi := Real.sqrt_pos.mpr hpi
  have hsp1 : 1 ≤ Real.sqrt Real.pi := Real.one_le_sqrt.mpr (by linarith)
  have h2n : (1 : ℝ) ≤ 2 ^ n := one_le_pow₀ (by norm_num)
  have hS : N * M * (n + 1) * Real.sqrt Real.pi * 2 ^ n * n.factorial = Real.sqrt ((n + 1) * omega / 2) := by
    have e : odhoDip omega n * omega = N * M * (n + 1) * Real.sqrt Real.pi * 2 ^ n * n.factorial := by
      unfold odhoDip; rw [div_mul_cancel₀ _ ho0.ne']
    rw [← e, hD]
    have e2 : ((n : ℝ) + 1) * omega / 2 = (n + 1) / (2 * omega) * (omega * omega) := by field_simp
    rw [e2, Real.sqrt_mul (by positivity), Real.sqrt_mul_self ho0.le]
  have hSle : Real.sqrt ((n + 1) * omega / 2) ≤ 2 ^ 300 := by
    rw [Real.sqrt_le_left (by positivity)]
    have : ((n : ℝ) + 1) * omega ≤ 150 * 2 ^ 200 := mul_le_mul hm2 ho' ho0.le (by norm_num)
    refine le_trans (div_le_div_of_nonneg_right this (by norm_num)) ?_
    norm_num
  have hlow : 17 / 16 * (1 / (2 : ℝ) ^ 1022) ≤ N * M := by
    obtain ⟨F, hF⟩ : ∃ F, F = 2 ^ 149 * Nat.factorial 149 := ⟨_, rfl⟩
    have hd : (2 : ℝ) ^ n * n.factorial ≤ F := by
      have : 2 ^ n * n.factorial ≤ F := by
        rw [hF]; exact Nat.mul_le_mul (Nat.pow_le_pow_right (by norm_num) h) (Nat.factorial_le h)
      exact_mod_cast this
    have hd2 : 17 ^ 2 * (150 * 32 * 4) * (F : ℝ) ^ 2 ≤ 16 ^ 2 * (2 ^ 1022) ^ 2 := by
      have : 17 ^ 2 * (150 * 32 * 4) * F ^ 2 ≤ 16 ^ 2 * (2 ^ 1022) ^ 2 := by
        rw [hF]; norm_num [Nat.factorial]
      exact_mod_cast this
    clear hF
    have hq : 0 < ((n : ℝ) + 1) * Real.sqrt Real.pi * (2 ^ n * n.factorial) := by positivity
    refine le_of_mul_le_mul_right (a := ((n : ℝ) + 1) * Real.sqrt Real.pi * (2 ^ n * n.factorial)) ?_ hq
    rw [show N * M * (((n : ℝ) + 1) * Real.sqrt Real.pi * (2 ^ n * n.factorial))
      = N * M * (n + 1) * Real.sqrt Real.pi * 2 ^ n * n.factorial by ring, hS]
    apply Real.le_sqrt_of_sq_le
    rw [show (17 / 16 * (1 / (2 : ℝ) ^ 1022) * (((n : ℝ) + 1) * Real.sqrt Real.pi * (2 ^ n * n.factorial))) ^ 2
      = 17 ^ 2 * ((n + 1) ^ 2 * (Real.sqrt Real.pi) ^ 2 * (2 ^ n * n.factorial) ^ 2) / (16 ^ 2 * (2 ^ 1022) ^ 2) by
        field_simp, Real.sq_sqrt hpi.le, div_le_iff₀ (by positivity)]
    have hE : ((2 : ℝ) ^ n * n.factorial) ^ 2 ≤ (F : ℝ) ^ 2 :=
      pow_le_pow_left₀ (by positivity) hd 2
    have hE0 : 0 ≤ ((2 : ℝ) ^ n * n.factorial) ^ 2 := by positivity
    have hW0 : (0 : ℝ) ≤ 16 ^ 2 * (2 ^ 1022) ^ 2 := by positivity
    generalize (F : ℝ) ^ 2 = E' at *
    generalize ((2 : ℝ) ^ n * n.factorial) ^ 2 = E at *
    generalize (16 : ℝ) ^ 2 * (2 ^ 1022) ^ 2 = W at *
    have c1 : 17 ^ 2 * (150 * 32 * 4) * E ≤ W := by linarith
    have c2 : ((n : ℝ) + 1) * Real.pi * E ≤ 150 * 4 * E :=
      mul_le_mul_of_nonneg_right (mul_le_mul hm2 (by linarith) hpi.le (by norm_num)) hE0
    have c3 : 17 ^ 2 * (((n : ℝ) + 1) ^ 2 * Real.pi * E) = ((n : ℝ) + 1) * (17 ^ 2 * ((n + 1) * Real.pi * E)) := by ring
    have c4 : 17 ^ 2 * (((n : ℝ) + 1) * Real.pi * E) ≤ W / 32 := by linarith
    have c5 : W / 32 ≤ omega / 2 * W := by nlinarith
    rw [c3, show ((n : ℝ) + 1) * omega / 2 * W = (n + 1) * (omega / 2 * W) by ring]
    exact mul_le_mul_of_nonneg_left (c4.trans c5) (by linarith)
  have hT1 : 0 < N * M := by positivity
  have hT2 : N * M ≤ N * M * (n + 1) := le_mul_of_one_le_right hT1.le hm1
  have hT3 : N * M * (n + 1) ≤ N * M * (n + 1) * Real.sqrt Real.pi := le_mul_of_one_le_right (by positivity) hsp1
  have hT4 : N * M * (n + 1) * Real.sqrt Real.pi ≤ N * M * (n + 1) * Real.sqrt Real.pi * 2 ^ n :=
    le_mul_of_one_le_right (by positivity) h2n
  have hT5 : N * M * (n + 1) * Real.sqrt Real.pi * 2 ^ n ≤ N * M * (n + 1) * Real.sqrt Real.pi * 2 ^ n * n.factorial :=
    le_mul_of_one_le_right (by positivity) hn1
  have hT6 : N * M * (n + 1) * Real.sqrt Real.pi * 2 ^ n * n.factorial ≤ 2 ^ 1000 :=
    hS.le.trans (hSle.trans (by norm_num))
  have hup := le_huge
  have ha' : RelErr (1 / (2 : ℝ) ^ 36) N a := ha
  have hb' : RelErr (1 / (2 : ℝ) ^ 36) M b := hb
  obtain ⟨z1, e1, r1⟩ := mul_rel (γ := 1 / (2 : ℝ) ^ 34) hr ha' hb' (by norm_num)
    (by rw [abs_of_pos (by positivity)]; linarith) (by rw [abs_of_pos (by positivity)]; linarith) (by norm_num)
  obtain ⟨z2, e2, r2⟩ := mul_rel (γ := 1 / (2 : ℝ) ^ 33) hr r1 hk (by norm_num)
    (by rw [abs_of_pos (by positivity)]; linarith) (by rw [abs_of_pos (by positivity)]; linarith) (by norm_num)
  obtain ⟨z3, e3, r3⟩ := mul_rel (γ := 1 / (2 : ℝ) ^ 32) hr r2 hp (by norm_num)
    (by rw [abs_of_pos (by positivity)]; linarith) (by rw [abs_of_pos (by positivity)]; linarith) (by norm_num)
  obtain ⟨z4, e4, r4⟩ := mul_rel (γ := 1 / (2 : ℝ) ^ 31) hr r3 ht (by norm_num)
    (by rw [abs_of_pos (by positivity)]; linarith) (by rw [abs_of_pos (by positivity)]; linarith) (by norm_num)
  obtain ⟨z5, e5, r5⟩ := mul_rel (γ := 1 / (2 : ℝ) ^ 30) hr r4 hg (by norm_num)
    (by rw [abs_of_pos (by positivity)]; linarith) (by rw [abs_of_pos (by positivity)]; linarith) (by norm_num)
  have hinv : RelErr 0 (1 / omega) (1 / omega) := RelErr.refl le_rfl _
  have e6 : N * M * (n + 1) * Real.sqrt Real.pi * 2 ^ n * n.factorial * (1 / omega)
      = Real.sqrt ((n + 1) / (2 * omega)) := by
    rw [← hD]; unfold odhoDip; ring
  have hq : 0 < Real.sqrt (((n : ℝ) + 1) / (2 * omega)) := Real.sqrt_pos.mpr (by positivity)
  have hq1 : 1 / (2 : ℝ) ^ 150 ≤ Real.sqrt (((n : ℝ) + 1) / (2 * omega)) := by
    apply Real.le_sqrt_of_sq_le
    rw [le_div_iff₀ (by positivity)]
    refine le_trans (mul_le_mul_of_nonneg_left (mul_le_mul_of_nonneg_left ho' (by norm_num)) (by positivity))
      (le_trans ?_ hm1)
    norm_num
  have hq2 : Real.sqrt (((n : ℝ) + 1) / (2 * omega)) ≤ 2 ^ 150 := by
    rw [Real.sqrt_le_left (by positivity), div_le_iff₀ (by positivity)]
    refine le_trans hm2 ?_
    nlinarith
  have r6 := r5.mul hinv
  rw [e6] at r6
  obtain ⟨z6, e7, r7⟩ := rnd_rel (δ := 1 / (2 : ℝ) ^ 29) hr r6 (by norm_num)
    (by rw [abs_of_pos hq]; exact le_trans (le_trans tiny_le (by norm_num)) hq1)
    (by rw [abs_of_pos hq]; exact le_trans (le_trans hq2 (by norm_num)) le_huge) (by norm_num)
  refine ⟨z6, ?_, r7⟩
  simp only [dipole, ha1, hb1, ht1, hg1, Option.pure_def, Option.bind_eq_bind, Option.bind_some, e1, hk1, e2, e3, e4, e5]
  show some (if omega = 0 then _ else rnd (z5 / omega)) = _
  rw [if_neg ho0.ne', ← e7, mul_one_div]

/-- **C124, what is wrong.**  Whatever the rounding and whatever the library's factorial (as long as they are those of
double precision): the computed normalisation has a relative error of one hundred per cent for some function. -/
theorem C124_false {rnd : ℝ → Flt} {fact : ℕ → Flt} (hr : Ieee rnd) (hf : Factorials fact) {omega : ℝ} (ho : 0 < omega)
    (c : ℝ) {ε : ℝ} (hε : ε < 1) :
    ¬ ∀ n, ∃ y, Overflow.normalization rnd fact (.fin c) n = some (.fin y) ∧
      |y - OneDim.normalization omega n| ≤ ε * OneDim.normalization omega n := by
  intro h
  obtain ⟨y, h1, h2⟩ := h 151
  rw [normalization_zero hr hf c (by norm_num) (by norm_num)] at h1
  obtain rfl : 0 = y := by simpa using h1
  have h3 : 0 < OneDim.normalization omega 151 := by unfold OneDim.normalization; positivity
  rw [zero_sub, abs_neg, abs_of_pos h3] at h2
  nlinarith

/-- **C124, what happens instead.**  For the functions from number 151 on the normalisation is zero, every value of the
function is zero or NaN, and so are the computed norm, every Coulomb element with one of these functions and the dipole
elements from the one between 150 and 151 on; from number 1024 on the constructor raises `OverflowError`. -/
theorem C124_actual {rnd : ℝ → Flt} {fact : ℕ → Flt} (hr : Ieee rnd) (hf : Factorials fact) (c : ℝ) :
    (∀ n, 151 ≤ n → n < 1024 → Overflow.normalization rnd fact (.fin c) n = some (.fin 0) ∧
      (∀ e k, ∃ v, Overflow.hoFunction rnd fact (.fin c) n e k = some v ∧ ZeroOrNan v) ∧
      ∀ (num : ℕ) (e k f : ℕ → Flt),
        (∀ i < num, Overflow.hoFunction rnd fact (.fin c) n (e i) (k i) = some (f i)) →
        (∀ dx, ZeroOrNan (Overflow.trapz rnd num (fun i => mul rnd (f i) (f i)) dx)) ∧
        ∀ (g g' g'' : ℕ → Flt) v dx, ZeroOrNan (orbital rnd num f g g' g'' v dx) ∧
          ZeroOrNan (orbital rnd num g f g' g'' v dx) ∧ ZeroOrNan (orbital rnd num g g' f g'' v dx) ∧
          ZeroOrNan (orbital rnd num g g' g'' f v dx)) ∧
    (∀ n, 150 ≤ n → n < 1023 → ∀ (p : Flt) (omega : ℝ), omega ≠ 0 →
      ∃ v, dipole rnd fact (.fin c) p omega n = some v ∧ ZeroOrNan v) ∧
    ∀ n, 1024 ≤ n → Overflow.normalization rnd fact (.fin c) n = none := by
  refine ⟨fun n h h' => ?_, fun n h h' p omega ho => ?_, fun n h => normalization_none _ h⟩
  · have hz := normalization_zero hr hf c h h'
    have hv : ∀ e k, ∃ v, Overflow.hoFunction rnd fact (.fin c) n e k = some v ∧ ZeroOrNan v := by
      intro e k
      refine ⟨mul rnd (mul rnd (.fin 0) e) k, ?_, ((show ZeroOrNan (.fin 0) from Or.inl rfl).mul_left hr e).mul_left hr k⟩
      simp [Overflow.hoFunction, hz]
    refine ⟨hz, hv, fun num e k f hfn => ?_⟩
    have hf0 : ∀ i < num, ZeroOrNan (f i) := by
      intro i hi
      obtain ⟨v, h1, h2⟩ := hv (e i) (k i)
      rw [hfn i hi] at h1
      cases h1
      exact h2
    refine ⟨fun dx => ZeroOrNan.trapz hr (fun i hi => (hf0 i hi).mul_left hr _) dx, fun g g' g'' v dx => ⟨?_, ?_, ?_, ?_⟩⟩
    · exact ZeroOrNan.trapz hr (fun i hi => ((hf0 i hi).mul_left hr _).mul_left hr _) dx
    · refine ZeroOrNan.trapz hr (fun i hi => (ZeroOrNan.mul_right hr ?_ _).mul_left hr _) dx
      exact ZeroOrNan.trapz hr (fun j hj => ((hf0 j hj).mul_left hr _).mul_left hr _) dx
    · exact ZeroOrNan.trapz hr (fun i hi => (hf0 i hi).mul_right hr _) dx
    · refine ZeroOrNan.trapz hr (fun i hi => (ZeroOrNan.mul_right hr ?_ _).mul_left hr _) dx
      exact ZeroOrNan.trapz hr (fun j hj => (hf0 j hj).mul_right hr _) dx
  · have hz := normalization_zero hr hf c (n := n + 1) (by omega) (by omega)
    obtain ⟨t, ht, _⟩ := pow2_rel hr (show n < 1024 by omega)
    obtain ⟨a, ha⟩ : ∃ a, Overflow.normalization rnd fact (.fin c) n = some a := by
      simp only [Overflow.normalization, ht, Option.pure_def, Option.bind_eq_bind, Option.bind_some]
      exact ⟨_, rfl⟩
    refine ⟨_, by simp only [dipole, ha, hz, ht, Option.pure_def, Option.bind_eq_bind, Option.bind_some]; rfl, ?_⟩
    exact ((((((show ZeroOrNan (.fin 0) from Or.inl rfl).mul_right hr a).mul_left hr _).mul_left hr _).mul_left hr
      _).mul_left hr _).div_left hr ho

/-- **C124, what holds.**  Up to function number 150 the computed normalisation is accurate to `2 ^ -36`, and the dipole
elements between them are accurate to `2 ^ -29`.  (What is missing: the later functions, for which this is false.) -/
theorem C124_partial {rnd : ℝ → Flt} {fact : ℕ → Flt} (hr : Ieee rnd) (hf : Factorials fact) {omega : ℝ}
    (h1 : 1 / (2 : ℝ) ^ 700 ≤ omega) (h2 : omega ≤ 2 ^ 700) {c : ℝ}
    (hc : |c - (omega / Real.pi) ^ (1 / 4 : ℝ)| ≤ 1 / (2 : ℝ) ^ 40 * (omega / Real.pi) ^ (1 / 4 : ℝ)) :
    (∀ n ≤ 150, ∃ y, Overflow.normalization rnd fact (.fin c) n = some (.fin y) ∧
      |y - OneDim.normalization omega n| ≤ 1 / (2 : ℝ) ^ 36 * OneDim.normalization omega n) ∧
    (1 / 16 ≤ omega → omega ≤ 2 ^ 200 → ∀ p : ℝ, |p - Real.sqrt Real.pi| ≤ 1 / (2 : ℝ) ^ 40 * Real.sqrt Real.pi →
      ∀ n ≤ 149, ∃ y, dipole rnd fact (.fin c) (.fin p) omega n = some (.fin y) ∧
        |y - Real.sqrt ((n + 1) / (2 * omega))| ≤ 1 / (2 : ℝ) ^ 29 * Real.sqrt ((n + 1) / (2 * omega))) := by
  have ho : 0 < omega := lt_of_lt_of_le (by positivity) h1
  obtain ⟨hw1, hw2⟩ := root_bounds h1 h2
  have hw0 : 0 < (omega / Real.pi) ^ (1 / 4 : ℝ) := by positivity
  have hc' : RelErr (1 / (2 : ℝ) ^ 40) ((omega / Real.pi) ^ (1 / 4 : ℝ)) c := by
    unfold RelErr; rw [abs_of_pos hw0]; exact hc
  constructor
  · intro n hn
    obtain ⟨y, e1, e2⟩ := normalization_rel hr hf hn hw1 hw2 hc'
    refine ⟨y, e1, ?_⟩
    unfold RelErr at e2
    rwa [abs_of_pos (a := 1 / Real.sqrt (2 ^ n * n.factorial) * (omega / Real.pi) ^ (1 / 4 : ℝ)) (by positivity)] at e2
  · intro g1 g2 p hp n hn
    have hp' : RelErr (1 / (2 : ℝ) ^ 40) (Real.sqrt Real.pi) p := by
      unfold RelErr; rw [abs_of_pos (Real.sqrt_pos.mpr Real.pi_pos)]; exact hp
    obtain ⟨y, e1, e2⟩ := dipole_rel hr hf hn g1 g2 hc' hp'
    refine ⟨y, e1, ?_⟩
    unfold RelErr at e2
    rwa [abs_of_pos (Real.sqrt_pos.mpr (by positivity))] at e2

/-- **C124, two dimensions.**  `spf_norm` is accurate to `2 ^ -36` while `n + |m| ≤ 170`; then it is zero, and NaN once
`n` exceeds 170 itself. -/
theorem C124_tdho {rnd : ℝ → Flt} {fact : ℕ → Flt} (hr : Ieee rnd) (hf : Factorials fact) {a p : ℝ}
    (ha1 : 1 / (2 : ℝ) ^ 200 ≤ a) (ha2 : a ≤ 2 ^ 200) (hp : |p - Real.pi| ≤ 1 / (2 : ℝ) ^ 40 * Real.pi) (n m : ℕ) :
    (n + m ≤ 170 → ∃ y, spfNorm rnd fact (.fin a) (.fin p) n m = .fin y ∧
      |y - a * Real.sqrt (n.factorial / (Real.pi * (n + m).factorial))| ≤
        1 / (2 : ℝ) ^ 36 * (a * Real.sqrt (n.factorial / (Real.pi * (n + m).factorial)))) ∧
    (n ≤ 170 → 171 ≤ n + m → spfNorm rnd fact (.fin a) (.fin p) n m = .fin 0) ∧
    (171 ≤ n → spfNorm rnd fact (.fin a) (.fin p) n m = .nan) := by
  have hpi := Real.pi_pos
  have hpi3 := Real.pi_gt_three
  have hpi4 := Real.pi_lt_d2
  have hp' : RelErr (1 / (2 : ℝ) ^ 40) Real.pi p := by
    unfold RelErr; rw [abs_of_pos hpi]; exact hp
  have hp0 : 0 < p := hp'.pos (by norm_num) hpi
  have ha0 : 0 < a := lt_of_lt_of_le (by positivity) ha1
  have hinf : mul rnd (.fin p) (.inf false) = .inf false := by simp [mul, hp0.ne', not_lt.mpr hp0.le]
  refine ⟨fun h => ?_, fun h h' => ?_, fun h => ?_⟩
  · obtain ⟨b, hb1, hb'⟩ := hf.near n (by omega)
    obtain ⟨d, hd1, hd'⟩ := hf.near (n + m) h
    have hn0 : (0 : ℝ) < n.factorial := by exact_mod_cast n.factorial_pos
    have hn1 : (1 : ℝ) ≤ n.factorial := by exact_mod_cast n.factorial_pos
    have hm0 : (0 : ℝ) < (n + m).factorial := by exact_mod_cast (n + m).factorial_pos
    have hm1 : (1 : ℝ) ≤ (n + m).factorial := by exact_mod_cast (n + m).factorial_pos
    have hle : (n.factorial : ℝ) ≤ (n + m).factorial := by exact_mod_cast Nat.factorial_le (Nat.le_add_right n m)
    have hmax : (4 : ℝ) * (n + m).factorial ≤ 15 / 16 * 2 ^ 1022 := by
      have h1 : 64 * Nat.factorial 170 ≤ 15 * 2 ^ 1022 := by norm_num [Nat.factorial]
      have h2 := Nat.factorial_le h
      have h3 : (64 : ℝ) * (n + m).factorial ≤ 15 * 2 ^ 1022 := by
        exact_mod_cast (Nat.mul_le_mul_left 64 h2).trans h1
      linarith
    have hb : RelErr (1 / (2 : ℝ) ^ 40) n.factorial b := by
      unfold RelErr; rw [abs_of_pos hn0]; exact hb'
    have hd : RelErr (1 / (2 : ℝ) ^ 40) (n + m).factorial d := by
      unfold RelErr; rw [abs_of_pos hm0]; exact hd'
    have hv0 : 0 < Real.pi * (n + m).factorial := by positivity
    have hv1 : 1 ≤ Real.pi * (n + m).factorial := by nlinarith
    have hv2 : Real.pi * (n + m).factorial ≤ 15 / 16 * 2 ^ 1022 := by nlinarith
    have hv3 : (n.factorial : ℝ) ≤ Real.pi * (n + m).factorial := by nlinarith
    obtain ⟨z1, e1, r1⟩ := mul_rel (γ := 1 / (2 : ℝ) ^ 38) hr hp' hd (by norm_num)
      (by rw [abs_of_pos hv0]; exact le_trans (le_trans tiny_le (by norm_num)) hv1)
      (by rw [abs_of_pos hv0]; exact hv2.trans (by norm_num)) (by norm_num)
    have hz1 : 0 < z1 := r1.pos (by norm_num) hv0
    have r2 := hb.mul (r1.inv (by norm_num) hv0)
    have hx0 : 0 < (n.factorial : ℝ) * (1 / (Real.pi * (n + m).factorial)) := by positivity
    have hx1 : 17 / 16 * (1 / (2 : ℝ) ^ 1022) ≤ (n.factorial : ℝ) * (1 / (Real.pi * (n + m).factorial)) := by
      refine le_trans ?_ (le_mul_of_one_le_left (by positivity) hn1)
      rw [le_div_iff₀ hv0]
      refine le_trans (mul_le_mul_of_nonneg_left hv2 (by positivity)) ?_
      norm_num
    have hx2 : (n.factorial : ℝ) * (1 / (Real.pi * (n + m).factorial)) ≤ 1 := by
      rw [mul_one_div, div_le_one hv0]; exact hv3
    obtain ⟨z2, e2, r3⟩ := rnd_rel (δ := 3 / (2 : ℝ) ^ 39) hr r2 (by norm_num)
      (by rw [abs_of_pos hx0]; exact hx1)
      (by rw [abs_of_pos hx0]; exact le_trans (le_trans hx2 (by norm_num)) le_huge) (by norm_num)
    have hz2 : 0 < z2 := r3.pos (by norm_num) hx0
    have hs0 := Real.sqrt_pos.mpr hx0
    have hs1 : 1 / (2 : ℝ) ^ 600 ≤ Real.sqrt ((n.factorial : ℝ) * (1 / (Real.pi * (n + m).factorial))) := by
      apply Real.le_sqrt_of_sq_le
      refine le_trans ?_ hx1
      norm_num
    have hs2 : Real.sqrt ((n.factorial : ℝ) * (1 / (Real.pi * (n + m).factorial))) ≤ 1 := by
      rw [Real.sqrt_le_left (by norm_num)]; linarith
    obtain ⟨z3, e3, r4⟩ := rnd_rel (δ := 4 / (2 : ℝ) ^ 39) hr (r3.sqrt (by norm_num) hx0) (by norm_num)
      (by rw [abs_of_pos hs0]; exact le_trans (le_trans tiny_le (by norm_num)) hs1)
      (by rw [abs_of_pos hs0]; exact le_trans (le_trans hs2 (by norm_num)) le_huge) (by norm_num)
    have ht0 := mul_pos ha0 hs0
    have ht1 := mul_le_mul ha1 hs1 (by positivity) ha0.le
    have ht2 := mul_le_mul ha2 hs2 hs0.le (by positivity)
    obtain ⟨z4, e4, r5⟩ := mul_rel (γ := 1 / (2 : ℝ) ^ 36) hr (RelErr.refl (le_refl (0 : ℝ)) a) r4 (by norm_num)
      (by rw [abs_of_pos ht0]; exact le_trans (le_trans tiny_le (by norm_num)) ht1)
      (by rw [abs_of_pos ht0]; exact le_trans (le_trans ht2 (by norm_num)) le_huge) (by norm_num)
    refine ⟨z4, ?_, ?_⟩
    · have e5 : div rnd (.fin b) (.fin z1) = .fin z2 := by
        show (if z1 = 0 then _ else rnd (b / z1)) = _
        rw [if_neg hz1.ne', ← e2, mul_one_div]
      have e6 : sqrt rnd (.fin z2) = .fin z3 := by simp [sqrt, not_lt.mpr hz2.le, e3]
      rw [spfNorm, hb1, hd1, e1, e5, e6, e4]
    · unfold RelErr at r5
      rwa [abs_of_pos ht0, mul_one_div] at r5
  · obtain ⟨b, hb1, _⟩ := hf.near n h
    rw [spfNorm, hb1, hf.over _ h', hinf]
    simp [div, sqrt, mul, hr.zero]
  · rw [spfNorm, hf.over n h, hf.over (n + m) (by omega), hinf]
    simp [div, sqrt, mul]

/-- An exact arithmetic with overflow. -/
noncomputable def exactRnd (x : ℝ) : Flt := if (2 : ℝ) ^ 1024 ≤ |x| then .inf (decide (x < 0)) else .fin x

theorem exactRnd_ieee : Ieee exactRnd where
  zero := by
    unfold exactRnd
    rw [if_neg]
    rw [abs_zero, not_le]
    positivity
  over x h := if_pos h
  near x _ h := by
    refine ⟨x, if_neg ?_, by simp⟩
    rw [not_le]
    refine lt_of_le_of_lt h ?_
    norm_num

theorem exactFactorials : Factorials fun n => if n ≤ 170 then .fin n.factorial else .inf false where
  near n h := ⟨_, if_pos h, by simp⟩
  over n h := if_neg (by omega)

/-- With exact operations, exact factorials and `omega = pi` (so that `c = 1`) the float that overflows is all that goes
wrong: the normalisation of function 150 is right and that of function 151 is zero. -/
example : (∃ y, Overflow.normalization exactRnd (fun n => if n ≤ 170 then .fin n.factorial else .inf false) (.fin 1) 150 =
      some (.fin y) ∧ |y - OneDim.normalization Real.pi 150| ≤ 1 / (2 : ℝ) ^ 36 * OneDim.normalization Real.pi 150) ∧
    Overflow.normalization exactRnd (fun n => if n ≤ 170 then .fin n.factorial else .inf false) (.fin 1) 151 =
      some (.fin 0) := by
  have hpi3 := Real.pi_gt_three
  have hpi4 := Real.pi_le_four
  refine ⟨(C124_partial exactRnd_ieee exactFactorials (omega := Real.pi) (le_trans (by norm_num) hpi3.le)
    (hpi4.trans (by norm_num)) (c := 1) ?_).1 150 le_rfl,
    ((C124_actual exactRnd_ieee exactFactorials 1).1 151 le_rfl (by norm_num)).1⟩
  rw [div_self Real.pi_pos.ne', Real.one_rpow]
  norm_num

end QS.Props
