import Verif.Lemmas.Ladder
import Verif.Props.TwoDim
import Verif.Props.Magnetic
import Verif.Props.OneDim

/-!
# The dipole elements of the oscillators in closed form, and their sum rule (C103, C104)
-/

namespace QS.Props

open TwoDim OneDim Idx Spec NDArray Finset

/-! ## C103 -/

/-- The dipole elements of any numbering of oscillator functions, in closed form. -/
theorem dipoleEntry_closed {mass omega : ℝ} (hm : 0 < mass) (ho : 0 < omega) {nm : ℕ → ℤ × ℤ} (k : ℕ) {p q : ℕ}
    (hp : 0 ≤ (nm p).1) (hq : 0 ≤ (nm q).1) (h : |(nm p).2 - (nm q).2| = 1) :
    dipoleEntry nm omega mass k p q = (if k = 0 then 1 else -((nm p).2 - (nm q).2 : ℂ) * Complex.I)
      * ((radialStep (nm p).1 (nm p).2 (nm q).1 (nm q).2 / (2 * √(mass * omega)) : ℝ) : ℂ) := by
  have key : spfNorm (nm p).1 (nm p).2 mass omega * spfNorm (nm q).1 (nm q).2 mass omega
      * radialIntegral (spfRadial (nm p).1 (nm p).2 mass omega) (spfRadial (nm q).1 (nm q).2 mass omega)
      = radialStep (nm p).1 (nm p).2 (nm q).1 (nm q).2 / (2 * Real.pi * √(mass * omega)) := by
    obtain ⟨n, hn⟩ : ∃ n : ℕ, (nm p).1 = n := ⟨(nm p).1.toNat, by omega⟩
    obtain ⟨n', hn'⟩ : ∃ n : ℕ, (nm q).1 = n := ⟨(nm q).1.toNat, by omega⟩
    rw [hn, hn', radialStep]
    simp only [Int.toNat_natCast]
    by_cases e : (nm q).2.natAbs = (nm p).2.natAbs + 1
    · rw [if_pos e]; exact radial_ladder hm ho n n' e
    · rw [if_neg e, radialIntegral_comm, mul_comm (spfNorm _ _ _ _)]
      exact radial_ladder hm ho n' n (by
        rcases abs_choice ((nm p).2 - (nm q).2) with h' | h' <;> rw [h'] at h <;> omega)
  unfold dipoleEntry
  rw [if_pos h, ← Complex.ofReal_mul, ← Complex.ofReal_mul, key, theta1, theta2, if_pos h, if_pos h]
  have hp := Real.pi_pos
  have hs : 0 < √(mass * omega) := Real.sqrt_pos.2 (by positivity)
  have e : radialStep (nm p).1 (nm p).2 (nm q).1 (nm q).2 / (2 * Real.pi * √(mass * omega))
      = radialStep (nm p).1 (nm p).2 (nm q).1 (nm q).2 / (2 * √(mass * omega)) / Real.pi := by field_simp
  rw [e, Complex.ofReal_div]
  have hpc : (Real.pi : ℂ) ≠ 0 := by exact_mod_cast hp.ne'
  split_ifs <;> field_simp

/-- A radial matrix element that is not zero changes the shell by one. -/
theorem radialStep_shell {n m n' m' : ℤ} (hn : 0 ≤ n) (hn' : 0 ≤ n') (h : |m - m'| = 1)
    (hne : radialStep n m n' m' ≠ 0) : |getShellEnergy n m - getShellEnergy n' m'| = 1 := by
  have h1 : (m'.natAbs : ℤ) = m.natAbs + 1 ∨ (m.natAbs : ℤ) = m'.natAbs + 1 := by
    rcases abs_choice (m - m') with h' | h' <;> rw [h'] at h <;> omega
  unfold getShellEnergy
  rw [Int.abs_eq_natAbs m, Int.abs_eq_natAbs m', abs_eq one_pos.le]
  unfold radialStep ladder at hne
  split_ifs at hne <;> first | exact absurd rfl hne | omega

/-- **C103** The dipole elements of every `TwoDimensionalHarmonicOscillator` in closed form: between functions with
neighbouring `m` they are the radial matrix elements (two square roots) times half the oscillator length, times `1`
or `∓i`; and zero elsewhere. -/
theorem C103_dipole (u : NDArray ℂ) (l num : ℕ) (radiusLength : ℝ) {omega mass : ℝ} (hm : 0 < mass) (ho : 0 < omega)
    (np : Module) :
    ∃ b d, tdho (.ok u) l num radiusLength omega mass np = .ok b ∧ b.dipole = some d ∧ d.shape = [2, l, l] ∧
      ∀ p < l, ∀ q < l, ∀ n m n' m', getIndicesNm p = (n, m) → getIndicesNm q = (n', m') →
        (|m - m'| ≠ 1 → d.get [0, p, q] = 0 ∧ d.get [1, p, q] = 0) ∧
        (|m - m'| = 1 → d.get [0, p, q] = ((radialStep n m n' m' / (2 * √(mass * omega)) : ℝ) : ℂ) ∧
          d.get [1, p, q] = (m' - m) * Complex.I * ((radialStep n m n' m' / (2 * √(mass * omega)) : ℝ) : ℂ)) := by
  obtain ⟨b, h1, h2, -⟩ := tdho_ok u l num radiusLength omega mass np
  refine ⟨b, _, h1, h2.dipole_eq, rfl, fun p hp q hq n m n' m' e e' => ?_⟩
  rw [ofFn_get_of (show InRange [2, l, l] [0, p, q] from ⟨by decide, hp, hq, trivial⟩),
    ofFn_get_of (show InRange [2, l, l] [1, p, q] from ⟨by decide, hp, hq, trivial⟩)]
  simp only [List.getD_cons_zero, List.getD_cons_succ]
  refine ⟨fun h => ?_, fun h => ?_⟩
  · unfold dipoleEntry
    rw [e, e', if_neg h, if_neg h]
    exact ⟨rfl, rfl⟩
  · have hp' := C42_nonneg p
    have hq' := C42_nonneg q
    rw [dipoleEntry_closed hm ho 0 hp' hq' (by rw [e, e']; exact h),
      dipoleEntry_closed hm ho 1 hp' hq' (by rw [e, e']; exact h), e, e']
    refine ⟨by simp, ?_⟩
    rw [if_neg one_ne_zero]
    ring

/-- **C103** The same for the double well, for both axes and every barrier. -/
theorem C103_double_well (u : NDArray ℂ) (l num : ℕ) (radiusLength : ℝ) {omega mass : ℝ} (hm : 0 < mass)
    (ho : 0 < omega) (barrier : ℝ) (axis : ℕ) (np : Module) :
    ∃ b b' d, tdho (.ok u) l num radiusLength omega mass np = .ok b ∧
      doubleWell (.ok u) l num radiusLength omega mass barrier axis np = .ok b' ∧
      b.dipole = some d ∧ b'.dipole = some d := by
  obtain ⟨b, h1, h2, -⟩ := tdho_ok u l num radiusLength omega mass np
  obtain ⟨b', h1', h2', -⟩ := doubleWell_ok u l num radiusLength omega mass barrier axis np
  exact ⟨b, b', _, h1, h1', h2.dipole_eq, h2'.dipole_eq⟩

/-- **C103** The dipole elements of every `TwoDimHarmonicOscB`: the oscillator length is the one of the effective
frequency `√(ω₀² + ω_c²/4)`, the states are those of its data frame. -/
theorem C103_magnetic {l num : ℕ} {radiusLength omega0 mass omegaC : ℝ} {np : Module} {b : BasisSet ℂ}
    {df : List Row} (h : oscB l num radiusLength omega0 mass omegaC np = .ok (b, df)) (hm : 0 < mass)
    (ho : omega0 ≠ 0 ∨ omegaC ≠ 0) :
    ∃ d, b.dipole = some d ∧ d.shape = [2, l, l] ∧
      ∀ p < l, ∀ q < l, ∀ n m n' m', indicesNmB df p = (n, m) → indicesNmB df q = (n', m') →
        (|m - m'| ≠ 1 → d.get [0, p, q] = 0 ∧ d.get [1, p, q] = 0) ∧
        (|m - m'| = 1 →
          d.get [0, p, q] = ((radialStep n m n' m' / (2 * √(mass * √(omega0 ^ 2 + omegaC ^ 2 / 4))) : ℝ) : ℂ) ∧
          d.get [1, p, q] = (m' - m) * Complex.I
            * ((radialStep n m n' m' / (2 * √(mass * √(omega0 ^ 2 + omegaC ^ 2 / 4))) : ℝ) : ℂ)) := by
  have hpos : 0 < omega0 ^ 2 + omegaC ^ 2 / 4 := by rcases ho with ho | ho <;> positivity
  have hw : 0 < omegaB omega0 omegaC := Real.sqrt_pos.2 hpos
  obtain ⟨hd, -⟩ := C51_one_body h
  obtain ⟨b', hh, u, h1, -, -, -, -, -, -, -, -, -, h8⟩ := oscB_ok hd num radiusLength mass np
  rw [h1] at h
  cases h
  have hnn : ∀ p < l, 0 ≤ (indicesNmB df p).1 := fun p hp => (kept_row hd hp).2.2.2
  refine ⟨_, h8, rfl, fun p hp q hq n m n' m' e e' => ?_⟩
  rw [toComplex_get, toComplex_get,
    ofFn_get_of (show InRange [2, l, l] [0, p, q] from ⟨by decide, hp, hq, trivial⟩),
    ofFn_get_of (show InRange [2, l, l] [1, p, q] from ⟨by decide, hp, hq, trivial⟩)]
  simp only [List.getD_cons_zero, List.getD_cons_succ]
  refine ⟨fun h => ?_, fun h => ?_⟩
  · unfold dipoleEntry
    rw [e, e', if_neg h, if_neg h]
    exact ⟨rfl, rfl⟩
  · rw [dipoleEntry_closed hm hw 0 (hnn p hp) (hnn q hq) (by rw [e, e']; exact h),
      dipoleEntry_closed hm hw 1 (hnn p hp) (hnn q hq) (by rw [e, e']; exact h), e, e']
    refine ⟨by simp [omegaB], ?_⟩
    rw [if_neg one_ne_zero, omegaB]
    ring

/-- **C103** Dipole transitions of the two-dimensional oscillator are between neighbouring shells: the energies of
the two functions differ by `ω`. -/
theorem C103_shells (u : NDArray ℂ) (l num : ℕ) (radiusLength : ℝ) {omega mass : ℝ} (hm : 0 < mass) (ho : 0 < omega)
    (np : Module) :
    ∃ b h d, tdho (.ok u) l num radiusLength omega mass np = .ok b ∧ b.h = some h ∧ b.dipole = some d ∧
      ∀ p < l, ∀ q < l, ∀ k < 2, d.get [k, p, q] ≠ 0 →
        h.get [p, p] - h.get [q, q] = omega ∨ h.get [q, q] - h.get [p, p] = omega := by
  obtain ⟨b, h1, h2, h3⟩ := tdho_ok u l num radiusLength omega mass np
  refine ⟨b, _, _, h1, h3, h2.dipole_eq, fun p hp q hq k hk hne => ?_⟩
  rw [ofFn_get_of (show InRange [2, l, l] [k, p, q] from ⟨hk, hp, hq, trivial⟩)] at hne
  simp only [List.getD_cons_zero, List.getD_cons_succ] at hne
  have h : |(getIndicesNm p).2 - (getIndicesNm q).2| = 1 := by
    by_contra h; exact hne (if_neg h)
  rw [dipoleEntry_closed hm ho k (C42_nonneg p) (C42_nonneg q) h] at hne
  have hr : radialStep (getIndicesNm p).1 (getIndicesNm p).2 (getIndicesNm q).1 (getIndicesNm q).2 ≠ 0 := by
    rintro e; rw [e] at hne; simp at hne
  have hs := radialStep_shell (C42_nonneg p) (C42_nonneg q) h hr
  have he : ∀ p < l, (oscillatorH l omega).get [p, p]
      = (omega : ℂ) * ((getShellEnergy (getIndicesNm p).1 (getIndicesNm p).2 : ℤ) : ℂ) := by
    intro p hp
    rw [oscillatorH, smul_get, ofFn_get_of (show InRange [l, l] [p, p] from ⟨hp, hp, trivial⟩)]
    simp
  rw [he p hp, he q hq, ← mul_sub, ← mul_sub, ← Int.cast_sub, ← Int.cast_sub]
  rcases (abs_eq one_pos.le).1 hs with h' | h'
  · left; rw [h']; simp
  · right; rw [← neg_sub, h']; simp

/-- `⟨n=0, m=0| x |n=0, m=-1⟩` is half the oscillator length, `⟨n=0, m=-1| x |n=1, m=0⟩` minus that. -/
example : ∃ b d, tdho (.ok (NDArray.zeros .float64 [6, 6, 6, 6])) 6 3 4 2 (1 / 2) 0 = .ok b ∧ b.dipole = some d ∧
    d.get [0, 0, 1] = 1 / 2 ∧ d.get [0, 1, 4] = -1 / 2 ∧ d.get [1, 1, 4] = -Complex.I / 2 ∧ d.get [0, 0, 4] = 0 := by
  obtain ⟨b, d, h1, h2, -, h3⟩ := C103_dipole (NDArray.zeros .float64 [6, 6, 6, 6]) 6 3 4 (omega := 2)
    (mass := 1 / 2) (by norm_num) (by norm_num) 0
  have e0 : getIndicesNm 0 = (0, 0) := by decide +kernel
  have e1 : getIndicesNm 1 = (0, -1) := by decide +kernel
  have e4 : getIndicesNm 4 = (1, 0) := by decide +kernel
  have r1 : radialStep 0 0 0 (-1) = 1 := by norm_num [radialStep, ladder]
  have r2 : radialStep 0 (-1) 1 0 = -1 := by norm_num [radialStep, ladder]
  have k1 := (h3 0 (by decide) 1 (by decide) _ _ _ _ e0 e1).2 (by decide)
  have k2 := (h3 1 (by decide) 4 (by decide) _ _ _ _ e1 e4).2 (by decide)
  have k3 := (h3 0 (by decide) 4 (by decide) _ _ _ _ e0 e4).1 (by decide)
  refine ⟨b, d, h1, h2, ?_, ?_, ?_, k3.1⟩
  · rw [k1.1, r1]; norm_num
  · rw [k2.1, r2]; norm_num
  · rw [k2.2, r2]; norm_num; ring

/-! ## C104 -/

/-- The square of the radial matrix element. -/
noncomputable def stepSq (n m n' m' : ℤ) : ℝ :=
  if |m'| = |m| + 1 then (if n' = n then n + |m| + 1 else if n' + 1 = n then n else 0 : ℤ)
  else (if n' = n then n + |m| else if n' = n + 1 then n + 1 else 0 : ℤ)

theorem radialStep_sq {n m n' m' : ℤ} (hn : 0 ≤ n) (hn' : 0 ≤ n') (h : |m - m'| = 1) :
    radialStep n m n' m' * radialStep n m n' m' = stepSq n m n' m' := by
  obtain ⟨n, rfl⟩ := Int.eq_ofNat_of_zero_le hn
  obtain ⟨n', rfl⟩ := Int.eq_ofNat_of_zero_le hn'
  have h1 : m'.natAbs = m.natAbs + 1 ∨ m.natAbs = m'.natAbs + 1 := by
    rcases abs_choice (m - m') with h' | h' <;> rw [h'] at h <;> omega
  unfold radialStep stepSq ladder
  simp only [Int.abs_eq_natAbs, Int.toNat_natCast]
  rcases h1 with h1 | h1
  · rw [if_pos h1, if_pos (show (m'.natAbs : ℤ) = m.natAbs + 1 by omega)]
    by_cases e : n' = n
    · subst e
      simp only [if_true]
      rw [Real.mul_self_sqrt (by positivity)]
      simp only [Int.cast_add, Int.cast_natCast, Int.cast_one]
    · rw [if_neg e, if_neg (show ¬ (n' : ℤ) = n by omega)]
      by_cases e' : n' + 1 = n
      · subst e'
        rw [if_pos rfl, if_pos (by push_cast; rfl), neg_mul_neg, Real.mul_self_sqrt (by positivity)]
        push_cast; ring
      · rw [if_neg e', if_neg (show ¬ (n' : ℤ) + 1 = n by omega)]; simp
  · rw [if_neg (show ¬ m'.natAbs = m.natAbs + 1 by omega), if_neg (show ¬ (m'.natAbs : ℤ) = m.natAbs + 1 by omega)]
    by_cases e : n' = n
    · subst e
      simp only [if_true]
      rw [Real.mul_self_sqrt (by positivity), h1]
      simp only [Int.cast_add, Int.cast_natCast, Nat.cast_add, Nat.cast_one]
      ring
    · rw [if_neg (Ne.symm e), if_neg (show ¬ (n' : ℤ) = n by omega)]
      by_cases e' : n + 1 = n'
      · subst e'
        rw [if_pos rfl, if_pos (by push_cast; rfl), neg_mul_neg, Real.mul_self_sqrt (by positivity)]
        push_cast; ring
      · rw [if_neg e', if_neg (show ¬ (n' : ℤ) = n + 1 by omega)]; simp

theorem stepSq_ne {n m n' m' : ℤ} (hn : 0 ≤ n) (h : |m - m'| = 1) (hne : stepSq n m n' m' ≠ 0) :
    0 ≤ n' ∧ |getShellEnergy n m - getShellEnergy n' m'| = 1 ∧
      (n', m') ∈ ({(n, m + 1), (n, m - 1), (n + 1, m - 1), (n + 1, m + 1), (n - 1, m - 1), (n - 1, m + 1)} :
        Finset (ℤ × ℤ)) := by
  have h1 : (m'.natAbs : ℤ) = m.natAbs + 1 ∨ (m.natAbs : ℤ) = m'.natAbs + 1 := by
    rcases abs_choice (m - m') with h' | h' <;> rw [h'] at h <;> omega
  have h2 : m' = m + 1 ∨ m' = m - 1 := by
    rcases abs_choice (m - m') with h' | h' <;> rw [h'] at h <;> omega
  unfold getShellEnergy
  simp only [mem_insert, mem_singleton, Prod.mk.injEq]
  unfold stepSq at hne
  rw [Int.abs_eq_natAbs m, Int.abs_eq_natAbs m', abs_eq one_pos.le] at *
  split_ifs at hne <;> first
    | (refine ⟨?_, ?_, ?_⟩ <;> (have := (Int.cast_ne_zero (α := ℝ)).1 hne; omega))
    | exact absurd (by simp) hne

/-- The weighted squares of the matrix elements from one function to all others. -/
theorem step_sum {nm : ℕ → ℤ × ℤ} {l : ℕ} (hnn : ∀ q < l, 0 ≤ (nm q).1)
    (hinj : ∀ p q, p < l → q < l → nm p = nm q → p = q) {p : ℕ} (hp : p < l) (A B : ℝ)
    (hc : ∀ n' m', 0 ≤ n' → |(nm p).2 - m'| = 1 →
      |getShellEnergy (nm p).1 (nm p).2 - getShellEnergy n' m'| = 1 → ∃ q < l, nm q = (n', m')) :
    ∑ q ∈ range l, (if |(nm p).2 - (nm q).2| = 1 then
      (A * (getShellEnergy (nm q).1 (nm q).2 - getShellEnergy (nm p).1 (nm p).2) + B * ((nm q).2 - (nm p).2))
        * stepSq (nm p).1 (nm p).2 (nm q).1 (nm q).2 else 0) = 2 * A := by
  obtain ⟨n, m, hz⟩ : ∃ n m, nm p = (n, m) := ⟨_, _, rfl⟩
  have hn : 0 ≤ n := by have := hnn p hp; rw [hz] at this; exact this
  rw [hz] at hc ⊢
  simp only at hc ⊢
  set f : ℤ × ℤ → ℝ := fun z => if |m - z.2| = 1 then
      (A * (getShellEnergy z.1 z.2 - getShellEnergy n m) + B * (z.2 - m)) * stepSq n m z.1 z.2 else 0 with hf
  change ∑ q ∈ range l, f (nm q) = 2 * A
  rw [← sum_image (s := range l) (g := nm) (f := f)
    (fun a ha b hb e => hinj a b (mem_range.1 ha) (mem_range.1 hb) e)]
  set Z : Finset (ℤ × ℤ) := {(n, m + 1), (n, m - 1), (n + 1, m - 1), (n + 1, m + 1), (n - 1, m - 1), (n - 1, m + 1)}
    with hZ
  have key : ∑ z ∈ (range l).image nm, f z = ∑ z ∈ Z, f z := by
    rw [sum_subset (subset_union_left (s₂ := Z)), ← sum_subset (subset_union_right (s₁ := (range l).image nm))]
    · intro z hz1 hz2
      rw [hf]
      simp only
      split_ifs with h
      · by_contra hne
        obtain ⟨h1, h2, h3⟩ := stepSq_ne hn h (right_ne_zero_of_mul hne)
        exact hz2 h3
      · rfl
    · intro z hz1 hz2
      rw [hf]
      simp only
      split_ifs with h
      · by_contra hne
        obtain ⟨h1, h2, h3⟩ := stepSq_ne hn h (right_ne_zero_of_mul hne)
        obtain ⟨q, hq, e⟩ := hc z.1 z.2 h1 h h2
        exact hz2 (mem_image.2 ⟨q, mem_range.2 hq, e⟩)
      · rfl
  rw [key, hZ]
  rw [sum_insert (by simp only [mem_insert, mem_singleton, Prod.mk.injEq]; omega),
    sum_insert (by simp only [mem_insert, mem_singleton, Prod.mk.injEq]; omega),
    sum_insert (by simp only [mem_insert, mem_singleton, Prod.mk.injEq]; omega),
    sum_insert (by simp only [mem_insert, mem_singleton, Prod.mk.injEq]; omega),
    sum_insert (by simp only [mem_singleton, Prod.mk.injEq]; omega), sum_singleton]
  simp only [hf]
  have hp1 : |m - (m + 1)| = 1 := by rw [show m - (m + 1) = -1 by ring]; rfl
  have hm1 : |m - (m - 1)| = 1 := by rw [show m - (m - 1) = 1 by ring]; rfl
  have e1 : (n + 1 = n) = False := by simp
  have e2 : (n - 1 = n) = False := eq_false (by omega)
  have e3 : (n - 1 + 1 = n) = True := eq_true (by omega)
  have e4 : (n + 1 + 1 = n) = False := eq_false (by omega)
  have e5 : (n - 1 = n + 1) = False := eq_false (by omega)
  have e6 : ∀ a : ℤ, (a - 1 = a + 1) = False := fun a => eq_false (by omega)
  simp only [hp1, hm1, if_true, getShellEnergy, stepSq]
  rcases lt_trichotomy m 0 with h | rfl | h
  · have a1 : |m + 1| = |m| - 1 := by rw [abs_of_neg h, abs_of_nonpos (by omega)]; ring
    have a2 : |m - 1| = |m| + 1 := by rw [abs_of_neg h, abs_of_nonpos (by omega)]; ring
    rw [a1, a2]
    generalize |m| = a
    simp only [e1, e2, e3, e4, e5, e6, if_true, if_false]
    push_cast
    ring
  · have a1 : |(0 : ℤ) + 1| = |(0 : ℤ)| + 1 := rfl
    have a2 : |(0 : ℤ) - 1| = |(0 : ℤ)| + 1 := rfl
    rw [a1, a2, abs_zero]
    simp only [e1, e2, e3, e4, e5, if_true, if_false]
    push_cast
    ring
  · have a1 : |m + 1| = |m| + 1 := by rw [abs_of_pos h, abs_of_nonneg (by omega)]
    have a2 : |m - 1| = |m| - 1 := by rw [abs_of_pos h, abs_of_nonneg (by omega)]
    rw [a1, a2]
    generalize |m| = a
    simp only [e1, e2, e3, e4, e5, e6, if_true, if_false]
    push_cast
    ring

/-- The product of an element with the transposed one. -/
theorem dipoleEntry_mul {mass omega : ℝ} (hm : 0 < mass) (ho : 0 < omega) {nm : ℕ → ℤ × ℤ} (k : ℕ) {p q : ℕ}
    (hp : 0 ≤ (nm p).1) (hq : 0 ≤ (nm q).1) :
    dipoleEntry nm omega mass k p q * dipoleEntry nm omega mass k q p = (((if |(nm p).2 - (nm q).2| = 1 then
      stepSq (nm p).1 (nm p).2 (nm q).1 (nm q).2 else 0) / (4 * (mass * omega)) : ℝ) : ℂ) := by
  by_cases h : |(nm p).2 - (nm q).2| = 1
  · have hc := dipole_hermitian nm mass omega k q p
    rw [hc, dipoleEntry_closed hm ho k hp hq h, if_pos h, ← radialStep_sq hp hq h]
    have hs := Real.mul_self_sqrt (show 0 ≤ mass * omega by positivity)
    have hs0 : √(mass * omega) ≠ 0 := (Real.sqrt_pos.2 (by positivity)).ne'
    have hr : radialStep (nm p).1 (nm p).2 (nm q).1 (nm q).2 / (2 * √(mass * omega))
        * (radialStep (nm p).1 (nm p).2 (nm q).1 (nm q).2 / (2 * √(mass * omega)))
        = radialStep (nm p).1 (nm p).2 (nm q).1 (nm q).2 * radialStep (nm p).1 (nm p).2 (nm q).1 (nm q).2
          / (4 * (mass * omega)) := by
      rw [show 4 * (mass * omega) = 2 * √(mass * omega) * (2 * √(mass * omega)) by linear_combination -4 * hs, div_mul_div_comm]
    rw [← hr]
    have hd : ((nm p).2 - (nm q).2 : ℂ) * ((nm p).2 - (nm q).2 : ℂ) = 1 := by
      rw [← Int.cast_sub, ← Int.cast_mul, ← abs_mul_abs_self, h]; simp
    have hI := Complex.I_mul_I
    split_ifs
    · simp only [map_mul, map_one, Complex.conj_ofReal]
      push_cast; ring
    · simp only [map_mul, map_neg, map_sub, Complex.conj_ofReal, Complex.conj_I, map_intCast]
      rw [Complex.ofReal_mul]
      generalize ((radialStep (nm p).1 (nm p).2 (nm q).1 (nm q).2 / (2 * √(mass * omega)) : ℝ) : ℂ) = c
      linear_combination (c * c) * hd - (c * c) * ((nm p).2 - (nm q).2 : ℂ) * ((nm p).2 - (nm q).2 : ℂ) * hI
  · unfold dipoleEntry
    rw [if_neg h, zero_mul, if_neg h, zero_div, Complex.ofReal_zero]

/-- **C104** The Thomas–Reiche–Kuhn sum rule: for every function of the two-dimensional oscillator whose next shell
is contained in the basis, the squared dipole elements to all others, weighted with the differences of the energies,
add up to `1/(2m)`, in both directions. -/
theorem C104_two_dim (u : NDArray ℂ) (l num : ℕ) (radiusLength : ℝ) {omega mass : ℝ} (hm : 0 < mass) (ho : 0 < omega)
    (np : Module) :
    ∃ b h d, tdho (.ok u) l num radiusLength omega mass np = .ok b ∧ b.h = some h ∧ b.dipole = some d ∧
      ∀ p < l, (∀ q, getShellEnergy (getIndicesNm q).1 (getIndicesNm q).2
          = getShellEnergy (getIndicesNm p).1 (getIndicesNm p).2 + 1 → q < l) →
        ∀ k < 2, ∑ q ∈ range l, (h.get [q, q] - h.get [p, p]) * (d.get [k, p, q] * d.get [k, q, p])
          = ((1 / (2 * mass) : ℝ) : ℂ) := by
  obtain ⟨b, h1, h2, h3⟩ := tdho_ok u l num radiusLength omega mass np
  refine ⟨b, _, _, h1, h3, h2.dipole_eq, fun p hp hnext k hk => ?_⟩
  have he : ∀ p < l, (oscillatorH l omega).get [p, p]
      = (omega : ℂ) * ((getShellEnergy (getIndicesNm p).1 (getIndicesNm p).2 : ℤ) : ℂ) := by
    intro p hp
    rw [oscillatorH, smul_get, ofFn_get_of (show InRange [l, l] [p, p] from ⟨hp, hp, trivial⟩)]
    simp
  have hs := step_sum (nm := getIndicesNm) (fun q _ => C42_nonneg q) (fun a b _ _ e => getIndicesNm_injective e) hp
    omega 0 (by
      intro n' m' hn' hm' hE
      obtain ⟨-, e⟩ := C42_numbers_of_index n' m' hn'
      refine ⟨_, ?_, e⟩
      rcases (abs_eq one_pos.le).1 hE with h' | h'
      · by_contra hlt
        have := C43_monotone (p := p) (q := (getIndexP n' m').toNat) (by omega)
        rw [e] at this
        simp only at this
        omega
      · exact hnext _ (by rw [e]; simp only; omega))
  refine (sum_congr rfl (g := fun q => ((omega * ((getShellEnergy (getIndicesNm q).1 (getIndicesNm q).2 : ℤ)
        - (getShellEnergy (getIndicesNm p).1 (getIndicesNm p).2 : ℤ))
      * ((if |(getIndicesNm p).2 - (getIndicesNm q).2| = 1 then
      stepSq (getIndicesNm p).1 (getIndicesNm p).2 (getIndicesNm q).1 (getIndicesNm q).2 else 0)
        / (4 * (mass * omega))) : ℝ) : ℂ)) fun q hq => ?_).trans ?_
  · have hq := mem_range.1 hq
    rw [ofFn_get_of (show InRange [2, l, l] [k, p, q] from ⟨hk, hp, hq, trivial⟩),
      ofFn_get_of (show InRange [2, l, l] [k, q, p] from ⟨hk, hq, hp, trivial⟩), he p hp, he q hq]
    simp only [List.getD_cons_zero, List.getD_cons_succ]
    rw [dipoleEntry_mul hm ho k (C42_nonneg p) (C42_nonneg q), ← mul_sub]
    push_cast
    ring
  rw [← Complex.ofReal_sum]
  congr 1
  have e : 1 / (2 * mass) = 2 * omega / (4 * (mass * omega)) := by field_simp; norm_num
  rw [e, ← hs, sum_div]
  refine sum_congr rfl fun q _ => ?_
  split_ifs <;> ring

/-- **C104** The sum rule with magnetic field, for every function whose neighbours (`m` changed by one, `2n + |m|`
changed by one) are in the basis. -/
theorem C104_magnetic {l num : ℕ} {radiusLength omega0 mass omegaC : ℝ} {np : Module} {b : BasisSet ℂ}
    {df : List Row} (h : oscB l num radiusLength omega0 mass omegaC np = .ok (b, df)) (hm : 0 < mass)
    (ho : omega0 ≠ 0 ∨ omegaC ≠ 0) :
    ∃ x d, b.h = some x ∧ b.dipole = some d ∧
      ∀ p < l, ∀ n m, indicesNmB df p = (n, m) →
        (∀ n' m', 0 ≤ n' → |m - m'| = 1 → |(2 * n + |m|) - (2 * n' + |m'|)| = 1 →
          ∃ q < l, indicesNmB df q = (n', m')) →
        ∀ k < 2, ∑ q ∈ range l, (x.get [q, q] - x.get [p, p]) * (d.get [k, p, q] * d.get [k, q, p])
          = ((1 / (2 * mass) : ℝ) : ℂ) := by
  have hpos : 0 < omega0 ^ 2 + omegaC ^ 2 / 4 := by rcases ho with ho | ho <;> positivity
  have hw : 0 < omegaB omega0 omegaC := Real.sqrt_pos.2 hpos
  obtain ⟨hd, x, hx, -, hxe⟩ := C51_one_body h
  obtain ⟨b', hh, u, h1, -, -, -, -, -, -, -, -, -, h8⟩ := oscB_ok hd num radiusLength mass np
  rw [h1] at h
  cases h
  have hnn : ∀ p < l, 0 ≤ (indicesNmB df p).1 := fun p hp => (kept_row hd hp).2.2.2
  have hinj : ∀ p q, p < l → q < l → indicesNmB df p = indicesNmB df q → p = q := by
    intro p q hp hq e
    have := (List.nodup_map_iff_inj_on List.nodup_range).1 (C51_lowest hd).2.1
    exact this p (List.mem_range.2 hp) q (List.mem_range.2 hq) e
  refine ⟨x, _, hx, h8, fun p hp n m hnm hc k hk => ?_⟩
  have hs := step_sum hnn hinj hp (omegaB omega0 omegaC) (-(omegaC / 2)) (by
    intro n' m' hn' hm' hE
    rw [hnm] at hm' hE
    refine hc n' m' hn' hm' ?_
    rw [← hE]
    unfold getShellEnergy
    congr 1
    ring)
  refine (sum_congr rfl (g := fun q => (((levelEnergy omega0 omegaC (indicesNmB df q)
        - levelEnergy omega0 omegaC (indicesNmB df p))
      * ((if |(indicesNmB df p).2 - (indicesNmB df q).2| = 1 then
      stepSq (indicesNmB df p).1 (indicesNmB df p).2 (indicesNmB df q).1 (indicesNmB df q).2 else 0)
        / (4 * (mass * omegaB omega0 omegaC))) : ℝ) : ℂ)) fun q hq => ?_).trans ?_
  · have hq := mem_range.1 hq
    rw [toComplex_get, toComplex_get, ofFn_get_of (show InRange [2, l, l] [k, p, q] from ⟨hk, hp, hq, trivial⟩),
      ofFn_get_of (show InRange [2, l, l] [k, q, p] from ⟨hk, hq, hp, trivial⟩), hxe p p hp hp, hxe q q hq hq,
      if_pos rfl, if_pos rfl]
    simp only [List.getD_cons_zero, List.getD_cons_succ]
    rw [dipoleEntry_mul hm hw k (hnn p hp) (hnn q hq), ← Complex.ofReal_sub, ← Complex.ofReal_mul]
  rw [← Complex.ofReal_sum]
  congr 1
  have e : 1 / (2 * mass) = 2 * omegaB omega0 omegaC / (4 * (mass * omegaB omega0 omegaC)) := by
    field_simp; norm_num
  rw [e, ← hs, sum_div]
  refine sum_congr rfl fun q _ => ?_
  unfold levelEnergy getShellEnergy
  rw [← omegaB]
  split_ifs
  · push_cast; ring
  · ring

/-- **C104** The sum rule of the one-dimensional oscillator `ODHO` (unit mass), for all functions but the last. -/
theorem C104_one_dim (l : ℕ) (L : ℝ) {num : ℕ} (h2 : 2 ≤ num) {omega : ℝ} (ho : 0 < omega)
    (a alpha beta : ℝ) (np : Module) (sp an : Bool) :
    ∃ b h d, odho l L num omega a alpha beta np sp an = .ok b ∧ b.h = some h ∧ b.dipole = some d ∧
      ∀ p, p + 1 < l →
        ∑ q ∈ range l, (h.get [q, q] - h.get [p, p]) * (d.get [0, p, q] * d.get [0, q, p]) = 1 / 2 := by
  obtain ⟨b, h, d, h1, h2, h3, -, -, hh, hd1, hd2, hd3⟩ := C58_elements l L h2 ho a alpha beta np sp an
  refine ⟨b, h, d, h1, h2, h3, fun p hp => ?_⟩
  have sq : ∀ n : ℕ, n + 1 < l → d.get [0, n, n + 1] * d.get [0, n, n + 1] = (((n + 1) / (2 * omega) : ℝ) : ℂ) := by
    intro n hn
    rw [hd1 n hn, ← Complex.ofReal_mul, Real.mul_self_sqrt (by positivity)]
  have hoc : (omega : ℂ) ≠ 0 := by exact_mod_cast ho.ne'
  rw [← add_sum_erase _ _ (mem_range.2 hp)]
  rw [hh (p + 1) (p + 1) hp hp, hh p p (by omega) (by omega), if_pos rfl, if_pos rfl,
    hd3 (p + 1) p hp (by omega), sq p hp]
  cases p with
  | zero =>
    rw [sum_eq_zero]
    · push_cast; field_simp; ring
    · intro q hq
      simp only [mem_erase, mem_range] at hq
      rw [hd2 0 q (by omega) hq.2 (by omega) (by omega)]; ring
  | succ p =>
    rw [sum_eq_single_of_mem p (by simp only [mem_erase, mem_range]; omega)]
    · rw [hh p p (by omega) (by omega), if_pos rfl, hd3 (p + 1) p (by omega) (by omega), sq p (by omega)]
      push_cast; field_simp; ring
    · intro q hq hne
      simp only [mem_erase, mem_range] at hq
      rw [hd2 (p + 1) q (by omega) hq.2 (by omega) (by omega)]; ring

/-- Six functions are three shells: the sum rule holds for the first three functions. -/
example : ∃ b h d, tdho (.ok (NDArray.zeros .float64 [6, 6, 6, 6])) 6 3 4 2 (1 / 2) 0 = .ok b ∧ b.h = some h ∧
    b.dipole = some d ∧ ∀ p < 3, ∀ k < 2,
      ∑ q ∈ range 6, (h.get [q, q] - h.get [p, p]) * (d.get [k, p, q] * d.get [k, q, p]) = 1 := by
  obtain ⟨b, h, d, h1, h2, h3, h4⟩ := C104_two_dim (NDArray.zeros .float64 [6, 6, 6, 6]) 6 3 4 (omega := 2)
    (mass := 1 / 2) (by norm_num) (by norm_num) 0
  refine ⟨b, h, d, h1, h2, h3, fun p hp k hk => ?_⟩
  rw [h4 p (by omega) (fun q hq => ?_) k hk]
  · norm_num
  · have h3 : getShellEnergy (getIndicesNm p).1 (getIndicesNm p).2 ≤ 2 := by
      have := C43_monotone (show p ≤ 2 by omega)
      have e : getShellEnergy (getIndicesNm 2).1 (getIndicesNm 2).2 = 2 := by decide +kernel
      omega
    by_contra hlt
    have := C43_monotone (show 6 ≤ q by omega)
    have e : getShellEnergy (getIndicesNm 6).1 (getIndicesNm 6).2 = 4 := by decide +kernel
    omega

end QS.Props
