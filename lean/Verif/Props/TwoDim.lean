import Verif.Lemmas.Tdho
import Verif.Props.Indices
import Verif.Props.Angular

/-!
# One-body quantities of the two-dimensional oscillators (C49, C50, C72, C75)
-/

namespace QS.Props

open TwoDim Idx Spec NDArray

theorem getIndicesNm_injective {p q : ℕ} (h : getIndicesNm p = getIndicesNm q) : p = q := by
  have h1 := C42_index_of_numbers p
  rw [h, C42_index_of_numbers q] at h1
  exact_mod_cast h1.symm

/-! ## C72 -/

/-- **C72** The single-particle functions are orthonormal over the plane. -/
theorem C72_orthonormal {mass omega : ℝ} (hm : 0 < mass) (ho : 0 < omega) (p q : ℕ) :
    planeInner (spfState getIndicesNm mass omega p) (spfState getIndicesNm mass omega q)
      = if p = q then 1 else 0 := by
  rw [orthonormal hm ho (C42_nonneg p) (C42_nonneg q)]
  by_cases h : p = q
  · rw [if_pos h, if_pos (by rw [h])]
  · rw [if_neg h, if_neg (fun e => h (getIndicesNm_injective e))]

/-- The functions 1 (`n = 0, m = -1`) and 4 (`n = 1, m = 0`) are orthogonal, function 4 is normalised. -/
example : planeInner (spfState getIndicesNm 2 3 1) (spfState getIndicesNm 2 3 4) = 0 ∧
    planeInner (spfState getIndicesNm 2 3 4) (spfState getIndicesNm 2 3 4) = 1 :=
  ⟨by rw [C72_orthonormal (by norm_num) (by norm_num)]; rfl,
   by rw [C72_orthonormal (by norm_num) (by norm_num)]; rfl⟩

/-- **C72** Every `TwoDimensionalHarmonicOscillator` stores the overlaps of its single-particle functions
in `s`, and their values at the grid points in `spf`. -/
theorem C72_overlap (u : NDArray ℂ) (l num : ℕ) (radiusLength : ℝ) {omega mass : ℝ} (hm : 0 < mass)
    (ho : 0 < omega) (np : Module) :
    ∃ b s f, tdho (.ok u) l num radiusLength omega mass np = .ok b ∧
      b.s = some s ∧ s.shape = [l, l] ∧ b.spf = some f ∧ f.shape = [l, num, num] ∧
      (∀ p q, p < l → q < l → s.get [p, q] =
        planeInner (spfState getIndicesNm mass omega p) (spfState getIndicesNm mass omega q)) ∧
      ∀ p i j, p < l → i < num → j < num → f.get [p, i, j] = spfState getIndicesNm mass omega p
        (j * (radiusLength / ((num : ℝ) - 1))) (i * (2 * Real.pi / ((num : ℝ) - 1))) := by
  obtain ⟨b, h1, h2, -⟩ := tdho_ok u l num radiusLength omega mass np
  refine ⟨b, _, _, h1, h2.s_eq, rfl, h2.spf_eq, rfl, fun p q hp hq => ?_, fun p i j hp hi hj => ?_⟩
  · rw [C72_orthonormal hm ho, eye, ofFn_get_of (show InRange [l, l] [p, q] from ⟨hp, hq, trivial⟩)]
  · rw [setupSpf, ofFn_get_of (show InRange [l, num, num] [p, i, j] from ⟨hp, hi, hj, trivial⟩)]
    simp [linspace]

/-! ## C75 -/

/-- Matrix elements of an operator that multiplies the functions by numbers. -/
theorem planeInner_eigen {mass omega : ℝ} {nm : ℕ → ℤ × ℤ} {p q : ℕ} {g : ℝ → ℝ → ℂ} {c : ℂ}
    (h : ∀ r, 0 < r → ∀ t, g r t = c * spfState nm mass omega q r t) :
    planeInner (spfState nm mass omega p) g
      = c * planeInner (spfState nm mass omega p) (spfState nm mass omega q) := by
  unfold planeInner planeIntegral
  rw [← MeasureTheory.integral_const_mul]
  refine MeasureTheory.setIntegral_congr_fun measurableSet_Ioi fun r hr => ?_
  dsimp only
  rw [← mul_assoc, ← intervalIntegral.integral_const_mul]
  congr 2
  funext t
  rw [h r hr]
  ring

/-- **C75** The one-body elements of every `TwoDimensionalHarmonicOscillator` are the matrix elements of
`-1/(2m) Δ + ½ m ω² r²` between its single-particle functions. -/
theorem C75_one_body (u : NDArray ℂ) (l num : ℕ) (radiusLength : ℝ) {omega mass : ℝ} (hm : 0 < mass)
    (ho : 0 < omega) (np : Module) :
    ∃ b h, tdho (.ok u) l num radiusLength omega mass np = .ok b ∧ b.h = some h ∧ h.shape = [l, l] ∧
      ∀ p q, p < l → q < l → h.get [p, q] = planeInner (spfState getIndicesNm mass omega p)
        (planeHamiltonian mass (fun r _ => 1 / 2 * mass * omega ^ 2 * r ^ 2)
          (spfState getIndicesNm mass omega q)) := by
  obtain ⟨b, h1, -, h2⟩ := tdho_ok u l num radiusLength omega mass np
  refine ⟨b, _, h1, h2, rfl, fun p q hp hq => ?_⟩
  rw [planeInner_eigen (fun r hr t => oscillator_eigen hm ho getIndicesNm q (C42_nonneg q) hr t),
    C72_orthonormal hm ho]
  have hi : InRange [l, l] [p, q] := ⟨hp, hq, trivial⟩
  unfold oscillatorH smul
  rw [ofFn_get_of (show InRange (ofFn _ [l, l] _).shape [p, q] from hi), ofFn_get_of hi]
  simp only [List.getD_cons_zero, List.getD_cons_succ]
  by_cases h : p = q
  · subst h; simp
  · simp [h]

/-- The second orbital (`n = 0, m = -1`) has the energy `2 ω`. -/
example : planeInner (spfState getIndicesNm 3 5 1) (planeHamiltonian 3 (fun r _ => 1 / 2 * 3 * 5 ^ 2 * r ^ 2)
    (spfState getIndicesNm 3 5 1)) = 10 := by
  have h1 : getIndicesNm 1 = (0, -1) := by decide +kernel
  rw [planeInner_eigen (fun r hr t => oscillator_eigen (by norm_num) (by norm_num) getIndicesNm 1
    (C42_nonneg 1) hr t), C72_orthonormal (by norm_num) (by norm_num), h1]
  norm_num [getShellEnergy]

/-! ## C49 -/

theorem radialIntegral_comm (f g : ℝ → ℝ) (o : ℕ) : radialIntegral f g o = radialIntegral g f o := by
  unfold radialIntegral
  congr 1
  funext r
  ring

/-- The dipole elements of any numbering of oscillator functions. -/
theorem dipole_elements (nm : ℕ → ℤ × ℤ) (mass omega : ℝ) (p q : ℕ) :
    dipoleEntry nm omega mass 0 p q = planeInner (spfState nm mass omega p)
        (fun r t => ((r * Real.cos t : ℝ) : ℂ) * spfState nm mass omega q r t) ∧
    dipoleEntry nm omega mass 1 p q = planeInner (spfState nm mass omega p)
        (fun r t => ((r * Real.sin t : ℝ) : ℂ) * spfState nm mass omega q r t) := by
  have hr : ∀ r : ℝ, r * r ^ 1 = r * r := fun r => by ring
  rw [plane_factor, plane_factor, ← C47_cos, ← C47_sin]
  unfold dipoleEntry radialIntegral
  simp only [hr]
  by_cases h : |(nm p).2 - (nm q).2| = 1
  · rw [if_pos h, if_pos h, if_pos trivial, if_neg one_ne_zero]
    push_cast
    exact ⟨rfl, rfl⟩
  · rw [if_neg h, if_neg h, theta1, theta2, if_neg h, if_neg h, mul_zero]
    exact ⟨rfl, rfl⟩

theorem dipole_hermitian (nm : ℕ → ℤ × ℤ) (mass omega : ℝ) (k p q : ℕ) :
    dipoleEntry nm omega mass k p q = (starRingEnd ℂ) (dipoleEntry nm omega mass k q p) := by
  unfold dipoleEntry
  rw [radialIntegral_comm, abs_sub_comm]
  by_cases h : |(nm q).2 - (nm p).2| = 1
  · rw [if_pos h, if_pos h]
    simp only [map_mul, Complex.conj_ofReal]
    congr 1
    · ring
    · have h' : |(nm p).2 - (nm q).2| = 1 := by rw [abs_sub_comm]; exact h
      by_cases hk : k = 0
      · rw [if_pos hk, if_pos hk, theta1, theta1, if_pos h, if_pos h', Complex.conj_ofReal]
      · rw [if_neg hk, if_neg hk, theta2, theta2, if_pos h, if_pos h']
        simp only [map_mul, map_neg, map_sub, Complex.conj_ofReal, Complex.conj_I]
        rw [← Complex.ofReal_intCast, ← Complex.ofReal_intCast, Complex.conj_ofReal, Complex.conj_ofReal]
        ring
  · rw [if_neg h, if_neg h, map_zero]

/-- **C49** The dipole elements of every `TwoDimensionalHarmonicOscillator` are zero unless
`|m_p - m_q| = 1`, Hermitian, and the matrix elements of `r cos θ` and `r sin θ` between the
single-particle functions. -/
theorem C49_dipole (u : NDArray ℂ) (l num : ℕ) (radiusLength omega mass : ℝ) (np : Module) :
    ∃ b d, tdho (.ok u) l num radiusLength omega mass np = .ok b ∧
      b.dipole = some d ∧ d.shape = [2, l, l] ∧
      ∀ p q, p < l → q < l →
        (∀ k < 2, (|(getIndicesNm p).2 - (getIndicesNm q).2| ≠ 1 → d.get [k, p, q] = 0) ∧
          d.get [k, p, q] = (starRingEnd ℂ) (d.get [k, q, p])) ∧
        d.get [0, p, q] = planeInner (spfState getIndicesNm mass omega p)
          (fun r t => ((r * Real.cos t : ℝ) : ℂ) * spfState getIndicesNm mass omega q r t) ∧
        d.get [1, p, q] = planeInner (spfState getIndicesNm mass omega p)
          (fun r t => ((r * Real.sin t : ℝ) : ℂ) * spfState getIndicesNm mass omega q r t) := by
  obtain ⟨b, h1, h2, -⟩ := tdho_ok u l num radiusLength omega mass np
  refine ⟨b, _, h1, h2.dipole_eq, rfl, fun p q hp hq => ⟨fun k hk => ⟨fun h => ?_, ?_⟩, ?_, ?_⟩⟩
  · rw [ofFn_get_of (show InRange [2, l, l] [k, p, q] from ⟨hk, hp, hq, trivial⟩)]
    exact if_neg h
  · rw [ofFn_get_of (show InRange [2, l, l] [k, p, q] from ⟨hk, hp, hq, trivial⟩),
      ofFn_get_of (show InRange [2, l, l] [k, q, p] from ⟨hk, hq, hp, trivial⟩)]
    exact dipole_hermitian _ _ _ _ _ _
  · rw [ofFn_get_of (show InRange [2, l, l] [0, p, q] from ⟨two_pos, hp, hq, trivial⟩)]
    exact (dipole_elements _ _ _ _ _).1
  · rw [ofFn_get_of (show InRange [2, l, l] [1, p, q] from ⟨one_lt_two, hp, hq, trivial⟩)]
    exact (dipole_elements _ _ _ _ _).2

/-- With `mass = omega = 1`, the element of `x` between the functions 0 (`n = m = 0`) and 1
(`n = 0, m = -1`) is 1/2. -/
example : dipoleEntry getIndicesNm 1 1 0 0 1 = 1 / 2 := by
  have h0 : getIndicesNm 0 = (0, 0) := by decide +kernel
  have h1 : getIndicesNm 1 = (0, -1) := by decide +kernel
  have hg := gauss_integral (b := 1) one_pos 1
  have hr : radialIntegral (spfRadial 0 0 1 1) (spfRadial 0 (-1) 1 1) = 1 / 2 := by
    unfold radialIntegral
    rw [show (1 / 2 : ℝ) = (Nat.factorial 1 : ℝ) / (2 * 1 ^ (1 + 1)) by norm_num, ← hg]
    congr 1
    funext r
    simp only [spfRadial, bohrRadius, assocLaguerre]
    rw [show Real.exp (-1 * r ^ 2) = Real.exp (-r ^ 2 / 2) * Real.exp (-r ^ 2 / 2) by
      rw [← Real.exp_add]; congr 1; ring]
    simp
    ring
  have hn : spfNorm 0 0 1 1 = Real.sqrt (1 / Real.pi) ∧ spfNorm 0 (-1) 1 1 = Real.sqrt (1 / Real.pi) := by
    unfold spfNorm bohrRadius
    constructor <;> norm_num
  unfold dipoleEntry
  rw [h0, h1, if_pos (by norm_num), if_pos rfl, hr, hn.1, hn.2, theta1, if_pos (by norm_num)]
  have hp := Real.pi_pos
  have : Real.sqrt (1 / Real.pi) * Real.sqrt (1 / Real.pi) * (1 / 2) * Real.pi = 1 / 2 := by
    rw [Real.mul_self_sqrt (by positivity)]
    field_simp
  have := congrArg (fun z : ℝ => (z : ℂ)) this
  push_cast at this ⊢
  exact this

/-! ## C50 -/

/-- The part of the double well added to the oscillator: `ω²/8 L² - ω²/2 L |x|` with unit mass, with `y` in
place of `x` for the other axis. -/
noncomputable def barrier (omega L : ℝ) (axis : ℕ) (r t : ℝ) : ℝ :=
  omega ^ 2 / 8 * L ^ 2 - omega ^ 2 / 2 * L * |if axis = 0 then r * Real.cos t else r * Real.sin t|

/-- **C50** `get_double_well_one_body_elements` returns a Hermitian matrix, for all sizes, frequencies,
masses, barrier strengths and both axes. -/
theorem C50_hermitian (l : ℕ) (omega mass L : ℝ) (dt : DType) (axis : ℕ) :
    ∃ h, getDoubleWellOneBodyElements l omega mass L dt axis = .ok h ∧ h.shape = [l, l] ∧
      ∀ p q, h.get [p, q] = (starRingEnd ℂ) (h.get [q, p]) := by
  refine ⟨_, getDoubleWell_eq l omega mass L dt axis, rfl, fun p q => ?_⟩
  by_cases hi : p < l ∧ q < l
  · rw [ofFn_get_of (show InRange [l, l] [p, q] from ⟨hi.1, hi.2, trivial⟩),
      ofFn_get_of (show InRange [l, l] [q, p] from ⟨hi.2, hi.1, trivial⟩), Complex.conj_ofReal]
    congr 1
    simp only [List.getD_cons_zero, List.getD_cons_succ]
    unfold doubleWellEntry
    rw [radialIntegral_comm, abs_sub_comm]
    congr 1
    · by_cases h : p = q
      · subst h; rfl
      · rw [if_neg h, if_neg (fun e => h e.symm)]
    · have e1 : theta1Tilde (getIndicesNm p).2 (getIndicesNm q).2
          = theta1Tilde (getIndicesNm q).2 (getIndicesNm p).2 := by
        unfold theta1Tilde
        rw [abs_sub_comm, show ((getIndicesNm p).2 - (getIndicesNm q).2 : ℝ) ^ 2
          = ((getIndicesNm q).2 - (getIndicesNm p).2 : ℝ) ^ 2 by ring]
      have e2 : theta2Tilde (getIndicesNm p).2 (getIndicesNm q).2
          = theta2Tilde (getIndicesNm q).2 (getIndicesNm p).2 := by
        unfold theta2Tilde
        rw [abs_sub_comm, show ((getIndicesNm p).2 - (getIndicesNm q).2 : ℝ) ^ 2
          = ((getIndicesNm q).2 - (getIndicesNm p).2 : ℝ) ^ 2 by ring]
      rw [e1, e2]
      congr 1
      ring
  · rw [show (_ : NDArray ℂ).get [p, q] = 0 from if_neg (fun h => hi ⟨h.1, h.2.1⟩),
      show (_ : NDArray ℂ).get [q, p] = 0 from if_neg (fun h => hi ⟨h.2.1, h.1⟩), map_zero]

/-- **C50** Without barrier the elements are those of the oscillator, `omega * get_one_body_elements(l)`. -/
theorem C50_no_barrier (l : ℕ) (omega mass : ℝ) (axis : ℕ) :
    ∃ h, getOneBodyElements l = .ok h ∧
      getDoubleWellOneBodyElements l omega mass 0 .float64 axis = .ok (smul .float64 (omega : ℂ) h) := by
  refine ⟨_, getOneBodyElements_eq l, ?_⟩
  rw [getDoubleWell_eq]
  congr 1
  unfold smul
  refine ofFn_congr fun i hi => ?_
  obtain ⟨p, q, rfl, hp, hq⟩ := inRange2 hi
  rw [ofFn_get_of hi]
  simp only [List.getD_cons_zero, List.getD_cons_succ, doubleWellEntry]
  by_cases h : p = q
  · subst h; simp
  · simp [h]

/-- The elements for any mass; the code multiplies the barrier terms by no mass. -/
theorem doubleWell_elements {mass omega : ℝ} (hm : 0 < mass) (ho : 0 < omega) (L : ℝ) (axis p q : ℕ) :
    (doubleWellEntry omega mass L axis p q : ℂ) = planeInner (spfState getIndicesNm mass omega p)
      (planeHamiltonian mass (fun r t => 1 / 2 * mass * omega ^ 2 * r ^ 2 + barrier omega L axis r t)
        (spfState getIndicesNm mass omega q)) := by
  let E : ℝ := omega * getShellEnergy (getIndicesNm q).1 (getIndicesNm q).2 + omega ^ 2 * L ^ 2 / 8
  let v : ℝ → ℝ := fun t => if axis = 0 then |Real.cos t| else |Real.sin t|
  have hv : Continuous v := by
    by_cases h : axis = 0
    · simp only [v, h, if_true]; fun_prop
    · simp only [v, h, if_false]; fun_prop
  have key : planeInner (spfState getIndicesNm mass omega p)
      (planeHamiltonian mass (fun r t => 1 / 2 * mass * omega ^ 2 * r ^ 2 + barrier omega L axis r t)
        (spfState getIndicesNm mass omega q))
      = planeInner (spfState getIndicesNm mass omega p) (fun r t =>
        ((E * 1 + (-(1 / 2 * omega ^ 2 * L) * r) * v t : ℝ) : ℂ) * spfState getIndicesNm mass omega q r t) := by
    unfold planeInner planeIntegral
    refine MeasureTheory.setIntegral_congr_fun measurableSet_Ioi fun r hr => ?_
    have hr' : 0 < r := hr
    dsimp only
    congr 2
    funext t
    congr 1
    have he := oscillator_eigen hm ho getIndicesNm q (C42_nonneg q) hr' t
    have hb : barrier omega L axis r t = omega ^ 2 * L ^ 2 / 8 + (-(1 / 2 * omega ^ 2 * L) * r) * v t := by
      unfold barrier
      by_cases h : axis = 0
      · simp only [v, h, if_true, abs_mul, abs_of_pos hr']; ring
      · simp only [v, h, if_false, abs_mul, abs_of_pos hr']; ring
    unfold planeHamiltonian at he ⊢
    simp only [hb, E]
    push_cast at he ⊢
    linear_combination he
  rw [key, plane_add getIndicesNm mass omega (fun _ => E) (fun _ => 1)
    (fun r => -(1 / 2 * omega ^ 2 * L) * r) v continuous_const hv]
  rotate_left
  · have := (radial_integrable hm ho 1 (getIndicesNm p).1 (getIndicesNm p).2 (getIndicesNm q).1
      (getIndicesNm q).2).const_mul E
    refine this.congr (Filter.Eventually.of_forall fun r => ?_)
    dsimp only
    ring
  · have := (radial_integrable hm ho 2 (getIndicesNm p).1 (getIndicesNm p).2 (getIndicesNm q).1
      (getIndicesNm q).2).const_mul (-(1 / 2 * omega ^ 2 * L))
    refine this.congr (Filter.Eventually.of_forall fun r => ?_)
    dsimp only
    ring
  have h1 : planeInner (spfState getIndicesNm mass omega p)
      (fun r t => ((E * 1 : ℝ) : ℂ) * spfState getIndicesNm mass omega q r t)
      = (E : ℂ) * if p = q then 1 else 0 := by
    rw [← C72_orthonormal hm ho p q]
    unfold planeInner planeIntegral
    rw [← MeasureTheory.integral_const_mul]
    congr 1
    funext r
    rw [← mul_assoc, ← intervalIntegral.integral_const_mul]
    congr 2
    funext t
    push_cast
    ring
  rw [h1, plane_factor]
  have h2 : angular v (getIndicesNm p).2 (getIndicesNm q).2
      = ((if axis = 0 then theta1Tilde (getIndicesNm p).2 (getIndicesNm q).2
          else theta2Tilde (getIndicesNm p).2 (getIndicesNm q).2 : ℝ) : ℂ) := by
    by_cases h : axis = 0
    · simp only [v, h, if_true]; rw [C47_abs_cos]
    · simp only [v, h, if_false]; rw [C47_abs_sin]
  have h3 : ∫ r in Set.Ioi (0 : ℝ), r * (-(1 / 2 * omega ^ 2 * L) * r)
      * spfRadial (getIndicesNm p).1 (getIndicesNm p).2 mass omega r
      * spfRadial (getIndicesNm q).1 (getIndicesNm q).2 mass omega r
      = -(1 / 2 * omega ^ 2 * L) * radialIntegral
        (spfRadial (getIndicesNm p).1 (getIndicesNm p).2 mass omega)
        (spfRadial (getIndicesNm q).1 (getIndicesNm q).2 mass omega) := by
    unfold radialIntegral
    rw [← MeasureTheory.integral_const_mul]
    congr 1
    funext r
    ring
  rw [h2, h3]
  have h4 : (if axis = 0 then theta1Tilde (getIndicesNm p).2 (getIndicesNm q).2
      else theta2Tilde (getIndicesNm p).2 (getIndicesNm q).2) = 0
      ∨ |(getIndicesNm p).2 - (getIndicesNm q).2| ≠ 1 := by
    by_cases h : |(getIndicesNm p).2 - (getIndicesNm q).2| = 1
    · left
      unfold theta1Tilde theta2Tilde
      rw [h]
      simp
    · exact Or.inr h
  unfold doubleWellEntry
  have h5 : (if p = q then omega * getShellEnergy (getIndicesNm p).1 (getIndicesNm p).2
      + omega ^ 2 * L ^ 2 / 8 else 0 : ℝ) = E * if p = q then 1 else 0 := by
    by_cases h : p = q
    · subst h; simp [E]
    · simp [h]
  have h6 : (if p = q then 1 else 0 : ℂ) = ((if p = q then 1 else 0 : ℝ) : ℂ) := by
    by_cases h : p = q <;> simp [h]
  rw [h5, h6]
  generalize (if p = q then 1 else 0 : ℝ) = D
  generalize (if axis = 0 then theta1Tilde (getIndicesNm p).2 (getIndicesNm q).2
      else theta2Tilde (getIndicesNm p).2 (getIndicesNm q).2) = T at h4 ⊢
  by_cases h : |(getIndicesNm p).2 - (getIndicesNm q).2| = 1
  · rw [if_pos h]
    rcases h4 with h4 | h4
    · rw [h4]; push_cast; ring
    · exact absurd h h4
  · rw [if_neg h]
    push_cast
    ring

/-- **C50** With unit mass, the elements are the matrix elements of the oscillator plus the barrier terms
`ω²/8 L² - ω²/2 L |x|` (`|y|` for the other axis) between the single-particle functions, for all sizes,
frequencies, barrier strengths and both axes. -/
theorem C50_matrix_elements (l : ℕ) {omega : ℝ} (ho : 0 < omega) (L : ℝ) (dt : DType) (axis : ℕ) :
    ∃ h, getDoubleWellOneBodyElements l omega 1 L dt axis = .ok h ∧ h.shape = [l, l] ∧ h.dtype = dt ∧
      ∀ p q, p < l → q < l → h.get [p, q] = planeInner (spfState getIndicesNm 1 omega p)
        (planeHamiltonian 1 (fun r t => 1 / 2 * omega ^ 2 * r ^ 2 + omega ^ 2 / 8 * L ^ 2
            - omega ^ 2 / 2 * L * |if axis = 0 then r * Real.cos t else r * Real.sin t|)
          (spfState getIndicesNm 1 omega q)) := by
  refine ⟨_, getDoubleWell_eq l omega 1 L dt axis, rfl, rfl, fun p q hp hq => ?_⟩
  rw [ofFn_get_of (show InRange [l, l] [p, q] from ⟨hp, hq, trivial⟩)]
  simp only [List.getD_cons_zero, List.getD_cons_succ]
  rw [doubleWell_elements one_pos ho]
  congr 2
  funext r t
  unfold barrier
  ring

/-- **C50** For any mass the barrier terms are those of unit mass: the potential of the double well is
`m ω² r²/2 + ω²/8 L² - ω²/2 L |x|`, without the factor `m` in the last two terms. -/
theorem C50_mass (l : ℕ) {omega mass : ℝ} (ho : 0 < omega) (hm : 0 < mass) (L : ℝ) (dt : DType) (axis : ℕ) :
    ∃ h, getDoubleWellOneBodyElements l omega mass L dt axis = .ok h ∧ h.shape = [l, l] ∧ h.dtype = dt ∧
      ∀ p q, p < l → q < l → h.get [p, q] = planeInner (spfState getIndicesNm mass omega p)
        (planeHamiltonian mass (fun r t => 1 / 2 * mass * omega ^ 2 * r ^ 2 + omega ^ 2 / 8 * L ^ 2
            - omega ^ 2 / 2 * L * |if axis = 0 then r * Real.cos t else r * Real.sin t|)
          (spfState getIndicesNm mass omega q)) := by
  refine ⟨_, getDoubleWell_eq l omega mass L dt axis, rfl, rfl, fun p q hp hq => ?_⟩
  rw [ofFn_get_of (show InRange [l, l] [p, q] from ⟨hp, hq, trivial⟩)]
  simp only [List.getD_cons_zero, List.getD_cons_succ]
  rw [doubleWell_elements hm ho]
  congr 2
  funext r t
  unfold barrier
  ring

/-- **C50** These are the one-body elements of every `TwoDimensionalDoubleWell`. -/
theorem C50_basis_set (u : NDArray ℂ) (l num : ℕ) (radiusLength omega mass L : ℝ) (axis : ℕ) (np : Module) :
    ∃ b h, doubleWell (.ok u) l num radiusLength omega mass L axis np = .ok b ∧
      getDoubleWellOneBodyElements l omega mass L .complex128 axis = .ok h ∧ b.h = some h := by
  obtain ⟨b, h1, -, h3⟩ := doubleWell_ok u l num radiusLength omega mass L axis np
  exact ⟨b, _, h1, getDoubleWell_eq l omega mass L .complex128 axis, h3⟩

/-- With `omega = 2`, `L = 3` and without coupling between orbitals 0 and 1 (`m` differs by one), the element
between them is zero for both axes. -/
example (axis : ℕ) : ∃ h, getDoubleWellOneBodyElements 3 2 1 3 .float64 axis = .ok h ∧ h.get [0, 1] = 0 := by
  refine ⟨_, getDoubleWell_eq 3 2 1 3 .float64 axis, ?_⟩
  rw [ofFn_get_of (show InRange [3, 3] [0, 1] from ⟨by norm_num, by norm_num, trivial⟩)]
  have h0 : getIndicesNm 0 = (0, 0) := by decide +kernel
  have h1 : getIndicesNm 1 = (0, -1) := by decide +kernel
  simp [doubleWellEntry, h0, h1]

end QS.Props
