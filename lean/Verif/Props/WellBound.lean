import Verif.Lemmas.WellBound
import Verif.Props.Nested
import Verif.Props.Units
import Verif.Props.Confinement

/-!
# Properties C92, C123 and C139 for the double well
-/

namespace QS.Props

open Finset NDArray BasisSet PyM Function OneDim Spec TwoDim Coulomb Idx QS.Units Filter Topology MeasureTheory

/-- The one-body elements of the double well are at least `ω²L²/8 (1 - 1/m)`. -/
theorem well_form {mass omega : ℝ} (hm : 0 < mass) (ho : 0 < omega) (L : ℝ) (axis l : ℕ) (c : ℕ → ℂ) :
    omega ^ 2 * L ^ 2 / 8 * (1 - 1 / mass) * ∑ p ∈ range l, ‖c p‖ ^ 2 ≤
      (∑ p ∈ range l, ∑ q ∈ range l, star (c p) * (doubleWellEntry omega mass L axis p q : ℂ) * c q).re := by
  let v : ℝ → ℝ := fun t => if axis = 0 then |Real.cos t| else |Real.sin t|
  have hv : Continuous v := by
    by_cases h : axis = 0
    · simp only [v, h, if_true]; fun_prop
    · simp only [v, h, if_false]; fun_prop
  have hv1 : ∀ t, 0 ≤ v t ∧ v t ≤ 1 := fun t => by
    by_cases h : axis = 0
    · simp only [v, h, if_true]; exact ⟨abs_nonneg _, Real.abs_cos_le_one t⟩
    · simp only [v, h, if_false]; exact ⟨abs_nonneg _, Real.abs_sin_le_one t⟩
  let w : ℝ → ℝ := fun r => mass * r ^ 2 + L ^ 2 / (4 * mass)
  let w' : ℝ → ℝ := fun r => -L * r
  have I : ∀ (s : ℕ) p q, IntegrableOn (fun r => r ^ s * spfRadial (getIndicesNm p).1 (getIndicesNm p).2 mass omega r
      * spfRadial (getIndicesNm q).1 (getIndicesNm q).2 mass omega r) (Set.Ioi 0) := fun s p q => radial_integrable hm ho s _ _ _ _
  have iw : ∀ p q, IntegrableOn (fun r => r * w r * spfRadial (getIndicesNm p).1 (getIndicesNm p).2 mass omega r
      * spfRadial (getIndicesNm q).1 (getIndicesNm q).2 mass omega r) (Set.Ioi 0) := fun p q =>
    (((I 3 p q).const_mul mass).add ((I 1 p q).const_mul (L ^ 2 / (4 * mass)))).congr (Eventually.of_forall fun r => by
      simp only [w, Pi.add_apply]; ring)
  have iw' : ∀ p q, IntegrableOn (fun r => r * w' r * spfRadial (getIndicesNm p).1 (getIndicesNm p).2 mass omega r
      * spfRadial (getIndicesNm q).1 (getIndicesNm q).2 mass omega r) (Set.Ioi 0) := fun p q =>
    ((I 2 p q).const_mul (-L)).congr (Eventually.of_forall fun r => by simp only [w']; ring)
  have F := plane_form_nonneg getIndicesNm mass omega w (fun _ => 1) w' v continuous_const hv l iw iw' (fun r t hr => by
    obtain ⟨h0, h1⟩ := hv1 t
    simp only [w, w']
    have e : (mass * r ^ 2 + L ^ 2 / (4 * mass)) * 1 + -L * r * v t =
        mass * (r - L * v t / (2 * mass)) ^ 2 + L ^ 2 * (1 - v t ^ 2) / (4 * mass) := by
      field_simp
      ring
    rw [e]
    have : 0 ≤ 1 - v t ^ 2 := by nlinarith
    positivity) c
  have R := radius_form hm ho C42_nonneg (fun _ _ h => getIndicesNm_injective h) l c
  -- the elements
  have el : ∀ p q, (doubleWellEntry omega mass L axis p q : ℂ) =
      (omega ^ 2 / 2 : ℝ) * planeInner (spfState getIndicesNm mass omega p)
        (fun r t => ((w r * 1 + w' r * v t : ℝ) : ℂ) * spfState getIndicesNm mass omega q r t) -
      (omega ^ 2 / 2 * mass : ℝ) * planeInner (spfState getIndicesNm mass omega p)
        (fun r t => ((r ^ 2 * 1 : ℝ) : ℂ) * spfState getIndicesNm mass omega q r t) +
      (if p = q then (omega * getShellEnergy (getIndicesNm p).1 (getIndicesNm p).2
        + omega ^ 2 * L ^ 2 / 8 * (1 - 1 / mass) : ℝ) else 0 : ℂ) := fun p q => by
    rw [plane_add getIndicesNm mass omega w (fun _ => 1) w' v continuous_const hv p q (iw p q) (iw' p q),
      plane_factor getIndicesNm mass omega w (fun _ => 1) p q, plane_factor getIndicesNm mass omega w' v p q,
      plane_factor getIndicesNm mass omega (fun r => r ^ 2) (fun _ => 1) p q]
    have h2 : angular v (getIndicesNm p).2 (getIndicesNm q).2
        = ((if axis = 0 then theta1Tilde (getIndicesNm p).2 (getIndicesNm q).2
            else theta2Tilde (getIndicesNm p).2 (getIndicesNm q).2 : ℝ) : ℂ) := by
      by_cases h : axis = 0
      · simp only [v, h, if_true]; rw [C47_abs_cos]
      · simp only [v, h, if_false]; rw [C47_abs_sin]
    have h3 : ∫ r in Set.Ioi (0 : ℝ), r * w' r
        * spfRadial (getIndicesNm p).1 (getIndicesNm p).2 mass omega r
        * spfRadial (getIndicesNm q).1 (getIndicesNm q).2 mass omega r
        = -L * radialIntegral (spfRadial (getIndicesNm p).1 (getIndicesNm p).2 mass omega)
          (spfRadial (getIndicesNm q).1 (getIndicesNm q).2 mass omega) := by
      unfold radialIntegral
      rw [← integral_const_mul]
      congr 1
      funext r
      simp only [w']
      ring
    have h4 : ∫ r in Set.Ioi (0 : ℝ), r * w r
        * spfRadial (getIndicesNm p).1 (getIndicesNm p).2 mass omega r
        * spfRadial (getIndicesNm q).1 (getIndicesNm q).2 mass omega r
        = mass * (∫ r in Set.Ioi (0 : ℝ), r * r ^ 2 * spfRadial (getIndicesNm p).1 (getIndicesNm p).2 mass omega r
          * spfRadial (getIndicesNm q).1 (getIndicesNm q).2 mass omega r) +
        L ^ 2 / (4 * mass) * ∫ r in Set.Ioi (0 : ℝ), r * 1 * spfRadial (getIndicesNm p).1 (getIndicesNm p).2 mass omega r
          * spfRadial (getIndicesNm q).1 (getIndicesNm q).2 mass omega r := by
      rw [← integral_const_mul, ← integral_const_mul, ← integral_add]
      · congr 1
        funext r
        simp only [w]
        ring
      · exact ((I 3 p q).const_mul mass).congr (Eventually.of_forall fun r => by ring)
      · exact ((I 1 p q).const_mul (L ^ 2 / (4 * mass))).congr (Eventually.of_forall fun r => by ring)
    have h5 := plane_factor getIndicesNm mass omega (fun _ => 1) (fun _ => 1) p q
    have h6 : planeInner (spfState getIndicesNm mass omega p)
        (fun r t => (((fun _ => (1 : ℝ)) r * (fun _ => (1 : ℝ)) t : ℝ) : ℂ) * spfState getIndicesNm mass omega q r t) =
        if p = q then 1 else 0 := by
      simp only [mul_one, Complex.ofReal_one, one_mul]
      exact C72_orthonormal hm ho p q
    rw [h6] at h5
    have h7 : (if axis = 0 then theta1Tilde (getIndicesNm p).2 (getIndicesNm q).2
        else theta2Tilde (getIndicesNm p).2 (getIndicesNm q).2) = 0
        ∨ |(getIndicesNm p).2 - (getIndicesNm q).2| ≠ 1 := by
      by_cases h : |(getIndicesNm p).2 - (getIndicesNm q).2| = 1
      · left
        unfold theta1Tilde theta2Tilde
        rw [h]
        simp
      · exact Or.inr h
    rw [h2, h3, h4]
    unfold doubleWellEntry
    have h8 : (if |(getIndicesNm p).2 - (getIndicesNm q).2| = 1 then 0 else
      1 / 2 * omega ^ 2 * L * spfNorm (getIndicesNm p).1 (getIndicesNm p).2 mass omega
        * spfNorm (getIndicesNm q).1 (getIndicesNm q).2 mass omega
        * radialIntegral (spfRadial (getIndicesNm p).1 (getIndicesNm p).2 mass omega)
            (spfRadial (getIndicesNm q).1 (getIndicesNm q).2 mass omega)
        * (if axis = 0 then theta1Tilde (getIndicesNm p).2 (getIndicesNm q).2
            else theta2Tilde (getIndicesNm p).2 (getIndicesNm q).2)) =
      1 / 2 * omega ^ 2 * L * spfNorm (getIndicesNm p).1 (getIndicesNm p).2 mass omega
        * spfNorm (getIndicesNm q).1 (getIndicesNm q).2 mass omega
        * radialIntegral (spfRadial (getIndicesNm p).1 (getIndicesNm p).2 mass omega)
            (spfRadial (getIndicesNm q).1 (getIndicesNm q).2 mass omega)
        * (if axis = 0 then theta1Tilde (getIndicesNm p).2 (getIndicesNm q).2
            else theta2Tilde (getIndicesNm p).2 (getIndicesNm q).2) := by
      by_cases h : |(getIndicesNm p).2 - (getIndicesNm q).2| = 1
      · rcases h7 with h7 | h7
        · rw [if_pos h, h7, mul_zero]
        · exact absurd h h7
      · rw [if_neg h]
    rw [h8]
    generalize (if axis = 0 then theta1Tilde (getIndicesNm p).2 (getIndicesNm q).2
        else theta2Tilde (getIndicesNm p).2 (getIndicesNm q).2) = T
    have hmc : (mass : ℂ) ≠ 0 := by exact_mod_cast hm.ne'
    generalize angular (fun _ => 1) (getIndicesNm p).2 (getIndicesNm q).2 = A at h5 ⊢
    by_cases hpq : p = q
    · rw [if_pos hpq] at h5 ⊢
      rw [if_pos hpq]
      push_cast at h5 ⊢
      linear_combination ((omega : ℂ) ^ 2 * L ^ 2 / (8 * mass)) * h5
    · rw [if_neg hpq] at h5 ⊢
      rw [if_neg hpq]
      push_cast at h5 ⊢
      linear_combination ((omega : ℂ) ^ 2 * L ^ 2 / (8 * mass)) * h5
  set X : ℕ → ℕ → ℂ := fun p q => planeInner (spfState getIndicesNm mass omega p)
    (fun r t => ((w r * 1 + w' r * v t : ℝ) : ℂ) * spfState getIndicesNm mass omega q r t) with hX
  set Y : ℕ → ℕ → ℂ := fun p q => planeInner (spfState getIndicesNm mass omega p)
    (fun r t => ((r ^ 2 * 1 : ℝ) : ℂ) * spfState getIndicesNm mass omega q r t) with hY
  set D : ℕ → ℝ := fun p => omega * getShellEnergy (getIndicesNm p).1 (getIndicesNm p).2
    + omega ^ 2 * L ^ 2 / 8 * (1 - 1 / mass) with hD
  have F' : 0 ≤ (∑ p ∈ range l, ∑ q ∈ range l, star (c p) * X p q * c q).re := F
  have R' : mass * omega * (∑ p ∈ range l, ∑ q ∈ range l, star (c p) * Y p q * c q).re ≤
      ∑ p ∈ range l, (2 * getShellEnergy (getIndicesNm p).1 (getIndicesNm p).2 : ℝ) * ‖c p‖ ^ 2 := R
  have el' : ∀ p q, (doubleWellEntry omega mass L axis p q : ℂ) = (omega ^ 2 / 2 : ℝ) * X p q - (omega ^ 2 / 2 * mass : ℝ) * Y p q +
      (if p = q then (D p : ℂ) else 0) := el
  have split : (∑ p ∈ range l, ∑ q ∈ range l, star (c p) * (doubleWellEntry omega mass L axis p q : ℂ) * c q) =
      (omega ^ 2 / 2 : ℝ) * (∑ p ∈ range l, ∑ q ∈ range l, star (c p) * X p q * c q) -
      (omega ^ 2 / 2 * mass : ℝ) * (∑ p ∈ range l, ∑ q ∈ range l, star (c p) * Y p q * c q) +
      ((∑ p ∈ range l, D p * ‖c p‖ ^ 2 : ℝ) : ℂ) := by
    rw [mul_sum, mul_sum, ← sum_sub_distrib, Complex.ofReal_sum, ← sum_add_distrib]
    refine sum_congr rfl fun p hp => ?_
    have d : ((D p * ‖c p‖ ^ 2 : ℝ) : ℂ) = ∑ q ∈ range l, star (c p) * (if p = q then (D p : ℂ) else 0) * c q := by
      rw [sum_eq_single_of_mem p hp fun q hq hne => by rw [if_neg (Ne.symm hne)]; ring, if_pos rfl]
      have : star (c p) * c p = ((‖c p‖ ^ 2 : ℝ) : ℂ) := by
        change (starRingEnd ℂ) (c p) * c p = _
        rw [Complex.conj_mul']
        norm_cast
      push_cast at this ⊢
      linear_combination -(D p : ℂ) * this
    rw [d, mul_sum, mul_sum, ← sum_sub_distrib, ← sum_add_distrib]
    exact sum_congr rfl fun q hq => by rw [el']; ring
  rw [split, Complex.add_re, Complex.sub_re, Complex.re_ofReal_mul, Complex.re_ofReal_mul, Complex.ofReal_re]
  have eD : ∑ p ∈ range l, D p * ‖c p‖ ^ 2 = omega / 2 *
      (∑ p ∈ range l, (2 * getShellEnergy (getIndicesNm p).1 (getIndicesNm p).2 : ℝ) * ‖c p‖ ^ 2) +
      omega ^ 2 * L ^ 2 / 8 * (1 - 1 / mass) * ∑ p ∈ range l, ‖c p‖ ^ 2 := by
    rw [mul_sum, mul_sum, ← sum_add_distrib]
    exact sum_congr rfl fun p _ => by simp only [hD]; ring
  rw [eD]
  have a1 := mul_nonneg (by positivity : 0 ≤ omega ^ 2 / 2) F'
  have a2 := mul_le_mul_of_nonneg_left R' (by positivity : 0 ≤ omega / 2)
  have a3 : omega ^ 2 / 2 * mass * (∑ p ∈ range l, ∑ q ∈ range l, star (c p) * Y p q * c q).re =
      omega / 2 * (mass * omega * (∑ p ∈ range l, ∑ q ∈ range l, star (c p) * Y p q * c q).re) := by ring
  linarith

/-- **C92** `TwoDimensionalDoubleWell`, with the bound `ω²L²/8 (1 - 1/m)` for any number of functions and any barrier: zero for
electrons of unit mass, where the one-body part is a sum of the kinetic energy and a potential with minimum zero. -/
theorem C92_double_well_bound (l num : ℕ) (radiusLength : ℝ) {omega mass : ℝ} (ho : 0 < omega) (hm : 0 < mass)
    (barrier : ℝ) (axis : ℕ) (np : Module) :
    ∃ b, doubleWell (getCoulombElementsRaw l) l num radiusLength omega mass barrier axis np = .ok b ∧
      Physical (omega ^ 2 * barrier ^ 2 / 8 * (1 - 1 / mass)) b l := by
  obtain ⟨b, m, h1, P⟩ := C92_double_well l num radiusLength ho hm barrier axis np
  refine ⟨b, h1, P.wf, ?_, P.two⟩
  obtain ⟨h, s, hh, hs, Hh, -⟩ := P.one
  refine ⟨h, s, hh, hs, Hh, fun v => ?_⟩
  rw [getCoulombElementsRaw_eq] at h1
  obtain ⟨b', g, F, e⟩ := doubleWell_ok _ l num radiusLength omega mass barrier axis np
  rw [h1] at g
  cases g
  obtain rfl := Option.some.inj (hh.symm.trans e)
  obtain rfl := Option.some.inj (hs.symm.trans F.s_eq)
  have es : (oneForm l (eye l) v).re = ∑ p ∈ range l, ‖v p‖ ^ 2 := by
    unfold oneForm
    rw [Complex.re_sum]
    refine sum_congr rfl fun p hp => ?_
    rw [sum_eq_single_of_mem p hp fun q hq hne => by
      rw [eye_get _ _ _ (mem_range.1 hp), if_neg (Ne.symm hne)]; ring]
    rw [eye_get _ _ _ (mem_range.1 hp), if_pos rfl, mul_one]
    change ((starRingEnd ℂ) (v p) * v p).re = _
    rw [Complex.conj_mul']
    norm_cast
  refine le_of_eq_of_le (by rw [← es]) ((well_form hm ho barrier axis l v).trans (le_of_eq ?_))
  unfold oneForm
  congr 1
  refine sum_congr rfl fun p hp => sum_congr rfl fun q hq => ?_
  rw [ofFn_get_of (by exact ⟨mem_range.1 hp, mem_range.1 hq, trivial⟩)]
  rfl

/-- The overlap elements of the double well. -/
theorem doubleWell_overlap {l num : ℕ} {radiusLength omega mass barrier : ℝ} {axis : ℕ} {np : Module} {b : BasisSet ℂ}
    (g : doubleWell (getCoulombElementsRaw l) l num radiusLength omega mass barrier axis np = .ok b) :
    ∀ S, b.s = some S → ∀ p < l, ∀ q < l, S.get [p, q] = if p = q then 1 else 0 := fun S hs p hp q _ => by
  rw [getCoulombElementsRaw_eq] at g
  obtain ⟨b', g', F, -⟩ := doubleWell_ok _ l num radiusLength omega mass barrier axis np
  rw [g] at g'
  cases g'
  obtain rfl := Option.some.inj (hs.symm.trans F.s_eq)
  rw [eye_get _ _ _ hp]

/-- **C123** `TwoDimensionalDoubleWell`: with more and more functions every energy of `N` electrons falls to a limit, which is
at least `N ω²L²/8 (1 - 1/m)`. -/
theorem C123_double_well_limit {N : ℕ} (hN : 1 ≤ N) (k num : ℕ) (radiusLength : ℝ) {omega mass : ℝ} (ho : 0 < omega)
    (hm : 0 < mass) (barrier : ℝ) (axis : ℕ) (np : Module) {E : ℕ → ℕ → ℝ}
    (hE : ∀ l, ∃ b h u, doubleWell (getCoulombElementsRaw l) l num radiusLength omega mass barrier axis np = .ok b ∧
      b.h = some h ∧ b.u = some u ∧ ElectronEnergies l h u N (E l)) :
    (∀ l l', l ≤ l' → k < (2 * l).choose N → E l' k ≤ E l k) ∧
    ∃ Einf, Tendsto (fun l => E l k) atTop (𝓝 Einf) ∧ N * (omega ^ 2 * barrier ^ 2 / 8 * (1 - 1 / mass)) ≤ Einf ∧
      ∀ l, k < (2 * l).choose N → Einf ≤ E l k := by
  have fall : ∀ l l', l ≤ l' → k < (2 * l).choose N → E l' k ≤ E l k := fun l l' hll hk => by
    obtain ⟨b, h, u, g, hh, hu, S⟩ := hE l
    obtain ⟨b', h', u', g', hh', hu', S'⟩ := hE l'
    obtain ⟨_, _, i, i', nest⟩ := (C123_tdho hll num radiusLength omega mass np).2 barrier axis
    obtain rfl : b = _ := by simpa using g.symm.trans i
    obtain rfl : b' = _ := by simpa using g'.symm.trans i'
    exact (C123_energies hll nest hh hu hh' hu' N).1 S S' k hk
  refine ⟨fall, ?_⟩
  obtain ⟨Einf, lim, low, le⟩ := levels_limit hN k (l₀ := 0) (c := N * (omega ^ 2 * barrier ^ 2 / 8 * (1 - 1 / mass)))
    (fun l l' _ => fall l l') (fun l _ hk => by
      obtain ⟨b, h, u, g, hh, hu, S⟩ := hE l
      obtain ⟨_, i, P⟩ := C92_double_well_bound l num radiusLength ho hm barrier axis np
      obtain rfl : b = _ := by simpa using g.symm.trans i
      exact (C122_zero_point P (doubleWell_overlap g) hh hu N).2.2 S k hk)
  exact ⟨Einf, lim, low, fun l hk => le l (Nat.zero_le l) hk⟩

/-- **C139** `TwoDimensionalDoubleWell` for `m ≥ 1`: with all lengths (of the oscillator, of the barrier and of the grid) `c ≥ 1`
times as long, every energy of `N` electrons falls by a factor between `c` and `c²`. -/
theorem C139_double_well (l num N : ℕ) (radiusLength : ℝ) {omega mass c : ℝ} (ho : 0 < omega) (hm : 1 ≤ mass) (hc : 1 ≤ c)
    (barrier : ℝ) (axis : ℕ) (np : Module) :
    ∃ b b' H U H' U', doubleWell (getCoulombElementsRaw l) l num radiusLength omega mass barrier axis np = .ok b ∧
      doubleWell (getCoulombElementsRaw l) l num (c * radiusLength) (omega / c ^ 2) mass (c * barrier) axis np = .ok b' ∧
      b.h = some H ∧ b.u = some U ∧ b'.h = some H' ∧ b'.u = some U' ∧
      ∀ E E' : ℕ → ℝ, ElectronEnergies l H U N E → ElectronEnergies l H' U' N E' →
        ∀ k < (2 * l).choose N, E k / c ^ 2 ≤ E' k ∧ E' k ≤ E k / c := by
  have m0 : 0 < mass := by linarith
  have c0 : 0 < c := by linarith
  obtain ⟨b, g, P⟩ := C92_double_well_bound l num radiusLength ho m0 barrier axis np
  obtain ⟨b', g', P'⟩ := C92_double_well_bound l num (c * radiusLength) (show 0 < omega / c ^ 2 by positivity) m0 (c * barrier) axis np
  obtain ⟨H, _, hh, -⟩ := P.one
  obtain ⟨U, hu, -⟩ := P.two
  obtain ⟨H', _, hh', -⟩ := P'.one
  obtain ⟨U', hu', -⟩ := P'.two
  refine ⟨b, b', H, U, H', U', g, g', hh, hu, hh', hu', fun E E' S S' => ?_⟩
  refine C139_size ?_ hc P (doubleWell_overlap g) ?_ hh hu hh' hu' S S'
  · have : 1 / mass ≤ 1 := by rw [div_le_one m0]; exact hm
    have : 0 ≤ 1 - 1 / mass := by linarith
    positivity
  · have e := getCoulombElementsRaw_eq (num := l)
    rw [e] at g g'
    obtain ⟨_, _, i, i', I⟩ := C138_double_well c0 _ l num radiusLength omega mass barrier axis np
    rw [g] at i
    rw [g'] at i'
    cases i
    cases i'
    exact I

/-- Two electrons in a double well with a barrier of width 3 and unit mass: the energies of 20 functions are at least 0, and fall
to a limit that is at least 0. -/
example (np : Module) (E : ℕ → ℕ → ℝ) (hE : ∀ l, ∃ b h u, doubleWell (getCoulombElementsRaw l) l 201 8 1 1 3 0 np = .ok b ∧
      b.h = some h ∧ b.u = some u ∧ ElectronEnergies l h u 2 (E l)) :
    ∃ Einf, Tendsto (fun l => E l 0) atTop (𝓝 Einf) ∧ 0 ≤ Einf ∧ Einf ≤ E 20 0 := by
  obtain ⟨-, Einf, h1, h2, h3⟩ := C123_double_well_limit (le_of_lt one_lt_two) 0 201 8 one_pos one_pos 3 0 np hE
  exact ⟨Einf, h1, by simpa using h2, h3 20 (by decide)⟩

end QS.Props
