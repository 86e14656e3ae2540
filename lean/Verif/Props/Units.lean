import Verif.Lemmas.Units
import Verif.Props.Density
import Verif.Props.Pulses
import Verif.Props.Potentials
import Verif.Props.Magnetic

/-!
# Other units of length (C138)
-/

namespace QS.Props

open NDArray BasisSet World Spec OneDim SincDvr TwoDim Coulomb Idx PyM Finset QS.Units

/-! ## Constructors -/

theorem one_sqrt (c : ℝ) : 1 / Real.sqrt (c ^ 1) = 1 / Real.sqrt c := by rw [pow_one]

theorem sqrt_two {c : ℝ} (hc : 0 < c) : 1 / Real.sqrt (c ^ 2) = 1 / c := by rw [Real.sqrt_sq hc.le]

theorem bra_scaled {k : ℝ} {b b' : BasisSet ℂ} (hb : b.braSpf = none) (hb' : b'.braSpf = none)
    (h : OptRel (ScaledArr k) b.spf b'.spf) : OptRel (ScaledArr k) b.bra b'.bra := by
  unfold BasisSet.bra
  rw [hb, hb']
  cases hx : b.spf <;> cases hy : b'.spf <;> rw [hx, hy] at h <;> simp only [OptRel] at h
  · trivial
  · exact scaled_conj h

theorem grid_scaled (c L : ℝ) (num : ℕ) :
    ScaledArr c (linspaceArr (-L) L num) (linspaceArr (-(c * L)) (c * L) num) :=
  scaled_congr fun i _ => by rw [linspace_scale', Complex.ofReal_mul]

/-- What the two classes on a grid share. -/
theorem oneDim_units {c : ℝ} (hc : 0 < c) {b b' : BasisSet ℂ} {l num : ℕ} {L a alpha : ℝ} {np : Module} {sp an : Bool}
    {f f' : NDArray ℂ} (O : OneDimFields b l num L a alpha np sp an f)
    (O' : OneDimFields b' l num (c * L) (c * a) (alpha / c) np sp an f')
    (hf : ∀ p < l, ∀ j < num, f'.get [p, j] = ((1 / Real.sqrt c : ℝ) : ℂ) * f.get [p, j])
    (hh : OptRel (ScaledArr (1 / c ^ 2)) b.h b'.h) (hd : OptRel (ScaledArr c) b.dipole b'.dipole) :
    InUnits c (1 / c ^ 2) (1 / c ^ 2) b b' ∧ OptRel (ScaledArr c) b.grid b'.grid := by
  have hspf : OptRel (ScaledArr (1 / Real.sqrt (c ^ b.dim))) b.spf b'.spf := by
    rw [O.spf_eq, O'.spf_eq, O.dim_eq, one_sqrt]
    refine ⟨O'.spf_shape.trans O.spf_shape.symm, fun i hi => ?_⟩
    rw [O.spf_shape] at hi
    obtain ⟨p, j, rfl, hp, hj⟩ := inRange_two.1 hi
    exact hf p hp j hj
  refine ⟨⟨by rw [O.l_eq, O'.l_eq], by rw [O.dim_eq, O'.dim_eq], hh, ?_, ?_, hd, hspf, bra_scaled O.bra_eq O'.bra_eq hspf,
    by rw [O.np_eq, O'.np_eq], by rw [O.spin_eq, O'.spin_eq], by rw [O.anti_eq, O'.anti_eq]⟩, ?_⟩
  · rw [O.s_eq, O'.s_eq]
    exact scaled_self _
  · rw [O.u_eq, O'.u_eq]
    refine scaled_congr fun i hi => ?_
    match i, hi with
    | [p, q, r, s], ⟨hp, hq, hr, hs, _⟩ =>
      refine coulombSum_scale hc (fun i => linspace_scale' c L num i) (fun k hk j hj => hf k ?_ j hj) alpha a
      simp only [List.getD_cons_zero, List.getD_cons_succ, List.mem_cons, List.not_mem_nil, or_false] at hk
      rcases hk with rfl | rfl | rfl | rfl <;> assumption
  · rw [O.grid_eq, O'.grid_eq]
    exact grid_scaled c L num

/-- **C138** `ODHO` with lengths in another unit: grid length and shielding times `c`, frequency times `1/c²`, strength of the
interaction times `1/c`. -/
theorem C138_odho {c : ℝ} (hc : 0 < c) (l : ℕ) (L : ℝ) {num : ℕ} (h2 : 2 ≤ num) {omega : ℝ} (ho : 0 ≤ omega)
    (a alpha beta : ℝ) (np : Module) (sp an : Bool) :
    ∃ b b', odho l L num omega a alpha beta np sp an = .ok b ∧
      odho l (c * L) num (omega / c ^ 2) (c * a) (alpha / c) (beta / c) np sp an = .ok b' ∧
      InUnits c (1 / c ^ 2) (1 / c ^ 2) b b' ∧ OptRel (ScaledArr c) b.grid b'.grid := by
  obtain ⟨b, h1, O, hh, hd⟩ := odho_ok l L h2 omega a alpha beta np sp an
  obtain ⟨b', h1', O', hh', hd'⟩ := odho_ok l (c * L) h2 (omega / c ^ 2) (c * a) (alpha / c) (beta / c) np sp an
  refine ⟨b, b', h1, h1', oneDim_units hc O O' (fun p hp j hj => ?_) ?_ ?_⟩
  · rw [odhoSpf, odhoSpf, ofFn_get_of (by exact ⟨hp, hj, trivial⟩), ofFn_get_of (by exact ⟨hp, hj, trivial⟩)]
    simp only [List.getD_cons_zero, List.getD_cons_succ]
    rw [linspace_scale', hoFunction_scale hc ho, Complex.ofReal_mul]
  · rw [hh, hh']
    refine scaled_congr fun i _ => ?_
    split_ifs
    · rw [← Complex.ofReal_mul]
      congr 1
      ring
    · simp
  · rw [hd, hd']
    refine scaled_congr fun i _ => ?_
    split_ifs
    · rw [odhoDip_scale hc ho, Complex.ofReal_mul]
    · rw [odhoDip_scale hc ho, Complex.ofReal_mul]
    · simp

/-- The eigenvalues of a multiple of a matrix. -/
theorem eigh_scale {n : ℕ} {k : ℝ} (hk : 0 < k) {H H' w v : NDArray ℂ} (F : EighOK n H' w v)
    (h : ∀ i < n, ∀ j < n, H.get [i, j] = (k : ℂ) * H'.get [i, j]) :
    EighOK n H (ofFn .float64 [n] fun i => (k : ℂ) * w.get i) v where
  w_shape := rfl
  v_shape := F.v_shape
  real i := by
    by_cases hi : InRange [n] i
    · rw [ofFn_get_of hi, Complex.im_ofReal_mul, F.real, mul_zero]
    · rw [ofFn_get, if_neg hi]
      rfl
  sorted i j hij hj := by
    rw [ofFn_get_of (by exact ⟨by omega, trivial⟩), ofFn_get_of (by exact ⟨hj, trivial⟩), Complex.re_ofReal_mul,
      Complex.re_ofReal_mul]
    exact mul_le_mul_of_nonneg_left (F.sorted i j hij hj) hk.le
  orthonormal := F.orthonormal
  eigen i j hi hj := by
    rw [ofFn_get_of (by exact ⟨hi, trivial⟩), mul_assoc, ← F.eigen i j hi hj, mul_sum]
    exact sum_congr rfl fun m hm => by rw [h j hj m (mem_range.1 hm), mul_assoc]

/-- **C138** `ODQD` with lengths in another unit, for any potential: `V(x)` becomes `V(x/c)/c²`.  The solver may return other
phases. -/
theorem C138_odqd {c : ℝ} (hc : 0 < c) {eigh eigh' : NDArray ℂ → Except PyErr (NDArray ℂ × NDArray ℂ)} (he : IsEigh eigh)
    (he' : IsEigh eigh') {l num : ℕ} {L : ℝ} (hL : 0 < L) (h3 : 3 ≤ num) (hl : l ≤ num - 2) (a alpha beta : ℝ) (V : ℝ → ℝ)
    (hm : Bool) (np : Module) (sp an : Bool) :
    ∃ b b₁ b' θ, odqd eigh l L num a alpha beta V hm np sp an = .ok b ∧
      odqd eigh' l (c * L) num (c * a) (alpha / c) (beta / c) (fun x => V (x / c) / c ^ 2) hm np sp an = .ok b' ∧
      b₁.h = b.h ∧ UpToPhases θ l b b₁ ∧ InUnits c (1 / c ^ 2) (1 / c ^ 2) b₁ b' ∧ OptRel (ScaledArr c) b.grid b'.grid := by
  obtain ⟨b', H', w', v', h1', hH', e', F', O', hh', hd'⟩ := odqd_ok' he' (c * L) h3 hl (c * a) (alpha / c) (beta / c)
    (fun x => V (x / c) / c ^ 2) hm np sp an
  set H : NDArray ℂ := ofFn .float64 [num - 2, num - 2] (fun i => (fdEntry V (TwoDim.linspace (-L) L num)
    ((L - -L) / ((num : ℝ) - 1)) (i.getD 0 0) (i.getD 1 0) : ℂ)) with hH
  have hc2 : 0 < c ^ 2 := by positivity
  have dxs : (c * L - -(c * L)) / ((num : ℝ) - 1) = c * ((L - -L) / ((num : ℝ) - 1)) := by ring
  have eH : ∀ i < num - 2, ∀ j < num - 2, H.get [i, j] = ((c ^ 2 : ℝ) : ℂ) * H'.get [i, j] := fun i hi j hj => by
    rw [hH, hH', ofFn_get_of (by exact ⟨hi, hj, trivial⟩), ofFn_get_of (by exact ⟨hi, hj, trivial⟩), dxs,
      fdEntry_scale hc V (linspace_scale' c L num), ← Complex.ofReal_mul]
    congr 1
    field_simp
  have F₁ := eigh_scale hc2 F' eH
  set w₁ : NDArray ℂ := ofFn .float64 [num - 2] fun i => ((c ^ 2 : ℝ) : ℂ) * w'.get i with hw₁
  classical
  set eigh₁ : NDArray ℂ → Except PyErr (NDArray ℂ × NDArray ℂ) := fun M => if M = H then .ok (w₁, v') else eigh M with he₁
  have he1 : IsEigh eigh₁ := fun n M sM hM => by
    by_cases h : M = H
    · refine ⟨w₁, v', by rw [he₁]; exact if_pos h, ?_⟩
      have : n = num - 2 := by
        rw [h, hH, ofFn_shape] at sM
        exact (List.cons.inj sM).1.symm
      rw [this, h]
      exact F₁
    · obtain ⟨w, v, h1, h2⟩ := he n M sM hM
      exact ⟨w, v, by rw [he₁]; exact (if_neg h).trans h1, h2⟩
  obtain ⟨b, b₁, θ, g, g₁, eh, -, P⟩ := C133_odqd he he1 hL h3 hl a alpha beta V hm np sp an
  obtain ⟨b₂, H₂, w₂, v₂, h2, hH2, e2, F2, O2, hh2, hd2⟩ := odqd_ok' he1 L h3 hl a alpha beta V hm np sp an
  obtain rfl : b₁ = b₂ := Except.ok.inj (g₁.symm.trans h2)
  have : eigh₁ H₂ = .ok (w₁, v') := if_pos hH2
  rw [this] at e2
  obtain ⟨rfl, rfl⟩ := Prod.mk.inj (Except.ok.inj e2)
  have hspf : ∀ p < l, ∀ j < num, (odqdSpf l num ((c * L - -(c * L)) / ((num : ℝ) - 1)) v').get [p, j]
      = ((1 / Real.sqrt c : ℝ) : ℂ) * (odqdSpf l num ((L - -L) / ((num : ℝ) - 1)) v').get [p, j] := fun p hp j hj => by
    rw [odqdSpf, odqdSpf, ofFn_get_of (by exact ⟨hp, hj, trivial⟩), ofFn_get_of (by exact ⟨hp, hj, trivial⟩), dxs,
      Real.sqrt_mul hc.le]
    simp only [List.getD_cons_zero, List.getD_cons_succ]
    split_ifs
    · push_cast
      rw [← div_div]
      ring
    · simp
  obtain ⟨I, G⟩ := oneDim_units hc O2 O' hspf (by
    rw [hh2, hh']
    refine scaled_congr fun i hi => ?_
    obtain ⟨p, q, rfl, hp, hq⟩ := inRange_two.1 hi
    simp only [List.getD_cons_zero, List.getD_cons_succ]
    split_ifs
    · rw [hw₁, ofFn_get_of (by exact ⟨by omega, trivial⟩), ← mul_assoc, ← Complex.ofReal_mul,
        show 1 / c ^ 2 * c ^ 2 = 1 by field_simp, Complex.ofReal_one, one_mul]
    · simp) (by
    rw [hd2, hd']
    refine scaled_congr fun i hi => ?_
    match i, hi with
    | [t, p, q], ⟨ht, hp, hq, _⟩ =>
      simp only [List.getD_cons_zero, List.getD_cons_succ]
      rw [trapezoid_scale (c := c) (k := 1) (linspace_scale' c L num) fun j hj => ?_, mul_one]
      rw [hspf p hp j hj, hspf q hq j hj, linspace_scale', map_mul, Complex.conj_ofReal, one_mul,
        show c * TwoDim.linspace (-L) L num j + beta / c * (c * TwoDim.linspace (-L) L num j) ^ 2
          = c * (TwoDim.linspace (-L) L num j + beta * TwoDim.linspace (-L) L num j ^ 2) by field_simp]
      have r : ((1 / Real.sqrt c : ℝ) : ℂ) * ((1 / Real.sqrt c : ℝ) : ℂ) * (c : ℂ) = 1 := by
        rw [← Complex.ofReal_mul, ← Complex.ofReal_mul, ← sq, root_two hc, one_div_mul_cancel hc.ne', Complex.ofReal_one]
      rw [Complex.ofReal_mul]
      linear_combination ((starRingEnd ℂ) ((odqdSpf l num ((L - -L) / ((num : ℝ) - 1)) v').get [p, j])
        * ((TwoDim.linspace (-L) L num j + beta * TwoDim.linspace (-L) L num j ^ 2 : ℝ) : ℂ)
        * (odqdSpf l num ((L - -L) / ((num : ℝ) - 1)) v').get [q, j]) * r)
  refine ⟨b, b₁, b', θ, g, h1', eh, P, I, ?_⟩
  rwa [← P.rest.1]

/-- **C138** `ODSincDVR` with lengths in another unit, in both representations. -/
theorem C138_sinc {c : ℝ} (hc : 0 < c) {l : ℕ} (h2 : 2 ≤ l) (L a alpha beta : ℝ) (V : ℝ → ℝ) {repr : URepr}
    (hr : repr ≠ .unknown) (hm : Bool) (np : Module) (sp an : Bool) :
    ∃ b b', odSincDvr l L a alpha beta V repr hm np sp an = .ok b ∧
      odSincDvr l (c * L) (c * a) (alpha / c) (beta / c) (fun x => V (x / c) / c ^ 2) repr hm np sp an = .ok b' ∧
      InUnits c (1 / c ^ 2) (1 / c ^ 2) b b' ∧ OptRel (ScaledArr c) b.grid b'.grid := by
  refine ⟨_, _, odSincDvr_ok h2 L a alpha beta V hr hm np sp an, odSincDvr_ok h2 _ _ _ _ _ hr hm np sp an, ?_, ?_⟩
  · have hS : ScaledArr (1 / Real.sqrt (c ^ 1)) (sincSpf l L) (sincSpf l (c * L)) := by
      refine scaled_congr fun i _ => ?_
      rw [one_sqrt, spacing_scale, linspace_scale', linspace_scale', ← Complex.ofReal_mul, Real.sqrt_mul hc.le,
        ← mul_sub, mul_div_mul_left _ _ hc.ne']
      congr 1
      rw [← mul_assoc, one_div_mul_one_div]
    have hP : ∀ p q, pairU l (c * L) (alpha / c) (c * a) p q = ((1 / c ^ 2 : ℝ) : ℂ) * pairU l L alpha a p q := fun p q => by
      unfold pairU
      rw [← Complex.ofReal_mul]
      congr 1
      simp only [SincDvr.shieldedCoulomb, linspace_scale']
      exact shield_scale hc _ _ _ _
    refine ⟨rfl, rfl, ?_, scaled_self _, ?_, ?_, hS, scaled_conj hS, rfl, rfl, rfl⟩
    · refine scaled_congr fun i _ => ?_
      simp only [spacing_scale, linspace_scale', mul_div_cancel_left₀ _ hc.ne', mul_pow]
      split_ifs
      · rw [← Complex.ofReal_add, ← Complex.ofReal_add, ← Complex.ofReal_mul]
        congr 1
        rw [mul_add, one_div_mul_eq_div, one_div_mul_eq_div, div_div]
        congr 2
        ring
      · rw [← Complex.ofReal_mul, one_div_mul_eq_div, div_div]
        congr 2
        ring
    · show ScaledArr _ (sincU l L alpha a .complex128 repr) (sincU l (c * L) (alpha / c) (c * a) .complex128 repr)
      unfold sincU
      split_ifs
      · exact scaled_congr fun i _ => hP _ _
      · refine scaled_congr fun i _ => ?_
        split_ifs
        · exact hP _ _
        · simp
    · refine scaled_congr fun i _ => ?_
      split_ifs
      · rw [linspace_scale', ← Complex.ofReal_mul]
        congr 1
        field_simp
      · simp
  · exact grid_scaled c L l

/-- What the classes in two dimensions share. -/
theorem tdho_units {c : ℝ} (hc : 0 < c) {b b' : BasisSet ℂ} {u : NDArray ℂ} {nm : ℕ → ℤ × ℤ} {l num : ℕ}
    {R omega mass : ℝ} {np : Module} (O : TdhoFields b u nm l num R omega mass np)
    (O' : TdhoFields b' u nm l num (c * R) (omega / c ^ 2) mass np) (hh : OptRel (ScaledArr (1 / c ^ 2)) b.h b'.h) :
    InUnits c (1 / c ^ 2) (1 / c) b b' := by
  have hS : ScaledArr (1 / Real.sqrt (c ^ b.dim)) (setupSpf nm l num R omega mass)
      (setupSpf nm l num (c * R) (omega / c ^ 2) mass) := by
    rw [O.dim_eq, sqrt_two hc]
    refine scaled_congr fun i _ => ?_
    rw [show TwoDim.linspace 0 (c * R) num = fun i => c * TwoDim.linspace 0 R num i by
      funext i; rw [← linspace_scale, mul_zero]]
    exact spfState_scale hc _ _ _ _ _ _
  refine ⟨by rw [O.l_eq, O'.l_eq], by rw [O.dim_eq, O'.dim_eq], hh, ?_, ?_, ?_, ?_, ?_, by rw [O.np_eq, O'.np_eq],
    by rw [O.spin_eq, O'.spin_eq], by rw [O.anti_eq, O'.anti_eq]⟩
  · rw [O.s_eq, O'.s_eq]
    exact scaled_self _
  · rw [O.u_eq, O'.u_eq]
    refine scaled_congr fun i _ => ?_
    rw [sqrt_div_sq hc]
    push_cast
    ring
  · rw [O.dipole_eq, O'.dipole_eq]
    exact scaled_congr fun i _ => dipoleEntry_scale hc _ _ _ _ _ _
  · rw [O.spf_eq, O'.spf_eq]
    exact hS
  · rw [O.bra_eq, O'.bra_eq]
    exact scaled_conj hS

/-- **C138** `TwoDimensionalHarmonicOscillator`: the strength of the interaction is fixed, so that the two-body elements are
multiplied by `1/c` and not by `1/c²`. -/
theorem C138_tdho {c : ℝ} (hc : 0 < c) (u : NDArray ℂ) (l num : ℕ) (R omega mass : ℝ) (np : Module) :
    ∃ b b', tdho (.ok u) l num R omega mass np = .ok b ∧ tdho (.ok u) l num (c * R) (omega / c ^ 2) mass np = .ok b' ∧
      InUnits c (1 / c ^ 2) (1 / c) b b' := by
  obtain ⟨b, h1, O, hh⟩ := tdho_ok u l num R omega mass np
  obtain ⟨b', h1', O', hh'⟩ := tdho_ok u l num (c * R) (omega / c ^ 2) mass np
  refine ⟨b, b', h1, h1', tdho_units hc O O' ?_⟩
  rw [hh, hh']
  refine scaled_congr fun i _ => ?_
  push_cast
  ring

/-- **C138** `TwoDimensionalDoubleWell`: the width of the barrier is a length. -/
theorem C138_double_well {c : ℝ} (hc : 0 < c) (u : NDArray ℂ) (l num : ℕ) (R omega mass barrier : ℝ) (axis : ℕ) (np : Module) :
    ∃ b b', doubleWell (.ok u) l num R omega mass barrier axis np = .ok b ∧
      doubleWell (.ok u) l num (c * R) (omega / c ^ 2) mass (c * barrier) axis np = .ok b' ∧
      InUnits c (1 / c ^ 2) (1 / c) b b' := by
  obtain ⟨b, h1, O, hh⟩ := doubleWell_ok u l num R omega mass barrier axis np
  obtain ⟨b', h1', O', hh'⟩ := doubleWell_ok u l num (c * R) (omega / c ^ 2) mass (c * barrier) axis np
  refine ⟨b, b', h1, h1', tdho_units hc O O' ?_⟩
  rw [hh, hh']
  exact scaled_congr fun i _ => by rw [doubleWellEntry_scale hc, Complex.ofReal_mul]

/-! ## Other bases, spin -/

theorem bra_shape' {b : BasisSet ℂ} {l : ℕ} (hb : WellFormed b l) : ∀ x, b.bra = some x → ∃ g, x.shape = l :: g := by
  intro x hx
  unfold BasisSet.bra at hx
  cases h : b.braSpf with
  | some y =>
    rw [h] at hx
    obtain rfl := Option.some.inj hx
    obtain ⟨g, h, -⟩ := hb.bra y h
    exact ⟨g, h⟩
  | none =>
    rw [h] at hx
    cases h' : b.spf with
    | none => rw [h'] at hx; cases hx
    | some y =>
      rw [h'] at hx
      obtain rfl := Option.some.inj hx
      obtain ⟨g, h, -⟩ := hb.spf y h'
      exact ⟨g, h⟩

/-- **C138** The relation survives a change of basis with the same coefficients. -/
theorem C138_change {c e v : ℝ} {b b' d d' : BasisSet ℂ} {l : ℕ} (I : InUnits c e v b b') (hb : WellFormed b l)
    (hb' : WellFormed b' l) {C : NDArray ℂ} {Ct : Option (NDArray ℂ)} (run : (changeBasis C Ct).run b = (.ok (), d))
    (run' : (changeBasis C Ct).run b' = (.ok (), d')) : InUnits c e v d d' := by
  obtain ⟨n, hn, B, -⟩ := C03_change_basis hb run
  obtain ⟨n', hn', B', -⟩ := C03_change_basis hb' run'
  obtain rfl : n = n' := by
    rw [hn] at hn'
    injection hn' with _ h
    injection h
  set Cd := Ct.getD C.conj.T
  have one : ∀ {k : ℝ} {x y x' y' : NDArray ℂ}, x.shape = [l, l] ∧ ScaledArr k x y → IsOneBody C Cd l n x x' →
      IsOneBody C Cd l n y y' → ScaledArr k x' y' := fun {k x y x' y'} h h1 h2 => by
    refine ⟨h2.1.trans h1.1.symm, fun i hi => ?_⟩
    rw [h1.1] at hi
    obtain ⟨p, q, rfl, hp, hq⟩ := inRange_two.1 hi
    rw [h1.2 p hp q hq, h2.2 p hp q hq, mul_sum]
    refine sum_congr rfl fun a ha => ?_
    rw [mul_sum]
    refine sum_congr rfl fun b hb => ?_
    rw [scaled_two h.2 h.1 (mem_range.1 ha) (mem_range.1 hb)]
    ring
  have fn : ∀ {k : ℝ} {f : ℕ → ℕ → ℂ} {x y x' y' : NDArray ℂ}, (∃ g, x.shape = l :: g) ∧ ScaledArr k x y →
      (x'.shape = n :: x.shape.tail ∧ ∀ p < n, ∀ g, InRange x.shape.tail g →
        x'.get (p :: g) = ∑ a ∈ range l, f a p * x.get (a :: g)) →
      (y'.shape = n :: y.shape.tail ∧ ∀ p < n, ∀ g, InRange y.shape.tail g →
        y'.get (p :: g) = ∑ a ∈ range l, f a p * y.get (a :: g)) → ScaledArr k x' y' := fun {k f x y x' y'} h h1 h2 => by
    obtain ⟨⟨g, sx⟩, h⟩ := h
    rw [h.1] at h2
    refine ⟨h2.1.trans h1.1.symm, fun i hi => ?_⟩
    rw [h1.1] at hi
    match i, hi with
    | p :: i, ⟨hp, hi⟩ =>
      rw [h1.2 p hp i hi, h2.2 p hp i hi, mul_sum]
      refine sum_congr rfl fun a ha => ?_
      rw [sx, List.tail_cons] at hi
      rw [scaled_cons h sx (mem_range.1 ha) hi]
      ring
  have bd := B'.dipole
  rw [I.dim] at bd
  refine ⟨by rw [B.size, B'.size], by rw [B.rest.2.2.2.2.1, B'.rest.2.2.2.2.1, I.dim], ?_, ?_, ?_, ?_, ?_, ?_,
    by rw [B.rest.2.2.2.2.2, B'.rest.2.2.2.2.2, I.rest.1], by rw [B.rest.2.2.1, B'.rest.2.2.1, I.rest.2.1],
    by rw [B.rest.2.2.2.1, B'.rest.2.2.2.1, I.rest.2.2]⟩
  · refine optRel_trans (optRel_and (fun x => x.shape = [l, l]) I.h (fun x hx => ?_)) B.h B'.h
      fun a b a' b' => one
    obtain ⟨y, hy, s⟩ := hb.h
    rwa [← Option.some.inj (hx.symm.trans hy)] at s
  · exact optRel_trans (optRel_and (fun x => x.shape = [l, l]) I.s hb.s) B.s B'.s
      fun a b a' b' => one
  · refine optRel_trans (optRel_and (fun x => x.shape = [l, l, l, l]) I.u (fun x hx => ?_)) B.u B'.u
      fun x y x' y' h h1 h2 => ⟨h2.1.trans h1.1.symm, fun i hi => ?_⟩
    · obtain ⟨y, hy, s⟩ := hb.u
      rwa [← Option.some.inj (hx.symm.trans hy)] at s
    · rw [h1.1] at hi
      match i, hi with
      | [p, q, r, s], ⟨hp, hq, hr, hs, _⟩ =>
        rw [h1.2 p hp q hq r hr s hs, h2.2 p hp q hq r hr s hs, mul_sum]
        refine sum_congr rfl fun a ha => ?_
        rw [mul_sum]
        refine sum_congr rfl fun b hb => ?_
        rw [mul_sum]
        refine sum_congr rfl fun m hm => ?_
        rw [mul_sum]
        refine sum_congr rfl fun k hk => ?_
        rw [scaled_four h.2 h.1 (mem_range.1 ha) (mem_range.1 hb) (mem_range.1 hm) (mem_range.1 hk)]
        ring
  · refine optRel_trans (optRel_and (fun x => x.shape = [b.dim, l, l]) I.dipole (fun x hx => (hb.dipole x hx).2)) B.dipole bd fun x y x' y' h h1 h2 => ⟨h2.1.trans h1.1.symm, fun i hi => ?_⟩
    rw [h1.1] at hi
    match i, hi with
    | [t, p, q], ⟨ht, hp, hq, _⟩ =>
      rw [h1.2 t ht p hp q hq, h2.2 t ht p hp q hq, mul_sum]
      refine sum_congr rfl fun a ha => ?_
      rw [mul_sum]
      refine sum_congr rfl fun b hb => ?_
      rw [scaled_three h.2 h.1 ht (mem_range.1 ha) (mem_range.1 hb)]
      ring
  · rw [B.rest.2.2.2.2.1]
    refine optRel_trans (optRel_and (fun x => ∃ g, x.shape = l :: g) I.spf (fun x hx => ?_))
      B.spf B'.spf fun a b a' b' h h1 h2 => fn (f := fun a p => C.get [a, p]) h h1 h2
    obtain ⟨g, h, -⟩ := hb.spf x hx
    exact ⟨g, h⟩
  · rw [B.rest.2.2.2.2.1]
    exact optRel_trans (optRel_and (fun x => ∃ g, x.shape = l :: g) I.bra (bra_shape' hb))
      B.bra B'.bra fun a b a' b' h h1 h2 => fn (f := fun a p => Cd.get [p, a]) h h1 h2

/-- **C138** The relation survives the spin doubling, with or without anti-symmetrisation. -/
theorem C138_doubled {c e v : ℝ} {b b' d d' : BasisSet ℂ} {l : ℕ} (I : InUnits c e v b b') (hb : WellFormed b l)
    (hb' : WellFormed b' l) (hsp : b.includesSpin = false) {a₀ a₁ b₀ b₁ a₀' a₁' b₀' b₁' : ℂ} {r r' anti : Bool}
    (run : (changeToGeneralBase [a₀, a₁] [b₀, b₁] anti).run b = (.ok r, d))
    (run' : (changeToGeneralBase [a₀', a₁'] [b₀', b₁'] anti).run b' = (.ok r', d')) : InUnits c e v d d' := by
  obtain ⟨e1, e2, e3⟩ := I.rest
  obtain ⟨-, G, -, -⟩ := C16_general hb hsp run
  obtain ⟨-, G', -, -⟩ := C16_general hb' (e2.trans hsp) run'
  have one : ∀ {k : ℝ} {x y x' y' : NDArray ℂ}, x.shape = [l, l] ∧ ScaledArr k x y → IsDoubledOneBody l l x x' →
      IsDoubledOneBody l l y y' → ScaledArr k x' y' := fun {k x y x' y'} h h1 h2 => by
    refine ⟨h2.1.trans h1.1.symm, fun i hi => ?_⟩
    rw [h1.1] at hi
    obtain ⟨p', q', rfl, hp, hq⟩ := inRange_two.1 hi
    obtain ⟨p, hp', m, hm, rfl⟩ := split_two hp
    obtain ⟨q, hq', j, hj, rfl⟩ := split_two hq
    rw [h1.2 p hp' q hq' m hm j hj, h2.2 p hp' q hq' m hm j hj]
    split_ifs
    · exact scaled_two h.2 h.1 hp' hq'
    · simp
  have fn : ∀ {k : ℝ} {x y x' y' : NDArray ℂ}, (∃ g, x.shape = l :: g) ∧ ScaledArr k x y →
      IsDoubledSpf l x x' → IsDoubledSpf l y y' → ScaledArr k x' y' := fun {k x y x' y'} h h1 h2 => by
    obtain ⟨⟨g, sx⟩, h⟩ := h
    refine ⟨by rw [h2.1, h1.1, h.1], fun i hi => ?_⟩
    rw [h1.1] at hi
    match i, hi with
    | p :: g', ⟨hp, hg⟩ =>
      obtain ⟨p, hp', i, hi, rfl⟩ := split_two hp
      rw [h1.2 p hp' i hi g' hg, h2.2 p hp' i hi g' (by rw [h.1]; exact hg)]
      rw [sx, List.tail_cons] at hg
      exact scaled_cons h sx hp' hg
  have uu := optRel_and (fun x => x.shape = [l, l, l, l]) I.u (fun x hx => by
    obtain ⟨y, hy, s⟩ := hb.u
    rwa [← Option.some.inj (hx.symm.trans hy)] at s)
  have bd := G'.dipole
  rw [I.dim] at bd
  refine ⟨by rw [G.size, G'.size], by rw [G.rest.2.2.1, G'.rest.2.2.1, I.dim], ?_, ?_, ?_, ?_, ?_, ?_,
    by rw [G.rest.2.2.2, G'.rest.2.2.2, e1], by rw [G.spin, G'.spin], by rw [G.antiSym, G'.antiSym, e3]⟩
  · refine optRel_trans (optRel_and (fun x => x.shape = [l, l]) I.h (fun x hx => ?_)) G.h G'.h
      fun a b a' b' => one
    obtain ⟨y, hy, s⟩ := hb.h
    rwa [← Option.some.inj (hx.symm.trans hy)] at s
  · exact optRel_trans (optRel_and (fun x => x.shape = [l, l]) I.s hb.s) G.s G'.s
      fun a b a' b' => one
  · have g := G.u
    have g' := G'.u
    rw [e3] at g'
    split_ifs at g g'
    · refine optRel_trans uu g g' fun a b a' b' h h1 h2 => ⟨h2.1.trans h1.1.symm, fun i hi => ?_⟩
      rw [h1.1] at hi
      match i, hi with
      | [p, q, r, s], ⟨hp, hq, hr, hs, _⟩ =>
        obtain ⟨p, hp', i, hi, rfl⟩ := split_two hp
        obtain ⟨q, hq', j, hj, rfl⟩ := split_two hq
        obtain ⟨r, hr', k, hk, rfl⟩ := split_two hr
        obtain ⟨s, hs', m, hm, rfl⟩ := split_two hs
        rw [h1.2 p hp' q hq' r hr' s hs' i hi j hj k hk m hm, h2.2 p hp' q hq' r hr' s hs' i hi j hj k hk m hm,
          scaled_four h.2 h.1 hp' hq' hr' hs', scaled_four h.2 h.1 hp' hq' hs' hr']
        split_ifs <;> ring
    · refine optRel_trans uu g g' fun a b a' b' h h1 h2 => ⟨h2.1.trans h1.1.symm, fun i hi => ?_⟩
      rw [h1.1] at hi
      match i, hi with
      | [p, q, r, s], ⟨hp, hq, hr, hs, _⟩ =>
        obtain ⟨p, hp', i, hi, rfl⟩ := split_two hp
        obtain ⟨q, hq', j, hj, rfl⟩ := split_two hq
        obtain ⟨r, hr', k, hk, rfl⟩ := split_two hr
        obtain ⟨s, hs', m, hm, rfl⟩ := split_two hs
        rw [h1.2 p hp' q hq' r hr' s hs' i hi j hj k hk m hm, h2.2 p hp' q hq' r hr' s hs' i hi j hj k hk m hm,
          scaled_four h.2 h.1 hp' hq' hr' hs']
        split_ifs <;> ring
  · refine optRel_trans (optRel_and (fun x => x.shape = [b.dim, l, l]) I.dipole (fun x hx => (hb.dipole x hx).2)) G.dipole bd fun x y x' y' h h1 h2 => ⟨h2.1.trans h1.1.symm, fun i hi => ?_⟩
    rw [h1.1] at hi
    match i, hi with
    | [t, p, q], ⟨ht, hp, hq, _⟩ =>
      obtain ⟨p, hp', i, hi, rfl⟩ := split_two hp
      obtain ⟨q, hq', j, hj, rfl⟩ := split_two hq
      rw [h1.2 t ht p hp' q hq' i hi j hj, h2.2 t ht p hp' q hq' i hi j hj]
      split_ifs
      · exact scaled_three h.2 h.1 ht hp' hq'
      · simp
  · rw [G.rest.2.2.1]
    refine optRel_trans (optRel_and (fun x => ∃ g, x.shape = l :: g) I.spf (fun x hx => ?_))
      G.spf G'.spf fun a b a' b' => fn
    obtain ⟨g, h, -⟩ := hb.spf x hx
    exact ⟨g, h⟩
  · rw [G.rest.2.2.1]
    exact optRel_trans (optRel_and (fun x => ∃ g, x.shape = l :: g) I.bra (bra_shape' hb))
      G.bra G'.bra fun a b a' b' => fn

/-! ## Systems -/

/-- **C138** If all energies of the elements are multiplied by one number, so are the reference energy and the Fock matrix. -/
theorem C138_system {T : Type} {c e : ℝ} {w w' : World ℂ T} {s s' : ℕ} {x x' : Sys} {b b' : BasisSet ℂ} (ok : SysOK w s x b)
    (ok' : SysOK w' s' x' b') (hk : x'.kind = x.kind) (hn : x'.n = x.n) (I : InUnits c e e b b') :
    (∃ r r', (World.referenceEnergy s).run w = (.ok r, w) ∧ (World.referenceEnergy s').run w' = (.ok r', w') ∧
      r'.get [] = e * r.get []) ∧
    ∀ {m m₁ m' m₁' : Mem ℂ} {h u t h' u' t' : ℕ}, m[h]? = b.h → m[u]? = b.u → m'[h']? = b'.h → m'[u']? = b'.u →
      (World.constructFock x h u none).run m = (.ok t, m₁) → (World.constructFock x' h' u' none).run m' = (.ok t', m₁') →
      ∃ F F', m₁[t]? = some F ∧ m₁'[t']? = some F' ∧ ScaledArr e F F' := by
  have hl : x'.l = x.l := by rw [← ok.wf.l_eq, ← ok'.wf.l_eq, I.size]
  obtain ⟨H, hh, sh⟩ := ok.wf.h
  obtain ⟨U, hu, su⟩ := ok.wf.u
  obtain ⟨H', hh', sh'⟩ := ok'.wf.h
  obtain ⟨U', hu', su'⟩ := ok'.wf.u
  have PH := I.h
  have PU := I.u
  rw [hh, hh'] at PH
  rw [hu, hu'] at PU
  have le := ok.size.le
  have f2 : ∀ {p q}, p < x.l → q < x.l → H'.get [p, q] = e * H.get [p, q] := fun hp hq => scaled_two PH sh hp hq
  have f4 : ∀ {p q r s}, p < x.l → q < x.l → r < x.l → s < x.l → U'.get [p, q, r, s] = e * U.get [p, q, r, s] :=
    fun hp hq hr hs => scaled_four PU su hp hq hr hs
  constructor
  · obtain ⟨r, h1, -, h2⟩ := World.referenceEnergy_run ok hh hu
    obtain ⟨r', h1', -, h2'⟩ := World.referenceEnergy_run ok' hh' hu'
    refine ⟨r, r', h1, h1', ?_⟩
    rw [h2, h2', hk, hn]
    have e1 : ∀ i ∈ range x.n, H'.get [i, i] = e * H.get [i, i] := fun i hi => by
      have := mem_range.1 hi
      exact f2 (by omega) (by omega)
    have e2 : ∀ i ∈ range x.n, ∀ j ∈ range x.n, U'.get [i, j, i, j] = e * U.get [i, j, i, j] := fun i hi j hj => by
      have := mem_range.1 hi
      have := mem_range.1 hj
      exact f4 (by omega) (by omega) (by omega) (by omega)
    have e3 : ∀ i ∈ range x.n, ∀ j ∈ range x.n, U'.get [i, j, j, i] = e * U.get [i, j, j, i] := fun i hi j hj => by
      have := mem_range.1 hi
      have := mem_range.1 hj
      exact f4 (by omega) (by omega) (by omega) (by omega)
    cases x.kind
    · show energyGeneral _ _ _ = _ * energyGeneral _ _ _
      unfold energyGeneral
      rw [sum_congr rfl e1, sum_congr rfl fun i hi => sum_congr rfl (e2 i hi)]
      simp only [← mul_sum]
      ring
    · show energySpatial _ _ _ = _ * energySpatial _ _ _
      unfold energySpatial
      rw [sum_congr rfl e1, sum_congr rfl fun i hi => sum_congr rfl fun j hj => by
        rw [e2 i hi j hj, e3 i hi j hj, mul_left_comm, ← mul_sub]]
      simp only [← mul_sum]
      ring
  · intro m m₁ m' m₁' h u t h' u' t' mh mu mh' mu' run run'
    obtain ⟨np, hnp⟩ := ok.wf.np
    obtain ⟨np', hnp'⟩ := ok'.wf.np
    obtain ⟨rfl, rfl⟩ := fock_inv (ok.np.trans hnp) ok.size.o ok.size.le (mh.trans hh) (mu.trans hu) sh su run
    obtain ⟨rfl, rfl⟩ := fock_inv (ok'.np.trans hnp') ok'.size.o ok'.size.le (mh'.trans hh') (mu'.trans hu') sh' su' run'
    refine ⟨_, _, List.getElem?_concat_length, List.getElem?_concat_length, ?_, fun i hi => ?_⟩
    · show [x'.l, x'.l] = [x.l, x.l]
      rw [hl]
    · obtain ⟨p, q, rfl, hp, hq⟩ := inRange_two.1 (show InRange [x.l, x.l] i from hi)
      rw [fockArr, fockArr, ofFn_get_of (by rw [hl]; exact ⟨hp, hq, trivial⟩), ofFn_get_of (by exact ⟨hp, hq, trivial⟩), hk, hn]
      simp only [List.getD_cons_zero, List.getD_cons_succ]
      have e2 : ∀ i ∈ range x.n, U'.get [p, i, q, i] = e * U.get [p, i, q, i] := fun i hi => by
        have := mem_range.1 hi
        exact f4 hp (by omega) hq (by omega)
      have e3 : ∀ i ∈ range x.n, U'.get [p, i, i, q] = e * U.get [p, i, i, q] := fun i hi => by
        have := mem_range.1 hi
        exact f4 hp (by omega) (by omega) hq
      cases x.kind
      · show fockGeneralAt _ _ _ _ _ = _ * fockGeneralAt _ _ _ _ _
        unfold fockGeneralAt
        rw [f2 hp hq, sum_congr rfl e2, ← mul_sum, mul_add]
      · show fockSpatialAt _ _ _ _ _ = _ * fockSpatialAt _ _ _ _ _
        unfold fockSpatialAt
        rw [f2 hp hq, mul_add, mul_sum]
        congr 1
        exact sum_congr rfl fun i hi => by rw [e2 i hi, e3 i hi]; ring

/-- **C138** The energies of `N` electrons: with one-body elements times `e` and two-body elements times `v` they are `e` times the
energies with the interaction `v/e` times as strong. -/
theorem C138_electrons {c e v : ℝ} (he : 0 < e) {b b' : BasisSet ℂ} {l N : ℕ} (hb : WellFormed b l) (I : InUnits c e v b b')
    {H U H' U' : NDArray ℂ} (hh : b.h = some H) (hu : b.u = some U) (hh' : b'.h = some H') (hu' : b'.u = some U')
    {E E' : ℕ → ℝ} (S : ElectronEnergies l H (smul .float64 ((v / e : ℝ) : ℂ) U) N E) (S' : ElectronEnergies l H' U' N E') :
    ∀ k < (2 * l).choose N, E' k = e * E k := by
  have PH := I.h
  have PU := I.u
  rw [hh, hh'] at PH
  rw [hu, hu'] at PU
  have sh : H.shape = [l, l] := by
    obtain ⟨y, hy, s⟩ := hb.h
    rwa [← Option.some.inj (hh.symm.trans hy)] at s
  have su : U.shape = [l, l, l, l] := by
    obtain ⟨y, hy, s⟩ := hb.u
    rwa [← Option.some.inj (hu.symm.trans hy)] at s
  obtain ⟨Ψ, S⟩ := S
  obtain ⟨Ψ', S'⟩ := S'
  have PU' : ScaledArr e (smul .float64 ((v / e : ℝ) : ℂ) U) U' := by
    refine ⟨PU.1, fun i hi => ?_⟩
    have hi : InRange U.shape i := hi
    rw [smul, ofFn_get_of hi, PU.2 i hi, ← mul_assoc, ← Complex.ofReal_mul, mul_div_cancel₀ _ he.ne']
  intro k hk
  exact (S'.unique (spectrum_scale he.le (spinOne_scale PH sh) (spinTwo_scale PU' su) S) hk)

/-- **C138** The density on the grid is a number of particles per `dim` lengths. -/
theorem C138_density {c e v : ℝ} (hc : 0 < c) {b b' : BasisSet ℂ} (I : InUnits c e v b b') {rho x y x' y' : NDArray ℂ} {l : ℕ}
    {g : List ℕ} (hnp : b.np.isSome) (hx : b.spf = some x) (hy : b.bra = some y) (sx : x.shape = l :: g)
    (sy : y.shape = l :: g) (hd : y.dtype = x.dtype) (sr : rho.shape = [l, l]) (hdr : x.dtype.promote rho.dtype = x.dtype)
    (hx' : b'.spf = some x') (hy' : b'.bra = some y') (hd' : y'.dtype = x'.dtype) (hdr' : x'.dtype.promote rho.dtype = x'.dtype) :
    ∃ d d', ((computeParticleDensity rho none none).run b).1 = .ok d ∧ ((computeParticleDensity rho none none).run b').1 = .ok d' ∧
      ScaledArr (1 / c ^ b.dim) d d' := by
  have PS := I.spf
  have PB := I.bra
  rw [hx, hx'] at PS
  rw [hy, hy'] at PB
  obtain ⟨d, r, sd, ed⟩ := C27_density hnp hx hy sx sy hd sr hdr
  obtain ⟨d', r', sd', ed'⟩ := C27_density (by rw [I.rest.1]; exact hnp) hx' hy' (PS.1.trans sx) (PB.1.trans sy) hd' sr hdr'
  refine ⟨d, d', by rw [r], by rw [r'], by rw [sd, sd'], fun i hi => ?_⟩
  rw [sd] at hi
  rw [ed i hi, ed' i hi]
  unfold densityAt
  rw [mul_sum]
  refine sum_congr rfl fun p hp => ?_
  rw [mul_sum]
  refine sum_congr rfl fun q hq => ?_
  rw [scaled_cons PB sy (mem_range.1 hp) hi, scaled_cons PS sx (mem_range.1 hq) hi]
  have : ((1 / Real.sqrt (c ^ b.dim) : ℝ) : ℂ) * ((1 / Real.sqrt (c ^ b.dim) : ℝ) : ℂ) = ((1 / c ^ b.dim : ℝ) : ℂ) := by
    rw [← Complex.ofReal_mul, one_div_mul_one_div, Real.mul_self_sqrt (by positivity)]
  rw [← this]
  ring

theorem spinDipole_scale {k : ℝ} {n l : ℕ} {x y : NDArray ℂ} (h : ScaledArr k x y) (sx : x.shape = [n, l, l]) {i : ℕ} (hi : i < n)
    (p q : Fin (2 * l)) : spinDipole l y i p q = k * spinDipole l x i p q := by
  unfold spinDipole
  split_ifs
  · exact scaled_three h sx hi (by omega) (by omega)
  · simp

/-- The evolution with all elements times `e`, with time running `e` times as fast. -/
theorem evolves_scale {N L : ℕ} {e : ℝ} {h h' : ℝ → Fin L → Fin L → ℂ} {u u' : ℝ → Fin L → Fin L → Fin L → Fin L → ℂ}
    (hh : ∀ t p q, h' t p q = e * h (e * t) p q) (hu : ∀ t p q r s, u' t p q r s = e * u (e * t) p q r s)
    {Ψ : ℝ → Wave ℂ N L} (H : Evolves h u Ψ) : Evolves h' u' fun t => Ψ (e * t) := by
  intro t x
  rw [hamiltonOp_scale (hh t) (hu t)]
  have := (H (e * t) x).scomp t ((hasDerivAt_id t).const_mul e)
  refine this.congr_deriv ?_
  rw [mul_one, Complex.real_smul]
  ring

/-- **C138** Electrons in a laser field: an energy times `e` is a time divided by `e`, and the field is an energy per length.  The
motion is the same, at the other times. -/
theorem C138_laser {c e : ℝ} (hc : 0 < c) {w w₁ w' w₁' : World ℂ ℝ} {s o s' o' : ℕ} {x x' : Sys} {b b' : BasisSet ℂ} {y y' : TEOp ℂ ℝ}
    {pulse pulse' : Attr ℂ ℝ} {pol pol' : Option (Attr ℂ ℝ)} {f f' : ℝ → Val ℂ} {a a' : ℝ → ℂ} {ε ε' : ℝ → ℕ → ℂ} {F F' : ℕ → ℝ → ℝ}
    (I : InUnits c e e b b') (ok : SysOK w s x b) (ok' : SysOK w' s' x' b') (hd : b.dipole.isSome = true)
    (hy : w.ops[o]? = some y) (hk : y.kind = .laser pulse pol) (hp : Given pulse f) (hf : ∀ t, IsNumber (f t) (a t))
    (he : GivenPol pol b.dim ε) (callable : IsCallable pulse ∨ ∃ a, pol = some a ∧ IsCallable a)
    (hset : (setTimeEvolutionOperator s (some o)).run w = (.ok (), w₁)) (hF : ∀ t, ∀ k < b.dim, a t * ε t k = F k t)
    (hy' : w'.ops[o']? = some y') (hk' : y'.kind = .laser pulse' pol') (hp' : Given pulse' f') (hf' : ∀ t, IsNumber (f' t) (a' t))
    (he' : GivenPol pol' b'.dim ε') (callable' : IsCallable pulse' ∨ ∃ a, pol' = some a ∧ IsCallable a)
    (hset' : (setTimeEvolutionOperator s' (some o')).run w' = (.ok (), w₁')) (hF' : ∀ t, ∀ k < b'.dim, a' t * ε' t k = F' k t)
    (field : ∀ k < b.dim, ∀ t, F' k t = e / c * F k (e * t)) {H U H' U' : ℝ → NDArray ℂ} (A : Answered w₁ s o H U)
    (A' : Answered w₁' s' o' H' U') {N : ℕ} {Ψ : ℝ → Wave ℂ N (2 * b.l)}
    (hΨ : Evolves (fun t => spinOne b.l (H t)) (fun t => spinTwo b.l (U t)) Ψ) :
    Evolves (fun t => spinOne b.l (H' t)) (fun t => spinTwo b.l (U' t)) fun t => Ψ (e * t) := by
  have wf := ok.wf
  rw [← ok.wf.l_eq] at wf
  obtain ⟨h, hh, sh⟩ := wf.h
  obtain ⟨u, hu, su⟩ := wf.u
  obtain ⟨h', hh', -⟩ := ok'.wf.h
  obtain ⟨u', hu', -⟩ := ok'.wf.u
  obtain ⟨d, hd⟩ := Option.isSome_iff_exists.1 hd
  have PD := I.dipole
  rw [hd] at PD
  cases hd' : b'.dipole with
  | none => rw [hd'] at PD; exact PD.elim
  | some d' =>
  rw [hd'] at PD
  have PH := I.h
  have PU := I.u
  rw [hh, hh'] at PH
  rw [hu, hu'] at PU
  obtain ⟨s1, -, s2, -⟩ := (laser_elements ok hy hk hp hf he callable hset hF hh hu hd).2 H U A
  obtain ⟨s1', -, s2', -⟩ := (laser_elements ok' hy' hk' hp' hf' he' callable' hset' hF' hh' hu' hd').2 H' U' A'
  rw [I.size, I.dim] at s1'
  rw [I.size] at s2'
  refine evolves_scale (fun t p q => ?_) (fun t p q r s => ?_) hΨ
  · rw [s1, s1', spinOne_scale PH sh, mul_add, mul_sum]
    congr 1
    refine sum_congr rfl fun k hk => ?_
    rw [spinDipole_scale PD (wf.dipole d hd).2 (mem_range.1 hk), field k (mem_range.1 hk)]
    have : (c : ℂ) ≠ 0 := by exact_mod_cast hc.ne'
    push_cast
    field_simp
  · simp only [s2, s2']
    exact spinTwo_scale PU su p q r s

/-! ## Potentials -/

open Potentials in
/-- **C138** Six of the classes of potentials with lengths in another unit: `V(x)` becomes `V(x/c)/c²`. -/
theorem C138_potentials {c : ℝ} (hc : 0 < c) (x : ℝ) :
    (∀ omega, (Potential.ho (omega / c ^ 2)).call x = (Potential.ho omega).call (x / c) / c ^ 2) ∧
    (∀ omega l, (Potential.dw (omega / c ^ 2) (c * l)).call x = (Potential.dw omega l).call (x / c) / c ^ 2) ∧
    (∀ p q r, (Potential.symmetricDW (p / c ^ 8) (q / c ^ 6) (r / c ^ 4)).call x
      = (Potential.symmetricDW p q r).call (x / c) / c ^ 2) ∧
    (∀ p q r, (Potential.asymmetricDW (p / c ^ 6) (q / c ^ 5) (r / c ^ 4)).call x
      = (Potential.asymmetricDW p q r).call (x / c) / c ^ 2) ∧
    (∀ weight center deviation, (Potential.gaussian (weight / c ^ 2) (c * center) (c * deviation)).call x
      = (Potential.gaussian weight center deviation).call (x / c) / c ^ 2) ∧
    ∀ Za a, (Potential.atomic (Za / c) (c ^ 2 * a)).call x = (Potential.atomic Za a).call (x / c) / c ^ 2 := by
  refine ⟨fun omega => ?_, fun omega l => ?_, fun p q r => ?_, fun p q r => ?_, fun w m d => ?_, fun Za a => ?_⟩
  · simp only [Potential.call, hoCall]
    field_simp
  · simp only [Potential.call, hoCall, abs_div, abs_of_pos hc]
    field_simp
  · simp only [Potential.call]
    field_simp
  · simp only [Potential.call]
    field_simp
  · simp only [Potential.call, gaussianCall]
    have : -(x - c * m) ^ 2 / (2.0 * (c * d) ^ 2) = -(x / c - m) ^ 2 / (2.0 * d ^ 2) := by
      rw [show x - c * m = c * (x / c - m) by field_simp, mul_pow, mul_pow, ← mul_neg, mul_left_comm,
        mul_div_mul_left _ _ (by positivity)]
    rw [this]
    ring
  · simp only [Potential.call]
    rw [show x ^ 2 + c ^ 2 * a = c ^ 2 * ((x / c) ^ 2 + a) by field_simp, sqrt_mul_sq hc, ← neg_div, div_div, div_div]
    ring

open Potentials in
/-- **C138** The two others cannot be converted: the height of the smooth double well and of the hard wall are fixed. -/
theorem C138_fixed_units {c : ℝ} (hc : 0 < c) (h1 : c ≠ 1) :
    (∀ a ≠ 0, ¬ ∃ a', ∀ x, (Potential.dwSmooth a').call x = (Potential.dwSmooth a).call (x / c) / c ^ 2) ∧
    ∀ w m d k, d ≠ 0 → ¬ ∃ w' m' d' k', d' ≠ 0 ∧
      ∀ x, (Potential.gaussianHardWall w' m' d' k').call x = (Potential.gaussianHardWall w m d k).call (x / c) / c ^ 2 := by
  have hc2 : c ^ 2 ≠ 1 := fun h => h1 (by nlinarith)
  constructor
  · rintro a ha ⟨a', h⟩
    simp only [Potential.call, show (1.0 : ℝ) = 1 by norm_num, show (0.5 : ℝ) = 1 / 2 by norm_num] at h
    have hz : (c * a / 2) / c = 1 / 2 * a := by field_simp
    have e0 := h 0
    have e1 := h (c * a / 2)
    rw [hz, sub_self] at e1
    have ha' : a' ≠ 0 := by
      rintro rfl
      have : (1 / (2 * a ^ 2) * (0 / c + 1 / 2 * a) ^ 2 * (0 / c - 1 / 2 * a) ^ 2 / c ^ 2 : ℝ) ≠ 0 := by
        rw [zero_div, zero_add, zero_sub, neg_sq]
        positivity
      exact this (by rw [← e0]; ring)
    have e2 : a' ^ 2 = c ^ 2 * a ^ 2 := by
      have : (c * a / 2 + 1 / 2 * a') * (c * a / 2 - 1 / 2 * a') = 0 := by
        have : 1 / (2 * a' ^ 2) ≠ 0 := by positivity
        have h0 : (1 / (2 * a' ^ 2)) * ((c * a / 2 + 1 / 2 * a') * (c * a / 2 - 1 / 2 * a')) ^ 2 = 0 := by
          rw [mul_pow, ← mul_assoc, e1]
          ring
        exact pow_eq_zero_iff (two_ne_zero) |>.1 ((mul_eq_zero.1 h0).resolve_left this)
      linear_combination -4 * this
    have : a' ^ 2 * c ^ 2 = a ^ 2 := by
      have l : (1 / (2 * a' ^ 2) * (0 + 1 / 2 * a') ^ 2 * (0 - 1 / 2 * a') ^ 2 : ℝ) = a' ^ 2 / 32 := by
        field_simp
        ring
      have r : (1 / (2 * a ^ 2) * (0 / c + 1 / 2 * a) ^ 2 * (0 / c - 1 / 2 * a) ^ 2 / c ^ 2 : ℝ) = a ^ 2 / c ^ 2 / 32 := by
        field_simp
        ring
      rw [l, r, div_left_inj' (by norm_num)] at e0
      rw [e0, div_mul_cancel₀ _ (by positivity)]
    have h4 : c ^ 4 = 1 := by
      have : a ^ 2 * c ^ 4 = a ^ 2 * 1 := by linear_combination this - c ^ 2 * e2
      exact mul_left_cancel₀ (pow_ne_zero 2 ha) this
    have : (c ^ 2 - 1) * (c ^ 2 + 1) = 0 := by linear_combination h4
    rcases mul_eq_zero.1 this with h | h
    · exact hc2 (by linarith)
    · nlinarith [sq_nonneg c]
  · rintro w m d k hd ⟨w', m', d', k', hd', h⟩
    have lim : ∀ w m d : ℝ, d ≠ 0 → Filter.Tendsto (gaussianCall w m d) Filter.atTop (nhds 0) := fun w m d hd => by
      unfold gaussianCall
      rw [show (0 : ℝ) = -w * 0 by ring]
      refine Filter.Tendsto.const_mul _ (Real.tendsto_exp_atBot.comp ?_)
      have : Filter.Tendsto (fun x : ℝ => (x - m) ^ 2 / (2.0 * d ^ 2)) Filter.atTop Filter.atTop :=
        Filter.Tendsto.atTop_div_const (by positivity)
          ((Filter.tendsto_pow_atTop two_ne_zero).comp (Filter.tendsto_atTop_add_const_right _ (-m) Filter.tendsto_id))
      refine (Filter.tendsto_neg_atTop_atBot.comp this).congr fun x => ?_
      rw [neg_div]
      rfl
    have wall : ∀ w m d k : ℝ, d ≠ 0 → Filter.Tendsto (Potential.gaussianHardWall w m d k).call Filter.atTop (nhds 1e5) :=
        fun w m d k hd => by
      have : Filter.Tendsto (fun x => gaussianCall w m d x + 1e5) Filter.atTop (nhds (0 + 1e5)) := (lim w m d hd).add_const _
      rw [zero_add] at this
      refine this.congr' ?_
      filter_upwards [Filter.eventually_gt_atTop k] with x hx
      rw [Potential.call, if_pos (lt_of_lt_of_le hx (le_abs_self x))]
    have t1 := wall w' m' d' k' hd'
    have t2 := ((wall w m d k hd).comp (Filter.tendsto_id.atTop_div_const hc)).div_const (c ^ 2)
    have := tendsto_nhds_unique (t1.congr h) t2
    rw [eq_div_iff (by positivity)] at this
    exact hc2 (mul_left_cancel₀ (a := (1e5 : ℝ)) (by norm_num) (by rw [this, mul_one]))

/-! ## Examples -/

/-- Five oscillator functions on `1001` points with the unit of length halved. -/
example : ∃ b b', odho 5 10 1001 1 (1 / 4) 1 0 = .ok b ∧ odho 5 20 1001 (1 / 4) (1 / 2) (1 / 2) 0 = .ok b' ∧
    InUnits 2 (1 / 4) (1 / 4) b b' := by
  obtain ⟨b, b', h1, h2, I, -⟩ := C138_odho (c := 2) (by norm_num) 5 10 (num := 1001) (by norm_num) (omega := 1) (by norm_num)
    (1 / 4) 1 0 0 false false
  refine ⟨b, b', h1, ?_, ?_⟩
  · rw [← h2]
    norm_num
  · norm_num at I ⊢
    exact I

/-- Two electrons in a quantum dot with `ω = 1/4`: a quarter of the energies with `ω = 1` and an interaction twice as strong. -/
example (u : NDArray ℂ) : ∃ b b', tdho (.ok u) 6 101 8 1 1 = .ok b ∧ tdho (.ok u) 6 101 16 (1 / 4) 1 = .ok b' ∧
    (WellFormed b 6 → ∀ {H U H' U' : NDArray ℂ}, b.h = some H → b.u = some U → b'.h = some H' → b'.u = some U' → ∀ {E E' : ℕ → ℝ},
      ElectronEnergies 6 H (smul .float64 ((2 : ℝ) : ℂ) U) 2 E → ElectronEnergies 6 H' U' 2 E' →
      ∀ k < 66, E' k = 1 / 4 * E k) := by
  obtain ⟨b, b', h1, h2, I⟩ := C138_tdho (c := 2) (by norm_num) u 6 101 8 1 1 0
  refine ⟨b, b', h1, ?_, fun wf H U H' U' hh hu hh' hu' E E' S S' k hk => ?_⟩
  · rw [← h2]
    norm_num
  · have e1 : (1 / 2 ^ 2 : ℝ) = 1 / 4 := by norm_num
    have := C138_electrons (e := 1 / 2 ^ 2) (v := 1 / 2) (by norm_num) wf I hh hu hh' hu' (E := E) (E' := E')
      (by rw [show (1 / 2 / (1 / 2 ^ 2) : ℝ) = 2 by norm_num]; exact S) S' k
      (lt_of_lt_of_eq hk (by decide))
    rwa [e1] at this

/-- A smooth double well has no counterpart with lengths doubled. -/
example : ¬ ∃ a', ∀ x, (Potentials.Potential.dwSmooth a').call x = (Potentials.Potential.dwSmooth 4).call (x / 2) / 2 ^ 2 :=
  (C138_fixed_units (c := 2) (by norm_num) (by norm_num)).1 4 (by norm_num)

end QS.Props
