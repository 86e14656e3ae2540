import Verif.Lemmas.CoulombBounds
import Verif.Props.Magnetic
import Verif.Props.Coulomb

/-!
# The two-body elements of the two-dimensional dots and the Coulomb interaction
-/

namespace QS.Props

open NDArray Idx Spec TwoDim Coulomb MeasureTheory CoulombIntegral

/-- The function `p` of the two-dimensional oscillator at a point of the plane. -/
noncomputable def oscFn (mass omega : ℝ) (p : ℕ) : ℂ → ℂ := atPoint (spfState getIndicesNm mass omega p)

/-- The four-index array of a basis set holds `c` times the Coulomb integrals of the functions `phi`, which are
all integrable. -/
def HoldsCoulomb (b : BasisSet ℂ) (l : ℕ) (c : ℝ) (phi : ℕ → ℂ → ℂ) : Prop :=
  ∃ u, b.u = some u ∧ u.shape = [l, l, l, l] ∧ ∀ p q r s, p < l → q < l → r < l → s < l →
    Integrable (coulombIntegrand (phi p) (phi q) (phi r) (phi s)) ∧
    u.get [p, q, r, s] = c * coulombIntegral (phi p) (phi q) (phi r) (phi s)

/-! ## C83 -/

/-- **C83** The two-body elements of the two-dimensional harmonic oscillator are the matrix elements of the
Coulomb interaction between its single-particle functions, for all masses. -/
def C83_statement : Prop :=
  ∀ (l num : ℕ) (radiusLength omega mass : ℝ) (np : Module), 0 < omega → 0 < mass →
    ∃ b, tdho (getCoulombElementsRaw l) l num radiusLength omega mass np = .ok b ∧
      HoldsCoulomb b l 1 (oscFn mass omega)

theorem scaled_table {b : BasisSet ℂ} {l : ℕ} {omega mass : ℝ} (ho : 0 < omega) (hm : 0 < mass)
    (hu : b.u = some (smul .float64 (Real.sqrt omega : ℂ) (ofFn .float64 [l, l, l, l] (fun i => ((coulombHo
        (getIndicesNm (i.getD 0 0)).1 (getIndicesNm (i.getD 0 0)).2
        (getIndicesNm (i.getD 1 0)).1 (getIndicesNm (i.getD 1 0)).2
        (getIndicesNm (i.getD 2 0)).1 (getIndicesNm (i.getD 2 0)).2
        (getIndicesNm (i.getD 3 0)).1 (getIndicesNm (i.getD 3 0)).2 : ℝ) : ℂ))))) :
    HoldsCoulomb b l (1 / Real.sqrt mass) (oscFn mass omega) := by
  refine ⟨_, hu, rfl, fun p q r s hp hq hr hs => ⟨integrand_integrable hm ho .., ?_⟩⟩
  have hi : InRange [l, l, l, l] [p, q, r, s] := ⟨hp, hq, hr, hs, trivial⟩
  unfold smul
  rw [ofFn_get_of (show InRange (ofFn _ [l, l, l, l] _).shape [p, q, r, s] from hi), ofFn_get_of hi]
  simp only [List.getD_cons_zero, List.getD_cons_succ]
  unfold oscFn
  rw [coulomb_integral hm ho getIndicesNm (C42_nonneg p) (C42_nonneg q) (C42_nonneg r) (C42_nonneg s),
    Real.sqrt_mul hm.le]
  have h : Real.sqrt mass ≠ 0 := (Real.sqrt_pos.2 hm).ne'
  rw [← Complex.ofReal_mul, ← Complex.ofReal_mul]
  congr 1
  field_simp

/-- **C83** (what holds for every mass) The elements are the Coulomb integrals divided by `√mass`; the same
elements are used by the double well. -/
theorem C83_actual (l num : ℕ) (radiusLength : ℝ) {omega mass : ℝ} (ho : 0 < omega) (hm : 0 < mass) (np : Module) :
    (∃ b, tdho (getCoulombElementsRaw l) l num radiusLength omega mass np = .ok b ∧
      HoldsCoulomb b l (1 / Real.sqrt mass) (oscFn mass omega)) ∧
    ∀ (barrier : ℝ) (axis : ℕ),
      ∃ b, doubleWell (getCoulombElementsRaw l) l num radiusLength omega mass barrier axis np = .ok b ∧
        HoldsCoulomb b l (1 / Real.sqrt mass) (oscFn mass omega) := by
  rw [getCoulombElementsRaw_eq]
  refine ⟨?_, fun barrier axis => ?_⟩
  · obtain ⟨b, h1, h2, -⟩ := tdho_ok (ofFn .float64 [l, l, l, l] (fun i => ((coulombHo
        (getIndicesNm (i.getD 0 0)).1 (getIndicesNm (i.getD 0 0)).2
        (getIndicesNm (i.getD 1 0)).1 (getIndicesNm (i.getD 1 0)).2
        (getIndicesNm (i.getD 2 0)).1 (getIndicesNm (i.getD 2 0)).2
        (getIndicesNm (i.getD 3 0)).1 (getIndicesNm (i.getD 3 0)).2 : ℝ) : ℂ))) l num radiusLength omega mass np
    exact ⟨b, h1, scaled_table ho hm h2.u_eq⟩
  · obtain ⟨b, h1, h2, -⟩ := doubleWell_ok (ofFn .float64 [l, l, l, l] (fun i => ((coulombHo
        (getIndicesNm (i.getD 0 0)).1 (getIndicesNm (i.getD 0 0)).2
        (getIndicesNm (i.getD 1 0)).1 (getIndicesNm (i.getD 1 0)).2
        (getIndicesNm (i.getD 2 0)).1 (getIndicesNm (i.getD 2 0)).2
        (getIndicesNm (i.getD 3 0)).1 (getIndicesNm (i.getD 3 0)).2 : ℝ) : ℂ))) l num radiusLength omega mass
        barrier axis np
    exact ⟨b, h1, scaled_table ho hm h2.u_eq⟩

/-- **C83** (partial: mass one) With unit mass the elements are the Coulomb integrals. -/
theorem C83_partial (l num : ℕ) (radiusLength : ℝ) {omega : ℝ} (ho : 0 < omega) (np : Module) :
    (∃ b, tdho (getCoulombElementsRaw l) l num radiusLength omega 1 np = .ok b ∧
      HoldsCoulomb b l 1 (oscFn 1 omega)) ∧
    ∀ (barrier : ℝ) (axis : ℕ),
      ∃ b, doubleWell (getCoulombElementsRaw l) l num radiusLength omega 1 barrier axis np = .ok b ∧
        HoldsCoulomb b l 1 (oscFn 1 omega) := by
  have h := C83_actual l num radiusLength ho one_pos np
  rwa [Real.sqrt_one, div_one] at h

theorem coulombHo_ground : coulombHo 0 0 0 0 0 0 0 0 = Real.sqrt (Real.pi / 2) := by
  have h := C46_formula 0 0 0 0 0 0 0 0
  simp only [Nat.cast_zero] at h
  rw [h]
  have hg : Real.Gamma 2⁻¹ = Real.sqrt Real.pi := by rw [← one_div, Real.Gamma_one_half_eq]
  simp [anisimovasMatulis, amInner, hg]
  ring

/-- The repulsion of two electrons in the Gaussian ground state of frequency `omega` is `√(π omega/2)`. -/
example {omega : ℝ} (ho : 0 < omega) :
    coulombIntegral (oscFn 1 omega 0) (oscFn 1 omega 0) (oscFn 1 omega 0) (oscFn 1 omega 0)
      = (Real.sqrt omega * Real.sqrt (Real.pi / 2) : ℝ) := by
  have h0 : getIndicesNm 0 = (0, 0) := by decide +kernel
  unfold oscFn
  rw [coulomb_integral one_pos ho getIndicesNm (C42_nonneg 0) (C42_nonneg 0) (C42_nonneg 0) (C42_nonneg 0), h0,
    coulombHo_ground, one_mul]

/-- **C83** is false: with mass 4 the repulsion in the ground state is twice the element in the basis set. -/
theorem C83_false : ¬ C83_statement := by
  intro h
  obtain ⟨b, h1, u, h2, -, h3⟩ := h 1 2 1 1 4 0 one_pos (by norm_num)
  obtain ⟨⟨b', h1', u', h2', -, h3'⟩, -⟩ := C83_actual 1 2 1 one_pos (by norm_num : (0 : ℝ) < 4) 0
  rw [h1] at h1'
  cases h1'
  rw [h2] at h2'
  cases h2'
  have e1 := (h3 0 0 0 0 one_pos one_pos one_pos one_pos).2
  have e2 := (h3' 0 0 0 0 one_pos one_pos one_pos one_pos).2
  have h0 : getIndicesNm 0 = (0, 0) := by decide +kernel
  have hv : coulombIntegral (oscFn 4 1 0) (oscFn 4 1 0) (oscFn 4 1 0) (oscFn 4 1 0) ≠ 0 := by
    unfold oscFn
    rw [coulomb_integral (by norm_num) one_pos getIndicesNm (C42_nonneg 0) (C42_nonneg 0) (C42_nonneg 0)
      (C42_nonneg 0), h0, coulombHo_ground]
    have : 0 < Real.sqrt ((4 : ℝ) * 1) * Real.sqrt (Real.pi / 2) :=
      mul_pos (Real.sqrt_pos.2 (by norm_num)) (Real.sqrt_pos.2 (by positivity))
    exact_mod_cast this.ne'
  rw [e1] at e2
  have e3 := mul_right_cancel₀ hv e2
  have e4 : (1 : ℝ) = 1 / Real.sqrt 4 := by exact_mod_cast e3
  rw [show (4 : ℝ) = 2 ^ 2 by norm_num, Real.sqrt_sq (by norm_num)] at e4
  norm_num at e4

/-! ## C84 -/

/-- **C84** The two-body elements of the oscillator in a magnetic field are, for unit mass, the matrix elements of
the Coulomb interaction between the functions that the basis set holds on its grid (for other masses, divided by
`√mass`). -/
theorem C84_magnetic {l num : ℕ} {radiusLength omega0 mass omegaC : ℝ} {np : Module} {b : BasisSet ℂ}
    {df : List Row} (h : oscB l num radiusLength omega0 mass omegaC np = .ok (b, df)) (hm : 0 < mass)
    (ho : omega0 ≠ 0 ∨ omegaC ≠ 0) :
    ∃ phi : ℕ → ℝ → ℝ → ℂ, ∃ f, b.spf = some f ∧ f.shape = [l, num, num] ∧
      (∀ p i j, p < l → i < num → j < num → f.get [p, i, j] = phi p
        (j * (radiusLength / ((num : ℝ) - 1))) (i * (2 * Real.pi / ((num : ℝ) - 1)))) ∧
      (∀ p < l, phi p = spfState (fun p => ((df.getD p ⟨0, 0, 0⟩).n, (df.getD p ⟨0, 0, 0⟩).m)) mass
        (Real.sqrt (omega0 ^ 2 + omegaC ^ 2 / 4)) p) ∧
      HoldsCoulomb b l (1 / Real.sqrt mass) (fun p => atPoint (phi p)) := by
  have hpos : 0 < omega0 ^ 2 + omegaC ^ 2 / 4 := by rcases ho with ho | ho <;> positivity
  have hw : 0 < omegaB omega0 omegaC := Real.sqrt_pos.2 hpos
  obtain ⟨hd, -⟩ := C51_one_body h
  obtain ⟨b', hh, u, h1, h2, h3, -, -, -, h4, h5, h6, h7, h8⟩ := oscB_ok hd num radiusLength mass np
  rw [h1] at h
  cases h
  have hnn : ∀ p < l, 0 ≤ (indicesNmB df p).1 := fun p hp => (kept_row hd hp).2.2.2
  refine ⟨spfState (indicesNmB df) mass (omegaB omega0 omegaC), _, h7, rfl, ?_, ?_, _, h6, ?_, ?_⟩
  · intro p i j hp hi hj
    rw [toComplex_get, setupSpf,
      ofFn_get_of (show InRange [l, num, num] [p, i, j] from ⟨hp, hi, hj, trivial⟩)]
    simp [linspace]
  · intro p hp
    have : indicesNmB df p = ((df.getD p ⟨0, 0, 0⟩).n, (df.getD p ⟨0, 0, 0⟩).m) := by
      obtain ⟨hp', e, -⟩ := kept_row hd hp
      unfold indicesNmB
      rw [List.getD_eq_getElem?_getD, e]
      rfl
    funext r t
    unfold spfState omegaB
    rw [this]
  · rw [getCoulombElementsB_eq] at h3
    cases h3
    rfl
  · rw [getCoulombElementsB_eq] at h3
    cases h3
    intro p q r s hp hq hr hs
    refine ⟨integrand_integrable hm hw .., ?_⟩
    have hi : InRange [l, l, l, l] [p, q, r, s] := ⟨hp, hq, hr, hs, trivial⟩
    rw [toComplex_get]
    unfold smul
    rw [ofFn_get_of (show InRange (ofFn _ [l, l, l, l] _).shape [p, q, r, s] from hi), ofFn_get_of hi]
    simp only [List.getD_cons_zero, List.getD_cons_succ]
    rw [coulomb_integral hm hw (indicesNmB df) (hnn p hp) (hnn q hq) (hnn r hr) (hnn s hs), Real.sqrt_mul hm.le]
    have h : Real.sqrt mass ≠ 0 := (Real.sqrt_pos.2 hm).ne'
    rw [← Complex.ofReal_mul, ← Complex.ofReal_mul]
    congr 1
    field_simp

/-- The basis set with three orbitals in the field `ω_c = 8` exists, and its 81 elements are Coulomb integrals. -/
example : ∃ b df, oscB 3 10 5 3 1 8 0 = .ok (b, df) ∧
    ∃ phi, HoldsCoulomb b 3 1 phi := by
  obtain ⟨b, df, h⟩ := C51_constructed (l := 3) (by norm_num) (omega0 := 3) (omegaC := 8) (by
    rw [show (3 : ℝ) ^ 2 + 8 ^ 2 / 4 = 5 ^ 2 by norm_num, Real.sqrt_sq (by norm_num)]; norm_num) 10 5 1 0
  obtain ⟨phi, f, -, -, -, -, h1⟩ := C84_magnetic h one_pos (by norm_num)
  rw [Real.sqrt_one, div_one] at h1
  exact ⟨b, df, h, _, h1⟩

/-! ## C85 -/

/-- **C85** In every two-dimensional oscillator basis the direct elements `u[p,q,p,q]` are real and positive, and
`|u[p,q,r,s]|² ≤ u[p,q,p,q] u[r,s,r,s]`; in particular no exchange element is larger than the direct element. -/
theorem C85_direct_exchange (l num : ℕ) (radiusLength : ℝ) {omega : ℝ} (ho : 0 < omega) (mass : ℝ) (np : Module) :
    ∃ b u, tdho (getCoulombElementsRaw l) l num radiusLength omega mass np = .ok b ∧ b.u = some u ∧
      (∀ p q, p < l → q < l → (u.get [p, q, p, q]).im = 0 ∧ 0 < (u.get [p, q, p, q]).re ∧
        ‖u.get [p, q, q, p]‖ ≤ (u.get [p, q, p, q]).re) ∧
      ∀ p q r s, p < l → q < l → r < l → s < l →
        ‖u.get [p, q, r, s]‖ ^ 2 ≤ (u.get [p, q, p, q]).re * (u.get [r, s, r, s]).re := by
  obtain ⟨⟨b1, e1, u1, e2, -, e3⟩, -⟩ := C83_partial l num radiusLength ho np
  have e4 : ∃ b, tdho (getCoulombElementsRaw l) l num radiusLength omega mass np = .ok b ∧ b.u = b1.u := by
    rw [getCoulombElementsRaw_eq] at e1 ⊢
    obtain ⟨b, h1, h2, -⟩ := tdho_ok (ofFn .float64 [l, l, l, l] (fun i => ((coulombHo
        (getIndicesNm (i.getD 0 0)).1 (getIndicesNm (i.getD 0 0)).2
        (getIndicesNm (i.getD 1 0)).1 (getIndicesNm (i.getD 1 0)).2
        (getIndicesNm (i.getD 2 0)).1 (getIndicesNm (i.getD 2 0)).2
        (getIndicesNm (i.getD 3 0)).1 (getIndicesNm (i.getD 3 0)).2 : ℝ) : ℂ))) l num radiusLength omega mass np
    obtain ⟨b', h1', h2', -⟩ := tdho_ok (ofFn .float64 [l, l, l, l] (fun i => ((coulombHo
        (getIndicesNm (i.getD 0 0)).1 (getIndicesNm (i.getD 0 0)).2
        (getIndicesNm (i.getD 1 0)).1 (getIndicesNm (i.getD 1 0)).2
        (getIndicesNm (i.getD 2 0)).1 (getIndicesNm (i.getD 2 0)).2
        (getIndicesNm (i.getD 3 0)).1 (getIndicesNm (i.getD 3 0)).2 : ℝ) : ℂ))) l num radiusLength omega 1 np
    rw [h1'] at e1
    cases e1
    exact ⟨b, h1, h2.u_eq.trans h2'.u_eq.symm⟩
  obtain ⟨b, h1, h2⟩ := e4
  have hi : ∀ p q r s, Integrable (coulombIntegrand (oscFn 1 omega p) (oscFn 1 omega q) (oscFn 1 omega r)
      (oscFn 1 omega s)) := fun p q r s => integrand_integrable one_pos ho ..
  have hn : ∀ p, ∫ z, (starRingEnd ℂ) (oscFn 1 omega p z) * oscFn 1 omega p z = 1 := by
    intro p
    have := planeInner_eq one_pos ho getIndicesNm p p
    rw [C72_orthonormal one_pos ho, if_pos rfl] at this
    exact this.symm
  have g : ∀ p q r s, p < l → q < l → r < l → s < l → u1.get [p, q, r, s]
      = coulombIntegral (oscFn 1 omega p) (oscFn 1 omega q) (oscFn 1 omega r) (oscFn 1 omega s) := by
    intro p q r s hp hq hr hs
    rw [(e3 p q r s hp hq hr hs).2, Complex.ofReal_one, one_mul]
  have hs : ∀ p q r s, p < l → q < l → r < l → s < l →
      ‖u1.get [p, q, r, s]‖ ^ 2 ≤ (u1.get [p, q, p, q]).re * (u1.get [r, s, r, s]).re := by
    intro p q r s hp hq hr hs
    rw [g p q r s hp hq hr hs, g p q p q hp hq hp hq, g r s r s hr hs hr hs]
    exact coulomb_schwarz (hi ..) (hi ..) (hi ..)
  have hd : ∀ p q, p < l → q < l → (u1.get [p, q, p, q]).im = 0 ∧ 0 < (u1.get [p, q, p, q]).re := by
    intro p q hp hq
    rw [g p q p q hp hq hp hq]
    exact direct_pos (hi ..) (product_integrable one_pos ho ..) (product_integrable one_pos ho ..) (hn p) (hn q)
  refine ⟨b, u1, h1, h2.trans e2, fun p q hp hq => ⟨(hd p q hp hq).1, (hd p q hp hq).2, ?_⟩, hs⟩
  have hx := hs p q q p hp hq hq hp
  have hy : u1.get [q, p, q, p] = u1.get [p, q, p, q] := by
    rw [g q p q p hq hp hq hp, g p q p q hp hq hp hq]
    unfold oscFn
    rw [coulomb_integral one_pos ho getIndicesNm (C42_nonneg q) (C42_nonneg p) (C42_nonneg q) (C42_nonneg p),
      coulomb_integral one_pos ho getIndicesNm (C42_nonneg p) (C42_nonneg q) (C42_nonneg p) (C42_nonneg q)]
    have h0 := (C45_quantum_numbers (getIndicesNm p).1.toNat (getIndicesNm q).1.toNat (getIndicesNm p).1.toNat
      (getIndicesNm q).1.toNat (getIndicesNm p).2 (getIndicesNm q).2 (getIndicesNm p).2 (getIndicesNm q).2).1
    rw [Int.toNat_of_nonneg (C42_nonneg p), Int.toNat_of_nonneg (C42_nonneg q)] at h0
    rw [h0]
  rw [hy, ← pow_two] at hx
  exact (sq_le_sq₀ (norm_nonneg _) (hd p q hp hq).2.le).1 hx

/-- The exchange element of the orbitals 0 and 2 is at most the direct element. -/
example : ∃ b u, tdho (getCoulombElementsRaw 3) 3 10 5 2 1 0 = .ok b ∧ b.u = some u ∧
    ‖u.get [0, 2, 2, 0]‖ ≤ (u.get [0, 2, 0, 2]).re ∧ 0 < (u.get [0, 2, 0, 2]).re := by
  obtain ⟨b, u, h1, h2, h3, -⟩ := C85_direct_exchange 3 10 5 two_pos 1 0
  have := h3 0 2 (by norm_num) (by norm_num)
  exact ⟨b, u, h1, h2, this.2.2, this.2.1⟩

end QS.Props
