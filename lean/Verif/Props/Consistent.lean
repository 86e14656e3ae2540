import Verif.Spec.Consistent
import Verif.Lemmas.PositiveCoulomb
import Verif.Props.OneDimSpectrum
import Verif.Props.CoulombIntegral
import Verif.Props.SincDvr
import Verif.Props.RandomBasis
import Verif.Props.SpinDoubling

/-!
# C91: the constructors return consistent basis sets
-/

namespace QS.Props

open NDArray BasisSet Idx Spec TwoDim OneDim SincDvr Coulomb RandomBasis Finset

theorem eye_entry (l : ℕ) : ∀ p < l, ∀ q < l, (eye l : NDArray ℂ).get [p, q] = if p = q then 1 else 0 :=
  fun p hp q hq => by rw [eye, ofFn_get_of (show InRange [l, l] [p, q] from ⟨hp, hq, trivial⟩)]

/-! ### one dimension -/

theorem oneDim_consistent {b : BasisSet ℂ} {l num : ℕ} {L a alpha : ℝ} {np : Module} {sp an : Bool}
    {f : NDArray ℂ} (hb : OneDimFields b l num L a alpha np sp an f) {h d : NDArray ℂ} (hh : b.h = some h)
    (sh : h.shape = [l, l]) (hd : b.dipole = some d) (sd : d.shape = [1, l, l]) (Hh : HermMat l h)
    (Hd : HermDip 1 l d) : Consistent b l 1 np sp an where
  wf :=
    { l_eq := hb.l_eq
      np := ⟨np, hb.np_eq⟩
      h := ⟨h, hh, sh⟩
      u := ⟨_, hb.u_eq, rfl⟩
      s := by intro x hx; rw [hb.s_eq] at hx; cases hx; rfl
      dipole := by
        intro x hx
        rw [hd] at hx
        cases hx
        rw [hb.dim_eq]
        exact ⟨Nat.one_pos, sd⟩
      spf := by
        intro x hx
        rw [hb.spf_eq] at hx
        cases hx
        exact ⟨[num], hb.spf_shape, by rw [hb.dim_eq]; rfl⟩
      bra := by intro x hx; rw [hb.bra_eq] at hx; cases hx
      braNeedsSpf := fun _ => hb.bra_eq
      tb := by intro x hx; rw [hb.tb_eq] at hx; cases hx }
  dim_eq := hb.dim_eq
  np_eq := hb.np_eq
  spin_eq := hb.spin_eq
  anti_eq := hb.anti_eq
  noSpin := hb.noSpin
  tb_eq := hb.tb_eq
  s := ⟨_, hb.s_eq, eye_entry l⟩
  h := ⟨h, hh, Hh⟩
  u := by
    refine ⟨_, hb.u_eq, ?_⟩
    have e (p q r s : ℕ) (hp : p < l) (hq : q < l) (hr : r < l) (hs : s < l) :=
      ofFn_get_of (dt := .complex128) (f := fun i => coulombSum num (TwoDim.linspace (-L) L num)
        (fun p j => f.get [p, j]) alpha a (i.getD 0 0) (i.getD 1 0) (i.getD 2 0) (i.getD 3 0))
        (show InRange [l, l, l, l] [p, q, r, s] from ⟨hp, hq, hr, hs, trivial⟩)
    exact ⟨coulombSum_hermU _ a e, coulombSum_exchU _ a e⟩
  dipole := ⟨d, hd, Hd⟩
  spf := ⟨f, f.conj, hb.spf_eq, by unfold bra; rw [hb.bra_eq, hb.spf_eq]; rfl, rfl, fun i hi => conj_get ..⟩

/-- **C91** `ODQD` -/
theorem C91_odqd {eigh : NDArray ℂ → Except PyErr (NDArray ℂ × NDArray ℂ)} (he : IsEigh eigh) {l num : ℕ}
    {L : ℝ} (hL : 0 < L) (h3 : 3 ≤ num) (hl : l ≤ num - 2) (a alpha beta : ℝ) (V : ℝ → ℝ) (hm : Bool) (np : Module)
    (sp an : Bool) :
    ∃ b, odqd eigh l L num a alpha beta V hm np sp an = .ok b ∧ Consistent b l 1 np sp an := by
  obtain ⟨b, H, w, v, h1, hH, E, hb, hh, hd⟩ := odqd_ok he L h3 hl a alpha beta V hm np sp an
  obtain ⟨b', f, d, h1', -, hd', -, hdd⟩ := C57_dipole he hL h3 hl a alpha beta V hm np sp an
  rw [h1] at h1'
  cases h1'
  refine ⟨b, h1, oneDim_consistent hb hh rfl hd rfl ?_ ?_⟩
  · intro p hp q hq
    rw [ofFn_get_of (by exact ⟨hp, hq, trivial⟩), ofFn_get_of (by exact ⟨hq, hp, trivial⟩)]
    simp only [List.getD_cons_zero, List.getD_cons_succ]
    by_cases h : p = q
    · subst h
      rw [if_pos rfl]
      exact (Complex.conj_eq_iff_im.2 (E.real _)).symm
    · rw [if_neg h, if_neg (Ne.symm h), star_zero]
  · rw [hd] at hd'
    cases hd'
    intro i hi p hp q hq
    obtain rfl : i = 0 := by omega
    exact (hdd p q hp hq).2

/-- **C91** `ODHO` -/
theorem C91_odho (l : ℕ) (L : ℝ) {num : ℕ} (h2 : 2 ≤ num) (omega a alpha beta : ℝ) (np : Module)
    (sp an : Bool) :
    ∃ b, odho l L num omega a alpha beta np sp an = .ok b ∧ Consistent b l 1 np sp an := by
  obtain ⟨b, h1, hb, hh, hd⟩ := odho_ok l L h2 omega a alpha beta np sp an
  refine ⟨b, h1, oneDim_consistent hb hh rfl hd rfl ?_ ?_⟩
  · intro p hp q hq
    rw [ofFn_get_of (by exact ⟨hp, hq, trivial⟩), ofFn_get_of (by exact ⟨hq, hp, trivial⟩)]
    simp only [List.getD_cons_zero, List.getD_cons_succ]
    by_cases h : p = q
    · subst h
      rw [if_pos rfl]
      exact (Complex.conj_ofReal _).symm
    · rw [if_neg h, if_neg (Ne.symm h), star_zero]
  · intro i hi p hp q hq
    rw [ofFn_get_of (by exact ⟨hi, hp, hq, trivial⟩), ofFn_get_of (by exact ⟨hi, hq, hp, trivial⟩)]
    simp only [List.getD_cons_zero, List.getD_cons_succ]
    by_cases e1 : p + 1 = q
    · rw [if_pos e1, if_neg (by omega), if_pos e1]
      exact (Complex.conj_ofReal _).symm
    · by_cases e2 : q + 1 = p
      · rw [if_neg e1, if_pos e2, if_pos e2]
        exact (Complex.conj_ofReal _).symm
      · rw [if_neg e1, if_neg e2, if_neg e2, if_neg e1, star_zero]

/-! ### two dimensions -/

theorem tdho_consistent {b : BasisSet ℂ} {u : NDArray ℂ} {l num : ℕ} {radiusLength omega mass : ℝ} {np : Module}
    (hb : TdhoFields b u getIndicesNm l num radiusLength omega mass np) (hu : getCoulombElementsRaw l = .ok u)
    {h : NDArray ℂ} (hh : b.h = some h) (sh : h.shape = [l, l]) (Hh : HermMat l h) :
    Consistent b l 2 np false false where
  wf :=
    { l_eq := hb.l_eq
      np := ⟨np, hb.np_eq⟩
      h := ⟨h, hh, sh⟩
      u := by
        rw [getCoulombElementsRaw_eq] at hu
        cases hu
        exact ⟨_, hb.u_eq, rfl⟩
      s := by intro x hx; rw [hb.s_eq] at hx; cases hx; rfl
      dipole := by
        intro x hx
        rw [hb.dipole_eq] at hx
        cases hx
        rw [hb.dim_eq]
        exact ⟨Nat.two_pos, rfl⟩
      spf := by
        intro x hx
        rw [hb.spf_eq] at hx
        cases hx
        exact ⟨[num, num], rfl, by rw [hb.dim_eq]; rfl⟩
      bra := by
        intro x hx
        have := hb.bra_eq
        unfold bra at this
        rw [hx] at this
        cases this
        exact ⟨[num, num], rfl, by rw [hb.dim_eq]; rfl⟩
      braNeedsSpf := by intro h; rw [hb.spf_eq] at h; cases h
      tb := by intro x hx; rw [hb.tb_eq] at hx; cases hx }
  dim_eq := hb.dim_eq
  np_eq := hb.np_eq
  spin_eq := hb.spin_eq
  anti_eq := hb.anti_eq
  noSpin := hb.noSpin
  tb_eq := hb.tb_eq
  s := ⟨_, hb.s_eq, eye_entry l⟩
  h := ⟨h, hh, Hh⟩
  u := by
    obtain ⟨u', hu', hsym⟩ := C45_table l
    rw [getCoulombElementsRaw_eq] at hu hu'
    cases hu
    cases hu'
    refine ⟨_, hb.u_eq, fun p hp q hq r hr s hs => ?_, fun p hp q hq r hr s hs => ?_⟩
    · rw [NDArray.smul_get, NDArray.smul_get, (hsym p q r s hp hq hr hs).2.1, star_mul',
        ofFn_get_of (by exact ⟨hp, hq, hr, hs, trivial⟩)]
      simp only [Complex.star_def, Complex.conj_ofReal]
    · rw [NDArray.smul_get, NDArray.smul_get, (hsym p q r s hp hq hr hs).1]
  dipole := by
    refine ⟨_, hb.dipole_eq, fun k hk p hp q hq => ?_⟩
    rw [ofFn_get_of (show InRange [2, l, l] [k, p, q] from ⟨hk, hp, hq, trivial⟩),
      ofFn_get_of (show InRange [2, l, l] [k, q, p] from ⟨hk, hq, hp, trivial⟩)]
    exact dipole_hermitian _ _ _ _ _ _
  spf := ⟨_, _, hb.spf_eq, hb.bra_eq, rfl, fun i hi => conj_get ..⟩

/-- **C91** `TwoDimensionalHarmonicOscillator` -/
theorem C91_tdho (l num : ℕ) (radiusLength omega mass : ℝ) (np : Module) :
    ∃ b, tdho (getCoulombElementsRaw l) l num radiusLength omega mass np = .ok b ∧
      Consistent b l 2 np false false := by
  obtain ⟨u, hu, -⟩ := C45_table l
  rw [hu]
  obtain ⟨b, h1, hb, hh⟩ := tdho_ok u l num radiusLength omega mass np
  refine ⟨b, h1, tdho_consistent hb hu hh rfl fun p hp q hq => ?_⟩
  unfold oscillatorH
  rw [NDArray.smul_get, NDArray.smul_get, ofFn_get_of (show InRange [l, l] [p, q] from ⟨hp, hq, trivial⟩),
    ofFn_get_of (show InRange [l, l] [q, p] from ⟨hq, hp, trivial⟩)]
  simp only [List.getD_cons_zero, List.getD_cons_succ]
  by_cases h : p = q
  · subst h
    rw [if_pos rfl, star_mul']
    simp only [Complex.star_def, Complex.conj_ofReal, map_intCast]
  · rw [if_neg h, if_neg (Ne.symm h), mul_zero, star_zero]

/-- **C91** `TwoDimensionalDoubleWell` -/
theorem C91_double_well (l num : ℕ) (radiusLength omega mass barrier : ℝ) (axis : ℕ) (np : Module) :
    ∃ b, doubleWell (getCoulombElementsRaw l) l num radiusLength omega mass barrier axis np = .ok b ∧
      Consistent b l 2 np false false := by
  obtain ⟨u, hu, -⟩ := C45_table l
  rw [hu]
  obtain ⟨b, h1, hb, hh⟩ := doubleWell_ok u l num radiusLength omega mass barrier axis np
  refine ⟨b, h1, tdho_consistent hb hu hh rfl fun p hp q hq => ?_⟩
  obtain ⟨h, e, -, H⟩ := C50_hermitian l omega mass barrier .complex128 axis
  rw [getDoubleWell_eq] at e
  cases e
  exact H p q

/-- **C91** `TwoDimHarmonicOscB` -/
theorem C91_magnetic {l num : ℕ} {radiusLength omega0 mass omegaC : ℝ} {np : Module} {b : BasisSet ℂ}
    {df : List Row} (h : oscB l num radiusLength omega0 mass omegaC np = .ok (b, df)) :
    Consistent b l 2 np false false := by
  obtain ⟨hd, x, hx, sx, ex⟩ := C51_one_body h
  obtain ⟨b', hh, u, h1, h2, h3, h31, h32, h33, h4, h5, h6, h7, h8⟩ := oscB_ok hd num radiusLength mass np
  rw [h1] at h
  cases h
  obtain ⟨b', g1, g2, g3, g4, g5, g6⟩ := oscB_rest hd num radiusLength mass np
  rw [h1] at g1
  cases g1
  have hnn : ∀ p < l, ∃ n : ℕ, (indicesNmB df p).1 = n := fun p hp =>
    Int.eq_ofNat_of_zero_le (kept_row hd hp).2.2.2
  rw [getCoulombElementsB_eq] at h3
  cases h3
  refine ⟨⟨h31, ⟨np, h33⟩, ⟨x, hx, sx⟩, ⟨_, h6, rfl⟩, ?_, ?_, ?_, ?_, ?_, ?_⟩, h32, h33, g2, g3, g4, g5,
    ⟨_, h5, ?_⟩, ⟨x, hx, ?_⟩, ⟨_, h6, ?_, ?_⟩, ⟨_, h8, ?_⟩, ⟨_, _, h7, g6, rfl, ?_⟩⟩
  · intro x hx; rw [h5] at hx; cases hx; rfl
  · intro x hx; rw [h8] at hx; cases hx; rw [h32]; exact ⟨Nat.two_pos, rfl⟩
  · intro x hx; rw [h7] at hx; cases hx; rw [h32]; exact ⟨[num, num], rfl, rfl⟩
  · intro x hx
    unfold bra at g6
    rw [hx] at g6
    cases g6
    exact ⟨[num, num], rfl, by rw [h32]; rfl⟩
  · intro h; rw [h7] at h; cases h
  · intro x hx; rw [g5] at hx; cases hx
  · intro p hp q hq; rw [toComplex_get]; exact eye_entry l p hp q hq
  · intro p hp q hq
    rw [ex p q hp hq, ex q p hq hp]
    by_cases h : p = q
    · subst h
      rw [if_pos rfl]
      exact (Complex.conj_ofReal _).symm
    · rw [if_neg h, if_neg (Ne.symm h), star_zero]
  · intro p hp q hq r hr s hs
    rw [toComplex_get, toComplex_get]
    rw [NDArray.smul_get, NDArray.smul_get, ofFn_get_of (show InRange [l, l, l, l] [p, q, r, s] from ⟨hp, hq, hr, hs, trivial⟩),
      ofFn_get_of (show InRange [l, l, l, l] [r, s, p, q] from ⟨hr, hs, hp, hq, trivial⟩)]
    simp only [List.getD_cons_zero, List.getD_cons_succ]
    obtain ⟨n1, e1⟩ := hnn p hp
    obtain ⟨n2, e2⟩ := hnn q hq
    obtain ⟨n3, e3⟩ := hnn r hr
    obtain ⟨n4, e4⟩ := hnn s hs
    rw [e1, e2, e3, e4, (C45_quantum_numbers n1 n2 n3 n4 _ _ _ _).2.1, star_mul']
    simp only [Complex.star_def, Complex.conj_ofReal]
  · intro p hp q hq r hr s hs
    rw [toComplex_get, toComplex_get]
    rw [NDArray.smul_get, NDArray.smul_get, ofFn_get_of (show InRange [l, l, l, l] [p, q, r, s] from ⟨hp, hq, hr, hs, trivial⟩),
      ofFn_get_of (show InRange [l, l, l, l] [q, p, s, r] from ⟨hq, hp, hs, hr, trivial⟩)]
    simp only [List.getD_cons_zero, List.getD_cons_succ]
    obtain ⟨n1, e1⟩ := hnn p hp
    obtain ⟨n2, e2⟩ := hnn q hq
    obtain ⟨n3, e3⟩ := hnn r hr
    obtain ⟨n4, e4⟩ := hnn s hs
    rw [e1, e2, e3, e4, (C45_quantum_numbers n1 n2 n3 n4 _ _ _ _).1]
  · intro k hk p hp q hq
    rw [toComplex_get, toComplex_get, ofFn_get_of (show InRange [2, l, l] [k, p, q] from ⟨hk, hp, hq, trivial⟩),
      ofFn_get_of (show InRange [2, l, l] [k, q, p] from ⟨hk, hq, hp, trivial⟩)]
    exact dipole_hermitian _ _ _ _ _ _
  · intro i hi; rw [toComplex_get, toComplex_get]; exact conj_get ..

/-! ### sinc functions -/

/-- **C91** `ODSincDVR` with the interaction in four-index form -/
theorem C91_sinc {l : ℕ} (h2 : 2 ≤ l) {L : ℝ} (hL : 0 < L) (a alpha beta : ℝ) (V : ℝ → ℝ) (hm : Bool) (np : Module)
    (sp an : Bool) :
    ∃ b, odSincDvr l L a alpha beta V .four hm np sp an = .ok b ∧ Consistent b l 1 np sp an := by
  have hok := odSincDvr_ok h2 L a alpha beta V (repr := .four) (by simp) hm np sp an
  refine ⟨_, hok,
    ⟨sincObj_wf L a alpha beta V hm np sp an, rfl, rfl, rfl, rfl, sincObj_noSpin .., rfl, ⟨_, rfl, ?_⟩, ⟨_, rfl, ?_⟩,
      ⟨_, rfl, ?_, ?_⟩, ⟨_, rfl, ?_⟩, ⟨_, _, rfl, rfl, rfl, fun i hi => conj_get ..⟩⟩⟩
  · intro p hp q hq; rw [toComplex_get]; exact eye_entry l p hp q hq
  · obtain ⟨b, f, s, h, g, e1, -, -, e2, -, -, -, -, -, -, -, H⟩ := C59_functions h2 hL a alpha beta V (repr := .four) (by simp)
      hm np sp an
    rw [hok] at e1
    cases e1
    cases e2
    intro p hp q hq
    obtain ⟨H1, H2⟩ := H q hq p hp
    rw [← H1]
    exact (Complex.conj_eq_iff_im.2 H2).symm
  · intro p hp q hq r hr s hs
    unfold sincU
    rw [if_neg (by simp), ofFn_get_of (by exact ⟨hp, hq, hr, hs, trivial⟩), ofFn_get_of (by exact ⟨hr, hs, hp, hq, trivial⟩)]
    simp only [List.getD_cons_zero, List.getD_cons_succ]
    by_cases h : p = r ∧ q = s
    · obtain ⟨rfl, rfl⟩ := h
      rw [if_pos ⟨rfl, rfl⟩]
      exact (Complex.conj_ofReal _).symm
    · rw [if_neg h, if_neg (fun h' => h ⟨h'.1.symm, h'.2.symm⟩), star_zero]
  · intro p hp q hq r hr s hs
    unfold sincU
    rw [if_neg (by simp), ofFn_get_of (by exact ⟨hp, hq, hr, hs, trivial⟩), ofFn_get_of (by exact ⟨hq, hp, hs, hr, trivial⟩)]
    simp only [List.getD_cons_zero, List.getD_cons_succ, and_comm]
    congr 1
    unfold pairU SincDvr.shieldedCoulomb
    rw [← neg_sub, neg_sq]
  · intro k hk p hp q hq
    unfold sincDip
    rw [ofFn_get_of (by exact ⟨hk, hp, hq, trivial⟩), ofFn_get_of (by exact ⟨hk, hq, hp, trivial⟩)]
    simp only [List.getD_cons_zero, List.getD_cons_succ]
    by_cases h : p = q
    · subst h
      rw [if_pos rfl]
      exact (Complex.conj_ofReal _).symm
    · rw [if_neg h, if_neg (Ne.symm h), star_zero]

/-! ### random elements -/

/-- **C91** `RandomBasisSet` (which has no functions, arbitrary Hermitian overlaps, and an interaction that is
symmetric under exchange of the particles but not Hermitian) -/
theorem C91_random {K : Type} [PyScalar K] (l : ℕ) {dim : ℕ} (h1 : 1 ≤ dim) (rand : ℕ → List ℕ → NDArray K)
    (hr : ∀ k sh, (rand k sh).shape = sh) (nre : K) (np : Module) (sp an : Bool) :
    ∃ b, randomBasisSet l dim rand nre np sp an = .ok b ∧ WellFormed b l ∧ b.dim = dim ∧ b.np = some np ∧
      b.includesSpin = sp ∧ b.antiSym = an ∧ NoSpinOps b ∧ b.spin2tb = none ∧ b.spf = none ∧ b.bra = none ∧
      (∃ s, b.s = some s ∧ HermMat l s) ∧ (∃ h, b.h = some h ∧ HermMat l h) ∧ (∃ u, b.u = some u ∧ ExchU l u) ∧
      ∃ x, b.dipole = some x ∧ HermDip dim l x := by
  obtain ⟨h, s, u, d, e, sh, ss, su, sd, Hh, Hs, Hd, Hu, -⟩ := randomBasis_ok l dim rand hr nre np sp an
  refine ⟨_, e, ⟨rfl, ⟨np, rfl⟩, ⟨h, rfl, sh⟩, ⟨u, rfl, su⟩, ?_, ?_, ?_, ?_, fun _ => rfl, ?_⟩, rfl, rfl, rfl, rfl,
    ⟨rfl, rfl, rfl, rfl⟩, rfl, rfl, rfl, ⟨s, rfl, Hs⟩, ⟨h, rfl, Hh⟩, ⟨u, rfl, Hu⟩, ⟨d, rfl, Hd⟩⟩
  · rintro x ⟨⟩; exact ss
  · rintro x ⟨⟩; exact ⟨h1, sd⟩
  · intro x hx; cases hx
  · intro x hx; cases hx
  · intro x hx; cases hx

/-! ### use -/

/-- **C91** A consistent set of spatial functions can be transformed with every matrix that has `l` rows, and
changed to general orbitals with every orthonormal pair of spinors. -/
theorem C91_usable {b : BasisSet ℂ} {l d : ℕ} {np : Module} {an : Bool} (hb : Consistent b l d np false an) :
    (∀ (n : ℕ) (C : NDArray ℂ), C.shape = [l, n] → ∃ b', (changeBasis C none).run b = (.ok (), b') ∧ b'.l = n) ∧
    ∀ (a₀ a₁ b₀ b₁ : ℂ) (anti : Bool), OrthoSpin a₀ a₁ b₀ b₁ →
      ∃ b', (changeToGeneralBase [a₀, a₁] [b₀, b₁] anti).run b = (.ok true, b') ∧ b'.l = 2 * l := by
  refine ⟨fun n C hC => ?_, fun a₀ a₁ b₀ b₁ anti ho => ?_⟩
  · rw [changeBasis_none]
    exact ⟨_, changeBasis_run hb.wf (hb.noSpin.spinShaped l) hC (by simp [hC]), rfl⟩
  · obtain ⟨s, hs, -⟩ := hb.s
    obtain ⟨b', h⟩ := C16_succeeds anti hb.wf hb.spin_eq (by rw [hs]; rfl) ho
    exact ⟨b', h, (C16_general hb.wf hb.spin_eq h).2.2.1.l_eq⟩

/-- The six lowest orbitals of the oscillator, to four orbitals and to twelve spin orbitals. -/
example : ∃ b, tdho (getCoulombElementsRaw 6) 6 5 4 (1 / 2) 1 0 = .ok b ∧
    (∃ b', (changeBasis (ofFn .complex128 [6, 4] (fun _ => Complex.I)) none).run b = (.ok (), b') ∧ b'.l = 4) ∧
    ∃ b', (changeToGeneralBase [1, 0] [0, 1] true).run b = (.ok true, b') ∧ b'.l = 12 := by
  obtain ⟨b, h, hb⟩ := C91_tdho 6 5 4 (1 / 2) 1 0
  obtain ⟨h1, h2⟩ := C91_usable hb
  exact ⟨b, h, h1 4 _ rfl, h2 1 0 0 1 true (by constructor <;> simp [spinor])⟩

end QS.Props
