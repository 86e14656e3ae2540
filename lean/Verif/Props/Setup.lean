import Verif.Lemmas.Setup
import Verif.Props.OneDim
import Verif.Props.Positive
import Verif.Props.SincDvr
import Verif.Spec.History

/-!
# C95, C96: setting an object up again, and what becomes of its parameters
-/

namespace QS.Props

open NDArray Idx PyM BasisSet TwoDim OneDim SincDvr Coulomb Spec

/-! ## C95 -/

/-- **C95** `ODHO`: another call of `setup_basis` changes nothing. -/
theorem C95_odho {l num : ℕ} {L omega a alpha beta : ℝ} {np : Module} {sp an : Bool} (h2 : 2 ≤ num)
    {b : BasisSet ℂ} (h : odho l L num omega a alpha beta np sp an = .ok b) :
    (odhoSetup num omega a alpha).run b = (.ok (), b) := by
  unfold odho at h
  dsimp only at h
  simp only [setGrid, PyM.run_bind, run_modify] at h
  rw [odhoSetup_run (l := l) (L := L) rfl rfl rfl h2] at h
  cases h
  exact odhoSetup_run rfl rfl rfl h2 omega a alpha

/-- **C95** `ODQD`: another call of `setup_basis` changes nothing. -/
theorem C95_odqd {eigh : NDArray ℂ → Except PyErr (NDArray ℂ × NDArray ℂ)} (he : IsEigh eigh) {l num : ℕ}
    {L a alpha beta : ℝ} {V : ℝ → ℝ} {hm : Bool} {np : Module} {sp an : Bool} {b : BasisSet ℂ}
    (h : odqd eigh l L num a alpha beta V hm np sp an = .ok b) :
    (odqdSetup eigh V num a alpha beta).run b = (.ok (), b) := by
  obtain ⟨h3, hl⟩ := C80_rejects he h
  obtain ⟨x1, x2, x3, x4, x5, H⟩ := odqdSetup_run he L h3 hl a alpha beta V
  unfold odqd at h
  dsimp only at h
  simp only [setGrid, PyM.run_bind, run_modify] at h
  rw [H _ rfl rfl rfl] at h
  cases h
  exact H _ rfl rfl rfl

/-- **C95** `ODSincDVR`: another call of `setup_basis` changes nothing. -/
theorem C95_sinc {l : ℕ} (h2 : 2 ≤ l) {L a alpha beta : ℝ} {V : ℝ → ℝ} {repr : URepr} {hm : Bool} {np : Module}
    {sp an : Bool} {b : BasisSet ℂ} (h : odSincDvr l L a alpha beta V repr hm np sp an = .ok b) :
    (sincSetup V a alpha beta repr).run b = (.ok (), b) := by
  by_cases hr : repr = .unknown
  · subst hr
    cases h
  · rw [odSincDvr_ok h2 L a alpha beta V hr hm np sp an] at h
    cases h
    exact sincSetup_again h2 L a alpha beta V hr hm np sp an

/-- **C95** `TwoDimensionalHarmonicOscillator`: another call of `setup_basis` changes nothing. -/
theorem C95_tdho {l num : ℕ} {radiusLength omega mass : ℝ} {np : Module} {b : BasisSet ℂ}
    (h : tdho (getCoulombElementsRaw l) l num radiusLength omega mass np = .ok b) :
    (tdhoSetup (getCoulombElementsRaw l) num radiusLength omega mass).run b = (.ok (), b) := by
  obtain ⟨u, hu, -⟩ := C45_table l
  rw [hu] at h ⊢
  unfold tdho at h
  rw [tdhoSetup_run u (np := np) (l := l) rfl rfl rfl] at h
  cases h
  by_cases h0 : np = 0
  · rw [if_pos h0, tdhoSetup_run u (np := np) (l := l) rfl rfl rfl, if_pos h0]
    rfl
  · rw [if_neg h0, tdhoSetup_run u (np := np) (l := l) rfl rfl rfl, if_neg h0]
    rfl

/-- **C95** `TwoDimensionalDoubleWell`: another call of `setup_basis` changes nothing. -/
theorem C95_double_well {l num : ℕ} {radiusLength omega mass barrier : ℝ} {axis : ℕ} {np : Module} {b : BasisSet ℂ}
    (h : doubleWell (getCoulombElementsRaw l) l num radiusLength omega mass barrier axis np = .ok b) :
    (doubleWellSetup (getCoulombElementsRaw l) num radiusLength omega mass barrier axis).run b = (.ok (), b) := by
  obtain ⟨u, hu, -⟩ := C45_table l
  rw [hu] at h ⊢
  unfold doubleWell at h
  rw [doubleWellSetup_run u (np := np) (l := l) rfl rfl rfl] at h
  cases h
  rw [doubleWellSetup_run u (np := np) (l := l) rfl rfl rfl]
  rfl

/-- `k` further calls of `setup_basis`. -/
noncomputable def setupAgain (num : ℕ) (radiusLength mass omegaC : ℝ) : ℕ → OscB → Except PyErr OscB
  | 0, o => .ok o
  | k + 1, o => match (OscB.setupBasis num radiusLength mass omegaC).run o with
    | (.ok (), o') => setupAgain num radiusLength mass omegaC k o'
    | (.error e, _) => .error e

/-- C95 as stated, for `TwoDimHarmonicOscB`. -/
def C95_statement : Prop := ∀ (l num : ℕ) (radiusLength omega mass omegaC : ℝ) (np : Module) (o : OscB),
  OscB.new l num radiusLength omega mass omegaC np = .ok o →
    (OscB.setupBasis num radiusLength mass omegaC).run o = (.ok (), o)

theorem omegaB_iter (omega omegaC : ℝ) (k : ℝ) (hk : 0 ≤ k) :
    omegaB (Real.sqrt (omega ^ 2 + k * (omegaC ^ 2 / 4))) omegaC
      = Real.sqrt (omega ^ 2 + (k + 1) * (omegaC ^ 2 / 4)) := by
  unfold omegaB
  rw [Real.sq_sqrt (by positivity)]
  congr 1
  ring

/-- The elements of a basis set in a magnetic field, and where they come from. -/
def SameElements (b c : BasisSet ℂ) : Prop :=
  b.h = c.h ∧ b.s = c.s ∧ b.u = c.u ∧ b.dipole = c.dipole ∧ b.spf = c.spf

/-- One call of `setup_basis` on any object of the right class and size. -/
theorem setupBasis_run {l : ℕ} (hl : 1 ≤ l) {o : OscB} {np : Module} (h1 : o.basis.l = l) (h2 : o.basis.cls = .plain)
    (h3 : o.basis.np = some np) (num : ℕ) (radiusLength mass omegaC : ℝ)
    (ho : 2 / 10 ^ 6 ≤ omegaB o.omega omegaC) :
    ∃ o' b df, (OscB.setupBasis num radiusLength mass omegaC).run o = (.ok (), o') ∧
      o'.omega = omegaB o.omega omegaC ∧ o'.basis.l = l ∧ o'.basis.cls = .plain ∧ o'.basis.np = some np ∧
      oscB l num radiusLength o.omega mass omegaC np = .ok (b, df) ∧ SameElements o'.basis b ∧
      (∀ x, o.basis.braSpf = some x → o'.basis.braSpf = some x.toComplex) := by
  obtain ⟨df, hdf⟩ := dataframeB_succeeds hl ho
  have hlen := (dataframeB_ok hdf).1
  unfold dataframeB at hdf
  obtain ⟨b, w⟩ := o
  dsimp only at h1 h2 h3 hdf
  refine ⟨⟨{ withBra (casted (oscBFill df l num radiusLength (omegaB w omegaC) mass b)) with np := some np },
    omegaB w omegaC⟩, { withBra (casted (oscBFill df l num radiusLength (omegaB w omegaC) mass
      (BasisSet.init l 2 np))) with np := some np }, df, ?_, rfl, h1, h2, rfl, ?_, ⟨rfl, rfl, rfl, rfl, rfl⟩, ?_⟩
  · unfold OscB.setupBasis
    rw [run_bind_ok (run_modify _ _), run_bind_ok (run_get _), run_bind_ok (a := df) (s' := _) (by
      show (((oscBSetup num radiusLength (omegaB w omegaC) mass omegaC).run b).1, _) = _
      rw [oscBSetup_run h1 h2 h3 hdf hlen]), run_pure]
  · unfold oscB
    rw [oscBSetup_run (b := BasisSet.init l 2 np) rfl rfl rfl hdf hlen]
    rfl
  · intro x hx
    dsimp only at hx
    simp [withBra, casted, oscBFill, BasisSet.bra, hx]

/-- **C95** What the code does in a magnetic field: each call adds the field to the frequency once more, so after
`k` further calls the elements are those of an oscillator of frequency `√(ω² + k ω_c²/4)` in that field. -/
theorem C95_actual {l : ℕ} (hl : 1 ≤ l) (num : ℕ) (radiusLength omega mass omegaC : ℝ) (np : Module)
    (ho : 2 / 10 ^ 6 ≤ Real.sqrt (omega ^ 2 + omegaC ^ 2 / 4)) (k : ℕ) :
    ∃ o o' b df, OscB.new l num radiusLength omega mass omegaC np = .ok o ∧
      setupAgain num radiusLength mass omegaC k o = .ok o' ∧
      o'.omega = Real.sqrt (omega ^ 2 + (k + 1) * (omegaC ^ 2 / 4)) ∧
      oscB l num radiusLength (if k = 0 then omega else Real.sqrt (omega ^ 2 + k * (omegaC ^ 2 / 4))) mass omegaC np
        = .ok (b, df) ∧
      SameElements o'.basis b := by
  have ho1 : (2 : ℝ) / 10 ^ 6 ≤ omegaB (⟨BasisSet.init l 2 np, omega⟩ : OscB).omega omegaC := ho
  obtain ⟨o, b, df, e1, e2, e3, e4, e5, e6, e7, -⟩ := setupBasis_run (o := ⟨BasisSet.init l 2 np, omega⟩) hl rfl rfl rfl
    num radiusLength mass omegaC ho1
  have e2' : o.omega = Real.sqrt (omega ^ 2 + ((0 : ℕ) + 1) * (omegaC ^ 2 / 4)) := by
    rw [e2]
    simp [omegaB]
  have hnew : OscB.new l num radiusLength omega mass omegaC np = .ok o := by
    unfold OscB.new
    rw [e1]
  -- further calls from any object that has gone through `j + 1` calls
  have key : ∀ k j : ℕ, ∀ o : OscB, o.omega = Real.sqrt (omega ^ 2 + ((j : ℝ) + 1) * (omegaC ^ 2 / 4)) →
      o.basis.l = l → o.basis.cls = .plain → o.basis.np = some np →
      ∃ o', setupAgain num radiusLength mass omegaC (k + 1) o = .ok o' ∧
        o'.omega = Real.sqrt (omega ^ 2 + (((j + k + 1 : ℕ) : ℝ) + 1) * (omegaC ^ 2 / 4)) ∧
        ∃ b df, oscB l num radiusLength (Real.sqrt (omega ^ 2 + ((j + k + 1 : ℕ) : ℝ) * (omegaC ^ 2 / 4))) mass omegaC np
          = .ok (b, df) ∧ SameElements o'.basis b := by
    intro k
    induction k with
    | zero =>
      intro j o hw h1 h2 h3
      have hw' : omegaB o.omega omegaC = Real.sqrt (omega ^ 2 + (((j + 1 : ℕ) : ℝ) + 1) * (omegaC ^ 2 / 4)) := by
        rw [hw, omegaB_iter _ _ _ (by positivity)]
        push_cast
        ring_nf
      have hge : 2 / 10 ^ 6 ≤ omegaB o.omega omegaC := by
        rw [hw']
        refine ho.trans (Real.sqrt_le_sqrt ?_)
        push_cast
        nlinarith [sq_nonneg omegaC, mul_nonneg (Nat.cast_nonneg (α := ℝ) j) (sq_nonneg omegaC)]
      obtain ⟨o', b, df, g1, g2, g3, g4, g5, g6, g7, -⟩ := setupBasis_run hl h1 h2 h3 num radiusLength mass omegaC hge
      refine ⟨o', ?_, ?_, b, df, ?_, g7⟩
      · unfold setupAgain
        rw [g1]
        rfl
      · rw [g2, hw']
      · rw [hw] at g6
        push_cast
        simpa using g6
    | succ k ih =>
      intro j o hw h1 h2 h3
      have hw' : omegaB o.omega omegaC = Real.sqrt (omega ^ 2 + (((j + 1 : ℕ) : ℝ) + 1) * (omegaC ^ 2 / 4)) := by
        rw [hw, omegaB_iter _ _ _ (by positivity)]
        push_cast
        ring_nf
      have hge : 2 / 10 ^ 6 ≤ omegaB o.omega omegaC := by
        rw [hw']
        refine ho.trans (Real.sqrt_le_sqrt ?_)
        push_cast
        nlinarith [sq_nonneg omegaC, mul_nonneg (Nat.cast_nonneg (α := ℝ) j) (sq_nonneg omegaC)]
      obtain ⟨o', b, df, g1, g2, g3, g4, g5, g6, g7, -⟩ := setupBasis_run hl h1 h2 h3 num radiusLength mass omegaC hge
      obtain ⟨o'', i1, i2, b', df', i3, i4⟩ := ih (j + 1) o' (g2.trans hw') g3 g4 g5
      refine ⟨o'', ?_, ?_, b', df', ?_, i4⟩
      · unfold setupAgain
        rw [g1]
        exact i1
      · rw [i2, show j + 1 + k + 1 = j + (k + 1) + 1 by ring]
      · rw [show j + (k + 1) + 1 = j + 1 + k + 1 by ring]
        exact i3
  rcases k with _ | k
  · exact ⟨o, o, b, df, hnew, rfl, e2', by simpa using e6, e7⟩
  · obtain ⟨o', i1, i2, b', df', i3, i4⟩ := key k 0 o e2' e3 e4 e5
    refine ⟨o, o', b', df', hnew, i1, ?_, ?_, i4⟩
    · rw [i2]
      simp
    · rw [if_neg (by omega)]
      simpa using i3

/-- The lowest kept energy is the zero-point energy. -/
theorem exists_ground {l num : ℕ} (hl : 1 ≤ l) {radiusLength omega0 mass omegaC : ℝ} {np : Module} {b : BasisSet ℂ}
    {df : List Row} (h : oscB l num radiusLength omega0 mass omegaC np = .ok (b, df)) :
    ∃ x p, b.h = some x ∧ p < l ∧ x.get [p, p] = (Real.sqrt (omega0 ^ 2 + omegaC ^ 2 / 4) : ℂ) := by
  obtain ⟨hd, x, hx, -, ex⟩ := C51_one_body h
  obtain ⟨-, -, hn, hlow⟩ := C51_lowest hd
  have e0 : levelEnergy omega0 omegaC (0, 0) = Real.sqrt (omega0 ^ 2 + omegaC ^ 2 / 4) := by
    simp [levelEnergy]
  by_cases h0 : ((0, 0) : ℤ × ℤ) ∈ keptStates l df
  · obtain ⟨p, hp, hp'⟩ := List.mem_map.1 h0
    rw [List.mem_range] at hp
    exact ⟨x, p, hx, hp, by rw [ex p p hp hp, if_pos rfl, hp', e0]⟩
  · have hm : indicesNmB df 0 ∈ keptStates l df := List.mem_map.2 ⟨0, List.mem_range.2 hl, rfl⟩
    refine ⟨x, 0, hx, hl, ?_⟩
    rw [ex 0 0 hl hl, if_pos rfl]
    have h1 := hlow _ hm 0 0 le_rfl h0
    have h2 := levelEnergy_ge (omega0 := omega0) (omegaC := omegaC) (n := (indicesNmB df 0).1) (m := (indicesNmB df 0).2)
      (hn _ hm)
    rw [e0] at h1
    rw [show levelEnergy omega0 omegaC (indicesNmB df 0) = _ from le_antisymm h1 h2]

/-- **C95** In a field, a second call of `setup_basis` always changes the one-body elements. -/
theorem C95_field_changes {l : ℕ} (hl : 1 ≤ l) (num : ℕ) (radiusLength omega mass omegaC : ℝ) (np : Module)
    (ho : 2 / 10 ^ 6 ≤ Real.sqrt (omega ^ 2 + omegaC ^ 2 / 4)) (hc : omegaC ≠ 0) :
    ∃ o o', OscB.new l num radiusLength omega mass omegaC np = .ok o ∧
      (OscB.setupBasis num radiusLength mass omegaC).run o = (.ok (), o') ∧ o'.basis.h ≠ o.basis.h := by
  obtain ⟨o, o1, b, df, h1, h2, -, h3, h4⟩ := C95_actual hl num radiusLength omega mass omegaC np ho 0
  cases h2
  obtain ⟨o', o2, b', df', g1, g2, -, g3, g4⟩ := C95_actual hl num radiusLength omega mass omegaC np ho 1
  rw [h1] at g1
  cases g1
  rw [if_pos rfl] at h3
  rw [if_neg one_ne_zero] at g3
  refine ⟨o, o2, h1, ?_, ?_⟩
  · unfold setupAgain at g2
    rcases hr : (OscB.setupBasis num radiusLength mass omegaC).run o with ⟨e | ⟨⟩, y⟩
    · rw [hr] at g2; cases g2
    · rw [hr] at g2
      cases g2
      rfl
  · rw [h4.1, g4.1]
    obtain ⟨x, p, hx, hp, ex⟩ := exists_ground hl h3
    obtain ⟨hd, y, hy, -, ey⟩ := C51_one_body g3
    rw [hx, hy]
    intro e
    cases e
    rw [ey p p hp hp, if_pos rfl] at ex
    have e' := Complex.ofReal_injective ex
    have hge := levelEnergy_ge (omega0 := Real.sqrt (omega ^ 2 + ((1 : ℕ) : ℝ) * (omegaC ^ 2 / 4))) (omegaC := omegaC)
      (n := (indicesNmB df' p).1) (m := (indicesNmB df' p).2) (kept_row hd hp).2.2.2
    rw [e', Real.sq_sqrt (by positivity)] at hge
    refine absurd hge (not_le.2 (Real.sqrt_lt_sqrt (by positivity) ?_))
    have : 0 < omegaC ^ 2 := by positivity
    push_cast
    linarith

/-- **C95 is false as stated**: in a magnetic field, `setup_basis` overwrites the frequency it starts from. -/
theorem C95_false : ¬ C95_statement := by
  intro h
  have ho : (2 : ℝ) / 10 ^ 6 ≤ Real.sqrt (3 ^ 2 + 8 ^ 2 / 4) := Real.le_sqrt_of_sq_le (by norm_num)
  obtain ⟨o, o', h1, h2, h3⟩ := C95_field_changes (l := 1) le_rfl 2 1 3 1 8 0 ho (by norm_num)
  rw [h 1 2 1 3 1 8 0 o h1] at h2
  cases h2
  exact h3 rfl

/-- **C95** Without field, the elements stay as they are in `TwoDimHarmonicOscB` too. -/
theorem C95_partial {l : ℕ} (hl : 1 ≤ l) (num : ℕ) (radiusLength : ℝ) {omega : ℝ} (mass : ℝ) (np : Module)
    (ho : 2 / 10 ^ 6 ≤ omega) :
    ∃ o o', OscB.new l num radiusLength omega mass 0 np = .ok o ∧
      (OscB.setupBasis num radiusLength mass 0).run o = (.ok (), o') ∧ o'.omega = o.omega ∧
      SameElements o'.basis o.basis := by
  have hpos : 0 ≤ omega := le_trans (by norm_num) ho
  have hs : Real.sqrt (omega ^ 2) = omega := Real.sqrt_sq hpos
  have ho' : (2 : ℝ) / 10 ^ 6 ≤ Real.sqrt (omega ^ 2 + 0 ^ 2 / 4) := by simpa [hs] using ho
  obtain ⟨o, o1, b, df, h1, h2, hw, h3, h4⟩ := C95_actual hl num radiusLength omega mass 0 np ho' 0
  cases h2
  obtain ⟨o', o2, b', df', g1, g2, gw, g3, g4⟩ := C95_actual hl num radiusLength omega mass 0 np ho' 1
  rw [h1] at g1
  cases g1
  rw [if_pos rfl] at h3
  rw [if_neg one_ne_zero] at g3
  simp only [ne_eq, OfNat.ofNat_ne_zero, not_false_eq_true, zero_pow, zero_div, mul_zero, add_zero, hs] at g3 gw hw
  rw [h3] at g3
  cases g3
  refine ⟨o, o2, h1, ?_, gw.trans hw.symm, ?_⟩
  · unfold setupAgain at g2
    rcases hr : (OscB.setupBasis num radiusLength mass 0).run o with ⟨e | ⟨⟩, y⟩
    · rw [hr] at g2; cases g2
    · rw [hr] at g2
      cases g2
      rfl
  · obtain ⟨a1, a2, a3, a4, a5⟩ := h4
    obtain ⟨b1, b2, b3, b4, b5⟩ := g4
    exact ⟨b1.trans a1.symm, b2.trans a2.symm, b3.trans a3.symm, b4.trans a4.symm, b5.trans a5.symm⟩

/-- From `ω = 3`, `ω_c = 8` the frequencies after the constructor and after two further calls are `5` and
`√57`. -/
example : ∃ o o', OscB.new 2 5 4 3 1 8 0 = .ok o ∧ o.omega = 5 ∧ setupAgain 5 4 1 8 2 o = .ok o' ∧
    o'.omega = Real.sqrt 57 := by
  have ho : (2 : ℝ) / 10 ^ 6 ≤ Real.sqrt (3 ^ 2 + 8 ^ 2 / 4) := Real.le_sqrt_of_sq_le (by norm_num)
  obtain ⟨o, o1, b, df, h1, h2, hw, -⟩ := C95_actual (l := 2) (by norm_num) 5 4 3 1 8 0 ho 0
  cases h2
  obtain ⟨o', o2, b', df', g1, g2, gw, -⟩ := C95_actual (l := 2) (by norm_num) 5 4 3 1 8 0 ho 2
  rw [h1] at g1
  cases g1
  refine ⟨o, o2, h1, ?_, g2, ?_⟩
  · rw [hw, show (3 : ℝ) ^ 2 + ((0 : ℕ) + 1) * (8 ^ 2 / 4) = 5 ^ 2 by norm_num]
    exact Real.sqrt_sq (by norm_num)
  · rw [gw]
    norm_num

/-! ## C96 -/

/-- C96 as stated, for the screening length `a` of the one-dimensional dots: the doubling leaves it alone. -/
def C96_statement : Prop := ∀ (l num : ℕ) (L omega a alpha beta : ℝ) (b b' : BasisSet ℂ) (a₀ a₁ b₀ b₁ : ℂ) (anti : Bool),
  2 ≤ num → odho l L num omega a alpha beta = .ok b → b.a = some (pyFloat a) ∧
    ((changeToGeneralAB [a₀, a₁] [b₀, b₁] anti).run b = (.ok true, b') → b'.a = some (pyFloat a))

/-- **C96** What the code does: the attributes `a` and `b` of every basis set become the spinors, whatever they
were before. -/
theorem C96_actual {K : Type} [PyScalar K] {b b' : BasisSet K} {l : ℕ} {a₀ a₁ b₀ b₁ : K} {r anti : Bool}
    (hb : WellFormed b l) (hsp : b.includesSpin = false)
    (h : (changeToGeneralBase [a₀, a₁] [b₀, b₁] anti).run b = (.ok r, b')) :
    ∃ x y, b'.a = some x ∧ b'.b = some y ∧ x.shape = [2, 1] ∧ y.shape = [2, 1] ∧
      x.get [0, 0] = a₀ ∧ x.get [1, 0] = a₁ ∧ y.get [0, 0] = b₀ ∧ y.get [1, 0] = b₁ := by
  obtain ⟨ov, hs, rfl, rfl⟩ := changeToGeneralBase_inv hb hsp h
  refine ⟨column [a₀, a₁], column [b₀, b₁], ?_, ?_, rfl, rfl, rfl, rfl, rfl, rfl⟩
  · cases anti <;> cases hn : b.antiSym <;> simp [general, casted, withSpin, antiSymmed, hn]
  · cases anti <;> cases hn : b.antiSym <;> simp [general, casted, withSpin, antiSymmed, hn]

/-- **C96 is false as stated**: the screening length of an `ODHO` is gone after the doubling. -/
theorem C96_false : ¬ C96_statement := by
  intro h
  obtain ⟨b, hb, hc⟩ := C91_odho 1 1 (num := 2) le_rfl 1 1 1 0 0 false false
  obtain ⟨s, hs, -⟩ := hc.s
  have ho : OrthoSpin (1 : ℂ) 0 0 1 := ⟨by simp [spinor], by simp [spinor], by simp [spinor]⟩
  obtain ⟨b', hb'⟩ := C16_succeeds true hc.wf hc.spin_eq (by rw [hs]; rfl) ho
  obtain ⟨x, y, hx, -, sx, -⟩ := C96_actual hc.wf hc.spin_eq hb'
  have hcls : b.cls = .plain := by
    obtain ⟨b2, h2, h3, -⟩ := odho_ok 1 1 (num := 2) le_rfl 1 1 1 0 0 false false
    rw [hb] at h2
    cases h2
    exact h3.cls
  have := (h 1 2 1 1 1 1 0 b b' 1 0 0 1 true le_rfl hb).2 (by
    simp only [changeToGeneralAB, PyM.run_bind, run_get, hcls]
    exact hb')
  rw [hx] at this
  cases this
  cases sx

/-- A call that leaves the attributes `a` and `b` alone, whether it returns or raises. -/
def KeepsAB {K α : Type} [PyScalar K] (m : PyM (BasisSet K) α) : Prop :=
  ∀ b, (m.run b).2.a = b.a ∧ (m.run b).2.b = b.b

section keeps
variable {K α β : Type} [PyScalar K]

theorem keepsAB_bind {m : PyM (BasisSet K) α} {f : α → PyM (BasisSet K) β} (h1 : KeepsAB m)
    (h2 : ∀ x, KeepsAB (f x)) : KeepsAB (m >>= f) := by
  intro b
  rw [PyM.run_bind]
  have := h1 b
  rcases hr : m.run b with ⟨e | x, b1⟩
  · rw [hr] at this
    exact this
  · rw [hr] at this
    have h3 := h2 x b1
    exact ⟨h3.1.trans this.1, h3.2.trans this.2⟩

theorem keepsAB_pure (x : α) : KeepsAB (pure x : PyM (BasisSet K) α) := fun _ => ⟨rfl, rfl⟩
theorem keepsAB_get : KeepsAB (PyM.get : PyM (BasisSet K) (BasisSet K)) := fun _ => ⟨rfl, rfl⟩
theorem keepsAB_lift (x : Except PyErr α) : KeepsAB (liftM x : PyM (BasisSet K) α) := fun _ => ⟨rfl, rfl⟩
theorem keepsAB_raise (e : PyErr) : KeepsAB (PyM.raise e : PyM (BasisSet K) α) := fun _ => ⟨rfl, rfl⟩
theorem keepsAB_assert (c : Bool) : KeepsAB (PyM.assert c : PyM (BasisSet K) Unit) := by
  cases c <;> exact fun _ => ⟨rfl, rfl⟩
theorem keepsAB_modify {f : BasisSet K → BasisSet K} (h : ∀ b, (f b).a = b.a ∧ (f b).b = b.b) :
    KeepsAB (PyM.modify f) := h
theorem keepsAB_ite {c : Prop} [Decidable c] {m m' : PyM (BasisSet K) α} (h : KeepsAB m) (h' : KeepsAB m') :
    KeepsAB (if c then m else m') := by
  split <;> assumption

/-- Split a program into its steps. -/
macro "keeps_ab" : tactic => `(tactic| repeat' first
  | exact keepsAB_pure _ | exact keepsAB_get | exact keepsAB_lift _ | exact keepsAB_raise _ | exact keepsAB_assert _
  | exact keepsAB_modify (fun _ => ⟨rfl, rfl⟩)
  | assumption
  | refine keepsAB_bind ?_ (fun _ => ?_)
  | refine keepsAB_ite ?_ ?_
  | split)

theorem keepsAB_setH (x : Option (NDArray K)) : KeepsAB (setH x) := by unfold setH; keeps_ab
theorem keepsAB_setU (x : Option (NDArray K)) : KeepsAB (setU x) := by unfold setU; keeps_ab
theorem keepsAB_setS (x : Option (NDArray K)) : KeepsAB (setS x) := by unfold setS; keeps_ab
theorem keepsAB_setDipole (x : Option (NDArray K)) : KeepsAB (setDipole x) := by unfold setDipole; keeps_ab
theorem keepsAB_setSpf (x : Option (NDArray K)) : KeepsAB (setSpf x) := by unfold setSpf; keeps_ab
theorem keepsAB_setBra (x : Option (NDArray K)) : KeepsAB (setBra x) := by unfold setBra; keeps_ab
theorem keepsAB_getBra : KeepsAB (getBra : PyM (BasisSet K) _) := by unfold getBra; keeps_ab
theorem keepsAB_setSpin2tb (x : Option (NDArray K)) : KeepsAB (setSpin2tb x) := by unfold setSpin2tb; keeps_ab

theorem keepsAB_changeBasis (C : NDArray K) (Ct : Option (NDArray K)) : KeepsAB (changeBasis C Ct) := by
  have h1 := keepsAB_setH (K := K)
  have h2 := keepsAB_setU (K := K)
  have h3 := keepsAB_setS (K := K)
  have h4 := keepsAB_setDipole (K := K)
  have h5 := keepsAB_setSpf (K := K)
  have h6 := keepsAB_setBra (K := K)
  have h7 := keepsAB_getBra (K := K)
  have h8 := keepsAB_setSpin2tb (K := K)
  unfold changeBasis changeBasisOneBody changeBasisTwoBody changeBasisDipole changeBasisSpf
  keeps_ab
  all_goals first | exact h1 _ | exact h2 _ | exact h3 _ | exact h4 _ | exact h5 _ | exact h6 _ | exact h8 _

/-- **C96** Every other operation keeps the attributes `a` and `b`, whether it returns or raises. -/
theorem C96_partial (op : Op K) (hop : ∀ a b anti, op ≠ .toGeneral a b anti) : KeepsAB op.run := by
  have h2 := keepsAB_setU (K := K)
  have h7 := keepsAB_getBra (K := K)
  have h8 := keepsAB_setSpin2tb (K := K)
  cases op with
  | toGeneral a b anti => exact absurd rfl (hop a b anti)
  | changeBasis C Ct => exact keepsAB_changeBasis C Ct
  | setH x => exact keepsAB_setH x
  | setU x => exact h2 x
  | setS x => exact keepsAB_setS x
  | setDipole x => exact keepsAB_setDipole x
  | setSpinX x => show KeepsAB (setSpinX x); unfold setSpinX; keeps_ab
  | setSpinY x => show KeepsAB (setSpinY x); unfold setSpinY; keeps_ab
  | setSpinZ x => show KeepsAB (setSpinZ x); unfold setSpinZ; keeps_ab
  | setSpin2 x => show KeepsAB (setSpin2 x); unfold setSpin2; keeps_ab
  | setSpin2tb x => exact h8 x
  | setSpf x => exact keepsAB_setSpf x
  | setBra x => exact keepsAB_setBra x
  | setNre x => exact keepsAB_modify fun _ => ⟨rfl, rfl⟩
  | setGrid x => exact keepsAB_modify fun _ => ⟨rfl, rfl⟩
  | readBra => show KeepsAB (do let _ ← getBra; pure ()); keeps_ab
  | antiSymmetrize =>
    show KeepsAB antiSymmetrizeTwoBody
    unfold antiSymmetrizeTwoBody
    keeps_ab
    all_goals first | exact h2 _ | exact h8 _
  | castToComplex => show KeepsAB BasisSet.castToComplex; unfold BasisSet.castToComplex; keeps_ab
  | changeModule np =>
    show KeepsAB (BasisSet.changeModule np)
    unfold BasisSet.changeModule changeModuleBase
    keeps_ab

end keeps

/-- An `ODHO` with screening length `1/4`, rotated and then doubled: `a` survives the rotation and becomes the
spinor `(0, 1)`. -/
example : ∃ b b1 b2 : BasisSet ℂ, ∃ x, odho 3 5 11 1 (1 / 4) 1 0 = .ok b ∧ b.a = some (pyFloat (1 / 4)) ∧
    (changeBasis (eye 3) none).run b = (.ok (), b1) ∧ b1.a = some (pyFloat (1 / 4)) ∧
    (changeToGeneralBase [0, 1] [1, 0] true).run b1 = (.ok true, b2) ∧ b2.a = some x ∧ x.shape = [2, 1] ∧
      x.get [0, 0] = 0 ∧ x.get [1, 0] = 1 := by
  obtain ⟨b, hb, hc⟩ := C91_odho 3 5 (num := 11) (by norm_num) 1 (1 / 4) 1 0 0 false false
  have ha : b.a = some (pyFloat (1 / 4)) := by
    obtain ⟨b2, h2, h3, -⟩ := odho_ok 3 5 (num := 11) (by norm_num) 1 (1 / 4) 1 0 0 false false
    rw [hb] at h2
    cases h2
    exact h3.a_eq
  obtain ⟨b1, h1, -⟩ := (C91_usable hc).1 3 (eye 3) rfl
  have hk := keepsAB_changeBasis (K := ℂ) (eye 3) none b
  rw [h1] at hk
  obtain ⟨n, hn, -, -, h2⟩ := changeBasis_inv hc.wf h1
  obtain ⟨n', hn', -, hw⟩ := C03_change_basis hc.wf h1
  obtain ⟨s, hs, -⟩ := hc.s
  have h3 : b1.includesSpin = false := by rw [h2]; exact hc.spin_eq
  have h4 : b1.s.isSome := by rw [h2]; simp [changed, hs]
  have ho : OrthoSpin (0 : ℂ) 1 1 0 := ⟨by simp [spinor], by simp [spinor], by simp [spinor]⟩
  obtain ⟨b2, hb2⟩ := C16_succeeds true hw h3 h4 ho
  obtain ⟨x, y, hx, -, sx, -, x0, x1, -⟩ := C96_actual hw h3 hb2
  exact ⟨b, b1, b2, x, hb, ha, h1, hk.1.trans ha, hb2, hx, sx, x0, x1⟩

end QS.Props
