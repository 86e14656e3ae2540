import Verif.Lemmas.OneDimSetup
import Verif.Lemmas.SincDvr
import Verif.Lemmas.Tdho
import Verif.Lemmas.Magnetic

/-!
# `setup_basis` on an object that already is set up
-/

namespace QS.OneDim

open NDArray PyM BasisSet Spec

/-- `ODHO.setup_basis` reads the size and the grid and assigns five attributes. -/
theorem odhoSetup_run {b : BasisSet ℂ} {l num : ℕ} {L : ℝ} (hl : b.l = l) (hd : b.dim = 1)
    (hgr : b.grid = some (linspaceArr (-L) L num)) (h2 : 2 ≤ num) (omega a alpha : ℝ) :
    (odhoSetup num omega a alpha).run b = (.ok (), { b with
      h := some (ofFn .complex128 [l, l] (fun i => if i.getD 0 0 = i.getD 1 0 then
        ((omega * (i.getD 0 0 + 1 / 2) : ℝ) : ℂ) else 0))
      s := some (eye l)
      spf := some (odhoSpf l num L omega)
      u := some (ofFn .complex128 [l, l, l, l] (fun i =>
        coulombSum num (TwoDim.linspace (-L) L num) (fun p j => (odhoSpf l num L omega).get [p, j]) alpha a
          (i.getD 0 0) (i.getD 1 0) (i.getD 2 0) (i.getD 3 0)))
      dipole := some (ofFn .float64 [1, l, l] (fun i =>
        if i.getD 1 0 + 1 = i.getD 2 0 then (odhoDip omega (i.getD 1 0) : ℂ)
        else if i.getD 2 0 + 1 = i.getD 1 0 then (odhoDip omega (i.getD 2 0) : ℂ) else 0)) }) := by
  subst hl
  have hg : Uniform _ num _ _ := linspace_uniform L
  have hrows := fillRows (l := b.l) (num := num)
    (fun p j => ((hoFunction omega p (TwoDim.linspace (-L) L num j) : ℝ) : ℂ))
    (fun p => mapReal (hoFunction omega p) (linspaceArr (-L) L num)) (fun p => rfl) (fun p j _ hj => by
      unfold mapReal
      rw [ofFn_get_of (by exact ⟨hj, trivial⟩), hg.get j hj, Complex.ofReal_re])
  obtain ⟨inner, hi, hu⟩ := twoBody_eq hg h2 (spf := odhoSpf b.l num L omega) (l := b.l) rfl alpha a
  have hh : (diag (ofFn .float64 [b.l] (fun i => ((omega * (i.getD 0 0 + 1 / 2) : ℝ) : ℂ))) : Except PyErr (NDArray ℂ))
      = .ok (ofFn .float64 [b.l, b.l] (fun i => if i.getD 0 0 = i.getD 1 0 then
        ((omega * (i.getD 0 0 + 1 / 2) : ℝ) : ℂ) else 0)) := by
    rw [diag_zero rfl]
    congr 1
    refine ofFn_congr fun i hi => ?_
    obtain ⟨p, q, rfl, hp, hq⟩ := inRange_two.1 hi
    simp only [List.getD_cons_zero, List.getD_cons_succ]
    by_cases h : p = q
    · rw [if_pos h, if_pos h, ofFn_get_of (by exact ⟨hp, trivial⟩)]
      rfl
    · rw [if_neg h, if_neg h]
  simp only [odhoSetup, PyM.run_bind, run_modify, run_get, run_liftM, hgr, orErr]
  rw [getItem_ok (by exact ⟨by omega, trivial⟩), getItem_ok (by exact ⟨by omega, trivial⟩)]
  dsimp only
  rw [hh]
  dsimp only
  rw [setH_run (by exact axesOk_two rfl)]
  dsimp only
  rw [setS_run (by exact axesOk_two rfl)]
  dsimp only
  rw [setSpf_run (sh := [num]) (by rfl) (by exact hd.symm)]
  dsimp only
  rw [odhoRows, hrows]
  dsimp only
  have e : ofFn .float64 [b.l, num] (fun i =>
    ((hoFunction omega (i.getD 0 0) (TwoDim.linspace (-L) L num (i.getD 1 0)) : ℝ) : ℂ))
      = odhoSpf b.l num L omega := rfl
  rw [e, hi]
  dsimp only
  rw [hu]
  dsimp only
  rw [setU_run (by exact axesOk_four rfl)]
  dsimp only
  rw [setDipole_run (sh := [b.l, b.l]) (by simp only [hd]; rfl) (by simp)]
  dsimp only
  rw [odhoDipole_eq, ← hgr]
  rfl

/-- `ODQD.setup_basis` reads the size and the grid and assigns five attributes. -/
theorem odqdSetup_run {eigh : NDArray ℂ → Except PyErr (NDArray ℂ × NDArray ℂ)} (he : IsEigh eigh) {l num : ℕ}
    (L : ℝ) (h3 : 3 ≤ num) (hl : l ≤ num - 2) (a alpha beta : ℝ) (V : ℝ → ℝ) :
    ∃ h s f u d, ∀ b : BasisSet ℂ, b.l = l → b.dim = 1 → b.grid = some (linspaceArr (-L) L num) →
      (odqdSetup eigh V num a alpha beta).run b
        = (.ok (), { b with h := some h, s := some s, spf := some f, u := some u, dipole := some d }) := by
  have hg : Uniform _ num _ _ := linspace_uniform L
  have hdx : ((linspaceArr (-L) L num).get [1] - (linspaceArr (-L) L num).get [0]).re
      = (L - -L) / ((num : ℝ) - 1) := by
    rw [hg.get 1 (by omega), hg.get 0 (by omega), ← Complex.ofReal_sub, Complex.ofReal_re]
    exact hg.step 0
  obtain ⟨w, v, hwv, hE⟩ := he (num - 2) (ofFn .float64 [num - 2, num - 2] (fun i =>
      (fdEntry V (TwoDim.linspace (-L) L num) ((L - -L) / ((num : ℝ) - 1)) (i.getD 0 0) (i.getD 1 0) : ℂ)))
    rfl (by
      intro i j
      by_cases hi : i < num - 2 ∧ j < num - 2
      · rw [ofFn_get_of (by exact ⟨hi.1, hi.2, trivial⟩), ofFn_get_of (by exact ⟨hi.2, hi.1, trivial⟩)]
        simp only [List.getD_cons_zero, List.getD_cons_succ, Complex.conj_ofReal]
        rw [fdEntry_symm]
      · rw [ofFn_get, ofFn_get, if_neg (fun h => hi ⟨h.1, h.2.1⟩), if_neg (fun h => hi ⟨h.2.1, h.1⟩), map_zero])
  obtain ⟨inner, hi, hu⟩ := twoBody_eq hg (by omega)
    (spf := odqdSpf l num ((L - -L) / ((num : ℝ) - 1)) v) (l := l) rfl alpha a
  have hh : (diag (ofFn w.dtype [min l (num - 2) - min 0 (num - 2)]
      (fun i => w.get [min 0 (num - 2) + i.getD 0 0])) : Except PyErr (NDArray ℂ))
      = .ok (ofFn w.dtype [l, l] (fun i => if i.getD 0 0 = i.getD 1 0 then w.get [i.getD 0 0] else 0)) := by
    rw [Nat.zero_min, min_eq_left hl, Nat.sub_zero, diag_zero rfl]
    congr 1
    refine ofFn_congr fun i hi => ?_
    obtain ⟨p, q, rfl, hp, hq⟩ := inRange_two.1 hi
    simp only [List.getD_cons_zero, List.getD_cons_succ]
    by_cases h : p = q
    · rw [if_pos h, if_pos h, ofFn_get_of (by exact ⟨hp, trivial⟩)]
      simp
    · rw [if_neg h, if_neg h]
  refine ⟨ofFn .complex128 [l, l] (fun i => if i.getD 0 0 = i.getD 1 0 then w.get [i.getD 0 0] else 0), eye l,
    odqdSpf l num ((L - -L) / ((num : ℝ) - 1)) v,
    ofFn .complex128 [l, l, l, l] (fun i =>
      coulombSum num (TwoDim.linspace (-L) L num)
        (fun p j => (odqdSpf l num ((L - -L) / ((num : ℝ) - 1)) v).get [p, j]) alpha a
          (i.getD 0 0) (i.getD 1 0) (i.getD 2 0) (i.getD 3 0)),
    ofFn .complex128 [1, l, l] (fun i =>
      trapezoid num (TwoDim.linspace (-L) L num) fun j =>
        (starRingEnd ℂ) ((odqdSpf l num ((L - -L) / ((num : ℝ) - 1)) v).get [i.getD 1 0, j])
        * ((TwoDim.linspace (-L) L num j + beta * TwoDim.linspace (-L) L num j ^ 2 : ℝ) : ℂ)
        * (odqdSpf l num ((L - -L) / ((num : ℝ) - 1)) v).get [i.getD 2 0, j]), fun b bl bd bg => ?_⟩
  subst bl
  simp only [odqdSetup, PyM.run_bind, run_modify, run_get, orErr, run_liftM, bg]
  rw [odqdMatrix_eq V hg h3, getItem_ok (by exact ⟨by omega, trivial⟩),
    getItem_ok (by exact ⟨by omega, trivial⟩)]
  dsimp only
  rw [hwv]
  dsimp only
  rw [slice_one hE.w_shape, slice_two hE.v_shape]
  dsimp only
  rw [setSpf_run (sh := [num]) (by rfl) (by exact bd.symm)]
  dsimp only
  rw [hdx, setInterior_eq _ hl]
  dsimp only
  rw [hh]
  dsimp only
  rw [setH_run (by exact axesOk_two rfl)]
  dsimp only
  rw [setS_run (by exact axesOk_two rfl)]
  dsimp only
  rw [hi]
  dsimp only
  rw [hu]
  dsimp only
  rw [setU_run (by exact axesOk_four rfl)]
  dsimp only
  rw [setDipole_run (sh := [b.l, b.l]) (by simp only [bd]; rfl) (by simp)]
  dsimp only
  rw [odqdDipole_eq hg.shape hg.get rfl, ← bg]
  rfl

end QS.OneDim

namespace QS.SincDvr

open NDArray BasisSet OneDim

/-- `ODSincDVR.setup_basis` on the finished object. -/
theorem sincSetup_again {l : ℕ} (h2 : 2 ≤ l) (L a alpha beta : ℝ) (V : ℝ → ℝ) {repr : URepr}
    (hr : repr ≠ .unknown) (hm : Bool) (np : Module) (sp an : Bool) :
    (sincSetup V a alpha beta repr).run (sincObj l L a alpha beta V repr hm np sp an)
      = (.ok (), sincObj l L a alpha beta V repr hm np sp an) := by
  have hg0 : InRange (linspaceArr (-L) L l).shape [0] := ⟨by omega, trivial⟩
  have hg1 : InRange (linspaceArr (-L) L l).shape [1] := ⟨by omega, trivial⟩
  have hu : axesOk (sincU l L alpha a .float64 repr) l = true := by
    unfold sincU
    by_cases h : repr = .two
    · rw [if_pos h]; exact axesOk_two rfl
    · rw [if_neg h]; exact axesOk_four rfl
  simp only [sincSetup, PyM.run_bind, PyM.run_modify, PyM.run_get, orErr, PyM.run_liftM,
    BasisSet.init, sincObj]
  rw [getItem_ok hg1, getItem_ok hg0]
  dsimp only
  rw [spacing_eq h2]
  rw [setH_run (axesOk_two rfl)]
  dsimp only
  rw [setS_run (axesOk_two rfl)]
  dsimp only
  rw [setSpf_run (sh := [l]) (by rfl) (by rfl)]
  dsimp only
  rw [coulombElements_eq]
  dsimp only
  rw [setU_run hu]
  dsimp only
  rw [setDipole_run (sh := [l, l]) (by rfl) (by simp)]
  dsimp only
  rw [dipoleDiag_eq]
  dsimp only
  simp only [castToComplex, PyM.run_bind, getBra_run, PyM.run_get, PyM.run_modify, anyArray, needNp,
    Option.isSome_some, Bool.true_or, if_true, PyM.run_liftM, BasisSet.bra, Option.map_some, Option.map_none]
  rw [sincH_eq, toComplex_conj, sincGrid_eq, sincU_toComplex, sincDip_eq]
  rfl

end QS.SincDvr

namespace QS.TwoDim

open NDArray Idx PyM BasisSet

/-- The attributes `TwoDimensionalHarmonicOscillator.setup_basis` assigns. -/
noncomputable def tdhoFill (u : NDArray ℂ) (l num : ℕ) (radiusLength omega mass : ℝ) (b : BasisSet ℂ) :
    BasisSet ℂ :=
  { b with
    h := some (oscillatorH l omega)
    u := some (smul .float64 (Real.sqrt omega : ℂ) u)
    s := some (eye l)
    spf := some (setupSpf getIndicesNm l num radiusLength omega mass)
    dipole := some (ofFn .complex128 [2, l, l]
      (fun i => dipoleEntry getIndicesNm omega mass (i.getD 0 0) (i.getD 1 0) (i.getD 2 0))) }

theorem tdhoSetup_run (u : NDArray ℂ) {b : BasisSet ℂ} {l : ℕ} (hl : b.l = l) (hc : b.cls = .plain) {np : Module}
    (hnp : b.np = some np) (num : ℕ) (radiusLength omega mass : ℝ) :
    (tdhoSetup (.ok u) num radiusLength omega mass).run b
      = (.ok (), if np = 0 then tdhoFill u l num radiusLength omega mass b
          else { withBra (tdhoFill u l num radiusLength omega mass b) with np := some np }) := by
  cases b
  dsimp only at hl hc hnp
  subst hl hc hnp
  unfold tdhoSetup
  simp only [PyM.run_bind, run_get, run_liftM, run_modify, getOneBodyElements_eq,
    constructDipoleMoment_eq]
  by_cases h0 : np = 0
  · subst h0
    simp only [if_true]
    rfl
  · rw [if_neg (by simpa using h0), if_neg h0]
    exact changeModule_plain rfl (by simp) np

/-- The elements `TwoDimensionalDoubleWell.setup_basis` puts in place of those of the oscillator. -/
noncomputable def doubleWellFill (u : NDArray ℂ) (l num : ℕ) (radiusLength omega mass barrier : ℝ) (axis : ℕ)
    (b : BasisSet ℂ) : BasisSet ℂ :=
  { tdhoFill u l num radiusLength omega mass b with
    h := some (ofFn .complex128 [l, l]
        (fun i => (doubleWellEntry omega mass barrier axis (i.getD 0 0) (i.getD 1 0) : ℂ))) }

theorem doubleWellSetup_run (u : NDArray ℂ) {b : BasisSet ℂ} {l : ℕ} (hl : b.l = l) (hc : b.cls = .plain)
    {np : Module} (hnp : b.np = some np) (num : ℕ) (radiusLength omega mass barrier : ℝ) (axis : ℕ) :
    (doubleWellSetup (.ok u) num radiusLength omega mass barrier axis).run b
      = (.ok (), { withBra (doubleWellFill u l num radiusLength omega mass barrier axis b) with np := some np }) := by
  cases b
  dsimp only at hl hc hnp
  subst hl hc hnp
  unfold doubleWellSetup
  rw [run_bind_ok (tdhoSetup_run u rfl rfl rfl num radiusLength omega mass)]
  by_cases h0 : np = 0
  · rw [if_pos h0]
    rw [run_bind_ok (run_get _), run_bind_ok (by rw [run_liftM, getDoubleWell_eq]), run_bind_ok (run_modify _ _),
      run_bind_ok (run_get _)]
    exact changeModule_plain rfl (by simp) np
  · rw [if_neg h0]
    rw [run_bind_ok (run_get _), run_bind_ok (by rw [run_liftM, getDoubleWell_eq]), run_bind_ok (run_modify _ _),
      run_bind_ok (run_get _)]
    refine (changeModule_plain rfl (by simp) np).trans ?_
    rename_i bra _ _ _ _ _ _
    cases bra <;> rfl

/-- The attributes `TwoDimHarmonicOscB.setup_basis` assigns. -/
noncomputable def oscBFill (df : List Row) (l num : ℕ) (radiusLength omega mass : ℝ) (b : BasisSet ℂ) :
    BasisSet ℂ :=
  { b with
    h := some (NDArray.ofFn .float64 [l, l] (fun i => if i.getD 0 0 = i.getD 1 0 then
      ((df.getD (i.getD 0 0) ⟨0, 0, 0⟩).E : ℂ) else 0))
    s := some (eye l)
    u := some (smul .float64 (Real.sqrt omega : ℂ) (NDArray.ofFn .float64 [l, l, l, l] (fun i => ((Coulomb.coulombHo
        (indicesNmB df (i.getD 0 0)).1 (indicesNmB df (i.getD 0 0)).2
        (indicesNmB df (i.getD 1 0)).1 (indicesNmB df (i.getD 1 0)).2
        (indicesNmB df (i.getD 2 0)).1 (indicesNmB df (i.getD 2 0)).2
        (indicesNmB df (i.getD 3 0)).1 (indicesNmB df (i.getD 3 0)).2 : ℝ) : ℂ))))
    spf := some (setupSpf (indicesNmB df) l num radiusLength omega mass)
    dipole := some (ofFn .complex128 [2, l, l]
      (fun i => dipoleEntry (indicesNmB df) omega mass (i.getD 0 0) (i.getD 1 0) (i.getD 2 0))) }

theorem oscBSetup_run {b : BasisSet ℂ} {l : ℕ} (hl : b.l = l) (hc : b.cls = .plain) {np : Module}
    (hnp : b.np = some np) {omega omegaC : ℝ} {df : List Row}
    (h : constructDataframe (nArray l) (mArray l) omegaC omega = .ok df) (hlen : l ≤ df.length)
    (num : ℕ) (radiusLength mass : ℝ) :
    (oscBSetup num radiusLength omega mass omegaC).run b
      = (.ok df, { withBra (casted (oscBFill df l num radiusLength omega mass b)) with np := some np }) := by
  cases b
  dsimp only at hl hc hnp
  subst hl hc hnp
  unfold oscBSetup
  simp only [PyM.run_bind, run_get, run_liftM, run_modify]
  rw [h]
  simp only [getOneBodyElementsB_eq hlen, getCoulombElementsB_eq, constructDipoleMoment_eq]
  rw [castToComplex_run (np := np) rfl]
  simp only [PyM.run_bind, run_get, casted]
  rw [changeModule_plain rfl (by simp) np]
  rfl

end QS.TwoDim
