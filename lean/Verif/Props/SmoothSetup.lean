import Verif.Model.SmoothSetup
import Verif.Lemmas.Setup
import Verif.Lemmas.OneDimSetup
import Verif.Props.SmoothWell
import Verif.Props.Coulomb

/-!
# Property C140: what `TwoDimSmoothDoubleWell.setup_basis` does
-/

namespace QS.Props

open TwoDim Idx Spec NDArray PyM OneDim BasisSet Coulomb

/-- An object of the class with a module and the table of Coulomb elements of its size. -/
structure SmoothReady (o : SmoothObj) (l : ℕ) (np : Module) : Prop where
  l_eq : o.basis.l = l
  cls : o.basis.cls = .plain
  np_eq : o.basis.np = some np

/-- The object after the call of `setup_basis` of the base class. -/
theorem smooth_base {o : SmoothObj} {l : ℕ} {np : Module} (ready : SmoothReady o l np) (num : ℕ) (radiusLength omega mass : ℝ) :
    ∃ B : BasisSet ℂ, (tdhoSetup (getCoulombElementsRaw l) num radiusLength omega mass).run o.basis = (.ok (), B) ∧ B.l = l ∧
      ∃ u d f, B.u = some u ∧ u.shape = [l, l, l, l] ∧ B.dipole = some d ∧ d.shape = [2, l, l] ∧
        B.spf = some f ∧ f.shape = [l, num, num] := by
  obtain ⟨u, hu, su, -⟩ := C44_selection_rule l
  rw [hu]
  refine ⟨_, tdhoSetup_run u ready.l_eq ready.cls ready.np_eq num radiusLength omega mass, ?_⟩
  by_cases h : np = 0
  · rw [if_pos h]
    exact ⟨ready.l_eq, _, _, _, rfl, su, rfl, rfl, rfl, rfl⟩
  · rw [if_neg h]
    exact ⟨ready.l_eq, _, _, _, rfl, su, rfl, rfl, rfl, rfl⟩

/-- `setup_basis` after the call of that of the base class. -/
theorem smooth_run (eigh : NDArray ℂ → Except PyErr (NDArray ℂ × NDArray ℂ)) (coulomb : Except PyErr (NDArray ℂ)) {o : SmoothObj}
    {B : BasisSet ℂ} {num : ℕ} {radiusLength omega mass : ℝ} (rest : NDArray ℂ → PyM SmoothObj Unit)
    (h : (tdhoSetup coulomb num radiusLength omega mass).run o.basis = (.ok (), B)) :
    (o.a = none → (smoothSetup eigh coulomb num radiusLength omega mass rest).run o = (.error .attribute, { o with basis := B })) ∧
    ∀ a, o.a = some a → (o.b = none →
      (smoothSetup eigh coulomb num radiusLength omega mass rest).run o = (.error .attribute, { o with basis := B })) ∧
    ∀ b, o.b = some b → ∀ hDw, getSmoothDoubleWellOneBodyElements B.l omega mass a b .complex128 = .ok hDw →
      ∀ eps C, eigh hDw = .ok (eps, C) → (o.lDw = none → (smoothSetup eigh coulomb num radiusLength omega mass rest).run o
        = (.error .attribute, { o with basis := B, epsilon := some eps })) ∧
      ∀ lDw, o.lDw = some lDw → ∀ l, eps.shape = [l] → C.shape = [l, l] → ∃ h : NDArray ℂ, h.shape = [min lDw l, min lDw l] ∧
        (∀ p < min lDw l, ∀ q < min lDw l, h.get [p, q] = if p = q then eps.get [p] else 0) ∧
        (smoothSetup eigh coulomb num radiusLength omega mass rest).run o = (.error .attribute,
          { o with basis := { B with h := some h, s := some (eye lDw) }, epsilon := some eps }) := by
  have h0 : (SmoothObj.onBasis (tdhoSetup coulomb num radiusLength omega mass)).run o = (.ok (), { o with basis := B }) := by
    change (((tdhoSetup coulomb num radiusLength omega mass).run o.basis).1,
      { o with basis := ((tdhoSetup coulomb num radiusLength omega mass).run o.basis).2 }) = _
    rw [h]
  have look : lookupMethod smoothMethods "change_basis_two_body_elements" = .error .attribute := by decide
  unfold smoothSetup
  rw [run_bind_ok h0, PyM.run_bind, run_get]
  refine ⟨fun ha => ?_, fun a ha => ⟨fun hb => ?_, fun b hb hDw hd eps C he => ⟨fun hl => ?_, fun lDw hl l se sC => ?_⟩⟩⟩
  · simp only [PyM.run_bind, run_liftM, ha, orErr]
  · simp only [PyM.run_bind, run_liftM, ha, hb, orErr]
  · simp only [PyM.run_bind, run_liftM, ha, hb, hl, orErr, hd, he, run_modify]
  · have e1 := slice_one se 0 lDw
    rw [Nat.zero_min, Nat.sub_zero] at e1
    have e2 := diag_zero (ofFn_shape eps.dtype [min lDw l] (fun i => eps.get [0 + i.getD 0 0]))
    refine ⟨ofFn eps.dtype [min lDw l, min lDw l] (fun i => if i.getD 0 0 = i.getD 1 0 then
      (ofFn eps.dtype [min lDw l] (fun i => eps.get [0 + i.getD 0 0])).get [i.getD 0 0] else 0), rfl, fun p hp q hq => ?_, ?_⟩
    · rw [ofFn_get_of (by exact ⟨hp, hq, trivial⟩)]
      simp only [List.getD_cons_zero, List.getD_cons_succ]
      by_cases hpq : p = q
      · rw [if_pos hpq, if_pos hpq, ofFn_get_of (by exact ⟨hp, trivial⟩)]
        simp
      · rw [if_neg hpq, if_neg hpq]
    · simp only [PyM.run_bind, run_liftM, ha, hb, hl, orErr, hd, he, run_modify, e1, slice_two sC, look, e2]
      rfl

/-- **C140** `setup_basis` raises `AttributeError` on every object of the class, whatever the lines after the call of the
missing method would do, whatever the values of `a`, `b`, `l_dw` and whether they are assigned or not. -/
theorem C140_raises {eigh : NDArray ℂ → Except PyErr (NDArray ℂ × NDArray ℂ)} (he : IsEigh eigh) {o : SmoothObj} {l : ℕ}
    {np : Module} (ready : SmoothReady o l np) (num : ℕ) (radiusLength omega mass : ℝ)
    (rest : NDArray ℂ → PyM SmoothObj Unit) :
    ((smoothSetup eigh (getCoulombElementsRaw l) num radiusLength omega mass rest).run o).1 = .error .attribute := by
  obtain ⟨B, hB, hl, -⟩ := smooth_base ready num radiusLength omega mass
  obtain ⟨h1, h2⟩ := smooth_run eigh (getCoulombElementsRaw l) rest hB
  rcases ha : o.a with _ | a
  · rw [h1 ha]
  rcases hb : o.b with _ | b
  · rw [(h2 a ha).1 hb]
  obtain ⟨hDw, hd, sd, herm⟩ := C77_hermitian l omega mass a b .complex128
  obtain ⟨eps, C, e, ok⟩ := he l hDw sd herm
  obtain ⟨h3, h4⟩ := (h2 a ha).2 b hb hDw (by rw [hl]; exact hd) eps C e
  rcases hw : o.lDw with _ | lDw
  · rw [h3 hw]
  · obtain ⟨h, -, -, r⟩ := h4 lDw hw l ok.w_shape ok.v_shape
    rw [r]

/-- **C140** The object that `__init__` makes has no `a` yet when the base class calls `setup_basis`: the elements of the plain
oscillator are in place, and no others. -/
theorem C140_early {eigh : NDArray ℂ → Except PyErr (NDArray ℂ × NDArray ℂ)} (l num : ℕ) (radiusLength omega mass : ℝ)
    (np : Module) (rest : NDArray ℂ → PyM SmoothObj Unit) :
    ∃ b, tdho (getCoulombElementsRaw l) l num radiusLength omega mass np = .ok b ∧
      (smoothSetup eigh (getCoulombElementsRaw l) num radiusLength omega mass rest).run { basis := BasisSet.init l 2 np }
        = (.error .attribute, { basis := b }) := by
  obtain ⟨B, hB, -⟩ := smooth_base (o := { basis := BasisSet.init l 2 np }) ⟨rfl, rfl, rfl⟩ num radiusLength omega mass
  refine ⟨B, ?_, (smooth_run eigh (getCoulombElementsRaw l) rest hB).1 rfl⟩
  unfold tdho
  change (tdhoSetup (getCoulombElementsRaw l) num radiusLength omega mass).run (BasisSet.init l 2 np) = _ at hB
  rw [hB]

/-- **C140** Hence a global variable `l` in the module (the name that `__init__` misses) does not help: the constructor never
returns an object, whatever the global names. -/
theorem C140_constructor (globals : List String) {eigh : NDArray ℂ → Except PyErr (NDArray ℂ × NDArray ℂ)} 
    (l num lGlobal : ℕ) (radiusLength omega mass a b lHoFactor : ℝ) (np : Module) (rest : NDArray ℂ → PyM SmoothObj Unit) :
    ∃ e, smoothNew globals eigh (getCoulombElementsRaw l) l num lGlobal radiusLength omega mass a b lHoFactor np rest
      = .error e ∧ (1 ≤ lHoFactor → "math" ∈ globals → e = if "l" ∈ globals then .attribute else .name) := by
  obtain ⟨B, -, r⟩ := C140_early (eigh := eigh) l num radiusLength omega mass np rest
  unfold smoothNew lookupName
  rw [r]
  have n1 : "math" ∉ smoothInitLocals := by decide
  have n2 : "math" ∉ pythonBuiltins := by decide
  have n3 : "l" ∉ smoothInitLocals := by decide
  have n4 : "l" ∉ pythonBuiltins := by decide
  by_cases h1 : 1 ≤ lHoFactor
  · by_cases h2 : "math" ∈ globals
    · by_cases h3 : "l" ∈ globals
      · exact ⟨.attribute, by simp [h1, h2, h3]; rfl, fun _ _ => by rw [if_pos h3]⟩
      · exact ⟨.name, by simp [h1, h2, h3, n3, n4]; rfl, fun _ _ => by rw [if_neg h3]⟩
    · exact ⟨.name, by simp [h1, h2, n1, n2]; rfl, fun _ h => absurd h h2⟩
  · exact ⟨.assertion, by simp [h1]; rfl, fun h => absurd h h1⟩

/-- **C140** On an object that has got `a`, `b` and `l_dw` it raises after it has replaced `h` and `s` by the lowest energies of
the double well and the identity of that size; `l`, `u`, the dipole moments and the functions are still those of the oscillator,
so that with fewer double-well functions than oscillator functions the object has no consistent size any more. -/
theorem C140_late {eigh : NDArray ℂ → Except PyErr (NDArray ℂ × NDArray ℂ)} (he : IsEigh eigh) {o : SmoothObj} {l lDw : ℕ}
    {np : Module} (ready : SmoothReady o l np) {a b : ℝ} (ha : o.a = some a) (hb : o.b = some b) (hd : o.lDw = some lDw)
    (num : ℕ) (radiusLength omega mass : ℝ) (rest : NDArray ℂ → PyM SmoothObj Unit) :
    ∃ o' hDw eps C h u d f, (smoothSetup eigh (getCoulombElementsRaw l) num radiusLength omega mass rest).run o
        = (.error .attribute, o') ∧
      getSmoothDoubleWellOneBodyElements l omega mass a b .complex128 = .ok hDw ∧ EighOK l hDw eps C ∧
      o'.epsilon = some eps ∧ o'.basis.h = some h ∧ h.shape = [min lDw l, min lDw l] ∧
      (∀ p < min lDw l, ∀ q < min lDw l, h.get [p, q] = if p = q then eps.get [p] else 0) ∧
      o'.basis.s = some (eye lDw) ∧ o'.basis.l = l ∧
      o'.basis.u = some u ∧ u.shape = [l, l, l, l] ∧ o'.basis.dipole = some d ∧ d.shape = [2, l, l] ∧
      o'.basis.spf = some f ∧ f.shape = [l, num, num] ∧
      (lDw ≠ l → ∀ k, ¬ WellFormed o'.basis k) := by
  obtain ⟨B, hB, hl, u, d, f, hu, su, hd', sd', hf, sf⟩ := smooth_base ready num radiusLength omega mass
  obtain ⟨hDw, hw, sw, herm⟩ := C77_hermitian l omega mass a b .complex128
  obtain ⟨eps, C, e, ok⟩ := he l hDw sw herm
  obtain ⟨h, sh, eh, r⟩ := ((((smooth_run eigh (getCoulombElementsRaw l) rest hB).2 a ha).2 b hb hDw (by rw [hl]; exact hw) eps C e).2
    lDw hd l ok.w_shape ok.v_shape)
  refine ⟨_, hDw, eps, C, h, u, d, f, r, hw, ok, rfl, rfl, sh, eh, rfl, hl, hu, su, hd', sd', hf, sf, fun hne k W => hne ?_⟩
  have k1 : l = k := hl.symm.trans W.l_eq
  have k2 := W.s _ rfl
  have k3 : [lDw, lDw] = [k, k] := k2
  rw [k1]
  exact (List.cons.inj k3).1

/-- With a global `l = 6` in the module, a well with twice as many oscillator functions raises `AttributeError`. -/
example (eigh : NDArray ℂ → Except PyErr (NDArray ℂ × NDArray ℂ)) (rest : NDArray ℂ → PyM SmoothObj Unit) :
    smoothNew ("l" :: twoDimHoGlobals) eigh (getCoulombElementsRaw 6) 6 201 6 8 1 1 2 2 2 0 rest = .error .attribute := by
  obtain ⟨e, h, h'⟩ := C140_constructor ("l" :: twoDimHoGlobals) (eigh := eigh) 6 201 6 8 1 1 2 2 2 0 rest
  rw [h, h' (by norm_num) (by decide), if_pos (by decide)]

end QS.Props
