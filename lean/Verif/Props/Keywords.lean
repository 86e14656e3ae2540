import Verif.Props.Setup
import Verif.Props.Consistent

/-!
# C97: the keywords `includes_spin` and `anti_symmetrized_u` of the constructors
-/

namespace QS.Props

open NDArray BasisSet PyM TwoDim OneDim SincDvr RandomBasis Coulomb

variable {K α β : Type} [PyScalar K]

/-- The basis set with other flags. -/
def flagged (sp an : Bool) (b : BasisSet K) : BasisSet K := { b with includesSpin := sp, antiSym := an }

/-- A call that neither reads nor writes the flags. -/
def FlagBlind (m : PyM (BasisSet K) α) : Prop :=
  ∀ b sp an, m.run (flagged sp an b) = ((m.run b).1, flagged sp an (m.run b).2)

theorem flagBlind_bind {m : PyM (BasisSet K) α} {f : α → PyM (BasisSet K) β} (h1 : FlagBlind m)
    (h2 : ∀ x, FlagBlind (f x)) : FlagBlind (m >>= f) := by
  intro b sp an
  rw [PyM.run_bind, PyM.run_bind, h1]
  rcases m.run b with ⟨e | x, b1⟩
  · rfl
  · exact h2 x b1 sp an

theorem flagBlind_get {f : BasisSet K → PyM (BasisSet K) α} (h1 : ∀ b sp an, f (flagged sp an b) = f b)
    (h2 : ∀ b, FlagBlind (f b)) : FlagBlind (PyM.get >>= f) := by
  intro b sp an
  rw [PyM.run_bind, PyM.run_bind]
  show (f (flagged sp an b)).run (flagged sp an b) = (((f b).run b).1, flagged sp an ((f b).run b).2)
  rw [h1]
  exact h2 b b sp an

theorem flagBlind_pure (x : α) : FlagBlind (pure x : PyM (BasisSet K) α) := fun _ _ _ => rfl
theorem flagBlind_lift (x : Except PyErr α) : FlagBlind (liftM x : PyM (BasisSet K) α) := fun _ _ _ => rfl
theorem flagBlind_raise (e : PyErr) : FlagBlind (PyM.raise e : PyM (BasisSet K) α) := fun _ _ _ => rfl
theorem flagBlind_assert (c : Bool) : FlagBlind (PyM.assert c : PyM (BasisSet K) Unit) := by
  cases c <;> exact fun _ _ _ => rfl
theorem flagBlind_modify {f : BasisSet K → BasisSet K} (h : ∀ b sp an, f (flagged sp an b) = flagged sp an (f b)) :
    FlagBlind (PyM.modify f) := by
  intro b sp an
  show (_, _) = (_, _)
  rw [h]
  rfl
theorem flagBlind_ite {c : Prop} [Decidable c] {m m' : PyM (BasisSet K) α} (h : FlagBlind m) (h' : FlagBlind m') :
    FlagBlind (if c then m else m') := by
  split <;> assumption

/-- Split a program into its steps. -/
macro "flag_blind" : tactic => `(tactic| repeat' first
  | assumption
  | with_reducible exact flagBlind_pure _
  | with_reducible exact flagBlind_lift _
  | with_reducible exact flagBlind_raise _
  | with_reducible exact flagBlind_assert _
  | ((with_reducible refine flagBlind_modify ?_); intros; rfl)
  | ((with_reducible refine flagBlind_get ?_ ?_); (focus intros; rfl); intro _)
  | ((with_reducible refine flagBlind_bind ?_ ?_); rotate_left; intro _; rotate_right)
  | with_reducible refine flagBlind_ite ?_ ?_
  | split)

theorem flagBlind_setH (x : Option (NDArray K)) : FlagBlind (setH x) := by unfold setH; flag_blind
theorem flagBlind_setU (x : Option (NDArray K)) : FlagBlind (setU x) := by unfold setU; flag_blind
theorem flagBlind_setS (x : Option (NDArray K)) : FlagBlind (setS x) := by unfold setS; flag_blind
theorem flagBlind_setDipole (x : Option (NDArray K)) : FlagBlind (setDipole x) := by unfold setDipole; flag_blind
theorem flagBlind_setSpf (x : Option (NDArray K)) : FlagBlind (setSpf x) := by unfold setSpf; flag_blind
theorem flagBlind_setNre (x : K) : FlagBlind (setNre x) := by unfold setNre; flag_blind
theorem flagBlind_setGrid (x : Option (NDArray K)) : FlagBlind (setGrid x) := by unfold setGrid; flag_blind
theorem flagBlind_getBra : FlagBlind (getBra : PyM (BasisSet K) _) := by unfold getBra; flag_blind
theorem flagBlind_castToComplex : FlagBlind (castToComplex : PyM (BasisSet K) _) := by
  have h := flagBlind_getBra (K := K)
  unfold castToComplex; flag_blind
theorem flagBlind_changeModule (np : Option Module) : FlagBlind (changeModule np : PyM (BasisSet K) _) := by
  have h := flagBlind_getBra (K := K)
  unfold changeModule changeModuleBase; flag_blind

/-- The setters and casts, after the program has been split. -/
macro "flag_blind_calls" : tactic => `(tactic| all_goals first
  | exact flagBlind_setH _ | exact flagBlind_setU _ | exact flagBlind_setS _ | exact flagBlind_setDipole _
  | exact flagBlind_setSpf _ | exact flagBlind_setNre _ | exact flagBlind_setGrid _
  | exact flagBlind_castToComplex | exact flagBlind_changeModule _)

theorem flagBlind_setupRandom (rand : ℕ → List ℕ → NDArray K) (nre : K) : FlagBlind (setupRandom rand nre) := by
  unfold setupRandom; flag_blind
  flag_blind_calls

theorem flagBlind_tdhoSetup (coulomb : Except PyErr (NDArray ℂ)) (num : ℕ) (R omega mass : ℝ) :
    FlagBlind (tdhoSetup coulomb num R omega mass) := by
  unfold tdhoSetup; flag_blind
  flag_blind_calls

theorem flagBlind_doubleWellSetup (coulomb : Except PyErr (NDArray ℂ)) (num : ℕ) (R omega mass barrier : ℝ)
    (axis : ℕ) : FlagBlind (doubleWellSetup coulomb num R omega mass barrier axis) := by
  have h := flagBlind_tdhoSetup coulomb num R omega mass
  unfold doubleWellSetup; flag_blind
  flag_blind_calls

theorem flagBlind_oscBSetup (num : ℕ) (R omega mass omegaC : ℝ) :
    FlagBlind (oscBSetup num R omega mass omegaC) := by
  unfold oscBSetup; flag_blind
  flag_blind_calls

theorem flagBlind_odhoSetup (num : ℕ) (omega a alpha : ℝ) : FlagBlind (odhoSetup num omega a alpha) := by
  unfold odhoSetup; flag_blind
  flag_blind_calls

theorem flagBlind_odqdSetup (eigh : NDArray ℂ → Except PyErr (NDArray ℂ × NDArray ℂ)) (V : ℝ → ℝ) (num : ℕ)
    (a alpha beta : ℝ) : FlagBlind (odqdSetup eigh V num a alpha beta) := by
  unfold odqdSetup; flag_blind
  flag_blind_calls

theorem flagBlind_sincSetup (V : ℝ → ℝ) (a alpha beta : ℝ) (repr : URepr) :
    FlagBlind (sincSetup V a alpha beta repr) := by
  unfold sincSetup; flag_blind
  flag_blind_calls

/-- **C97** `ODHO`: the keywords set the flags and change nothing else, errors included. -/
theorem C97_odho (l : ℕ) (L : ℝ) (num : ℕ) (omega a alpha beta : ℝ) (np : Module) (sp an : Bool) :
    odho l L num omega a alpha beta np sp an = (odho l L num omega a alpha beta np).map (flagged sp an) := by
  have h := flagBlind_bind (flagBlind_setGrid (K := ℂ) (some (linspaceArr (-L) L num))) (fun _ => flagBlind_odhoSetup num omega a alpha)
    ({ BasisSet.init l 1 np with a := some (pyFloat a) }) sp an
  unfold odho
  dsimp only
  rw [show ({ BasisSet.init l 1 np sp an with a := some (pyFloat a) } : BasisSet ℂ) = flagged sp an ({ BasisSet.init l 1 np with a := some (pyFloat a) }) from rfl, h]
  rcases PyM.run _ ({ BasisSet.init l 1 np with a := some (pyFloat a) } : BasisSet ℂ) with ⟨e | ⟨⟩, b⟩ <;> rfl

/-- **C97** `ODQD`. -/
theorem C97_odqd (eigh : NDArray ℂ → Except PyErr (NDArray ℂ × NDArray ℂ)) (l : ℕ) (L : ℝ) (num : ℕ)
    (a alpha beta : ℝ) (V : ℝ → ℝ) (hm : Bool) (np : Module) (sp an : Bool) :
    odqd eigh l L num a alpha beta V hm np sp an =
      (odqd eigh l L num a alpha beta V hm np).map (flagged sp an) := by
  have h := flagBlind_bind (flagBlind_setGrid (K := ℂ) (some (linspaceArr (-L) L num)))
    (fun _ => flagBlind_bind (flagBlind_modify (f := fun self : BasisSet ℂ => { self with extraModule := hm }) fun _ _ _ => rfl) fun _ => flagBlind_odqdSetup eigh V num a alpha beta)
    ({ BasisSet.init l 1 np with a := some (pyFloat a) }) sp an
  unfold odqd
  dsimp only
  rw [show ({ BasisSet.init l 1 np sp an with a := some (pyFloat a) } : BasisSet ℂ) = flagged sp an ({ BasisSet.init l 1 np with a := some (pyFloat a) }) from rfl, h]
  rcases PyM.run _ ({ BasisSet.init l 1 np with a := some (pyFloat a) } : BasisSet ℂ) with ⟨e | ⟨⟩, b⟩ <;> rfl

/-- **C97** `ODSincDVR`, in both representations. -/
theorem C97_sinc (l : ℕ) (L a alpha beta : ℝ) (V : ℝ → ℝ) (repr : URepr) (hm : Bool) (np : Module) (sp an : Bool) :
    odSincDvr l L a alpha beta V repr hm np sp an =
      (odSincDvr l L a alpha beta V repr hm np).map (flagged sp an) := by
  have h := flagBlind_bind (flagBlind_setGrid (K := ℂ) (some (linspaceArr (-L) L l)))
    (fun _ => flagBlind_bind (flagBlind_modify (f := fun self : BasisSet ℂ => { self with extraModule := hm }) fun _ _ _ => rfl) fun _ => flagBlind_sincSetup V a alpha beta repr)
    ({ BasisSet.init l 1 np with cls := .sincDVR, a := some (pyFloat a) }) sp an
  unfold odSincDvr
  by_cases hr : repr = .unknown
  · rw [if_pos hr, if_pos hr]; rfl
  rw [if_neg hr, if_neg hr]
  dsimp only
  rw [show ({ BasisSet.init l 1 np sp an with cls := .sincDVR, a := some (pyFloat a) } : BasisSet ℂ) = flagged sp an ({ BasisSet.init l 1 np with cls := .sincDVR, a := some (pyFloat a) }) from rfl, h]
  rcases PyM.run _ ({ BasisSet.init l 1 np with cls := .sincDVR, a := some (pyFloat a) } : BasisSet ℂ) with ⟨e | ⟨⟩, b⟩ <;> rfl

/-- **C97** `TwoDimensionalHarmonicOscillator`, with or without the cache. -/
theorem C97_tdho (coulomb : Except PyErr (NDArray ℂ)) (l num : ℕ) (R omega mass : ℝ) (np : Module) (sp an : Bool) :
    tdho coulomb l num R omega mass np sp an = (tdho coulomb l num R omega mass np).map (flagged sp an) := by
  have h := flagBlind_tdhoSetup coulomb num R omega mass
    (init l 2 np) sp an
  unfold tdho
  rw [show init l 2 np sp an = flagged sp an (init l 2 np) from rfl, h]
  rcases PyM.run _ (init l 2 np) with ⟨e | ⟨⟩, b⟩ <;> rfl

/-- **C97** `TwoDimensionalDoubleWell`. -/
theorem C97_double_well (coulomb : Except PyErr (NDArray ℂ)) (l num : ℕ) (R omega mass barrier : ℝ) (axis : ℕ)
    (np : Module) (sp an : Bool) :
    doubleWell coulomb l num R omega mass barrier axis np sp an =
      (doubleWell coulomb l num R omega mass barrier axis np).map (flagged sp an) := by
  have h := flagBlind_doubleWellSetup coulomb num R omega mass barrier axis
    (init l 2 np) sp an
  unfold doubleWell
  rw [show init l 2 np sp an = flagged sp an (init l 2 np) from rfl, h]
  rcases PyM.run _ (init l 2 np) with ⟨e | ⟨⟩, b⟩ <;> rfl

/-- **C97** `TwoDimHarmonicOscB`; the data frame stays the same too. -/
theorem C97_magnetic (l num : ℕ) (R omega mass omegaC : ℝ) (np : Module) (sp an : Bool) :
    oscB l num R omega mass omegaC np sp an =
      (oscB l num R omega mass omegaC np).map fun x => (flagged sp an x.1, x.2) := by
  have h := flagBlind_oscBSetup num R (omegaB omega omegaC) mass omegaC
    (init l 2 np) sp an
  unfold oscB
  rw [show init l 2 np sp an = flagged sp an (init l 2 np) from rfl, h]
  rcases PyM.run _ (init l 2 np) with ⟨e | df, b⟩ <;> rfl

/-- **C97** `RandomBasisSet`. -/
theorem C97_random (l dim : ℕ) (rand : ℕ → List ℕ → NDArray K) (nre : K) (np : Module) (sp an : Bool) :
    randomBasisSet l dim rand nre np sp an = (randomBasisSet l dim rand nre np).map (flagged sp an) := by
  have h := flagBlind_setupRandom rand nre
    (init l dim np) sp an
  unfold randomBasisSet
  rw [show init l dim np sp an = flagged sp an (init l dim np) from rfl, h]
  rcases PyM.run _ (init l dim np) with ⟨e | ⟨⟩, b⟩ <;> rfl

/-- Other flags keep a complete basis set complete. -/
theorem consistent_flagged {b : BasisSet ℂ} {l d : ℕ} {np : Module} {sp an : Bool} (h : Consistent b l d np sp an)
    (sp' an' : Bool) : Consistent (flagged sp' an' b) l d np sp' an' :=
  ⟨⟨h.wf.l_eq, h.wf.np, h.wf.h, h.wf.u, h.wf.s, h.wf.dipole, h.wf.spf, h.wf.bra, h.wf.braNeedsSpf,
    fun x hx => by have := h.tb_eq.symm.trans hx; cases this⟩,
    h.dim_eq, h.np_eq, rfl, rfl, ⟨h.noSpin.x, h.noSpin.y, h.noSpin.z, h.noSpin.two⟩, h.tb_eq, h.s, h.h, h.u,
    h.dipole, h.spf⟩

/-- **C97** The two-dimensional oscillator is complete and consistent with every setting of the flags. -/
theorem C97_tdho_consistent (l num : ℕ) (R omega mass : ℝ) (np : Module) (sp an : Bool) :
    ∃ b, tdho (getCoulombElementsRaw l) l num R omega mass np sp an = .ok b ∧ Consistent b l 2 np sp an := by
  obtain ⟨b, hb, hc⟩ := C91_tdho l num R omega mass np
  refine ⟨flagged sp an b, ?_, consistent_flagged hc sp an⟩
  rw [C97_tdho, hb]
  rfl

/-- **C97** The double well. -/
theorem C97_double_well_consistent (l num : ℕ) (R omega mass barrier : ℝ) (axis : ℕ) (np : Module) (sp an : Bool) :
    ∃ b, doubleWell (getCoulombElementsRaw l) l num R omega mass barrier axis np sp an = .ok b ∧
      Consistent b l 2 np sp an := by
  obtain ⟨b, hb, hc⟩ := C91_double_well l num R omega mass barrier axis np
  refine ⟨flagged sp an b, ?_, consistent_flagged hc sp an⟩
  rw [C97_double_well, hb]
  rfl

/-- A dot of six functions that is declared to include spin: the elements are those of the spatial dot, and the
change to a general basis returns at once without doubling it. -/
example : ∃ b c, tdho (getCoulombElementsRaw 6) 6 11 4 2 1 0 = .ok b ∧
    tdho (getCoulombElementsRaw 6) 6 11 4 2 1 0 true false = .ok c ∧
    c.h = b.h ∧ c.u = b.u ∧ c.l = 6 ∧ c.includesSpin = true ∧
    (changeToGeneralBase [1, 0] [0, 1] true).run c = (.ok false, c) := by
  obtain ⟨b, hb, hc⟩ := C91_tdho 6 11 4 2 1 0
  refine ⟨b, flagged true false b, hb, ?_, rfl, rfl, hc.wf.l_eq, rfl, ?_⟩
  · rw [C97_tdho, hb]
    rfl
  · exact (C17_no_second_doubling rfl _ _ true 0).1

end QS.Props
