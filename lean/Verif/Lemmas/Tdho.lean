import Verif.Lemmas.Polar
import Verif.Lemmas.World
import Verif.Lemmas.Coulomb

/-!
# Evaluation of the two-dimensional constructors
-/

namespace QS.TwoDim

open NDArray Idx PyM BasisSet

/-- `change_module` on a populated plain basis set. -/
theorem changeModule_plain {b : BasisSet ℂ} (hc : b.cls = .plain) (hh : b.h ≠ none) (m : Module) :
    (changeModule (some m)).run b = (.ok (), { withBra b with np := some m }) := by
  have hbra : ({ b with np := some m } : BasisSet ℂ).bra = b.bra := by
    cases hb1 : b.braSpf <;> simp [BasisSet.bra, hb1]
  obtain ⟨h, hh⟩ := Option.ne_none_iff_exists'.1 hh
  simp only [changeModule, PyM.run_bind, run_get, hc, changeModuleBase,
    run_modify, getBra_run, hbra]
  rw [if_neg (by simp)]
  simp only [PyM.run_bind, run_get, run_modify, getBra_run, hbra]
  rw [if_pos (by simp [anyArray, hh])]
  simp [needNp, withBra]

/-- The attributes the two-dimensional constructors set. -/
structure TdhoFields (b : BasisSet ℂ) (u : NDArray ℂ) (nm : ℕ → ℤ × ℤ) (l num : ℕ)
    (radiusLength omega mass : ℝ) (np : Module) : Prop where
  cls : b.cls = .plain
  l_eq : b.l = l
  dim_eq : b.dim = 2
  np_eq : b.np = some np
  spin_eq : b.includesSpin = false
  anti_eq : b.antiSym = false
  extra_eq : b.extraModule = false
  bra_eq : b.bra = (some (setupSpf nm l num radiusLength omega mass)).map NDArray.conj
  noSpin : NoSpinOps b
  tb_eq : b.spin2tb = none
  u_eq : b.u = some (smul .float64 (Real.sqrt omega : ℂ) u)
  s_eq : b.s = some (eye l)
  spf_eq : b.spf = some (setupSpf nm l num radiusLength omega mass)
  dipole_eq : b.dipole = some (ofFn .complex128 [2, l, l]
      (fun i => dipoleEntry nm omega mass (i.getD 0 0) (i.getD 1 0) (i.getD 2 0)))

/-- The one-body elements of the oscillator. -/
noncomputable def oscillatorH (l : ℕ) (omega : ℝ) : NDArray ℂ :=
  smul .float64 (omega : ℂ) (ofFn .float64 [l, l] (fun i => if i.getD 0 0 = i.getD 1 0 then
        ((getShellEnergy (getIndicesNm (i.getD 0 0)).1 (getIndicesNm (i.getD 0 0)).2 : ℤ) : ℂ) else 0))

theorem tdhoSetup_ok (u : NDArray ℂ) (l num : ℕ) (radiusLength omega mass : ℝ) (np : Module) :
    ∃ b, (tdhoSetup (.ok u) num radiusLength omega mass).run (BasisSet.init l 2 np) = (.ok (), b) ∧
      TdhoFields b u getIndicesNm l num radiusLength omega mass np ∧ b.h = some (oscillatorH l omega) := by
  unfold tdhoSetup
  simp only [PyM.run_bind, run_get, run_liftM, run_modify, getOneBodyElements_eq,
    constructDipoleMoment_eq]
  by_cases h0 : np = 0
  · subst h0
    refine ⟨_, rfl, ?_, rfl⟩
    constructor <;> first | rfl | exact ⟨rfl, rfl, rfl, rfl⟩
  · rw [if_neg (by simpa [BasisSet.init] using h0)]
    refine ⟨_, changeModule_plain rfl (by simp) np, ?_, rfl⟩
    constructor <;> first | rfl | exact ⟨rfl, rfl, rfl, rfl⟩

theorem tdho_ok (u : NDArray ℂ) (l num : ℕ) (radiusLength omega mass : ℝ) (np : Module) :
    ∃ b, tdho (.ok u) l num radiusLength omega mass np = .ok b ∧
      TdhoFields b u getIndicesNm l num radiusLength omega mass np ∧ b.h = some (oscillatorH l omega) := by
  obtain ⟨b, h1, h2⟩ := tdhoSetup_ok u l num radiusLength omega mass np
  exact ⟨b, by unfold tdho; rw [h1], h2⟩

theorem doubleWell_ok (u : NDArray ℂ) (l num : ℕ) (radiusLength omega mass barrier : ℝ) (axis : ℕ)
    (np : Module) :
    ∃ b, doubleWell (.ok u) l num radiusLength omega mass barrier axis np = .ok b ∧
      TdhoFields b u getIndicesNm l num radiusLength omega mass np ∧
      b.h = some (ofFn .complex128 [l, l]
        (fun i => (doubleWellEntry omega mass barrier axis (i.getD 0 0) (i.getD 1 0) : ℂ))) := by
  obtain ⟨b, h1, h2, -⟩ := tdhoSetup_ok u l num radiusLength omega mass np
  let b1 : BasisSet ℂ := { b with h := some (ofFn .complex128 [l, l]
        (fun i => (doubleWellEntry omega mass barrier axis (i.getD 0 0) (i.getD 1 0) : ℂ))) }
  have hc := changeModule_plain (b := b1) h2.cls (by simp [b1]) np
  refine ⟨{ withBra b1 with np := some np }, ?_,
    ⟨h2.cls, h2.l_eq, h2.dim_eq, rfl, h2.spin_eq, h2.anti_eq, h2.extra_eq,
      by rw [← h2.bra_eq]; exact withBra_bra b1,
      ⟨h2.noSpin.x, h2.noSpin.y, h2.noSpin.z, h2.noSpin.two⟩, h2.tb_eq, h2.u_eq, h2.s_eq, h2.spf_eq, h2.dipole_eq⟩, rfl⟩
  unfold doubleWell doubleWellSetup
  rw [run_bind_ok h1]
  rw [run_bind_ok (run_get b), run_bind_ok (s' := b) (by
      rw [run_liftM, h2.l_eq, getDoubleWell_eq]), run_bind_ok (run_modify _ _), run_bind_ok (run_get _)]
  have hc' : (changeModule b.np).run b1 = (.ok (), { withBra b1 with np := some np }) := by
    rw [h2.np_eq]; exact hc
  show (match (changeModule b.np).run b1 with
    | (.ok (), b) => Except.ok b
    | (.error e, _) => Except.error e) = _
  rw [hc']

end QS.TwoDim
