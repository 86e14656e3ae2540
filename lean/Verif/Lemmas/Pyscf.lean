import Verif.Model.Pyscf
import Verif.Lemmas.World

/-! # What the PySCF constructors do, step by step -/

namespace QS.Pyscf

open NDArray BasisSet World PyM

variable {K : Type} [PyScalar K] {T : Type}

/-- The arrays have the shapes that PySCF documents. -/
structure Mole.Shaped (mol : Mole K) : Prop where
  hcore : mol.hcore.shape = [mol.nao, mol.nao]
  ovlp : mol.ovlp.shape = [mol.nao, mol.nao]
  eri : mol.eri.shape = [mol.nao, mol.nao, mol.nao, mol.nao]
  r : mol.r.shape = [3, mol.nao, mol.nao]

theorem twoBody_ok {mol : Mole K} (h : mol.Shaped) :
    ∃ u, twoBody mol = .ok u ∧ u.shape = [mol.nao, mol.nao, mol.nao, mol.nao] ∧
      ∀ p < mol.nao, ∀ q < mol.nao, ∀ r < mol.nao, ∀ s < mol.nao,
        u.get [p, q, r, s] = mol.eri.get [p, r, q, s] := by
  have hn : mol.eri.ndim = 4 := by simp [ndim, h.eri]
  unfold twoBody reshape
  rw [if_pos h.eri]
  refine ⟨_, (transpose_ok (by rw [hn]; decide)), by simp [h.eri], ?_⟩
  intro p hp q hq r hr s hs
  rw [ofFn_get_of (by simp [h.eri, hp, hq, hr, hs]), hn]
  rfl

/-- The basis set that the constructors make. -/
def filled (mol : Mole K) (u : NDArray K) (np : Module) : BasisSet K :=
  { BasisSet.init mol.nao 3 np with
    h := some mol.hcore, s := some mol.ovlp, u := some u, nre := mol.energyNuc, dipole := some mol.r }

theorem filled_wf {mol : Mole K} (h : mol.Shaped) {u : NDArray K}
    (hu : u.shape = [mol.nao, mol.nao, mol.nao, mol.nao]) (np : Module) : WellFormed (filled mol u np) mol.nao :=
  ⟨rfl, ⟨np, rfl⟩, ⟨_, rfl, h.hcore⟩, ⟨_, rfl, hu⟩, fun x hx => by cases hx; exact h.ovlp,
    fun x hx => by cases hx; exact ⟨by simp [filled, BasisSet.init], h.r⟩, nofun, nofun, fun _ => rfl, nofun⟩

theorem fill_run {mol : Mole K} (h : mol.Shaped) {u : NDArray K}
    (hu : u.shape = [mol.nao, mol.nao, mol.nao, mol.nao]) (np : Module) :
    (fill mol u mol.r np).run (BasisSet.init mol.nao 3 np) = (.ok (), filled mol u np) := by
  unfold fill
  rw [run_bind_ok (setH_run (by simp [axesOk, h.hcore, BasisSet.init])),
    run_bind_ok (setS_run (by simp [axesOk, h.ovlp, BasisSet.init])),
    run_bind_ok (setU_run (by simp [axesOk, hu, BasisSet.init])),
    setNre, run_bind_ok (run_modify ..),
    run_bind_ok (setDipole_run (sh := [mol.nao, mol.nao]) (by simp [h.r, BasisSet.init])
      (by simp [BasisSet.init]))]
  exact changeModule_run (filled_wf h hu np) (some np)

/-- The world after the spatial system has been made. -/
def withSpatial (w : World K T) (b : BasisSet K) (n : ℕ) : World K T :=
  { w with
    bases := w.bases ++ [b]
    systems := w.systems ++ [newSys .spatial w.bases.length n b.l b.np] }

theorem spatialSystem_run {mol : Mole K} (h : mol.Shaped) {u : NDArray K} (hu : twoBody mol = .ok u)
    (hus : u.shape = [mol.nao, mol.nao, mol.nao, mol.nao]) (np : Module) (w : World K T) :
    (spatialSystem mol np).run w =
      if mol.nelectron % 2 = 0 ∧ mol.nelectron / 2 ≤ mol.nao then
        (.ok w.systems.length, withSpatial w (filled mol u np) (mol.nelectron / 2))
      else (.error .assertion, { w with bases := w.bases ++ [filled mol u np] }) := by
  unfold spatialSystem reshape
  rw [hu, if_pos h.r]
  rw [run_bind_ok (run_liftM ..), run_bind_ok (run_liftM ..)]
  have hnew : (newBasis (BasisSet.init mol.nao 3 np) : PyM (World K T) ℕ).run w =
      (.ok w.bases.length, { w with bases := w.bases ++ [BasisSet.init mol.nao 3 np] }) := rfl
  rw [run_bind_ok hnew]
  have hb : ({ w with bases := w.bases ++ [BasisSet.init mol.nao 3 np] } : World K T).bases[w.bases.length]? =
      some (BasisSet.init mol.nao 3 np) := by simp
  have hon := onBasis_run hb (fill mol u mol.r np)
  rw [fill_run h hus np] at hon
  have hset : (w.bases ++ [BasisSet.init mol.nao 3 np]).set w.bases.length (filled mol u np) =
      w.bases ++ [filled mol u np] := by
    rw [List.set_append_right _ _ le_rfl]; simp
  rw [run_bind_ok hon]
  simp only [hset]
  have hb2 : ({ w with bases := w.bases ++ [filled mol u np] } : World K T).bases[w.bases.length]? =
      some (filled mol u np) := by simp
  have hsp : (filled mol u np).includesSpin = false := rfl
  have hl : (filled mol u np).l = mol.nao := rfl
  unfold spatialInit
  by_cases h1 : mol.nelectron % 2 = 0
  · simp only [PyM.run_bind, run_assert, h1, decide_true, if_true, getBasis_run hb2, hsp, Bool.not_false,
      initSystem_run hb2, hl, true_and]
    split_ifs <;> rfl
  · simp [PyM.run_bind, run_assert, h1]

theorem withSpatial_ok (w : World K T) {b : BasisSet K} {l : ℕ} (hb : WellFormed b l) {n : ℕ} (hn : n ≤ l) :
    SysOK (withSpatial w b n) w.systems.length (newSys .spatial w.bases.length n b.l b.np) b := by
  refine ⟨by simp [withSpatial], by simp [withSpatial, newSys], ?_, rfl, newSys_sized (by rw [hb.l_eq]; exact hn)⟩
  show WellFormed b b.l
  rw [hb.l_eq]
  exact hb

end QS.Pyscf
