import Verif.Lemmas.Pyscf
import Verif.Props.Energy
import Verif.Props.BasisChange

/-!
# Systems made from PySCF (C68, C69)
-/

namespace QS.Props

open NDArray BasisSet World PyM Pyscf Finset

variable {K : Type} [PyScalar K] {T : Type}

/-- The eightfold symmetry of real two-electron integrals `(pq|rs)`. -/
structure Eightfold (l : ℕ) (eri : NDArray K) : Prop where
  left : ∀ p < l, ∀ q < l, ∀ r < l, ∀ s < l, eri.get [p, q, r, s] = eri.get [q, p, r, s]
  right : ∀ p < l, ∀ q < l, ∀ r < l, ∀ s < l, eri.get [p, q, r, s] = eri.get [p, q, s, r]
  swap : ∀ p < l, ∀ q < l, ∀ r < l, ∀ s < l, eri.get [p, q, r, s] = eri.get [r, s, p, q]

/-- `u[p,q,r,s] = (pr|qs)`: the order of the physicists. -/
def PhysicistOrder (l : ℕ) (eri u : NDArray K) : Prop :=
  u.shape = [l, l, l, l] ∧
    ∀ p < l, ∀ q < l, ∀ r < l, ∀ s < l, u.get [p, q, r, s] = eri.get [p, r, q, s]

/-- The symmetries `u[pqrs] = u[qpsr] = u[rqps] = u[rspq]`. -/
def RealSymU (l : ℕ) (u : NDArray K) : Prop :=
  ∀ p < l, ∀ q < l, ∀ r < l, ∀ s < l,
    u.get [p, q, r, s] = u.get [q, p, s, r] ∧ u.get [p, q, r, s] = u.get [r, q, p, s] ∧
    u.get [p, q, r, s] = u.get [r, s, p, q]

/-- A basis set with the integrals of a molecule. -/
structure HoldsIntegrals (mol : Mole K) (np : Module) (b : BasisSet K) : Prop where
  size : b.l = mol.nao ∧ b.dim = 3 ∧ b.np = some np
  h : b.h = some mol.hcore
  s : b.s = some mol.ovlp
  u : ∃ u, b.u = some u ∧ PhysicistOrder mol.nao mol.eri u
  dipole : b.dipole = some mol.r
  nre : b.nre = mol.energyNuc
  spatial : b.includesSpin = false ∧ b.antiSym = false

/-- **C68** The symmetries that follow from the eightfold symmetry of the integrals. -/
theorem C68_symmetry {l : ℕ} {eri u : NDArray K} (hu : PhysicistOrder l eri u) (he : Eightfold l eri) :
    RealSymU l u := by
  intro p hp q hq r hr s hs
  rw [hu.2 p hp q hq r hr s hs, hu.2 q hq p hp s hs r hr, hu.2 r hr q hq p hp s hs, hu.2 r hr s hs p hp q hq]
  refine ⟨he.swap p hp r hr q hq s hs, he.left p hp r hr q hq s hs, ?_⟩
  rw [he.left p hp r hr q hq s hs, he.right r hr p hp q hq s hs]

theorem filled_holds {mol : Mole K} {u : NDArray K} (hu : PhysicistOrder mol.nao mol.eri u) (np : Module) :
    HoldsIntegrals mol np (filled mol u np) :=
  ⟨⟨rfl, rfl, rfl⟩, rfl, rfl, ⟨u, rfl, hu⟩, rfl, rfl, rfl, rfl⟩

/-- **C68** `construct_pyscf_system_ao(…, add_spin=False)`, for all molecules with an even number of electrons that
fit into the basis: a spatial system whose basis set holds the integrals of PySCF, `u` in the order
`u[p,q,r,s] = (pr|qs)`. -/
theorem C68_ao (mol : Mole K) (hm : mol.Shaped) (he : mol.nelectron % 2 = 0) (hn : mol.nelectron / 2 ≤ mol.nao)
    (anti : Bool) (np : Module) (w : World K T) :
    ∃ g w' x b, (constructAo mol false anti np).run w = (.ok g, w') ∧ SysOK w' g x b ∧ x.kind = .spatial ∧
      2 * x.n = mol.nelectron ∧ x.l = mol.nao ∧ HoldsIntegrals mol np b := by
  obtain ⟨u, h1, h2, h3⟩ := twoBody_ok hm
  have hrun := spatialSystem_run (T := T) hm h1 h2 np w
  rw [if_pos ⟨he, hn⟩] at hrun
  refine ⟨_, _, _, filled mol u np, ?_, withSpatial_ok w (filled_wf hm h2 np) hn, rfl, ?_, rfl,
    filled_holds ⟨h2, h3⟩ np⟩
  · unfold constructAo
    rw [run_bind_ok hrun]
    rfl
  · show 2 * (mol.nelectron / 2) = _
    omega

/-- **C68** With `add_spin=True`: the general system of that basis set (spin doubled, and anti-symmetrised if asked
for), holding as many particles as the molecule has electrons. -/
theorem C68_ao_spin (mol : Mole K) (hm : mol.Shaped) (he : mol.nelectron % 2 = 0)
    (hn : mol.nelectron / 2 ≤ mol.nao) (anti : Bool) (np : Module) (w : World K T) :
    ∃ g w' x b b', (constructAo mol true anti np).run w = (.ok g, w') ∧ SysOK w' g x b' ∧ x.kind = .general ∧
      x.n = mol.nelectron ∧ x.l = 2 * mol.nao ∧ HoldsIntegrals mol np b ∧ GeneralOf b b' mol.nao anti := by
  obtain ⟨u, h1, h2, h3⟩ := twoBody_ok hm
  have hrun := spatialSystem_run (T := T) hm h1 h2 np w
  rw [if_pos ⟨he, hn⟩] at hrun
  obtain ⟨g, w', x', b', hg, ok', hk, hxn, hxl, hgen⟩ := general_system (a₀ := 1) (a₁ := 0) (b₀ := 0) (b₁ := 1) anti
    (withSpatial_ok w (filled_wf hm h2 np) hn) rfl rfl rfl rfl rfl
    ⟨by simp [spinor], by simp [spinor], by simp [spinor]⟩
  refine ⟨g, w', x', filled mol u np, b', ?_, ok', hk, ?_, hxl, filled_holds ⟨h2, h3⟩ np, hgen⟩
  · unfold constructAo
    rw [run_bind_ok hrun]
    exact hg
  · rw [hxn]
    show 2 * (mol.nelectron / 2) = _
    omega

/-- Real coefficients that orthonormalise the basis: `Cᵀ S C = 1`. -/
structure RealOrtho (l m : ℕ) (S C : NDArray K) : Prop where
  real : ∀ i < l, ∀ p < m, star (C.get [i, p]) = C.get [i, p]
  ortho : ∀ p < m, ∀ q < m, ∑ i ∈ range l, ∑ j ∈ range l, C.get [i, p] * S.get [i, j] * C.get [j, q] =
    if p = q then 1 else 0

/-- An array that is the identity matrix. -/
def IsIdentity (m : ℕ) (x : NDArray K) : Prop :=
  x.shape = [m, m] ∧ ∀ p < m, ∀ q < m, x.get [p, q] = if p = q then 1 else 0

/-- The orbitals of the basis set `b` are those with the coefficients `C` in the basis of the molecule. -/
structure HoldsRhf (mol : Mole K) (m : ℕ) (b : BasisSet K) : Prop where
  size : b.l = m
  s : ∃ s, b.s = some s ∧ IsIdentity m s
  h : ∃ h, b.h = some h ∧ ∀ p < m, ∀ q < m, h.get [p, q] =
    ∑ i ∈ range mol.nao, ∑ j ∈ range mol.nao, mol.moCoeff.get [i, p] * mol.hcore.get [i, j] * mol.moCoeff.get [j, q]
  u : ∃ u, b.u = some u ∧ (∀ p < m, ∀ q < m, ∀ r < m, ∀ s < m, u.get [p, q, r, s] =
    ∑ i ∈ range mol.nao, ∑ j ∈ range mol.nao, ∑ k ∈ range mol.nao, ∑ t ∈ range mol.nao,
      mol.moCoeff.get [i, p] * mol.moCoeff.get [j, q] * mol.eri.get [i, k, j, t] * mol.moCoeff.get [k, r] *
        mol.moCoeff.get [t, s]) ∧ (Eightfold mol.nao mol.eri → RealSymU m u)
  dipole : ∃ d, b.dipole = some d ∧ d.shape = [3, m, m] ∧ ∀ k < 3, ∀ p < m, ∀ q < m, d.get [k, p, q] =
    ∑ i ∈ range mol.nao, ∑ j ∈ range mol.nao, mol.moCoeff.get [i, p] * mol.r.get [k, i, j] * mol.moCoeff.get [j, q]
  rest : b.dim = 3 ∧ b.nre = mol.energyNuc ∧ b.includesSpin = false ∧ b.antiSym = false

theorem realSym_transform {l m : ℕ} {C u v : NDArray K} (hu : RealSymU l u)
    (hv : ∀ p < m, ∀ q < m, ∀ r < m, ∀ s < m, v.get [p, q, r, s] =
      ∑ i ∈ range l, ∑ j ∈ range l, ∑ k ∈ range l, ∑ t ∈ range l,
        C.get [i, p] * C.get [j, q] * u.get [i, j, k, t] * C.get [k, r] * C.get [t, s]) : RealSymU m v := by
  intro p hp q hq r hr s hs
  refine ⟨?_, ?_, ?_⟩
  · rw [hv p hp q hq r hr s hs, hv q hq p hp s hs r hr, sum_comm]
    refine sum_congr rfl fun j hj => sum_congr rfl fun i hi => ?_
    rw [sum_comm]
    refine sum_congr rfl fun t ht => sum_congr rfl fun k hk => ?_
    rw [(hu i (mem_range.1 hi) j (mem_range.1 hj) k (mem_range.1 hk) t (mem_range.1 ht)).1]
    ring
  · rw [hv p hp q hq r hr s hs, hv r hr q hq p hp s hs]
    have swap : ∀ f : ℕ → ℕ → ℕ → ℕ → K,
        ∑ i ∈ range l, ∑ j ∈ range l, ∑ k ∈ range l, ∑ t ∈ range l, f i j k t =
        ∑ i ∈ range l, ∑ j ∈ range l, ∑ k ∈ range l, ∑ t ∈ range l, f k j i t := by
      intro f
      calc _ = ∑ j ∈ range l, ∑ i ∈ range l, ∑ k ∈ range l, ∑ t ∈ range l, f i j k t := sum_comm
        _ = ∑ j ∈ range l, ∑ k ∈ range l, ∑ i ∈ range l, ∑ t ∈ range l, f i j k t :=
            sum_congr rfl fun j _ => sum_comm
        _ = ∑ k ∈ range l, ∑ j ∈ range l, ∑ i ∈ range l, ∑ t ∈ range l, f i j k t := sum_comm
    rw [swap]
    refine sum_congr rfl fun i hi => sum_congr rfl fun j hj => sum_congr rfl fun k hk => sum_congr rfl fun t ht => ?_
    rw [(hu k (mem_range.1 hk) j (mem_range.1 hj) i (mem_range.1 hi) t (mem_range.1 ht)).2.1]
    ring
  · rw [hv p hp q hq r hr s hs, hv r hr s hs p hp q hq]
    have swap : ∀ f : ℕ → ℕ → ℕ → ℕ → K,
        ∑ i ∈ range l, ∑ j ∈ range l, ∑ k ∈ range l, ∑ t ∈ range l, f i j k t =
        ∑ i ∈ range l, ∑ j ∈ range l, ∑ k ∈ range l, ∑ t ∈ range l, f k t i j := by
      intro f
      calc _ = ∑ i ∈ range l, ∑ k ∈ range l, ∑ j ∈ range l, ∑ t ∈ range l, f i j k t :=
            sum_congr rfl fun j _ => sum_comm
        _ = ∑ k ∈ range l, ∑ i ∈ range l, ∑ t ∈ range l, ∑ j ∈ range l, f i j k t := by
            rw [sum_comm]
            exact sum_congr rfl fun j _ => sum_congr rfl fun j _ => sum_comm
        _ = ∑ k ∈ range l, ∑ t ∈ range l, ∑ i ∈ range l, ∑ j ∈ range l, f i j k t :=
            sum_congr rfl fun j _ => sum_comm
    rw [swap]
    refine sum_congr rfl fun i hi => sum_congr rfl fun j hj => sum_congr rfl fun k hk => sum_congr rfl fun t ht => ?_
    rw [(hu k (mem_range.1 hk) t (mem_range.1 ht) i (mem_range.1 hi) j (mem_range.1 hj)).2.2]
    ring

theorem changed_holds {mol : Mole K} (hm : mol.Shaped) {u : NDArray K} (hu : PhysicistOrder mol.nao mol.eri u)
    (np : Module) {m : ℕ} (hC : mol.moCoeff.shape = [mol.nao, m])
    (ho : RealOrtho mol.nao m mol.ovlp mol.moCoeff) :
    HoldsRhf mol m (changed (filled mol u np) mol.moCoeff mol.moCoeff.conj.T mol.nao m) := by
  have hct : ∀ p < m, ∀ i < mol.nao, mol.moCoeff.conj.T.get [p, i] = mol.moCoeff.get [i, p] := by
    intro p hp i hi
    rw [conjT_get2 _ hC, ho.real i hi p hp]
  refine ⟨rfl, ⟨_, rfl, rfl, ?_⟩, ⟨_, rfl, ?_⟩, ⟨_, rfl, ?_⟩, ⟨_, rfl, rfl, ?_⟩, rfl, rfl, rfl, rfl⟩
  · intro p hp q hq
    rw [oneBodyArr_get hp hq, ← ho.ortho p hp q hq]
    refine sum_congr rfl fun i hi => sum_congr rfl fun j _ => ?_
    rw [hct p hp i (mem_range.1 hi)]
  · intro p hp q hq
    rw [oneBodyArr_get hp hq]
    refine sum_congr rfl fun i hi => sum_congr rfl fun j _ => ?_
    rw [hct p hp i (mem_range.1 hi)]
  · have key : ∀ p < m, ∀ q < m, ∀ r < m, ∀ s < m,
        (twoBodyArr u mol.moCoeff mol.moCoeff.conj.T mol.nao m m).get [p, q, r, s] =
        ∑ i ∈ range mol.nao, ∑ j ∈ range mol.nao, ∑ k ∈ range mol.nao, ∑ t ∈ range mol.nao,
          mol.moCoeff.get [i, p] * mol.moCoeff.get [j, q] * u.get [i, j, k, t] * mol.moCoeff.get [k, r] *
            mol.moCoeff.get [t, s] := by
      intro p hp q hq r hr s hs
      rw [twoBodyArr_get hp hq hr hs]
      refine sum_congr rfl fun i hi => sum_congr rfl fun j hj => sum_congr rfl fun k _ => sum_congr rfl fun t _ => ?_
      rw [hct p hp i (mem_range.1 hi), hct q hq j (mem_range.1 hj)]
    refine ⟨?_, fun h8 => realSym_transform (C68_symmetry hu h8) key⟩
    intro p hp q hq r hr s hs
    rw [key p hp q hq r hr s hs]
    refine sum_congr rfl fun i hi => sum_congr rfl fun j hj => sum_congr rfl fun k hk => sum_congr rfl fun t ht => ?_
    rw [hu.2 i (mem_range.1 hi) j (mem_range.1 hj) k (mem_range.1 hk) t (mem_range.1 ht)]
  · intro k hk p hp q hq
    show (dipoleArr mol.r mol.moCoeff mol.moCoeff.conj.T 3 mol.nao m).get [k, p, q] = _
    rw [dipoleArr_get hk hp hq]
    refine sum_congr rfl fun i hi => sum_congr rfl fun j _ => ?_
    rw [hct p hp i (mem_range.1 hi)]

/-- **C68** `construct_pyscf_system_rhf(…, add_spin=False)`: with real coefficients that satisfy `Cᵀ S C = 1` the
stored overlap is the identity, and the elements are those of the RHF orbitals. -/
theorem C68_rhf (mol : Mole K) (hm : mol.Shaped) (he : mol.nelectron % 2 = 0) (hn : mol.nelectron / 2 ≤ mol.nao)
    {m : ℕ} (hC : mol.moCoeff.shape = [mol.nao, m]) (hnm : mol.nelectron / 2 ≤ m)
    (ho : RealOrtho mol.nao m mol.ovlp mol.moCoeff) (anti : Bool) (np : Module) (w : World K T) :
    ∃ g w' x b, (constructRhf mol false anti np).run w = (.ok g, w') ∧ SysOK w' g x b ∧ x.kind = .spatial ∧
      2 * x.n = mol.nelectron ∧ HoldsRhf mol m b := by
  obtain ⟨u, h1, h2, h3⟩ := twoBody_ok hm
  have hrun := spatialSystem_run (T := T) hm h1 h2 np w
  rw [if_pos ⟨he, hn⟩] at hrun
  have ok := withSpatial_ok w (filled_wf hm h2 np) hn
  have hcb := changeBasis_sys_run (C := mol.moCoeff) (Ct := none) (n := m) ok
    (NoSpinOps.spinShaped ⟨rfl, rfl, rfl, rfl⟩ _) hC (conjT_shape hC) hnm
  refine ⟨_, _, _, _, ?_, withChanged_ok ok (changed_wellFormed (filled_wf hm h2 np)) rfl hnm, rfl, ?_,
    changed_holds hm ⟨h2, h3⟩ np hC ho⟩
  · unfold constructRhf
    have ha : (PyM.assert (decide (mol.nelectron % 2 = 0)) : PyM (World K T) Unit).run w = (.ok (), w) := by
      rw [he]; rfl
    rw [run_bind_ok ha, run_bind_ok hrun, run_bind_ok hcb]
    rfl
  · show 2 * (mol.nelectron / 2) = _
    omega

/-- **C68** With `add_spin=True` the stored overlap is the identity of the doubled size. -/
theorem C68_rhf_spin (mol : Mole K) (hm : mol.Shaped) (he : mol.nelectron % 2 = 0)
    (hn : mol.nelectron / 2 ≤ mol.nao) {m : ℕ} (hC : mol.moCoeff.shape = [mol.nao, m])
    (hnm : mol.nelectron / 2 ≤ m) (ho : RealOrtho mol.nao m mol.ovlp mol.moCoeff) (anti : Bool) (np : Module)
    (w : World K T) :
    ∃ g w' x b b' s, (constructRhf mol true anti np).run w = (.ok g, w') ∧ SysOK w' g x b' ∧ x.kind = .general ∧
      x.n = mol.nelectron ∧ HoldsRhf mol m b ∧ GeneralOf b b' m anti ∧ b'.s = some s ∧ IsIdentity (2 * m) s := by
  obtain ⟨u, h1, h2, h3⟩ := twoBody_ok hm
  have hrun := spatialSystem_run (T := T) hm h1 h2 np w
  rw [if_pos ⟨he, hn⟩] at hrun
  have ok := withSpatial_ok w (filled_wf hm h2 np) hn
  have hcb := changeBasis_sys_run (C := mol.moCoeff) (Ct := none) (n := m) ok
    (NoSpinOps.spinShaped ⟨rfl, rfl, rfl, rfl⟩ _) hC (conjT_shape hC) hnm
  have ok2 := withChanged_ok ok (changed_wellFormed (C := mol.moCoeff) (Ct := mol.moCoeff.conj.T) (n := m)
    (filled_wf hm h2 np)) rfl hnm
  obtain ⟨g, w', x', b', hg, ok', hk, hxn, hxl, hgen⟩ := general_system (a₀ := 1) (a₁ := 0) (b₀ := 0) (b₁ := 1) anti
    ok2 rfl rfl rfl rfl rfl ⟨by simp [spinor], by simp [spinor], by simp [spinor]⟩
  have hh := changed_holds hm ⟨h2, h3⟩ np hC ho
  obtain ⟨sv, hs1, hs2⟩ := hh.s
  have hgs := hgen.s
  rw [hs1] at hgs
  rcases hb's : b'.s with _ | s'
  · rw [hb's] at hgs; exact hgs.elim
  · rw [hb's] at hgs
    refine ⟨g, w', x', _, b', s', ?_, ok', hk, ?_, hh, hgen, hb's, hgs.1, ?_⟩
    · unfold constructRhf
      have ha : (PyM.assert (decide (mol.nelectron % 2 = 0)) : PyM (World K T) Unit).run w = (.ok (), w) := by
        rw [he]; rfl
      rw [run_bind_ok ha, run_bind_ok hrun, run_bind_ok hcb]
      exact hg
    · rw [hxn]
      show 2 * (mol.nelectron / 2) = _
      omega
    · intro p hp q hq
      have hgs2 := hgs.2 (p / 2) (by show p / 2 < m; omega) (q / 2) (by show q / 2 < m; omega) (p % 2) (by omega)
        (q % 2) (by omega)
      rw [Nat.div_add_mod, Nat.div_add_mod, hs2.2 _ (by omega) _ (by omega)] at hgs2
      rw [hgs2]
      by_cases hpq : p = q
      · subst hpq; simp
      · rw [if_neg hpq]
        by_cases h1 : p % 2 = q % 2
        · rw [if_pos h1, if_neg (by omega)]
        · rw [if_neg h1]

/-! ## C69 -/

/-- **C69 as claimed.** -/
def C69_statement (K T : Type) [PyScalar K] : Prop :=
  ∀ (mol : Mole K) (_ : mol.Shaped) (_ : mol.nelectron ≤ 2 * mol.nao) (anti : Bool) (np : Module) (w : World K T),
    ∃ g w' x, (constructAo mol true anti np).run w = (.ok g, w') ∧ w'.systems[g]? = some x ∧ x.kind = .general ∧
      x.n = mol.nelectron

/-- **C69** What happens for an odd number of electrons: `AssertionError`, with or without spin. -/
theorem C69_actual (mol : Mole K) (hm : mol.Shaped) (ho : mol.nelectron % 2 = 1) (addSpin anti : Bool) (np : Module)
    (w : World K T) : ((constructAo mol addSpin anti np).run w).1 = .error .assertion := by
  obtain ⟨u, h1, h2, h3⟩ := twoBody_ok hm
  have hrun := spatialSystem_run (T := T) hm h1 h2 np w
  rw [if_neg (by omega)] at hrun
  unfold constructAo
  rw [run_bind_error hrun]

/-- A molecule with `n` electrons in one basis function. -/
def oneFunction (K : Type) [PyScalar K] (n : ℕ) : Mole K :=
  { nelectron := n, nao := 1, energyNuc := 0, hcore := NDArray.zeros .float64 [1, 1], ovlp := NDArray.eye 1
    eri := NDArray.zeros .float64 [1, 1, 1, 1], r := NDArray.zeros .float64 [3, 1, 1], moCoeff := NDArray.eye 1 }

theorem oneFunction_shaped (n : ℕ) : (oneFunction K n).Shaped := ⟨rfl, rfl, rfl, rfl⟩

/-- **C69 is false**: the hydrogen atom in a basis of one function. -/
theorem C69_false : ¬ C69_statement K T := by
  intro h
  obtain ⟨g, w', x, h1, -⟩ := h (oneFunction K 1) (oneFunction_shaped 1) (by simp [oneFunction]) true 0 ⟨[], [], []⟩
  have h2 := C69_actual (T := T) (oneFunction K 1) (oneFunction_shaped 1) rfl true true 0 ⟨[], [], []⟩
  rw [h1] at h2
  cases h2

/-- **C69, the true part**: all molecules with an even number of electrons (that fit into the basis) give a general
system with that number of particles.  Missing from the claim: odd numbers. -/
theorem C69_partial (mol : Mole K) (hm : mol.Shaped) (hn : mol.nelectron ≤ 2 * mol.nao)
    (he : mol.nelectron % 2 = 0) (anti : Bool) (np : Module) (w : World K T) :
    ∃ g w' x, (constructAo mol true anti np).run w = (.ok g, w') ∧ w'.systems[g]? = some x ∧ x.kind = .general ∧
      x.n = mol.nelectron ∧ x.l = 2 * mol.nao := by
  obtain ⟨g, w', x, b, b', h1, h2, h3, h4, h5, -⟩ := C68_ao_spin mol hm he (by omega) anti np w
  exact ⟨g, w', x, h1, h2.sys, h3, h4, h5⟩

/-- A molecule in a basis that is not orthogonal: overlap `[[1, 3/5], [3/5, 1]]`, coefficients
`[[1, -3/4], [0, 5/4]]`, integrals `(pq|rs) = 1 + (p + q)(r + s)`. -/
def demoMole : Mole GaussQ :=
  { nelectron := 2, nao := 2, energyNuc := 1
    hcore := ofFn .float64 [2, 2] fun i => ⟨(i.sum : ℕ), 0⟩
    ovlp := ofFn .float64 [2, 2] fun i => match i with
      | [p, q] => if p = q then 1 else ⟨3 / 5, 0⟩
      | _ => 0
    eri := ofFn .float64 [2, 2, 2, 2] fun i => match i with
      | [p, q, r, s] => ⟨(1 + (p + q) * (r + s) : ℕ), 0⟩
      | _ => 0
    r := NDArray.zeros .float64 [3, 2, 2]
    moCoeff := ofFn .float64 [2, 2] fun i => match i with
      | [0, 0] => 1
      | [0, 1] => ⟨-3 / 4, 0⟩
      | [1, 1] => ⟨5 / 4, 0⟩
      | _ => 0 }

theorem demoMole_shaped : demoMole.Shaped := ⟨rfl, rfl, rfl, rfl⟩

theorem demoMole_ortho : RealOrtho 2 2 demoMole.ovlp demoMole.moCoeff := by
  constructor <;> decide +kernel

theorem demoMole_eightfold : Eightfold 2 demoMole.eri := by
  constructor <;> decide +kernel

/-- In the atomic orbitals `u[0,1,1,1] = (01|11) = 1 + 1·2`. -/
example : ∃ g w' x b u, (constructAo demoMole false true 0).run (⟨[], [], []⟩ : World GaussQ ℤ) = (.ok g, w') ∧
    SysOK w' g x b ∧ b.u = some u ∧ u.get [0, 1, 1, 1] = ⟨3, 0⟩ ∧ RealSymU 2 u := by
  obtain ⟨g, w', x, b, h1, h2, -, -, -, h6⟩ := C68_ao demoMole demoMole_shaped rfl (by decide) true 0
    (⟨[], [], []⟩ : World GaussQ ℤ)
  obtain ⟨u, hu1, hu2⟩ := h6.u
  refine ⟨g, w', x, b, u, h1, h2, hu1, ?_, C68_symmetry hu2 demoMole_eightfold⟩
  rw [hu2.2 0 (by decide) 1 (by decide) 1 (by decide) 1 (by decide)]
  decide +kernel

example : ∃ g w' x b b' s, (constructRhf demoMole true true 0).run (⟨[], [], []⟩ : World GaussQ ℤ) = (.ok g, w') ∧
    SysOK w' g x b' ∧ x.kind = .general ∧ x.n = 2 ∧ HoldsRhf demoMole 2 b ∧ GeneralOf b b' 2 true ∧
    b'.s = some s ∧ IsIdentity 4 s :=
  C68_rhf_spin demoMole demoMole_shaped rfl (by decide) rfl (by decide) demoMole_ortho true 0 _

end QS.Props
