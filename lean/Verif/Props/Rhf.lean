import Verif.Spec.Rhf
import Verif.Props.Pyscf
import Verif.Props.SlaterCondon

/-!
# Systems in the basis of restricted Hartree–Fock orbitals (C148)
-/

namespace QS.Props

open NDArray BasisSet World PyM Pyscf Finset Function

variable {K : Type} [PyScalar K] {T : Type}

/-- The Fock matrix in the orbitals is `Cᵀ F C`. -/
theorem rhf_fock {mol : Mole K} {m : ℕ} {b : BasisSet K} (hb : HoldsRhf mol m b) (hn : mol.nelectron / 2 ≤ m)
    {H U : NDArray K} (hh : b.h = some H) (hu : b.u = some U) {p q : ℕ} (hp : p < m) (hq : q < m) :
    fockSpatialAt (mol.nelectron / 2) H U p q = ∑ a ∈ range mol.nao, mol.moCoeff.get [a, p] *
      ∑ c ∈ range mol.nao, rhfFock mol a c * mol.moCoeff.get [c, q] := by
  obtain ⟨H', hh', eh⟩ := hb.h
  obtain ⟨U', hu', eu, -⟩ := hb.u
  obtain rfl : H = H' := by rw [hh] at hh'; exact Option.some.inj hh'
  obtain rfl : U = U' := by rw [hu] at hu'; exact Option.some.inj hu'
  have h2 : (2 : K) * (1 / 2) = 1 := by
    have := PyScalar.charZero (K := K)
    rw [one_div, mul_inv_cancel₀ two_ne_zero]
  have hi : ∀ i ∈ range (mol.nelectron / 2), 2 * U.get [p, i, q, i] - U.get [p, i, i, q] =
      ∑ a ∈ range mol.nao, ∑ c ∈ range mol.nao, ∑ r ∈ range mol.nao, ∑ s ∈ range mol.nao,
        mol.moCoeff.get [a, p] * mol.moCoeff.get [c, q] * (2 * (mol.moCoeff.get [r, i] * mol.moCoeff.get [s, i])) *
          (mol.eri.get [a, c, r, s] - 1 / 2 * mol.eri.get [a, r, s, c]) := by
    intro i hi
    have him : i < m := lt_of_lt_of_le (mem_range.1 hi) hn
    have e1 : U.get [p, i, q, i] = ∑ a ∈ range mol.nao, ∑ c ∈ range mol.nao, ∑ r ∈ range mol.nao, ∑ s ∈ range mol.nao,
        mol.moCoeff.get [a, p] * mol.moCoeff.get [c, q] * (mol.moCoeff.get [r, i] * mol.moCoeff.get [s, i]) *
          mol.eri.get [a, c, r, s] := by
      rw [eu p hp i him q hq i him]
      refine sum_congr rfl fun a _ => ?_
      rw [sum_comm]
      refine sum_congr rfl fun c _ => sum_congr rfl fun r _ => sum_congr rfl fun s _ => ?_
      ring
    have e2 : U.get [p, i, i, q] = ∑ a ∈ range mol.nao, ∑ c ∈ range mol.nao, ∑ r ∈ range mol.nao, ∑ s ∈ range mol.nao,
        mol.moCoeff.get [a, p] * mol.moCoeff.get [c, q] * (mol.moCoeff.get [r, i] * mol.moCoeff.get [s, i]) *
          mol.eri.get [a, r, s, c] := by
      rw [eu p hp i him i him q hq]
      refine sum_congr rfl fun a _ => ?_
      calc _ = ∑ s ∈ range mol.nao, ∑ c ∈ range mol.nao, ∑ r ∈ range mol.nao, mol.moCoeff.get [a, p] *
              mol.moCoeff.get [s, i] * mol.eri.get [a, r, s, c] * mol.moCoeff.get [r, i] * mol.moCoeff.get [c, q] :=
            sum_congr rfl fun s _ => sum_comm
        _ = ∑ c ∈ range mol.nao, ∑ s ∈ range mol.nao, ∑ r ∈ range mol.nao, mol.moCoeff.get [a, p] *
              mol.moCoeff.get [s, i] * mol.eri.get [a, r, s, c] * mol.moCoeff.get [r, i] * mol.moCoeff.get [c, q] :=
            sum_comm
        _ = _ := by
            refine sum_congr rfl fun c _ => ?_
            rw [sum_comm]
            refine sum_congr rfl fun r _ => sum_congr rfl fun s _ => ?_
            ring
    rw [e1, e2, mul_sum, ← sum_sub_distrib]
    refine sum_congr rfl fun a _ => ?_
    rw [mul_sum, ← sum_sub_distrib]
    refine sum_congr rfl fun c _ => ?_
    rw [mul_sum, ← sum_sub_distrib]
    refine sum_congr rfl fun r _ => ?_
    rw [mul_sum, ← sum_sub_distrib]
    refine sum_congr rfl fun s _ => ?_
    linear_combination (- mol.moCoeff.get [a, p] * mol.moCoeff.get [c, q] * mol.moCoeff.get [r, i] *
      mol.moCoeff.get [s, i] * mol.eri.get [a, r, s, c]) * h2 * (-1)
  rw [fockSpatialAt, eh p hp q hq, sum_congr rfl hi,
    sum_comm (s := range (mol.nelectron / 2)), ← sum_add_distrib]
  refine sum_congr rfl fun a _ => ?_
  rw [sum_comm (s := range (mol.nelectron / 2)), ← sum_add_distrib, mul_sum]
  refine sum_congr rfl fun c _ => ?_
  rw [rhfFock, sum_comm (s := range (mol.nelectron / 2))]
  have e3 : ∀ r ∈ range mol.nao, ∑ i ∈ range (mol.nelectron / 2), ∑ s ∈ range mol.nao,
        mol.moCoeff.get [a, p] * mol.moCoeff.get [c, q] * (2 * (mol.moCoeff.get [r, i] * mol.moCoeff.get [s, i])) *
          (mol.eri.get [a, c, r, s] - 1 / 2 * mol.eri.get [a, r, s, c]) =
      mol.moCoeff.get [a, p] * mol.moCoeff.get [c, q] * ∑ s ∈ range mol.nao,
        rhfDensity mol r s * (mol.eri.get [a, c, r, s] - 1 / 2 * mol.eri.get [a, r, s, c]) := by
    intro r _
    rw [sum_comm, mul_sum]
    refine sum_congr rfl fun s _ => ?_
    rw [rhfDensity, mul_sum, sum_mul, mul_sum]
    exact sum_congr rfl fun i _ => by ring
  rw [sum_congr rfl e3, ← mul_sum]
  ring

/-- The energy of a closed shell is `Σ_i (h_ii + f_ii)`. -/
theorem energySpatial_fock (n : ℕ) (H U : NDArray K) :
    energySpatial n H U = ∑ i ∈ range n, (H.get [i, i] + fockSpatialAt n H U i i) := by
  unfold energySpatial fockSpatialAt
  rw [mul_sum, ← sum_add_distrib]
  exact sum_congr rfl fun i _ => by ring

/-- The energy formula of the solver, in the orbitals. -/
theorem rhf_energy {mol : Mole K} {m : ℕ} {b : BasisSet K} (hb : HoldsRhf mol m b) (hn : mol.nelectron / 2 ≤ m)
    {H U : NDArray K} (hh : b.h = some H) (hu : b.u = some U) :
    energySpatial (mol.nelectron / 2) H U + mol.energyNuc = rhfEnergy mol := by
  have h2 : (1 : K) / 2 * 2 = 1 := by
    have := PyScalar.charZero (K := K)
    rw [one_div, inv_mul_cancel₀ two_ne_zero]
  obtain ⟨H', hh', eh⟩ := hb.h
  obtain rfl : H = H' := by rw [hh] at hh'; exact Option.some.inj hh'
  rw [energySpatial_fock, rhfEnergy]
  congr 1
  have e : ∀ i ∈ range (mol.nelectron / 2), H.get [i, i] + fockSpatialAt (mol.nelectron / 2) H U i i =
      ∑ p ∈ range mol.nao, ∑ q ∈ range mol.nao, mol.moCoeff.get [p, i] * mol.moCoeff.get [q, i] *
        (mol.hcore.get [p, q] + rhfFock mol p q) := by
    intro i hi
    have him : i < m := lt_of_lt_of_le (mem_range.1 hi) hn
    rw [rhf_fock hb hn hh hu him him, eh i him i him, ← sum_add_distrib]
    refine sum_congr rfl fun p _ => ?_
    rw [mul_sum, ← sum_add_distrib]
    exact sum_congr rfl fun q _ => by ring
  rw [sum_congr rfl e, sum_comm, mul_sum]
  refine sum_congr rfl fun p _ => ?_
  rw [sum_comm, mul_sum]
  refine sum_congr rfl fun q _ => ?_
  rw [rhfDensity, ← sum_mul]
  linear_combination (- (∑ i ∈ range (mol.nelectron / 2), mol.moCoeff.get [p, i] * mol.moCoeff.get [q, i]) *
    (mol.hcore.get [p, q] + rhfFock mol p q)) * h2

/-- The Fock matrix in orbitals that solve the equations is diagonal. -/
theorem rhf_diagonal {mol : Mole K} {m : ℕ} {b : BasisSet K} (hb : HoldsRhf mol m b) (hn : mol.nelectron / 2 ≤ m)
    (ho : RealOrtho mol.nao m mol.ovlp mol.moCoeff) {ε : ℕ → K} (hr : RoothaanHall mol m ε)
    {H U : NDArray K} (hh : b.h = some H) (hu : b.u = some U) {p q : ℕ} (hp : p < m) (hq : q < m) :
    fockSpatialAt (mol.nelectron / 2) H U p q = if p = q then ε q else 0 := by
  rw [rhf_fock hb hn hh hu hp hq]
  have e : ∀ a ∈ range mol.nao, mol.moCoeff.get [a, p] * ∑ c ∈ range mol.nao, rhfFock mol a c * mol.moCoeff.get [c, q] =
      ε q * ∑ c ∈ range mol.nao, mol.moCoeff.get [a, p] * mol.ovlp.get [a, c] * mol.moCoeff.get [c, q] := by
    intro a ha
    rw [hr a (mem_range.1 ha) q hq, mul_left_comm, mul_sum]
    congr 1
    exact sum_congr rfl fun c _ => by ring
  rw [sum_congr rfl e, ← mul_sum, ho.ortho p hp q hq, mul_ite, mul_one, mul_zero]

theorem twoBody_dtype {mol : Mole K} (h : mol.Shaped) {u : NDArray K} (hu : twoBody mol = .ok u) :
    u.dtype = mol.eri.dtype := by
  have hn : mol.eri.ndim = 4 := by simp [ndim, h.eri]
  unfold twoBody reshape at hu
  rw [if_pos h.eri] at hu
  have := (transpose_ok (a := mol.eri) (perm := [0, 2, 1, 3]) (by rw [hn]; decide)).symm.trans hu
  cases this
  rfl

/-- The one-body elements of a general system are complex. -/
theorem general_complex {w w' : World K T} {s g : ℕ} {x x' : Sys} {b b' : BasisSet K} {a₀ a₁ b₀ b₁ : K} {anti : Bool}
    (ok : SysOK w s x b) (hc : b.cls = .plain) (he : b.extraModule = false) (hsp : b.includesSpin = false)
    (hop : x.op = none) (hs : b.s.isSome) (ho : OrthoSpin a₀ a₁ b₀ b₁)
    (run : (World.constructGeneral s [a₀, a₁] [b₀, b₁] anti).run w = (.ok g, w')) (ok' : SysOK w' g x' b')
    {H' : NDArray K} (hh : b'.h = some H') : H'.dtype = .complex128 := by
  obtain ⟨ov, hs⟩ := Option.isSome_iff_exists.1 hs
  have e := World.constructGeneral_run (anti := anti) ok hc he hsp hop hs ho
  rw [run] at e
  simp only [Prod.mk.injEq, Except.ok.injEq] at e
  obtain ⟨rfl, rfl⟩ := e
  have h1 : x' = World.newSys .general w.bases.length (2 * x.n) (2 * x.l) b.np := by
    have := ok'.sys
    simpa [World.withGeneral, eq_comm] using this
  subst h1
  have h2 : b' = general (withBra b) x.l ov a₀ a₁ b₀ b₁ anti := by
    have := ok'.basis
    simpa [World.withGeneral, World.newSys, eq_comm] using this
  subst h2
  simp only [general, casted, Option.map_eq_some_iff] at hh
  obtain ⟨_, _, rfl⟩ := hh
  rfl

/-- `C68_rhf_spin`, with the dtype of the elements. -/
theorem rhf_general (mol : Mole K) (hm : mol.Shaped) (he : mol.nelectron % 2 = 0)
    (hn : mol.nelectron / 2 ≤ mol.nao) {m : ℕ} (hC : mol.moCoeff.shape = [mol.nao, m])
    (hnm : mol.nelectron / 2 ≤ m) (ho : RealOrtho mol.nao m mol.ovlp mol.moCoeff) (anti : Bool) (np : Module)
    (w : World K T) :
    ∃ g w' x b b', (constructRhf mol true anti np).run w = (.ok g, w') ∧ SysOK w' g x b' ∧ x.kind = .general ∧
      x.n = mol.nelectron ∧ HoldsRhf mol m b ∧ GeneralOf b b' m anti ∧ ∃ F, FockOf x b' F := by
  obtain ⟨g, w', x, b, b', -, run, ok, hk, hxn, hb, hg, -, -⟩ := C68_rhf_spin mol hm he hn hC hnm ho anti np w
  refine ⟨g, w', x, b, b', run, ok, hk, hxn, hb, hg, ?_⟩
  obtain ⟨u, h1, h2, -⟩ := twoBody_ok hm
  have hrun := spatialSystem_run (T := T) hm h1 h2 np w
  rw [if_pos ⟨he, hn⟩] at hrun
  have hcb := changeBasis_sys_run (C := mol.moCoeff) (Ct := none) (n := m) (withSpatial_ok w (filled_wf hm h2 np) hn)
    (NoSpinOps.spinShaped ⟨rfl, rfl, rfl, rfl⟩ _) hC (conjT_shape hC) hnm
  unfold constructRhf at run
  have ha : (PyM.assert (decide (mol.nelectron % 2 = 0)) : PyM (World K T) Unit).run w = (.ok (), w) := by
    rw [he]; rfl
  rw [run_bind_ok ha, run_bind_ok hrun, run_bind_ok hcb, if_pos rfl] at run
  have ok2 := withChanged_ok (withSpatial_ok w (filled_wf hm h2 np) hn)
    (changed_wellFormed (C := mol.moCoeff) (Ct := mol.moCoeff.conj.T) (n := m) (filled_wf hm h2 np)) rfl hnm
  obtain ⟨H', hh', -⟩ := ok.wf.h
  obtain ⟨U', hu', -⟩ := ok.wf.u
  refine fockOf_exists ok hh' hu' ?_
  rw [general_complex ok2 rfl rfl rfl rfl rfl ⟨by simp [spinor], by simp [spinor], by simp [spinor]⟩ run ok hh']
  cases U' with | mk d => cases d <;> rfl

/-- `C68_rhf`, with the dtypes of the elements. -/
theorem rhf_system (mol : Mole K) (hm : mol.Shaped) (he : mol.nelectron % 2 = 0) (hn : mol.nelectron / 2 ≤ mol.nao)
    {m : ℕ} (hC : mol.moCoeff.shape = [mol.nao, m]) (hnm : mol.nelectron / 2 ≤ m)
    (ho : RealOrtho mol.nao m mol.ovlp mol.moCoeff) (hd : mol.hcore.dtype = mol.eri.dtype) (anti : Bool) (np : Module)
    (w : World K T) :
    ∃ g w' x b, (constructRhf mol false anti np).run w = (.ok g, w') ∧ SysOK w' g x b ∧ x.kind = .spatial ∧
      2 * x.n = mol.nelectron ∧ HoldsRhf mol m b ∧ ∃ F, FockOf x b F := by
  obtain ⟨g, w', x, b, run, ok, hk, hxn, hb⟩ := C68_rhf mol hm he hn hC hnm ho anti np w
  refine ⟨g, w', x, b, run, ok, hk, hxn, hb, ?_⟩
  obtain ⟨u, h1, h2, -⟩ := twoBody_ok hm
  have hdu : u.dtype = mol.eri.dtype := twoBody_dtype hm h1
  have hrun := spatialSystem_run (T := T) hm h1 h2 np w
  rw [if_pos ⟨he, hn⟩] at hrun
  have hcb := changeBasis_sys_run (C := mol.moCoeff) (Ct := none) (n := m) (withSpatial_ok w (filled_wf hm h2 np) hn)
    (NoSpinOps.spinShaped ⟨rfl, rfl, rfl, rfl⟩ _) hC (conjT_shape hC) hnm
  unfold constructRhf at run
  have ha : (PyM.assert (decide (mol.nelectron % 2 = 0)) : PyM (World K T) Unit).run w = (.ok (), w) := by
    rw [he]; rfl
  rw [run_bind_ok ha, run_bind_ok hrun, run_bind_ok hcb] at run
  have ok' := withChanged_ok (withSpatial_ok w (filled_wf hm h2 np) hn)
    (changed_wellFormed (C := mol.moCoeff) (Ct := mol.moCoeff.conj.T) (n := m) (filled_wf hm h2 np)) rfl hnm
  simp only [Bool.false_eq_true, if_false, PyM.run_pure, Prod.mk.injEq, Except.ok.injEq] at run
  obtain ⟨rfl, rfl⟩ := run
  have e1 := ok'.sys.symm.trans ok.sys
  cases e1
  have e2 := ok'.basis.symm.trans ok.basis
  cases e2
  refine fockOf_exists ok' rfl rfl ?_
  show (DType.promote _ (DType.promote mol.hcore.dtype _)).promote (DType.promote _ (DType.promote u.dtype _)) =
    DType.promote _ (DType.promote mol.hcore.dtype _)
  rw [hd, hdu]
  generalize DType.promote _ (DType.promote mol.eri.dtype _) = d
  cases d <;> rfl

/-- **C148** `construct_pyscf_system_rhf(…, add_spin=False)`, with an RHF calculation that has converged: the Fock
matrix of the returned system is the diagonal matrix of the orbital energies, its reference energy is the RHF energy
without the repulsion of the nuclei, which is `Σ_i (h_ii + ε_i)`, and adding the stored repulsion gives the RHF energy. -/
theorem C148_rhf (mol : Mole K) (hm : mol.Shaped) (he : mol.nelectron % 2 = 0) (hn : mol.nelectron / 2 ≤ mol.nao)
    {m : ℕ} (hC : mol.moCoeff.shape = [mol.nao, m]) (hnm : mol.nelectron / 2 ≤ m)
    (ho : RealOrtho mol.nao m mol.ovlp mol.moCoeff) {ε : ℕ → K} (hr : RoothaanHall mol m ε)
    (hd : mol.hcore.dtype = mol.eri.dtype) (anti : Bool) (np : Module) (w : World K T) :
    ∃ g w' x b H r, (constructRhf mol false anti np).run w = (.ok g, w') ∧ SysOK w' g x b ∧ x.kind = .spatial ∧
      2 * x.n = mol.nelectron ∧ x.l = m ∧
      (∃ F, FockOf x b F) ∧ (∀ F, FockOf x b F → ∀ p < m, ∀ q < m, F.get [p, q] = if p = q then ε q else 0) ∧
      (referenceEnergy g).run w' = (.ok r, w') ∧ r.get [] + b.nre = rhfEnergy mol ∧
      b.h = some H ∧ r.get [] = ∑ i ∈ range x.n, (H.get [i, i] + ε i) := by
  obtain ⟨g, w', x, b, run, ok, hk, hxn, hb, hex⟩ := rhf_system mol hm he hn hC hnm ho hd anti np w
  have hn' : x.n = mol.nelectron / 2 := by omega
  have hl : x.l = m := ok.wf.l_eq.symm.trans hb.size
  obtain ⟨H, hh, sh⟩ := ok.wf.h
  obtain ⟨U, hu, su⟩ := ok.wf.u
  obtain ⟨r, h1, -, h3⟩ := referenceEnergy_run ok hh hu
  rw [hk, energyOf, hn'] at h3
  refine ⟨g, w', x, b, H, r, run, ok, hk, hxn, hl, ?_, fun F hF p hp q hq => ?_, h1, ?_, hh, ?_⟩
  · exact hex
  · rw [fockOf_get ok hh hu hF (hl ▸ hp) (hl ▸ hq), hk, fockAt, hn', rhf_diagonal hb hnm ho hr hh hu hp hq]
  · rw [h3, hb.rest.2.1, rhf_energy hb hnm hh hu]
  · rw [h3, energySpatial_fock, hn']
    refine sum_congr rfl fun i hi => ?_
    have him : i < m := lt_of_lt_of_le (mem_range.1 hi) hnm
    rw [rhf_diagonal hb hnm ho hr hh hu him him, if_pos rfl]

/-- **C148** With `add_spin=True` and anti-symmetrised elements: both spin orbitals of a pair have the energy of the
orbital, and the energies are the same. -/
theorem C148_spin (mol : Mole K) (hm : mol.Shaped) (he : mol.nelectron % 2 = 0) (hn : mol.nelectron / 2 ≤ mol.nao)
    {m : ℕ} (hC : mol.moCoeff.shape = [mol.nao, m]) (hnm : mol.nelectron / 2 ≤ m)
    (ho : RealOrtho mol.nao m mol.ovlp mol.moCoeff) {ε : ℕ → K} (hr : RoothaanHall mol m ε) (np : Module)
    (w : World K T) :
    ∃ g w' x b H r, (constructRhf mol true true np).run w = (.ok g, w') ∧ SysOK w' g x b ∧ x.kind = .general ∧
      x.n = mol.nelectron ∧ x.l = 2 * m ∧
      (∃ F, FockOf x b F) ∧
      (∀ F, FockOf x b F → ∀ p < 2 * m, ∀ q < 2 * m, F.get [p, q] = if p = q then ε (q / 2) else 0) ∧
      (referenceEnergy g).run w' = (.ok r, w') ∧ r.get [] + b.nre = rhfEnergy mol ∧
      b.h = some H ∧ 2 * r.get [] = ∑ i ∈ range x.n, (H.get [i, i] + ε (i / 2)) := by
  obtain ⟨g, w', x, b, b', run, ok, hk, hxn, hb, hg, hex⟩ := rhf_general mol hm he hn hC hnm ho true np w
  have hl : x.l = 2 * m := ok.wf.l_eq.symm.trans hg.size
  have hn2 : x.n = 2 * (mol.nelectron / 2) := by omega
  obtain ⟨H', hh', -⟩ := ok.wf.h
  obtain ⟨U', hu', -⟩ := ok.wf.u
  obtain ⟨H, hh, -⟩ := hb.h
  obtain ⟨U, hu, -⟩ := hb.u
  have dh := hg.h
  rw [hh, hh'] at dh
  have du := hg.u
  rw [hu, hu', if_pos ⟨rfl, hb.rest.2.2.2⟩] at du
  obtain ⟨r, h1, -, h3⟩ := referenceEnergy_run ok hh' hu'
  rw [hk, energyOf, hn2, energy_doubled hnm dh du] at h3
  refine ⟨g, w', x, b', H', r, run, ok, hk, hxn, hl, hex, fun F hF p hp q hq => ?_, h1, ?_, hh', ?_⟩
  · rw [fockOf_get ok hh' hu' hF (hl ▸ hp) (hl ▸ hq), hk, fockAt, hn2]
    have := fock_doubled hnm dh du (p := p / 2) (q := q / 2) (a := p % 2) (b := q % 2) (by omega) (by omega) (by omega)
      (by omega)
    rw [Nat.div_add_mod, Nat.div_add_mod] at this
    rw [this, rhf_diagonal hb hnm ho hr hh hu (by omega) (by omega)]
    by_cases hpq : p = q
    · subst hpq; simp
    · rw [if_neg hpq]
      by_cases h1 : p % 2 = q % 2
      · rw [if_pos h1, if_neg (by omega)]
      · rw [if_neg h1]
  · rw [h3, hg.rest.2.1, hb.rest.2.1, rhf_energy hb hnm hh hu]
  · rw [h3, energySpatial_fock, hn2, sum_range_two_mul, mul_sum]
    refine sum_congr rfl fun i hi => ?_
    have him : i < m := lt_of_lt_of_le (mem_range.1 hi) hnm
    rw [rhf_diagonal hb hnm ho hr hh hu him him, if_pos rfl, sum_two, dh.2 i him i him 0 (by omega) 0 (by omega),
      dh.2 i him i him 1 (by omega) 1 (by omega), if_pos rfl, if_pos rfl, show (2 * i + 0) / 2 = i by omega,
      show (2 * i + 1) / 2 = i by omega]
    ring

/-- **C148** Brillouin's theorem: the Hamilton operator of the returned elements does not couple the RHF determinant to
the determinants with one replaced spin orbital, and the RHF energy is its expectation value. -/
theorem C148_brillouin (mol : Mole K) (hm : mol.Shaped) (he : mol.nelectron % 2 = 0)
    (hn : mol.nelectron / 2 ≤ mol.nao) {m : ℕ} (hC : mol.moCoeff.shape = [mol.nao, m]) (hnm : mol.nelectron / 2 ≤ m)
    (ho : RealOrtho mol.nao m mol.ovlp mol.moCoeff) (h8 : Eightfold mol.nao mol.eri) {ε : ℕ → K}
    (hr : RoothaanHall mol m ε) (hd : mol.hcore.dtype = mol.eri.dtype) (anti : Bool) (np : Module) (w : World K T) :
    ∃ g w' x b H U, ∃ hx : 2 * x.n ≤ 2 * x.l, (constructRhf mol false anti np).run w = (.ok g, w') ∧ SysOK w' g x b ∧
      2 * x.n = mol.nelectron ∧ b.h = some H ∧ b.u = some U ∧
      waveInner (slater (firstOrbitals hx)) (hamiltonOp (spinOne x.l H) (spinTwo x.l U) (slater (firstOrbitals hx))) =
        (rhfEnergy mol - b.nre) * waveInner (slater (K := K) (firstOrbitals hx)) (slater (firstOrbitals hx)) ∧
      ∀ (i : Fin (2 * x.n)) (a : Fin (2 * x.l)), 2 * x.n ≤ a.1 →
        waveInner (slater (update (firstOrbitals hx) i a))
          (hamiltonOp (spinOne x.l H) (spinTwo x.l U) (slater (firstOrbitals hx))) = 0 := by
  obtain ⟨g, w', x, b, run, ok, hk, hxn, hb, hex⟩ := rhf_system mol hm he hn hC hnm ho hd anti np w
  have hn' : x.n = mol.nelectron / 2 := by omega
  have hl : x.l = m := ok.wf.l_eq.symm.trans hb.size
  have hle := ok.size.le
  obtain ⟨H, hh, sh⟩ := ok.wf.h
  obtain ⟨U, hu, su⟩ := ok.wf.u
  obtain ⟨r, h1, h2, -⟩ := C106_spatial ok hk hh hu (by omega)
  obtain ⟨r', h1', -, h3⟩ := referenceEnergy_run ok hh hu
  rw [h1] at h1'
  cases h1'
  rw [hk, energyOf, hn'] at h3
  obtain ⟨F, hF⟩ := hex
  have hx : ExchU x.l U := by
    obtain ⟨U', hu', -, h⟩ := hb.u
    obtain rfl : U = U' := by rw [hu] at hu'; exact Option.some.inj hu'
    intro p hp q hq r hr s hs
    exact (h h8 p (hl ▸ hp) q (hl ▸ hq) r (hl ▸ hr) s (hl ▸ hs)).1
  refine ⟨g, w', x, b, H, U, by omega, run, ok, hxn, hh, hu, ?_, ?_⟩
  · rw [h2, h3, hb.rest.2.1, ← rhf_energy hb hnm hh hu, add_sub_cancel_right]
  · rintro ⟨i, hi⟩ ⟨a, ha⟩ hia
    simp only at hia
    have := C106_spatial_fock ok hk hh hu hx hF (by omega) (i := i / 2) (a := a / 2) (σ := i % 2) (τ := a % 2)
      (by omega) (by omega) (by omega) (by omega) (by omega)
    simp only [Nat.div_add_mod] at this
    rw [this, fockOf_get ok hh hu hF (by omega) (by omega), hk, fockAt, hn',
      rhf_diagonal hb hnm ho hr hh hu (by omega) (by omega), if_neg (show ¬ a / 2 = i / 2 by omega), mul_zero, ite_self]

/-! ## Example -/

/-- Two electrons in two orbitals that are not orthogonal: the coefficients of `demoMole` solve the equations with the
orbital energies `-1` and `2`. -/
def demoRhf : Mole GaussQ :=
  { demoMole with
    hcore := ofFn .float64 [2, 2] fun i => match i with
      | [0, 0] => ⟨-2, 0⟩
      | [1, 1] => ⟨23 / 25, 0⟩
      | _ => ⟨-8 / 5, 0⟩ }

theorem demoRhf_roothaan : RoothaanHall demoRhf 2 fun i => if i = 0 then -1 else ⟨2, 0⟩ := by
  unfold RoothaanHall
  decide +kernel

example : ∃ g w' x b r, (constructRhf demoRhf true true 0).run (⟨[], [], []⟩ : World GaussQ ℤ) = (.ok g, w') ∧
    SysOK w' g x b ∧ (∀ F, FockOf x b F → F.get [1, 1] = -1 ∧ F.get [2, 2] = ⟨2, 0⟩ ∧ F.get [3, 1] = 0) ∧
    (referenceEnergy g).run w' = (.ok r, w') ∧ r.get [] + b.nre = ⟨-2, 0⟩ := by
  obtain ⟨g, w', x, b, H, r, h1, h2, -, -, -, -, h7, h8, h9, -⟩ := C148_spin demoRhf ⟨rfl, rfl, rfl, rfl⟩ rfl
    (by decide) rfl (by decide) demoMole_ortho demoRhf_roothaan 0 (⟨[], [], []⟩ : World GaussQ ℤ)
  refine ⟨g, w', x, b, r, h1, h2, fun F hF => ⟨?_, ?_, ?_⟩, h8, h9.trans (by decide +kernel)⟩
  · exact h7 F hF 1 (by decide) 1 (by decide)
  · exact h7 F hF 2 (by decide) 2 (by decide)
  · exact h7 F hF 3 (by decide) 1 (by decide)

end QS.Props
