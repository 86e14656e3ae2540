import Verif.Lemmas.RandomBasis
import Verif.Spec.Symmetry

/-!
# Random basis sets (C65)
-/

namespace QS.Props

open RandomBasis NDArray BasisSet PyM

variable {K : Type} [PyScalar K]

/-- The object that `RandomBasisSet(…)` returns. -/
theorem randomBasis_ok (l dim : ℕ) (rand : ℕ → List ℕ → NDArray K) (hr : ∀ k sh, (rand k sh).shape = sh) (nre : K)
    (np : Module) (sp an : Bool) :
    ∃ h s u d, randomBasisSet l dim rand nre np sp an = .ok { BasisSet.init l dim np sp an with
        h := some h, s := some s, u := some u, dipole := some d, nre := nre } ∧
      h.shape = [l, l] ∧ s.shape = [l, l] ∧ u.shape = [l, l, l, l] ∧ d.shape = [dim, l, l] ∧
      HermMat l h ∧ HermMat l s ∧ HermDip dim l d ∧ ExchU l u ∧
      (∀ p < l, ∀ q < l, h.get [p, q] = 1 / 2 * (((rand 0 [l, l]).get [p, q] + PyScalar.I * (rand 1 [l, l]).get [p, q])
        + star ((rand 0 [l, l]).get [q, p] + PyScalar.I * (rand 1 [l, l]).get [q, p]))) := by
  obtain ⟨x1, hx1, gx1, ex1⟩ := symmetrised_ok hr 0 [l, l] makeHermitian
  obtain ⟨h, eh, sh, gh⟩ := makeHermitian_ok hx1
  obtain ⟨x2, hx2, gx2, ex2⟩ := symmetrised_ok hr 2 [l, l] makeHermitian
  obtain ⟨s, es, ss, gs⟩ := makeHermitian_ok hx2
  obtain ⟨x3, hx3, gx3, ex3⟩ := symmetrised_ok hr 4 [l, l, l, l] makeTwoBodySymmetry
  obtain ⟨u, eu, su, gu⟩ := makeTwoBodySymmetry_ok hx3
  obtain ⟨x4, hx4, gx4, ex4⟩ := symmetrised_ok hr 6 [dim, l, l] makeDipoleHermitian
  obtain ⟨d, ed, sd, gd⟩ := makeDipoleHermitian_ok hx4
  have hrun : (setupRandom rand nre).run (BasisSet.init l dim np sp an) = (.ok (),
      { BasisSet.init l dim np sp an with h := some h, s := some s, u := some u, dipole := some d, nre := nre }) := by
    unfold setupRandom
    simp only [PyM.run_bind, run_get, run_liftM, show (BasisSet.init l dim np sp an : BasisSet K).l = l from rfl,
      show (BasisSet.init l dim np sp an : BasisSet K).dim = dim from rfl, ex1, eh]
    rw [setH_run (by simp [axesOk, sh, BasisSet.init])]
    simp only [ex2, es]
    rw [setS_run (by simp [axesOk, ss, BasisSet.init])]
    simp only [ex3, eu]
    rw [setU_run (by simp [axesOk, su, BasisSet.init])]
    simp only [ex4, ed]
    rw [setDipole_run (sh := [l, l]) (by simp [sd, BasisSet.init]) (by simp [BasisSet.init])]
    rfl
  refine ⟨h, s, u, d, ?_, sh, ss, su, sd, ?_, ?_, ?_, ?_, ?_⟩
  · unfold randomBasisSet
    rw [hrun]
  · intro p hp q hq
    rw [gh p hp q hq, gh q hq p hp, star_mul', star_half, star_add, star_star, add_comm]
  · intro p hp q hq
    rw [gs p hp q hq, gs q hq p hp, star_mul', star_half, star_add, star_star, add_comm]
  · intro i hi p hp q hq
    rw [gd i hi p hp q hq, gd i hi q hq p hp, star_mul', star_half, star_add, star_star, add_comm]
  · intro p hp q hq r hr s hs
    rw [gu p hp q hq r hr s hs, gu q hq p hp s hs r hr, add_comm]
  · intro p hp q hq
    rw [gh p hp q hq, gx1, gx1]

/-- **C65** For all sizes and dimensions and all outcomes of the random generator (arrays of the requested
shapes), `RandomBasisSet` succeeds, its `h`, `s` and dipole components are Hermitian and `u` is symmetric under
exchange of the particles.  The elements are the symmetrised forms of `random + 1j * random`. -/
theorem C65_symmetries (l dim : ℕ) (rand : ℕ → List ℕ → NDArray K) (hr : ∀ k sh, (rand k sh).shape = sh) (nre : K)
    (np : Module) (sp an : Bool) :
    ∃ b h s u d, randomBasisSet l dim rand nre np sp an = .ok b ∧
      b.h = some h ∧ b.s = some s ∧ b.u = some u ∧ b.dipole = some d ∧ b.nre = nre ∧
      h.shape = [l, l] ∧ s.shape = [l, l] ∧ u.shape = [l, l, l, l] ∧ d.shape = [dim, l, l] ∧
      HermMat l h ∧ HermMat l s ∧ HermDip dim l d ∧ ExchU l u ∧
      (∀ p < l, ∀ q < l, h.get [p, q] = 1 / 2 * (((rand 0 [l, l]).get [p, q] + PyScalar.I * (rand 1 [l, l]).get [p, q])
        + star ((rand 0 [l, l]).get [q, p] + PyScalar.I * (rand 1 [l, l]).get [q, p]))) := by
  obtain ⟨h, s, u, d, e, r⟩ := randomBasis_ok l dim rand hr nre np sp an
  exact ⟨_, h, s, u, d, e, rfl, rfl, rfl, rfl, rfl, r⟩

/-- A generator that returns different numbers at different places. -/
def demoRand (k : ℕ) (sh : List ℕ) : NDArray GaussQ := ofFn .float64 sh (fun i => ⟨(k + i.getD 0 0 : ℕ), 0⟩)

example : ∃ b h, randomBasisSet 2 1 demoRand 0 = .ok b ∧ b.h = some h ∧ h.get [0, 1] = ⟨1 / 2, -1 / 2⟩ := by
  obtain ⟨b, h, _, _, _, h1, h2, _, _, _, _, _, _, _, _, _, _, _, _, h3⟩ :=
    C65_symmetries 2 1 demoRand (fun _ _ => rfl) 0 0 false false
  refine ⟨b, h, h1, h2, ?_⟩
  rw [h3 0 (by norm_num) 1 (by norm_num)]
  decide +kernel

end QS.Props
