import Verif.Model.PyscfOrigin
import Verif.Spec.Evolution

/-!
# The origin of the dipole moment
-/

namespace QS

open Finset Pyscf

variable {K : Type} [PyScalar K]

/-- What PySCF documents about `set_common_orig_`: the integrals about the origin `R` are `⟨i|r_k - R_k|j⟩`. -/
structure OriginShifts (m : Molecule K) : Prop where
  shape : ∀ R : NDArray K, R.shape = [3] → (m.rAt R).shape = [3, m.mole.nao, m.mole.nao]
  get : ∀ R : NDArray K, R.shape = [3] → ∀ k < 3, ∀ i < m.mole.nao, ∀ j < m.mole.nao,
    (m.rAt R).get [k, i, j] =
      (m.rAt (NDArray.zeros .float64 [3])).get [k, i, j] - R.get [k] * m.mole.ovlp.get [i, j]

/-- `a` nuclei with a total charge that is not zero. -/
structure Nuclei (a : ℕ) (m : Molecule K) : Prop where
  charges : m.charges.shape = [a]
  coords : m.coords.shape = [a, 3]
  total : ∑ z ∈ range a, m.charges.get [z] ≠ 0

/-- The component `k` of the dipole moment of the nuclei about the point `R`. -/
def nuclearDipole (a : ℕ) (m : Molecule K) (R : ℕ → K) (k : ℕ) : K :=
  ∑ z ∈ range a, m.charges.get [z] * (m.coords.get [z, k] - R k)

/-- The molecule `m'` is `m` moved by the vector `v`: nothing changes but the coordinates of the nuclei and the integrals of the
position. -/
structure Moved (a : ℕ) (v : ℕ → K) (m m' : Molecule K) : Prop where
  nelectron : m'.mole.nelectron = m.mole.nelectron
  nao : m'.mole.nao = m.mole.nao
  nuc : m'.mole.energyNuc = m.mole.energyNuc
  hcore : m'.mole.hcore = m.mole.hcore
  ovlp : m'.mole.ovlp = m.mole.ovlp
  eri : m'.mole.eri = m.mole.eri
  mo : m'.mole.moCoeff = m.mole.moCoeff
  charges : m'.charges = m.charges
  coords : ∀ z < a, ∀ k < 3, m'.coords.get [z, k] = m.coords.get [z, k] + v k
  r : ∀ k < 3, ∀ i < m.mole.nao, ∀ j < m.mole.nao, (m'.rAt (NDArray.zeros .float64 [3])).get [k, i, j] =
    (m.rAt (NDArray.zeros .float64 [3])).get [k, i, j] + v k * m.mole.ovlp.get [i, j]

/-- Two basis sets of `l` functions with the same one- and two-body elements, whose dipole moments are taken about points that differ by
`R`. -/
structure OtherOrigin (l dim : ℕ) (R : ℕ → ℝ) (b b' : BasisSet ℂ) : Prop where
  size : b.l = l ∧ b'.l = l ∧ b.dim = dim ∧ b'.dim = dim
  h : ∃ h h', b.h = some h ∧ b'.h = some h' ∧ ∀ p < l, ∀ q < l, h'.get [p, q] = h.get [p, q]
  u : ∃ u u', b.u = some u ∧ b'.u = some u' ∧ ∀ p < l, ∀ q < l, ∀ r < l, ∀ s < l, u'.get [p, q, r, s] = u.get [p, q, r, s]
  dipole : ∃ d d', b.dipole = some d ∧ b'.dipole = some d' ∧ ∀ k < dim, ∀ p < l, ∀ q < l,
    d'.get [k, p, q] = d.get [k, p, q] - if p = q then (R k : ℂ) else 0

/-- The wave functions `Ψ'` of `N` particles are the wave functions `Ψ` up to a phase that depends on the time. -/
def SameUpToPhase {N L : ℕ} (Ψ Ψ' : ℝ → Wave ℂ N L) : Prop := ∃ θ : ℝ → ℝ, ∀ t x, Ψ' t x = Complex.exp (Complex.I * θ t) * Ψ t x

/-- Nothing that can be measured tells the two motions apart: all probabilities and all mean values agree at all times. -/
structure SameMeasured {N L : ℕ} (Ψ Ψ' : ℝ → Wave ℂ N L) : Prop where
  probabilities : ∀ t (Φ : Wave ℂ N L), ‖waveInner Φ (Ψ' t)‖ = ‖waveInner Φ (Ψ t)‖
  means : ∀ t (A : Wave ℂ N L → Wave ℂ N L), (∀ c Φ, A (fun x => c * Φ x) = fun x => c * A Φ x) →
    waveInner (Ψ' t) (A (Ψ' t)) = waveInner (Ψ t) (A (Ψ t))

end QS
