import Verif.Model.Pyscf

/-!
# Specification of the restricted Hartree–Fock equations

The equations that PySCF's RHF solver satisfies when it has converged, in the basis of the atomic orbitals and with the
integrals `(pq|rs)` in the order of the chemists.
-/

namespace QS

open Finset Pyscf

variable {K : Type} [PyScalar K]

/-- The density matrix of a closed shell: `D = 2 C_occ C_occᵀ`, the first half as many orbitals as electrons being
occupied. -/
def rhfDensity (mol : Mole K) (p q : ℕ) : K :=
  2 * ∑ i ∈ range (mol.nelectron / 2), mol.moCoeff.get [p, i] * mol.moCoeff.get [q, i]

/-- The Fock matrix of a closed shell: `F[p,q] = h[p,q] + Σ_rs D[r,s] ((pq|rs) - ½ (pr|sq))`. -/
def rhfFock (mol : Mole K) (p q : ℕ) : K :=
  mol.hcore.get [p, q] + ∑ r ∈ range mol.nao, ∑ s ∈ range mol.nao,
    rhfDensity mol r s * (mol.eri.get [p, q, r, s] - 1 / 2 * mol.eri.get [p, r, s, q])

/-- The total energy of a closed shell: `½ Σ_pq D[p,q] (h[p,q] + F[p,q])` and the repulsion of the nuclei. -/
def rhfEnergy (mol : Mole K) : K :=
  1 / 2 * ∑ p ∈ range mol.nao, ∑ q ∈ range mol.nao, rhfDensity mol p q * (mol.hcore.get [p, q] + rhfFock mol p q) +
    mol.energyNuc

/-- The equations of Roothaan and Hall, `F C = S C diag(ε)`. -/
def RoothaanHall (mol : Mole K) (m : ℕ) (ε : ℕ → K) : Prop :=
  ∀ p < mol.nao, ∀ i < m, ∑ q ∈ range mol.nao, rhfFock mol p q * mol.moCoeff.get [q, i] =
    ε i * ∑ q ∈ range mol.nao, mol.ovlp.get [p, q] * mol.moCoeff.get [q, i]

end QS
