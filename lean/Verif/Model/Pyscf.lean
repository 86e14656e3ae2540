import Verif.Model.System

/-!
# Model of `custom_system.py`, the constructors that use PySCF

PySCF is a parameter: a molecule is the numbers and arrays that it returns.
-/

namespace QS.Pyscf

open NDArray BasisSet World

variable {K : Type} [PyScalar K] {T : Type}

/-- What the constructors ask PySCF for: `mol.nelectron`, `mol.nao`, `mol.energy_nuc()`, `get_hcore(mol)`, the
integrals `int1e_ovlp`, `int2e` (chemists' order, `eri[p,q,r,s] = (pq|rs)`), `int1e_r`, and the coefficients
`hf.mo_coeff` of the RHF solver. -/
structure Mole (K : Type) [PyScalar K] where
  nelectron : ℕ
  nao : ℕ
  energyNuc : K
  hcore : NDArray K
  ovlp : NDArray K
  eri : NDArray K
  r : NDArray K
  moCoeff : NDArray K

/-- `x.reshape(shape)`.  Simplification: only for arrays that have the shape already, as those of PySCF do;
`ValueError` otherwise. -/
def reshape (x : NDArray K) (shape : List ℕ) : Except PyErr (NDArray K) :=
  if x.shape = shape then .ok x else .error .value

/-- `mol.intor("int2e").reshape(l, l, l, l).transpose(0, 2, 1, 3)` (`custom_system.py` 85 and 207). -/
def twoBody (mol : Mole K) : Except PyErr (NDArray K) := do
  let x ← reshape mol.eri [mol.nao, mol.nao, mol.nao, mol.nao]
  x.transpose [0, 2, 1, 3]

/-- `custom_system.py` 88-94 and 210-216: the assignments to the new basis set. -/
def fill (mol : Mole K) (u dipole : NDArray K) (np : Module) : PyM (BasisSet K) Unit := do
  setH (some mol.hcore)
  setS (some mol.ovlp)
  setU (some u)
  setNre mol.energyNuc
  setDipole (some dipole)
  BasisSet.changeModule (some np)

/-- `custom_system.py` 83-96 and 205-218: from the integrals to the `SpatialOrbitalSystem`. -/
def spatialSystem (mol : Mole K) (np : Module) : PyM (World K T) ℕ := do
  let u ← twoBody mol
  let dipole ← reshape mol.r [3, mol.nao, mol.nao]
  let bs ← newBasis (BasisSet.init mol.nao 3 np)
  onBasis bs (fill mol u dipole np)
  spatialInit mol.nelectron bs

/-- `construct_pyscf_system_ao(molecule, basis, add_spin, anti_symmetrize, np)` (`custom_system.py` 11-102). -/
def constructAo (mol : Mole K) (addSpin antiSymmetrize : Bool := true) (np : Module := 0) : PyM (World K T) ℕ := do
  let system ← spatialSystem mol np
  if addSpin then constructGeneral system [1, 0] [0, 1] antiSymmetrize else pure system

/-- `construct_pyscf_system_rhf(molecule, basis, add_spin, anti_symmetrize, np, …)` (`custom_system.py` 105-225).
The warning and the printed energy (192-196) are left out; the shift of the origin of the dipole integrals (198-201) is in
`Verif.Model.PyscfOrigin`. -/
def constructRhf (mol : Mole K) (addSpin antiSymmetrize : Bool := true) (np : Module := 0) :
    PyM (World K T) ℕ := do
  PyM.assert (decide (mol.nelectron % 2 = 0))
  let system ← spatialSystem mol np
  World.changeBasis system mol.moCoeff none
  if addSpin then constructGeneral system [1, 0] [0, 1] antiSymmetrize else pure system

end QS.Pyscf
