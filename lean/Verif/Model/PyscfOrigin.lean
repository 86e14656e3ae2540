import Verif.Model.Pyscf

/-!
# Model of the origin of the dipole integrals in `custom_system.py`

A molecule is what the constructors ask PySCF for, and the positions and charges of its nuclei; the integrals `int1e_r` depend on the
origin that `mol.set_common_orig_` sets.
-/

namespace QS.Pyscf

open NDArray BasisSet World Finset

variable {K : Type} [PyScalar K] {T : Type}

/-- A molecule with its nuclei: `mol.atom_charges()`, `mol.atom_coords()`, and `mol.intor("int1e_r").reshape(3, l, l)` for every common
origin (the field `r` of `mole` is not used). -/
structure Molecule (K : Type) [PyScalar K] where
  mole : Mole K
  charges : NDArray K
  coords : NDArray K
  rAt : NDArray K → NDArray K

/-- `np.einsum("z,zx->x", charges, coords) / charges.sum()` (`custom_system.py` 200).  Simplification: axis lengths that differ raise
`ValueError` (NumPy would broadcast an axis of length 1). -/
def chargeCenter (charges coords : NDArray K) : Except PyErr (NDArray K) :=
  match charges.shape, coords.shape with
  | [a], [a', x] =>
    if a = a' then
      .ok (ofFn .float64 [x] fun i => (∑ z ∈ range a, charges.get [z] * coords.get [z, i.getD 0 0]) /
        ∑ z ∈ range a, charges.get [z])
    else .error .value
  | _, _ => .error .value

/-- The molecule with the dipole integrals about an origin. -/
def Molecule.about (m : Molecule K) (origin : NDArray K) : Mole K := { m.mole with r := m.rAt origin }

/-- `construct_pyscf_system_ao` (`custom_system.py` 11-102): the common origin is PySCF's default, the point 0. -/
def constructAoOf (m : Molecule K) (addSpin antiSymmetrize : Bool := true) (np : Module := 0) : PyM (World K T) ℕ :=
  constructAo (m.about (NDArray.zeros .float64 [3])) addSpin antiSymmetrize np

/-- `construct_pyscf_system_rhf` (`custom_system.py` 105-225) with the shift of the origin (198-201). -/
def constructRhfOf (m : Molecule K) (addSpin antiSymmetrize : Bool := true) (np : Module := 0) : PyM (World K T) ℕ := do
  PyM.assert (decide (m.mole.nelectron % 2 = 0))
  let center ← chargeCenter m.charges m.coords
  constructRhf (m.about center) addSpin antiSymmetrize np

end QS.Pyscf
