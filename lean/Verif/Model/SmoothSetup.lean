import Verif.Model.SmoothWell
import Verif.Model.OneDim

/-!
# Model of `TwoDimSmoothDoubleWell.setup_basis` (`two_dim_ho.py` 194-235)
-/

namespace QS.TwoDim

open Idx

/-- An object of the class `TwoDimSmoothDoubleWell` (`two_dim_ho.py` 194-235): the attributes of the base class and those
that the class itself assigns, `none` if they are not assigned (yet). -/
structure SmoothObj where
  basis : BasisSet ℂ
  a : Option ℝ := none
  b : Option ℝ := none
  lDw : Option ℕ := none
  epsilon : Option (NDArray ℂ) := none

/-- Call a method of the base class on the object. -/
def SmoothObj.onBasis {α : Type} (m : PyM (BasisSet ℂ) α) : PyM SmoothObj α := fun o =>
  ((m.run o.basis).1, { o with basis := (m.run o.basis).2 })

/-- The methods and properties of `BasisSet` (`basis_set.py` 32-760), `TwoDimensionalHarmonicOscillator` and
`TwoDimSmoothDoubleWell` (`two_dim_ho.py` 61-144, 195-235). -/
def smoothMethods : List String :=
  ["__init__", "includes_spin", "anti_symmetrized_u", "grid", "h", "u", "s", "dipole_moment", "spin_x", "spin_y",
   "spin_z", "spin_2", "spin_2_tb", "sigma_x", "sigma_y", "sigma_z", "spf", "bra_spf", "nuclear_repulsion_energy",
   "change_arr_module", "change_module", "cast_to_complex", "transform_spf", "transform_bra_spf",
   "transform_one_body_elements", "transform_two_body_elements", "get_transformed_h", "get_transformed_u",
   "_change_basis_one_body_elements", "_change_basis_two_body_elements", "_change_basis_dipole_moment",
   "_change_basis_spf", "change_basis", "compute_particle_density", "anti_symmetrize_two_body_elements",
   "change_to_general_orbital_basis", "setup_pauli_matrices", "setup_spin_squared_operator", "add_spin_spf",
   "add_spin_bra_spf", "add_spin_one_body", "add_spin_two_body", "anti_symmetrize_u", "check_axis_lengths",
   "copy_basis", "setup_basis", "setup_spf", "get_indices_nm", "construct_dipole_moment"]

/-- The lookup `self.x` of a method: `AttributeError` if no class of the hierarchy has it. -/
def lookupMethod (names : List String) (x : String) : Except PyErr Unit :=
  if x ∈ names then .ok () else .error .attribute

/-- `TwoDimSmoothDoubleWell.setup_basis` (`two_dim_ho.py` 209-235) up to the call in line 228; `rest` is whatever the
lines from there on do with `C_dw`.  `eigh` is `np.linalg.eigh`, `coulomb` the result of `get_coulomb_elements`. -/
noncomputable def smoothSetup (eigh : NDArray ℂ → Except PyErr (NDArray ℂ × NDArray ℂ))
    (coulomb : Except PyErr (NDArray ℂ)) (num : ℕ) (radiusLength omega mass : ℝ)
    (rest : NDArray ℂ → PyM SmoothObj Unit) : PyM SmoothObj Unit := do
  SmoothObj.onBasis (tdhoSetup coulomb num radiusLength omega mass)
  let self ← PyM.get
  let a ← orErr .attribute self.a
  let b ← orErr .attribute self.b
  let hDw ← getSmoothDoubleWellOneBodyElements self.basis.l omega mass a b .complex128
  let (epsilon, C) ← eigh hDw
  PyM.modify fun self => { self with epsilon := some epsilon }
  let lDw ← orErr .attribute self.lDw
  let e ← epsilon.slice [some (0, lDw)]
  let h ← OneDim.diag e
  PyM.modify fun self => { self with basis := { self.basis with h := some h } }
  PyM.modify fun self => { self with basis := { self.basis with s := some (NDArray.eye lDw) } }
  let C ← C.slice [none, some (0, lDw)]
  lookupMethod smoothMethods "change_basis_two_body_elements"
  rest C

/-- `TwoDimSmoothDoubleWell(*args, a, b, l_ho_factor, **kwargs)` (`two_dim_ho.py` 195-207) when the module has the global
names `globals`; the object of the base class is made in line 203 and its `__init__` calls `setup_basis` of the class. -/
noncomputable def smoothNew (globals : List String) (eigh : NDArray ℂ → Except PyErr (NDArray ℂ × NDArray ℂ))
    (coulomb : Except PyErr (NDArray ℂ)) (l num lGlobal : ℕ) (radiusLength omega mass a b lHoFactor : ℝ) (np : Module)
    (rest : NDArray ℂ → PyM SmoothObj Unit) : Except PyErr SmoothObj := do
  if 1 ≤ lHoFactor then pure () else throw .assertion
  lookupName smoothInitLocals globals pythonBuiltins "math"
  lookupName smoothInitLocals globals pythonBuiltins "l"
  let o ← match (smoothSetup eigh coulomb num radiusLength omega mass rest).run { basis := BasisSet.init l 2 np } with
    | (.ok (), o) => Except.ok o
    | (.error e, _) => .error e
  pure { o with lDw := some lGlobal, a := some a, b := some b }

end QS.TwoDim
