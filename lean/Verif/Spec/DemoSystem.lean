import Verif.Spec.Demo
import Verif.Spec.System

/-! # Concrete systems for the non-vacuity examples -/

namespace QS.Demo

/-- Basis set `Demo.basis` with a spatial system of two particles (object 0) on it. -/
def world : World GaussQ ℤ :=
  { bases := [basis]
    systems := [{ kind := .spatial, basis := 0, np := some 0, n := 1, l := 2, m := 1, o := (0, 1),
                  v := (1, 2), op := none }]
    ops := [] }

/-- The system object of `world`. -/
def sys : Sys :=
  { kind := .spatial, basis := 0, np := some 0, n := 1, l := 2, m := 1, o := (0, 1), v := (1, 2),
    op := none }

/-- The same with a general system of one particle. -/
def gsys : Sys := { sys with kind := .general }

theorem world_ok : SysOK world 0 sys basis :=
  ⟨rfl, rfl, basis_wf, rfl, by decide, rfl, rfl, rfl⟩

/-- `Demo.world` with the system turned into a general one. -/
def gworld : World GaussQ ℤ := { world with systems := [gsys] }

theorem gworld_ok : SysOK gworld 0 gsys basis :=
  ⟨rfl, rfl, basis_wf, rfl, by decide, rfl, rfl, rfl⟩

/-- `Demo.world` and two laser fields with a callable pulse; operator 0 is set on the system. -/
def lworld : World GaussQ ℤ :=
  { bases := [basis]
    systems := [{ sys with op := some 0 }]
    ops := [{ kind := .laser (.fn fun t => .scalar .float64 ⟨t, 0⟩) none, system := some 0, cells := [] },
            { kind := .laser (.fn fun t => .scalar .float64 ⟨2 * t, 0⟩) none, system := none,
              cells := [] }] }

theorem lworld_ok : SysOK lworld 0 { sys with op := some 0 } basis :=
  ⟨rfl, rfl, basis_wf, rfl, by decide, rfl, rfl, rfl⟩

end QS.Demo
