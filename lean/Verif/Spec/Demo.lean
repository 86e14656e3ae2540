import Verif.Spec.WellFormed

/-!
# Concrete objects for the non-vacuity examples

Gaussian rationals, so that the kernel can compute with them.
-/

namespace QS.Demo

/-- Gaussian rational from two integers. -/
def g (a b : ℤ) : GaussQ := ⟨a, b⟩

/-- A matrix from its rows. -/
def mat (dt : DType) (rows : List (List GaussQ)) : NDArray GaussQ :=
  NDArray.ofFn dt [rows.length, (rows.headD []).length] (fun i => match i with
    | [p, q] => (rows.getD p []).getD q 0
    | _ => 0)

def h : NDArray GaussQ := mat .complex128 [[g 1 0, g 2 1], [g 2 (-1), g 3 0]]
def s : NDArray GaussQ := mat .float64 [[g 1 0, g 0 0], [g 0 0, g 1 0]]
def spf : NDArray GaussQ := mat .complex128 [[g 1 1, g 2 0, g 0 3], [g 4 0, g 0 (-1), g 2 2]]
/-- Some interaction with `u[pqrs] = u[qpsr]`. -/
def u : NDArray GaussQ := NDArray.ofFn .float64 [2, 2, 2, 2] (fun i => match i with
  | [p, q, r, s] => g (1 + p * r + q * s + 2 * (p + r) * (q + s)) 0
  | _ => 0)
def dip : NDArray GaussQ := NDArray.ofFn .complex128 [1, 2, 2] (fun i => match i with
  | [_, p, q] => g (p + q) (p - q)
  | _ => 0)
/-- A rectangular coefficient matrix (2 → 1). -/
def C21 : NDArray GaussQ := mat .complex128 [[g 1 1], [g 2 0]]
/-- An invertible coefficient matrix and its inverse. -/
def C22 : NDArray GaussQ := mat .complex128 [[g 1 0, g 0 1], [g 0 0, g 1 0]]
def C22inv : NDArray GaussQ := mat .complex128 [[g 1 0, g 0 (-1)], [g 0 0, g 1 0]]
/-- A rectangular coefficient matrix (2 → 3). -/
def C23 : NDArray GaussQ := mat .complex128 [[g 1 0, g 0 1, g 2 0], [g 3 0, g 1 0, g 0 (-1)]]

/-- A basis set of two spatial orbitals in one dimension on three grid points. -/
def basis : BasisSet GaussQ :=
  { BasisSet.init 2 1 with
    h := some h, s := some s, u := some u, dipole := some dip, spf := some spf }

theorem basis_wf : WellFormed basis 2 := by
  constructor
  · rfl
  · exact ⟨0, rfl⟩
  · exact ⟨_, rfl, rfl⟩
  · exact ⟨_, rfl, rfl⟩
  · rintro x ⟨⟩; rfl
  · rintro x ⟨⟩; exact ⟨by decide, rfl⟩
  · rintro x ⟨⟩; exact ⟨[3], rfl, rfl⟩
  · rintro x ⟨⟩
  · rintro ⟨⟩
  · rintro x ⟨⟩

theorem basis_noSpin : NoSpinOps basis := ⟨rfl, rfl, rfl, rfl⟩

end QS.Demo
