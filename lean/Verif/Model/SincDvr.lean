import Verif.Model.OneDim

/-!
# Model of the constructor of `sinc_dvr/one_dim/sinc_dvr.py`, class `ODSincDVR`

The methods that `ODSincDVR` overrides are in `Verif.Model.BasisSet`.  Floats are real numbers as in
`Verif.Model.OneDim`.  `numba` raises `ZeroDivisionError` for the division at equal points if `a = 0`; the model
(in which `x / 0 = 0`) is used for `a ≠ 0` only.
-/

namespace QS.SincDvr

open NDArray OneDim BasisSet

/-- `np.sinc(x)`: `sin(πx)/(πx)`, and 1 at 0. -/
noncomputable def npSinc (x : ℝ) : ℝ := if x = 0 then 1 else Real.sin (Real.pi * x) / (Real.pi * x)

/-- `_shielded_coulomb(x_1, x_2, alpha, a)` (`one_dim_qd.py` 32-34) for two floats. -/
noncomputable def shieldedCoulomb (x1 x2 alpha a : ℝ) : ℝ := alpha / Real.sqrt ((x1 - x2) ^ 2 + a ^ 2)

/-- `a[i₁, i₂, …] = data` with one list of integers per axis: the entries are assigned one after the other. -/
def fancySet {K : Type} [Zero K] (a : NDArray K) (items : List (List ℕ × K)) : Except PyErr (NDArray K) :=
  items.foldlM (fun a c => NDArray.setItem a c.1 c.2) a

/-- The double loop of `ODSincDVR.construct_coulomb_elements` (`sinc_dvr.py` 159-166): the lists `coords` and
`data`, zipped. -/
noncomputable def coulombData (l : ℕ) (x : NDArray ℂ) (alpha a : ℝ) : Except PyErr (List ((ℕ × ℕ) × ℂ)) :=
  (List.range l).foldlM (fun acc p =>
    (List.range l).foldlM (fun acc q => do
      let xp ← getItem x [p]
      let xq ← getItem x [q]
      .ok (acc ++ [((p, q), (shieldedCoulomb xp.re xq.re alpha a : ℂ))])) acc) []

/-- `ODSincDVR.construct_coulomb_elements(u_repr)` (`sinc_dvr.py` 154-174) with the values that are assigned
to `self.u`. -/
noncomputable def coulombElements (l : ℕ) (x : NDArray ℂ) (alpha a : ℝ) (repr : URepr) :
    Except PyErr (NDArray ℂ) := do
  let data ← coulombData l x alpha a
  if repr = .two then
    fancySet (NDArray.zeros .float64 [l, l]) (data.map fun c => ([c.1.1, c.1.2], c.2))
  else
    fancySet (NDArray.zeros .float64 [l, l, l, l]) (data.map fun c => ([c.1.1, c.1.2, c.1.1, c.1.2], c.2))

/-- `self.h[mask] = (-1.0) ** diff_grid[mask] / (dx ** 2 * diff_grid[mask] ** 2)` with the mask of the
off-diagonal entries (`sinc_dvr.py` 105-113). -/
noncomputable def setOffDiagonal (h : NDArray ℂ) (dx : ℝ) : NDArray ℂ :=
  h.pointwise (fun i x => if i.getD 0 0 = i.getD 1 0 then x else
    (((-1 : ℝ) ^ ((i.getD 0 0 : ℤ) - i.getD 1 0) / (dx ^ 2 * ((i.getD 0 0 : ℝ) - i.getD 1 0) ^ 2) : ℝ) : ℂ))

/-- `self.h[ind, ind] = f` for a number `f` (`sinc_dvr.py` 115). -/
def setDiagonal {K : Type} [Zero K] (h : NDArray K) (f : K) : NDArray K :=
  h.pointwise (fun i x => if i.getD 0 0 = i.getD 1 0 then f else x)

/-- `self.h[ind, ind] += v` for a 1-d array `v` of the right length (`sinc_dvr.py` 116). -/
def addDiagonal {K : Type} [PyScalar K] (h v : NDArray K) : NDArray K :=
  h.pointwise (fun i x => if i.getD 0 0 = i.getD 1 0 then x + v.get [i.getD 0 0] else x)

/-- `ODSincDVR.construct_sinc_grid` (`sinc_dvr.py` 146-148). -/
noncomputable def sincGrid (l : ℕ) (grid : NDArray ℂ) (dx : ℝ) : NDArray ℂ :=
  ofFn .float64 [l, l] (fun i =>
    ((1 / Real.sqrt dx * npSinc (((grid.get [i.getD 1 0]).re - (grid.get [i.getD 0 0]).re) / dx) : ℝ) : ℂ))

/-- `np.diag(self.grid + self.beta * self.grid ** 2)` (`sinc_dvr.py` 152). -/
noncomputable def dipoleDiag (grid : NDArray ℂ) (beta : ℝ) : Except PyErr (NDArray ℂ) := do
  let g2 ← NDArray.mul grid grid
  let x ← NDArray.add grid (NDArray.smul .float64 (beta : ℂ) g2)
  diag x

/-- `ODSincDVR.setup_basis(u_repr)` (`sinc_dvr.py` 99-124). -/
noncomputable def sincSetup (V : ℝ → ℝ) (a alpha beta : ℝ) (repr : URepr) : PyM (BasisSet ℂ) Unit := do
  let self ← PyM.get
  let l := self.l
  let grid ← orErr .type self.grid
  let g1 ← getItem grid [1]
  let g0 ← getItem grid [0]
  let dx : ℝ := (g1 - g0).re
  setH (some (NDArray.zeros .complex128 [l, l]))
  let h := setOffDiagonal (NDArray.zeros .complex128 [l, l]) dx
  let h := setDiagonal h ((Real.pi ^ 2 / (6 * dx ^ 2) : ℝ) : ℂ)
  let h := addDiagonal h (mapReal V grid)
  PyM.modify fun self => { self with h := some h }
  setS (some (NDArray.eye l))
  setSpf (some (sincGrid l grid dx))
  let u ← coulombElements l grid alpha a repr
  setU (some u)
  setDipole (some (NDArray.zeros .float64 [1, l, l]))
  let d ← dipoleDiag grid beta
  PyM.modify fun self => { self with dipole := some (ofFn .float64 [1, l, l] (fun i => d.get i.tail)) }
  castToComplex

/-- `ODSincDVR(l, grid_length, a, alpha, beta, potential, u_repr, np=…, includes_spin=…,
anti_symmetrized_u=…)` (`sinc_dvr.py` 51-85); `V` is the potential (the default is `HOPotential(0.25)`),
`holdsModule` says whether the potential object holds a module; `.unknown` stands for every value of `u_repr`
other than "2d" and "4d". -/
noncomputable def odSincDvr (l : ℕ) (gridLength a alpha beta : ℝ) (V : ℝ → ℝ) (repr : URepr := .two)
    (holdsModule : Bool := false) (np : Module := 0) (includesSpin antiSym : Bool := false) :
    Except PyErr (BasisSet ℂ) :=
  if repr = .unknown then .error .value else
  let setup : PyM (BasisSet ℂ) Unit := do
    setGrid (some (linspaceArr (-gridLength) gridLength l))
    PyM.modify fun self => { self with extraModule := holdsModule }
    sincSetup V a alpha beta repr
  match setup.run { BasisSet.init l 1 np includesSpin antiSym with cls := .sincDVR, a := some (pyFloat a) } with
  | (.ok (), b) => .ok b
  | (.error e, _) => .error e

end QS.SincDvr
