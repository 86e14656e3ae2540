import Verif.Model.TwoDim

/-!
# Model of `quantum_dots/one_dim/one_dim_qd.py`

Floats are real numbers, stored as complex numbers with imaginary part zero in `float64` arrays.
`scipy.special.factorial` and `scipy.special.hermite` are taken to be the exact factorial and the Hermite
polynomials of the physicists; `np.linalg.eigh` is a parameter of the model.
The attributes `omega`, `alpha`, `beta`, `grid_length`, `num_grid_points`, `potential` and
`eigen_energies` are only read by the methods modelled here; they are parameters instead of attributes.
The attribute `a` is a parameter as well, and is stored besides, since `BasisSet` assigns an attribute of that
name (`basis_set.py` 546).
-/

namespace QS.OneDim

open NDArray

section primitives
variable {K : Type} [PyScalar K]

/-- `a[idx]` for one non-negative integer per axis; `IndexError` if out of range. -/
def getItem (a : NDArray K) (idx : List ℕ) : Except PyErr K :=
  if InRange a.shape idx then .ok (a.get idx) else .error .index

/-- `np.diag(v, k)` for a 1-d array `v`. -/
def diag (v : NDArray K) (k : ℤ := 0) : Except PyErr (NDArray K) :=
  match v.shape with
  | [n] => .ok (ofFn v.dtype [n + k.natAbs, n + k.natAbs] (fun i =>
      if (i.getD 1 0 : ℤ) - i.getD 0 0 = k then v.get [min (i.getD 0 0) (i.getD 1 0)] else 0))
  | _ => .error .value

/-- `c + a` for a float `c`. -/
def addScalar (c : K) (a : NDArray K) : NDArray K :=
  ofFn (DType.float64.promote a.dtype) a.shape (fun i => c + a.get i)

/-- `a / c` for a float `c ≠ 0`. -/
def divScalar (a : NDArray K) (c : K) : NDArray K :=
  ofFn (a.dtype.promote .float64) a.shape (fun i => a.get i / c)

/-- `a[p] = v` for a 2-d array `a` and a 1-d array `v` as long as its rows. -/
def setRow (a : NDArray K) (p : ℕ) (v : NDArray K) : Except PyErr (NDArray K) :=
  match a.shape with
  | [m, n] =>
    if p < m then
      if v.shape = [n] then .ok (a.pointwise (fun i x => if i.getD 0 0 = p then v.get [i.getD 1 0] else x))
      else .error .value
    else .error .index
  | _ => .error .index

/-- `a[:, 1:-1] = v` for a 2-d array `a`; `v` is broadcast, `ValueError` if it does not fit. -/
def setInterior (a v : NDArray K) : Except PyErr (NDArray K) :=
  match a.shape with
  | [m, n] =>
    if bcShape [m, n - 2] v.shape = some [m, n - 2] then
      .ok (a.pointwise (fun i x => if 1 ≤ i.getD 1 0 ∧ i.getD 1 0 < n - 1
        then v.get (bcIdx v.shape [i.getD 0 0, i.getD 1 0 - 1]) else x))
    else .error .value
  | _ => .error .index

end primitives

/-- A real function applied to every element of a float array (`np.exp(x)`, `potential(x)`, …). -/
noncomputable def mapReal (f : ℝ → ℝ) (a : NDArray ℂ) : NDArray ℂ :=
  ofFn .float64 a.shape (fun i => (f (a.get i).re : ℂ))

/-- `_trapz(f, x)` (`one_dim_qd.py` 20-29).  Compiled by numba without bounds checks; it is only called
with at least two grid points. -/
noncomputable def trapz (f x : NDArray ℂ) : ℂ :=
  let n := x.shape.getD 0 0
  let deltaX := x.get [1] - x.get [0]
  let val := (List.range' 1 (n - 1)).foldl (fun val i => val + (f.get [i - 1] + f.get [i])) 0
  1 / 2 * val * deltaX

/-- `_shielded_coulomb(x_1, x_2, alpha, a)` (`one_dim_qd.py` 32-34) for a float `x_1` and an array `x_2`. -/
noncomputable def shieldedCoulomb (x1 : ℂ) (x2 : NDArray ℂ) (alpha a : ℝ) : NDArray ℂ :=
  mapReal (fun y => alpha / Real.sqrt ((x1.re - y) ^ 2 + a ^ 2)) x2

/-- `_compute_inner_integral(spf, l, num_grid_points, grid, alpha, a)` (`one_dim_qd.py` 37-51). -/
noncomputable def computeInnerIntegral (spf : NDArray ℂ) (l num : ℕ) (grid : NDArray ℂ) (alpha a : ℝ) :
    Except PyErr (NDArray ℂ) :=
  (List.range l).foldlM (fun I q =>
    (List.range l).foldlM (fun I s =>
      (List.range num).foldlM (fun I i => do
        let fq ← spf.item q
        let x ← getItem grid [i]
        let t ← NDArray.mul fq.conj (shieldedCoulomb x grid alpha a)
        let fs ← spf.item s
        let t ← NDArray.mul t fs
        NDArray.setItem I [q, s, i] (trapz t grid)) I) I)
    (NDArray.zeros .complex128 [l, l, num])

/-- `_compute_orbital_integrals(spf, l, inner_integral, grid)` (`one_dim_qd.py` 54-66). -/
noncomputable def computeOrbitalIntegrals (spf : NDArray ℂ) (l : ℕ) (inner grid : NDArray ℂ) :
    Except PyErr (NDArray ℂ) :=
  (List.range l).foldlM (fun u p =>
    (List.range l).foldlM (fun u q =>
      (List.range l).foldlM (fun u r =>
        (List.range l).foldlM (fun u s => do
          let fp ← spf.item p
          let Iq ← inner.item q
          let Iqs ← Iq.item s
          let t ← NDArray.mul fp.conj Iqs
          let fr ← spf.item r
          let t ← NDArray.mul t fr
          NDArray.setItem u [p, q, r, s] (trapz t grid)) u) u) u)
    (NDArray.zeros .complex128 [l, l, l, l])

/-- A Python float as the value of an attribute that may hold an array as well. -/
noncomputable def pyFloat (x : ℝ) : NDArray ℂ := ofFn .float64 [] (fun _ => (x : ℂ))

/-- `np.linspace(start, stop, num)`. -/
noncomputable def linspaceArr (start stop : ℝ) (num : ℕ) : NDArray ℂ :=
  ofFn .float64 [num] (fun i => (TwoDim.linspace start stop num (i.getD 0 0) : ℂ))

/-- `np.trapz(y, x)`: `(np.diff(x) * (y[1:] + y[:-1]) / 2.0).sum()`. -/
noncomputable def npTrapz (y x : NDArray ℂ) : ℂ :=
  ∑ i ∈ Finset.range (x.shape.getD 0 0 - 1),
    (x.get [i + 1] - x.get [i]) * (y.get [i + 1] + y.get [i]) / 2

/-- `spec.hermite(n)(x)`: the Hermite polynomials of the physicists by their recurrence. -/
noncomputable def hermite : ℕ → ℝ → ℝ
  | 0, _ => 1
  | 1, x => 2 * x
  | n + 2, x => 2 * x * hermite (n + 1) x - 2 * (n + 1) * hermite n x

/-- `ODHO.normalization(n)` (`one_dim_qd.py` 142-147). -/
noncomputable def normalization (omega : ℝ) (n : ℕ) : ℝ :=
  1 / Real.sqrt (2 ^ n * n.factorial) * (omega / Real.pi) ^ (1 / 4 : ℝ)

/-- `ODHO.ho_function(x, n)` (`one_dim_qd.py` 135-140) at one point. -/
noncomputable def hoFunction (omega : ℝ) (n : ℕ) (x : ℝ) : ℝ :=
  normalization omega n * Real.exp (-(1 / 2) * omega * x ^ 2) * hermite n (Real.sqrt omega * x)

/-- `ODHO.construct_dipole_moment` (`one_dim_qd.py` 149-165): the loop on the array of zeros. -/
noncomputable def odhoDipole (l : ℕ) (omega : ℝ) (dt : DType) : Except PyErr (NDArray ℂ) :=
  (List.range (l - 1)).foldlM (fun d n => do
      let Nn := normalization omega n
      let Nup := normalization omega (n + 1)
      let dip : ℝ := Nn * Nup * (n + 1) * Real.sqrt Real.pi * 2 ^ n * n.factorial / omega
      let d ← NDArray.setItem d [0, n, n + 1] (dip : ℂ)
      NDArray.setItem d [0, n + 1, n] (dip : ℂ))
    (NDArray.zeros dt [1, l, l])

/-- The loop `for p in range(self.l): self.spf[p] = self.ho_function(self.grid, p)` on the array of zeros
(`one_dim_qd.py` 115-118). -/
noncomputable def odhoRows (l num : ℕ) (omega : ℝ) (grid : NDArray ℂ) : Except PyErr (NDArray ℂ) :=
  (List.range l).foldlM (fun spf p => setRow spf p (mapReal (hoFunction omega p) grid))
    (NDArray.zeros .float64 [l, num])

/-- `ODHO.setup_basis` (`one_dim_qd.py` 110-133).  `beta` is not used. -/
noncomputable def odhoSetup (num : ℕ) (omega a alpha : ℝ) : PyM (BasisSet ℂ) Unit := do
  let self ← PyM.get
  let l := self.l
  let grid ← orErr .type self.grid
  let _ ← getItem grid [1]
  let _ ← getItem grid [0]
  let energies : NDArray ℂ := ofFn .float64 [l] (fun i => ((omega * (i.getD 0 0 + 1 / 2) : ℝ) : ℂ))
  let h ← diag energies
  BasisSet.setH (some h.toComplex)
  BasisSet.setS (some (NDArray.eye l))
  BasisSet.setSpf (some (NDArray.zeros .float64 [l, num]))
  let spf ← odhoRows l num omega grid
  PyM.modify fun self => { self with spf := some spf }
  let inner ← computeInnerIntegral spf l num grid alpha a
  let u ← computeOrbitalIntegrals spf l inner grid
  BasisSet.setU (some u)
  BasisSet.setDipole (some (NDArray.zeros spf.dtype [1, l, l]))
  let d ← odhoDipole l omega spf.dtype
  PyM.modify fun self => { self with dipole := some d }

/-- `ODHO(l, grid_length, num_grid_points, omega, a, alpha, beta, np=…, includes_spin=…,
anti_symmetrized_u=…)` (`one_dim_qd.py` 83-108).  `beta` is stored and never used. -/
noncomputable def odho (l : ℕ) (gridLength : ℝ) (num : ℕ) (omega a alpha : ℝ) (_beta : ℝ)
    (np : Module := 0) (includesSpin antiSym : Bool := false) : Except PyErr (BasisSet ℂ) :=
  let setup : PyM (BasisSet ℂ) Unit := do
    BasisSet.setGrid (some (linspaceArr (-gridLength) gridLength num))
    odhoSetup num omega a alpha
  match setup.run { BasisSet.init l 1 np includesSpin antiSym with a := some (pyFloat a) } with
  | (.ok (), b) => .ok b
  | (.error e, _) => .error e

/-- `ODQD.construct_dipole_moment` (`one_dim_qd.py` 295-305): the loops on the array of zeros. -/
noncomputable def odqdDipole (spf grid : NDArray ℂ) (l : ℕ) (beta : ℝ) : Except PyErr (NDArray ℂ) :=
  (List.range l).foldlM (fun d p =>
    (List.range l).foldlM (fun d q => do
      let fp ← spf.item p
      let g2 ← NDArray.mul grid grid
      let x ← NDArray.add grid (NDArray.smul .float64 (beta : ℂ) g2)
      let t ← NDArray.mul fp.conj x
      let fq ← spf.item q
      let t ← NDArray.mul t fq
      NDArray.setItem d [0, p, q] (npTrapz t grid)) d)
    (NDArray.zeros spf.dtype [1, l, l])

/-- The finite-difference Hamiltonian that `ODQD.setup_basis` diagonalises (`one_dim_qd.py` 258-267).
`np.ones` of a negative length raises `ValueError`. -/
noncomputable def odqdMatrix (V : ℝ → ℝ) (grid : NDArray ℂ) (num : ℕ) : Except PyErr (NDArray ℂ) := do
  let g1 ← getItem grid [1]
  let g0 ← getItem grid [0]
  let dx : ℝ := (g1 - g0).re
  let x ← grid.slice [some (1, num - 1)]
  let hDiag := addScalar ((1 / dx ^ 2 : ℝ) : ℂ) (mapReal V x)
  let ones ← if num < 3 then .error .value else .ok (NDArray.ones [num - 3])
  let hOff := NDArray.smul .float64 ((-1 / (2 * dx ^ 2) : ℝ) : ℂ) ones
  let h0 ← diag hDiag
  let h1 ← diag hOff (-1)
  let h2 ← diag hOff 1
  let h ← NDArray.add h0 h1
  NDArray.add h h2

/-- `ODQD.setup_basis` (`one_dim_qd.py` 257-293); `eigh` is `np.linalg.eigh`. -/
noncomputable def odqdSetup (eigh : NDArray ℂ → Except PyErr (NDArray ℂ × NDArray ℂ)) (V : ℝ → ℝ)
    (num : ℕ) (a alpha beta : ℝ) : PyM (BasisSet ℂ) Unit := do
  let self ← PyM.get
  let l := self.l
  let grid ← orErr .type self.grid
  let h ← odqdMatrix V grid num
  let g1 ← getItem grid [1]
  let g0 ← getItem grid [0]
  let dx : ℝ := (g1 - g0).re
  let (energies, states) ← eigh h
  let energies ← energies.slice [some (0, l)]
  let states ← states.slice [none, some (0, l)]
  BasisSet.setSpf (some (NDArray.zeros .complex128 [l, num]))
  let spf ← setInterior (NDArray.zeros .complex128 [l, num]) (divScalar states.T (Real.sqrt dx : ℂ))
  PyM.modify fun self => { self with spf := some spf }
  let h ← diag energies
  BasisSet.setH (some h.toComplex)
  BasisSet.setS (some (NDArray.eye l))
  let inner ← computeInnerIntegral spf l num grid alpha a
  let u ← computeOrbitalIntegrals spf l inner grid
  BasisSet.setU (some u)
  BasisSet.setDipole (some (NDArray.zeros spf.dtype [1, l, l]))
  let d ← odqdDipole spf grid l beta
  PyM.modify fun self => { self with dipole := some d }

/-- `ODQD(l, grid_length, num_grid_points, a, alpha, beta, potential, np=…, includes_spin=…,
anti_symmetrized_u=…)` (`one_dim_qd.py` 223-255); `V` is the potential (the default is
`HOPotential(0.25)`), `holdsModule` says whether the potential object holds a module. -/
noncomputable def odqd (eigh : NDArray ℂ → Except PyErr (NDArray ℂ × NDArray ℂ)) (l : ℕ)
    (gridLength : ℝ) (num : ℕ) (a alpha beta : ℝ) (V : ℝ → ℝ) (holdsModule : Bool := false)
    (np : Module := 0) (includesSpin antiSym : Bool := false) : Except PyErr (BasisSet ℂ) :=
  let setup : PyM (BasisSet ℂ) Unit := do
    BasisSet.setGrid (some (linspaceArr (-gridLength) gridLength num))
    PyM.modify fun self => { self with extraModule := holdsModule }
    odqdSetup eigh V num a alpha beta
  match setup.run { BasisSet.init l 1 np includesSpin antiSym with a := some (pyFloat a) } with
  | (.ok (), b) => .ok b
  | (.error e, _) => .error e

end QS.OneDim
