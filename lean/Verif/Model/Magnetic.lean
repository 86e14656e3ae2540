import Verif.Model.TwoDim

/-!
# Model of `TwoDimHarmonicOscB` (`quantum_dots/two_dim/two_dim_ho.py` 238-305) and of the functions it uses

A pandas data frame is a list of rows.  Floats are real numbers.
-/

namespace QS.TwoDim

open Idx

open scoped Classical in
/-- The values of a list without repetitions, in order of first occurrence (`pandas.Series.unique`). -/
noncomputable def uniqueFirst {α : Type} : List α → List α
  | [] => []
  | x :: xs => x :: (uniqueFirst xs).filter (fun y => y ≠ x)

/-- `x.round(decimals=8)`: the nearest multiple of `10⁻⁸`, the even one if there are two. -/
noncomputable def round8 (x : ℝ) : ℝ :=
  let f := ⌊x * 10 ^ 8⌋
  let d := x * 10 ^ 8 - f
  (if d < 1 / 2 then (f : ℝ) else if d > 1 / 2 then (f : ℝ) + 1
    else if f % 2 = 0 then (f : ℝ) else (f : ℝ) + 1) / 10 ^ 8

/-- A row of the data frame: the columns `n`, `m` and `E`. -/
structure Row where
  n : ℤ
  m : ℤ
  E : ℝ

/-- `get_shell_energy_B(n, m, omega_c, omega)` (`two_dim_helper.py` 274-275). -/
noncomputable def shellEnergyB (n m : ℤ) (omegaC omega : ℝ) : ℝ :=
  omega * (2 * n + |m| + 1 : ℤ) - (omegaC * m) / 2

/-- The rows of the data frame before sorting (`two_dim_helper.py` 384-394). -/
noncomputable def windowRows (ns ms : List ℤ) (omegaC omega : ℝ) : List Row :=
  ns.flatMap fun n => ms.map fun m => ⟨n, m, shellEnergyB n m omegaC omega⟩

open scoped Classical in
/-- `sort_values(by=["E", "m"])` (`two_dim_helper.py` 396), a stable sort for two keys. -/
noncomputable def sortRows (rows : List Row) : List Row :=
  rows.mergeSort (fun a b => decide (a.E < b.E ∨ a.E = b.E ∧ a.m ≤ b.m))

open scoped Classical in
/-- The column `level` of a row (`two_dim_helper.py` 398-403): the number of the last energy closer than
`10⁻⁶`. -/
noncomputable def levelOf (energies : List ℝ) (E : ℝ) : ℕ :=
  energies.zipIdx.foldl (fun lev ei => if |E - ei.1| < 1 / 10 ^ 6 then ei.2 else lev) 0

/-- The loop `while df.iloc[k]["level"] == cap: k += 1` (`two_dim_helper.py` 412-413) over the rows from `k`
on.  `IndexError` when it runs over the end. -/
def capLoop (cap : ℕ) : List ℕ → ℕ → Except PyErr ℕ
  | [], _ => .error .index
  | lev :: rest, k => if lev = cap then capLoop cap rest (k + 1) else .ok k

/-- `construct_dataframe(n_array, m_array, omega_c, omega)` (`two_dim_helper.py` 383-418).  The columns
`level` and `degeneracy` of the result are not used afterwards and are left out.  Without any row there is no
column to sort by (`KeyError`). -/
noncomputable def constructDataframe (ns ms : List ℤ) (omegaC omega : ℝ) : Except PyErr (List Row) := do
  if windowRows ns ms omegaC omega = [] then throw .key
  let df := sortRows (windowRows ns ms omegaC omega)
  let energies := uniqueFirst (df.map fun row => round8 row.E)
  let levels := df.map fun row => levelOf energies row.E
  let minNum := ns.length * (ns.length - 1) / 2
  match levels[minNum]? with
  | none => throw .index
  | some cap =>
    let num ← capLoop cap (levels.drop minNum) minNum
    return df.take num

/-- `get_one_body_elements_B(num_orbitals, df)` (`two_dim_helper.py` 278-284). -/
noncomputable def getOneBodyElementsB (num : ℕ) (df : List Row) : Except PyErr (NDArray ℂ) :=
  (List.range num).foldlM (fun h p =>
      match df[p]? with
      | none => .error .key
      | some row => NDArray.setItem h [p, p] (row.E : ℂ))
    (NDArray.zeros .float64 [num, num])

/-- `get_indices_nm(p)` of `TwoDimHarmonicOscB` (`two_dim_ho.py` 302-305) and the look-ups in
`get_coulomb_elements_B`.  They come after `get_one_body_elements_B`, which raises `KeyError` if a row is
missing; `(0, 0)` stands for that case here. -/
def indicesNmB (df : List Row) (p : ℕ) : ℤ × ℤ :=
  match df[p]? with
  | none => (0, 0)
  | some row => (row.n, row.m)

/-- `get_coulomb_elements_B(num_orbitals, df)` (`two_dim_helper.py` 287-304). -/
noncomputable def getCoulombElementsB (num : ℕ) (df : List Row) : Except PyErr (NDArray ℂ) :=
  (List.range num).foldlM (fun u p =>
    (List.range num).foldlM (fun u q =>
      (List.range num).foldlM (fun u r =>
        (List.range num).foldlM (fun u s =>
          NDArray.setItem u [p, q, r, s] (Coulomb.coulombHo
            (indicesNmB df p).1 (indicesNmB df p).2 (indicesNmB df q).1 (indicesNmB df q).2
            (indicesNmB df r).1 (indicesNmB df r).2 (indicesNmB df s).1 (indicesNmB df s).2 : ℝ)) u) u) u)
    (NDArray.zeros .float64 [num, num, num, num])

/-- `np.arange(num_orbitals)` (`two_dim_ho.py` 285). -/
def nArray (l : ℕ) : List ℤ := (List.range l).map fun i : ℕ => (i : ℤ)

/-- `np.arange(-num_orbitals - 5, num_orbitals + 6)` (`two_dim_ho.py` 286). -/
def mArray (l : ℕ) : List ℤ := (List.range (2 * l + 11)).map fun i : ℕ => (i : ℤ) - l - 5

/-- `self.omega = np.sqrt(self.omega ** 2 + self.omega_c ** 2 / 4)` (`two_dim_ho.py` 282). -/
noncomputable def omegaB (omega omegaC : ℝ) : ℝ := Real.sqrt (omega ^ 2 + omegaC ^ 2 / 4)

/-- `self.df` (`two_dim_ho.py` 284-289). -/
noncomputable def dataframeB (l : ℕ) (omega omegaC : ℝ) : Except PyErr (List Row) :=
  constructDataframe (nArray l) (mArray l) omegaC (omegaB omega omegaC)

/-- `TwoDimHarmonicOscB.setup_basis` (`two_dim_ho.py` 281-300) from the value `omega` that the attribute of that
name holds after its assignment; the result is the data frame. -/
noncomputable def oscBSetup (num : ℕ) (radiusLength omega mass omegaC : ℝ) :
    PyM (BasisSet ℂ) (List Row) := do
  let self ← PyM.get
  let l := self.l
  let df ← constructDataframe (nArray l) (mArray l) omegaC omega
  let h ← getOneBodyElementsB l df
  PyM.modify fun self => { self with h := some h }
  PyM.modify fun self => { self with s := some (NDArray.eye l) }
  let u ← getCoulombElementsB l df
  PyM.modify fun self => { self with u := some (NDArray.smul .float64 (Real.sqrt omega : ℂ) u) }
  PyM.modify fun self => { self with spf := some (setupSpf (indicesNmB df) l num radiusLength omega mass) }
  let d ← constructDipoleMoment (indicesNmB df) l omega mass
  PyM.modify fun self => { self with dipole := some d }
  BasisSet.castToComplex
  let self ← PyM.get
  BasisSet.changeModule self.np
  pure df

/-- `TwoDimHarmonicOscB(l, radius_length, num_grid_points, omega, mass, omega_c=omega_c, np=…,
includes_spin=…, anti_symmetrized_u=…)` (`two_dim_ho.py` 276-305), together with its data frame. -/
noncomputable def oscB (l num : ℕ) (radiusLength omega mass omegaC : ℝ) (np : Module := 0)
    (includesSpin antiSym : Bool := false) : Except PyErr (BasisSet ℂ × List Row) :=
  match (oscBSetup num radiusLength (omegaB omega omegaC) mass omegaC).run
      (BasisSet.init l 2 np includesSpin antiSym) with
  | (.ok df, b) => .ok (b, df)
  | (.error e, _) => .error e

/-- The object with the attribute `omega`, which `setup_basis` assigns. -/
structure OscB where
  basis : BasisSet ℂ
  omega : ℝ

/-- Call a method of the base class on the object. -/
def OscB.onBasis {α : Type} (m : PyM (BasisSet ℂ) α) : PyM OscB α := fun o =>
  ((m.run o.basis).1, { o with basis := (m.run o.basis).2 })

/-- `TwoDimHarmonicOscB.setup_basis()` on the object (`two_dim_ho.py` 281-300). -/
noncomputable def OscB.setupBasis (num : ℕ) (radiusLength mass omegaC : ℝ) : PyM OscB Unit := do
  PyM.modify fun o => { o with omega := omegaB o.omega omegaC }
  let self ← PyM.get
  let _ ← OscB.onBasis (oscBSetup num radiusLength self.omega mass omegaC)
  pure ()

/-- `TwoDimHarmonicOscB(…)` (`two_dim_ho.py` 276-279, 61-82) as an object with its attribute `omega`. -/
noncomputable def OscB.new (l num : ℕ) (radiusLength omega mass omegaC : ℝ) (np : Module := 0) :
    Except PyErr OscB :=
  match (OscB.setupBasis num radiusLength mass omegaC).run ⟨BasisSet.init l 2 np, omega⟩ with
  | (.ok (), o) => .ok o
  | (.error e, _) => .error e

end QS.TwoDim
