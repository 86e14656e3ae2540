import Verif.Model.Coulomb
import Verif.Model.BasisSet
import Mathlib.Analysis.SpecialFunctions.Trigonometric.Basic
import Mathlib.Analysis.SpecialFunctions.Complex.Circle
import Mathlib.MeasureTheory.Integral.IntervalIntegral.Basic
import Mathlib.MeasureTheory.Measure.Lebesgue.Basic

/-!
# Model of the one-body part of `quantum_dots/two_dim/two_dim_helper.py` and of
`quantum_dots/two_dim/two_dim_ho.py`

Floats are real numbers.  `scipy.special.factorial`, `scipy.special.assoc_laguerre`,
`sympy.assoc_laguerre` and `sympy.integrate` are taken to be the exact factorial, generalised Laguerre
polynomial and integral.
-/

namespace QS.TwoDim

open Idx

/-- `bohr_radius(mass, omega)` (`two_dim_helper.py` 36-37). -/
noncomputable def bohrRadius (mass omega : ℝ) : ℝ := Real.sqrt (mass * omega)

/-- `spf_norm(n, m, mass, omega)` (`two_dim_helper.py` 25-33). -/
noncomputable def spfNorm (n m : ℤ) (mass omega : ℝ) : ℝ :=
  let a := bohrRadius mass omega
  a * Real.sqrt ((n.toNat.factorial : ℝ) / (Real.pi * (n + |m|).toNat.factorial))

/-- The generalised Laguerre polynomial `L_n^{(k)}(x)`, the value of `scipy.special.assoc_laguerre(x, n, k)`
and `sympy.assoc_laguerre(n, k, x)`. -/
noncomputable def assocLaguerre (x : ℝ) (n k : ℕ) : ℝ :=
  ∑ i ∈ Finset.range (n + 1), (-1) ^ i * ((n + k).choose (n - i) : ℝ) / i.factorial * x ^ i

/-- `spf_theta(theta, m)` (`two_dim_helper.py` 40-41). -/
noncomputable def spfTheta (theta : ℝ) (m : ℤ) : ℂ := Complex.exp (Complex.I * m * theta)

/-- `spf_radial(r, n, m, mass, omega)` (`two_dim_helper.py` 44-50), and the function that
`spf_radial_function` returns (53-62). -/
noncomputable def spfRadial (n m : ℤ) (mass omega : ℝ) (r : ℝ) : ℝ :=
  let a := bohrRadius mass omega
  (a * r) ^ m.natAbs * assocLaguerre (a ^ 2 * r ^ 2) n.toNat m.natAbs
    * Real.exp (-(a ^ 2) * r ^ 2 / 2)

/-- `spf_state(r, theta, p, mass, omega, get_indices_nm)` (`two_dim_helper.py` 15-22). -/
noncomputable def spfState (nm : ℕ → ℤ × ℤ) (mass omega : ℝ) (p : ℕ) (r theta : ℝ) : ℂ :=
  let n := (nm p).1
  let m := (nm p).2
  (spfNorm n m mass omega : ℂ) * spfTheta theta m * (spfRadial n m mass omega r : ℂ)

/-- `radial_integral(r_p, r_q, order)` (`two_dim_helper.py` 65-70); the functions are real, so `conjugate`
does nothing. -/
noncomputable def radialIntegral (rp rq : ℝ → ℝ) (order : ℕ := 1) : ℝ :=
  ∫ r in Set.Ioi (0 : ℝ), r * r ^ order * rp r * rq r

/-- `smooth_theta_integral_1(m_p, m_q)` (`two_dim_helper.py` 73-75). -/
noncomputable def smoothTheta1 (mp mq : ℤ) : ℝ := (-1) ^ (|mp - mq| % 2).toNat * (3 * Real.pi / 4)

/-- `smooth_theta_integral_2(m_p, m_q)` (`two_dim_helper.py` 78-80). -/
noncomputable def smoothTheta2 (mp mq : ℤ) : ℝ := (-1) ^ (|mp - mq| % 2).toNat * Real.pi

/-- `theta_1_integral(m_p, m_q)` (`two_dim_helper.py` 83-87). -/
noncomputable def theta1 (mp mq : ℤ) : ℂ := if |mp - mq| = 1 then (Real.pi : ℂ) else 0

/-- `theta_2_integral(m_p, m_q)` (`two_dim_helper.py` 90-94). -/
noncomputable def theta2 (mp mq : ℤ) : ℂ :=
  if |mp - mq| = 1 then -((mp : ℂ) - mq) * Complex.I * Real.pi else 0

/-- `theta_1_tilde_integral(m_p, m_q)` (`two_dim_helper.py` 97-103). -/
noncomputable def theta1Tilde (mp mq : ℤ) : ℝ :=
  if |mp - mq| % 2 = 1 then 0
  else
    let sign : ℝ := if (|mp - mq| / 2) % 2 = 0 then 1 else -1
    sign * 4 / (1 - ((mp : ℝ) - mq) ^ 2)

/-- `theta_2_tilde_integral(m_p, m_q)` (`two_dim_helper.py` 106-110). -/
noncomputable def theta2Tilde (mp mq : ℤ) : ℝ :=
  if |mp - mq| % 2 = 1 then 0 else 4 / (1 - ((mp : ℝ) - mq) ^ 2)

/-- `get_one_body_elements(num_orbitals)` (`two_dim_helper.py` 176-184). -/
noncomputable def getOneBodyElements (num : ℕ) : Except PyErr (NDArray ℂ) :=
  (List.range num).foldlM (fun h p =>
      NDArray.setItem h [p, p] ((getShellEnergy (getIndicesNm p).1 (getIndicesNm p).2 : ℤ) : ℂ))
    (NDArray.zeros .float64 [num, num])

/-- `get_double_well_one_body_elements(num_orbitals, omega, mass, barrier_strength, dtype, axis)`
(`two_dim_helper.py` 307-342). -/
noncomputable def getDoubleWellOneBodyElements (num : ℕ) (omega mass barrier : ℝ) (dtype : DType)
    (axis : ℕ) : Except PyErr (NDArray ℂ) :=
  (List.range num).foldlM (fun h p => do
      let np := (getIndicesNm p).1
      let mp := (getIndicesNm p).2
      let rp := spfRadial np mp mass omega
      let h ← NDArray.modifyItem h [p, p] (fun x => x +
        ((omega * getShellEnergy np mp + omega ^ 2 * barrier ^ 2 / 8 : ℝ) : ℂ))
      (List.range num).foldlM (fun h q =>
        let nq := (getIndicesNm q).1
        let mq := (getIndicesNm q).2
        let rq := spfRadial nq mq mass omega
        if |mp - mq| = 1 then .ok h
        else
          NDArray.modifyItem h [p, q] (fun x => x -
            ((1 / 2 * omega ^ 2 * barrier * spfNorm np mp mass omega * spfNorm nq mq mass omega
              * radialIntegral rp rq * (if axis = 0 then theta1Tilde mp mq else theta2Tilde mp mq) : ℝ)
                : ℂ))) h)
    (NDArray.zeros dtype [num, num])

/-- `np.linspace(start, stop, num)[i]`. -/
noncomputable def linspace (start stop : ℝ) (num i : ℕ) : ℝ :=
  start + i * ((stop - start) / ((num : ℝ) - 1))

/-- `setup_spf` (`two_dim_ho.py` 80-81, 97-108): `R[i, j]` is the `j`-th radius, `T[i, j]` the `i`-th angle
(`np.meshgrid`).  The loop adds the functions to rows of zeros; here they are put there at once. -/
noncomputable def setupSpf (nm : ℕ → ℤ × ℤ) (l num : ℕ) (radiusLength omega mass : ℝ) : NDArray ℂ :=
  NDArray.ofFn .complex128 [l, num, num] (fun i =>
    spfState nm mass omega (i.getD 0 0) (linspace 0 radiusLength num (i.getD 2 0))
      (linspace 0 (2 * Real.pi) num (i.getD 1 0)))

/-- `construct_dipole_moment` (`two_dim_ho.py` 113-141); the norms are real, so `conjugate` does nothing. -/
noncomputable def constructDipoleMoment (nm : ℕ → ℤ × ℤ) (l : ℕ) (omega mass : ℝ) :
    Except PyErr (NDArray ℂ) :=
  (List.range l).foldlM (fun d p =>
      let np := (nm p).1
      let mp := (nm p).2
      let normP := spfNorm np mp mass omega
      let rp := spfRadial np mp mass omega
      (List.range l).foldlM (fun d q =>
        let nq := (nm q).1
        let mq := (nm q).2
        if |mp - mq| ≠ 1 then .ok d
        else do
          let normQ := spfNorm nq mq mass omega
          let rq := spfRadial nq mq mass omega
          let norm : ℂ := normP * normQ
          let Ir : ℂ := radialIntegral rp rq
          let d ← NDArray.setItem d [0, p, q] (norm * Ir * theta1 mp mq)
          NDArray.setItem d [1, p, q] (norm * Ir * theta2 mp mq)) d)
    (NDArray.zeros .complex128 [2, l, l])

/-- `TwoDimensionalHarmonicOscillator.setup_basis` (`two_dim_ho.py` 84-95) on the object that
`BasisSet.__init__` left; `coulomb` is the result of `get_coulomb_elements`.  Module 0 is NumPy. -/
noncomputable def tdhoSetup (coulomb : Except PyErr (NDArray ℂ)) (num : ℕ)
    (radiusLength omega mass : ℝ) : PyM (BasisSet ℂ) Unit := do
  let self ← PyM.get
  let l := self.l
  let h ← getOneBodyElements l
  PyM.modify fun self => { self with h := some (NDArray.smul .float64 (omega : ℂ) h) }
  let u ← coulomb
  PyM.modify fun self => { self with u := some (NDArray.smul .float64 (Real.sqrt omega : ℂ) u) }
  PyM.modify fun self => { self with s := some (NDArray.eye l) }
  PyM.modify fun self => { self with spf := some (setupSpf getIndicesNm l num radiusLength omega mass) }
  let d ← constructDipoleMoment getIndicesNm l omega mass
  PyM.modify fun self => { self with dipole := some d }
  let self ← PyM.get
  if self.np = some 0 then pure () else BasisSet.changeModule self.np

/-- `TwoDimensionalHarmonicOscillator(l, radius_length, num_grid_points, omega, mass, np=…, includes_spin=…,
anti_symmetrized_u=…)` (`two_dim_ho.py` 61-82). -/
noncomputable def tdho (coulomb : Except PyErr (NDArray ℂ)) (l num : ℕ) (radiusLength omega mass : ℝ)
    (np : Module := 0) (includesSpin antiSym : Bool := false) : Except PyErr (BasisSet ℂ) :=
  match (tdhoSetup coulomb num radiusLength omega mass).run (BasisSet.init l 2 np includesSpin antiSym) with
  | (.ok (), b) => .ok b
  | (.error e, _) => .error e

/-- `TwoDimensionalDoubleWell.setup_basis` (`two_dim_ho.py` 174-191). -/
noncomputable def doubleWellSetup (coulomb : Except PyErr (NDArray ℂ)) (num : ℕ)
    (radiusLength omega mass barrier : ℝ) (axis : ℕ) : PyM (BasisSet ℂ) Unit := do
  tdhoSetup coulomb num radiusLength omega mass
  let self ← PyM.get
  let h ← getDoubleWellOneBodyElements self.l omega mass barrier .complex128 axis
  PyM.modify fun self => { self with h := some h }
  let self ← PyM.get
  BasisSet.changeModule self.np

/-- `TwoDimensionalDoubleWell(l, radius, num_grid_points, barrier_strength, axis, omega, mass, np=…,
includes_spin=…, anti_symmetrized_u=…)` (`two_dim_ho.py` 168-191). -/
noncomputable def doubleWell (coulomb : Except PyErr (NDArray ℂ)) (l num : ℕ)
    (radiusLength omega mass barrier : ℝ) (axis : ℕ) (np : Module := 0) (includesSpin antiSym : Bool := false) :
    Except PyErr (BasisSet ℂ) :=
  match (doubleWellSetup coulomb num radiusLength omega mass barrier axis).run
      (BasisSet.init l 2 np includesSpin antiSym) with
  | (.ok (), b) => .ok b
  | (.error e, _) => .error e

end QS.TwoDim
