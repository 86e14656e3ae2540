import Verif.Lemmas.Energy
import Verif.Spec.OccDensity

/-! # Reference energies and Fock matrices in terms of the density matrix of the occupied orbitals -/

namespace QS

open Finset NDArray BasisSet

variable {K : Type} [PyScalar K]

theorem sum_out {n l : ℕ} (g : ℕ → ℕ → ℕ → ℕ → ℕ → K) :
    ∑ j ∈ range n, ∑ a ∈ range l, ∑ b ∈ range l, ∑ c ∈ range l, ∑ d ∈ range l, g j a b c d =
      ∑ a ∈ range l, ∑ b ∈ range l, ∑ c ∈ range l, ∑ d ∈ range l, ∑ j ∈ range n, g j a b c d := by
  rw [sum_comm]
  refine sum_congr rfl fun a _ => ?_
  rw [sum_comm]
  refine sum_congr rfl fun b _ => ?_
  rw [sum_comm]
  refine sum_congr rfl fun c _ => ?_
  rw [sum_comm]

theorem one_sum {C Ct H H' : NDArray K} {l m n : ℕ} (hn : n ≤ m) (hh : IsOneBody C Ct l m H H') :
    ∑ i ∈ range n, H'.get [i, i] =
      ∑ a ∈ range l, ∑ b ∈ range l, occDensity n C Ct b a * H.get [a, b] := by
  have : ∀ i ∈ range n, H'.get [i, i] =
      ∑ a ∈ range l, ∑ b ∈ range l, Ct.get [i, a] * H.get [a, b] * C.get [b, i] := fun i hi => by
    have := mem_range.1 hi
    exact hh.2 i (by omega) i (by omega)
  rw [sum_congr rfl this, sum_comm]
  refine sum_congr rfl fun a _ => ?_
  rw [sum_comm]
  refine sum_congr rfl fun b _ => ?_
  rw [occDensity, sum_mul]
  exact sum_congr rfl fun i _ => by ring

theorem direct_sum {C Ct U U' : NDArray K} {l m n : ℕ} (hn : n ≤ m) (hu : IsTwoBody C Ct l m U U') :
    ∑ i ∈ range n, ∑ j ∈ range n, U'.get [i, j, i, j] =
      ∑ a ∈ range l, ∑ b ∈ range l, ∑ c ∈ range l, ∑ d ∈ range l,
        occDensity n C Ct c a * occDensity n C Ct d b * U.get [a, b, c, d] := by
  have : ∀ i ∈ range n, ∑ j ∈ range n, U'.get [i, j, i, j] =
      ∑ a ∈ range l, ∑ b ∈ range l, ∑ c ∈ range l, ∑ d ∈ range l, ∑ j ∈ range n,
        Ct.get [i, a] * Ct.get [j, b] * U.get [a, b, c, d] * C.get [c, i] * C.get [d, j] := fun i hi => by
    have := mem_range.1 hi
    rw [← sum_out]
    refine sum_congr rfl fun j hj => ?_
    have := mem_range.1 hj
    exact hu.2 i (by omega) j (by omega) i (by omega) j (by omega)
  rw [sum_congr rfl this, sum_out]
  refine sum_congr rfl fun a _ => sum_congr rfl fun b _ => sum_congr rfl fun c _ => sum_congr rfl fun d _ => ?_
  rw [occDensity, occDensity, sum_mul_sum, sum_mul]
  refine sum_congr rfl fun i _ => ?_
  rw [sum_mul]
  exact sum_congr rfl fun j _ => by ring

theorem exchange_sum {C Ct U U' : NDArray K} {l m n : ℕ} (hn : n ≤ m) (hu : IsTwoBody C Ct l m U U') :
    ∑ i ∈ range n, ∑ j ∈ range n, U'.get [i, j, j, i] =
      ∑ a ∈ range l, ∑ b ∈ range l, ∑ c ∈ range l, ∑ d ∈ range l,
        occDensity n C Ct d a * occDensity n C Ct c b * U.get [a, b, c, d] := by
  have : ∀ i ∈ range n, ∑ j ∈ range n, U'.get [i, j, j, i] =
      ∑ a ∈ range l, ∑ b ∈ range l, ∑ c ∈ range l, ∑ d ∈ range l, ∑ j ∈ range n,
        Ct.get [i, a] * Ct.get [j, b] * U.get [a, b, c, d] * C.get [c, j] * C.get [d, i] := fun i hi => by
    have := mem_range.1 hi
    rw [← sum_out]
    refine sum_congr rfl fun j hj => ?_
    have := mem_range.1 hj
    exact hu.2 i (by omega) j (by omega) j (by omega) i (by omega)
  rw [sum_congr rfl this, sum_out]
  refine sum_congr rfl fun a _ => sum_congr rfl fun b _ => sum_congr rfl fun c _ => sum_congr rfl fun d _ => ?_
  rw [occDensity, occDensity, sum_mul_sum, sum_mul]
  refine sum_congr rfl fun i _ => ?_
  rw [sum_mul]
  exact sum_congr rfl fun j _ => by ring

theorem energy_density {C Ct H H' U U' : NDArray K} {l m n : ℕ} (hn : n ≤ m)
    (hh : IsOneBody C Ct l m H H') (hu : IsTwoBody C Ct l m U U') (k : SysKind) :
    energyOf k n H' U' = densityEnergy k l (occDensity n C Ct) H U := by
  cases k with
  | general => simp only [energyOf, energyGeneral, densityEnergy, one_sum hn hh, direct_sum hn hu]
  | spatial =>
    simp only [energyOf, energySpatial, densityEnergy, one_sum hn hh, sum_sub_distrib, ← mul_sum,
      direct_sum hn hu, exchange_sum hn hu, sub_mul, mul_assoc]

theorem sum_three {l : ℕ} (c d : ℕ → K) (Z X Y : ℕ → ℕ → K) :
    ∑ a ∈ range l, ∑ b ∈ range l, c a * Z a b * d b + (2 * ∑ a ∈ range l, ∑ b ∈ range l, c a * X a b * d b -
      ∑ a ∈ range l, ∑ b ∈ range l, c a * Y a b * d b) =
    ∑ a ∈ range l, ∑ b ∈ range l, c a * (Z a b + (2 * X a b - Y a b)) * d b := by
  simp only [mul_sum, ← sum_sub_distrib, ← sum_add_distrib]
  exact sum_congr rfl fun a _ => sum_congr rfl fun b _ => by ring

theorem fock_density {C Ct H H' U U' : NDArray K} {l m n : ℕ} (hn : n ≤ m)
    (hh : IsOneBody C Ct l m H H') (hu : IsTwoBody C Ct l m U U') (k : SysKind) {p q : ℕ} (hp : p < m)
    (hq : q < m) :
    fockAt k n H' U' p q = ∑ a ∈ range l, ∑ b ∈ range l,
      Ct.get [p, a] * densityFock k l (occDensity n C Ct) H U a b * C.get [b, q] := by
  have e1 : ∑ i ∈ range n, U'.get [p, i, q, i] = ∑ a ∈ range l, ∑ b ∈ range l,
      Ct.get [p, a] * (∑ c ∈ range l, ∑ d ∈ range l, occDensity n C Ct d c * U.get [a, c, b, d])
        * C.get [b, q] := by
    have : ∀ i ∈ range n, U'.get [p, i, q, i] = ∑ a ∈ range l, ∑ c ∈ range l, ∑ b ∈ range l, ∑ d ∈ range l,
        Ct.get [p, a] * Ct.get [i, c] * U.get [a, c, b, d] * C.get [b, q] * C.get [d, i] := fun i hi => by
      have := mem_range.1 hi
      exact hu.2 p hp i (by omega) q hq i (by omega)
    rw [sum_congr rfl this, sum_out]
    refine sum_congr rfl fun a _ => ?_
    rw [sum_comm]
    refine sum_congr rfl fun b _ => ?_
    simp only [mul_sum, sum_mul, occDensity]
    exact sum_congr rfl fun c _ => sum_congr rfl fun d _ => sum_congr rfl fun i _ => by ring
  have e2 : ∑ i ∈ range n, U'.get [p, i, i, q] = ∑ a ∈ range l, ∑ b ∈ range l,
      Ct.get [p, a] * (∑ c ∈ range l, ∑ d ∈ range l, occDensity n C Ct d c * U.get [a, c, d, b])
        * C.get [b, q] := by
    have : ∀ i ∈ range n, U'.get [p, i, i, q] = ∑ a ∈ range l, ∑ c ∈ range l, ∑ d ∈ range l, ∑ b ∈ range l,
        Ct.get [p, a] * Ct.get [i, c] * U.get [a, c, d, b] * C.get [d, i] * C.get [b, q] := fun i hi => by
      have := mem_range.1 hi
      exact hu.2 p hp i (by omega) i (by omega) q hq
    rw [sum_congr rfl this, sum_out]
    refine sum_congr rfl fun a _ => ?_
    rw [sum_congr rfl fun c _ => sum_comm, sum_comm]
    refine sum_congr rfl fun b _ => ?_
    simp only [mul_sum, sum_mul, occDensity]
    exact sum_congr rfl fun c _ => sum_congr rfl fun d _ => sum_congr rfl fun i _ => by ring
  cases k with
  | general =>
    simp only [fockAt, fockGeneralAt, densityFock, hh.2 p hp q hq, e1, ← sum_add_distrib]
    exact sum_congr rfl fun a _ => sum_congr rfl fun b _ => by ring
  | spatial =>
    have e3 : ∀ a b, ∑ c ∈ range l, ∑ d ∈ range l, occDensity n C Ct d c *
          (2 * U.get [a, c, b, d] - U.get [a, c, d, b])
        = 2 * (∑ c ∈ range l, ∑ d ∈ range l, occDensity n C Ct d c * U.get [a, c, b, d])
          - ∑ c ∈ range l, ∑ d ∈ range l, occDensity n C Ct d c * U.get [a, c, d, b] := by
      intro a b
      simp only [mul_sum, ← sum_sub_distrib]
      exact sum_congr rfl fun c _ => sum_congr rfl fun d _ => by ring
    simp only [fockAt, fockSpatialAt, densityFock, hh.2 p hp q hq, sum_sub_distrib, ← mul_sum, e1, e2, e3]
    exact sum_three (fun a => Ct.get [p, a]) (fun b => C.get [b, q]) (fun a b => H.get [a, b]) _ _

end QS
