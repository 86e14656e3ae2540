import Verif.Core.NDArray
import Mathlib.LinearAlgebra.Matrix.Determinant.Basic

/-!
# Wave functions of `N` particles

`N`-particle wave functions in a basis of `L` orthonormal functions, the Hamilton operator in first quantisation,
Slater determinants.
-/

namespace QS

open Finset Function

variable {K : Type} [PyScalar K] {N L : ℕ}

/-- A wave function of `N` particles: the coefficients of the products of `N` basis functions. -/
abbrev Wave (K : Type) (N L : ℕ) := (Fin N → Fin L) → K

/-- Exchanging particles gives the sign of the permutation. -/
def Antisymmetric (Ψ : Wave K N L) : Prop :=
  ∀ (σ : Equiv.Perm (Fin N)) (x : Fin N → Fin L), Ψ (x ∘ σ) = (Equiv.Perm.sign σ : ℤ) * Ψ x

/-- `∑_i h(i)`. -/
def oneBodyOp (h : Fin L → Fin L → K) (Ψ : Wave K N L) : Wave K N L := fun x =>
  ∑ i, ∑ y, h (x i) y * Ψ (update x i y)

/-- `∑_{i ≠ j} u(i, j)`. -/
def twoBodyOp (u : Fin L → Fin L → Fin L → Fin L → K) (Ψ : Wave K N L) : Wave K N L := fun x =>
  ∑ i, ∑ j ∈ univ.erase i, ∑ y, ∑ z, u (x i) (x j) y z * Ψ (update (update x i y) j z)

/-- The Hamilton operator `∑_i h(i) + ½ ∑_{i ≠ j} u(i, j)`. -/
def hamiltonOp (h : Fin L → Fin L → K) (u : Fin L → Fin L → Fin L → Fin L → K) (Ψ : Wave K N L) : Wave K N L :=
  fun x => oneBodyOp h Ψ x + 1 / 2 * twoBodyOp u Ψ x

/-- `⟨Φ|Ψ⟩`. -/
def waveInner (Φ Ψ : Wave K N L) : K := ∑ x, star (Φ x) * Ψ x

/-- The (unnormalised) Slater determinant of the orbitals `o 0, …, o (N - 1)`. -/
def slater (o : Fin N → Fin L) : Wave K N L := fun x =>
  Matrix.det (Matrix.of fun i j => if x i = o j then (1 : K) else 0)

/-- The one-body elements an array holds. -/
def arrayOne (L : ℕ) (H : NDArray K) (p q : Fin L) : K := H.get [p, q]

/-- The two-body elements an array holds. -/
def arrayTwo (L : ℕ) (U : NDArray K) (p q r s : Fin L) : K := U.get [p, q, r, s]

/-- One-body elements between spin orbitals (number `2 p + σ`: spatial orbital `p`, spin `σ`) of an operator that
does not act on the spin. -/
def spinOne (l : ℕ) (H : NDArray K) (p q : Fin (2 * l)) : K :=
  if p.1 % 2 = q.1 % 2 then H.get [p.1 / 2, q.1 / 2] else 0

/-- Two-body elements between spin orbitals of an interaction that does not act on the spins. -/
def spinTwo (l : ℕ) (U : NDArray K) (p q r s : Fin (2 * l)) : K :=
  if p.1 % 2 = r.1 % 2 ∧ q.1 % 2 = s.1 % 2 then U.get [p.1 / 2, q.1 / 2, r.1 / 2, s.1 / 2] else 0

/-- The coefficients an array of two axes holds. -/
def arrayMat (L M : ℕ) (C : NDArray K) (a : Fin L) (p : Fin M) : K := C.get [a, p]

/-- Coefficients of spin orbitals, without mixing of spins. -/
def spinMat (L M : ℕ) (C : NDArray K) (a : Fin (2 * L)) (p : Fin (2 * M)) : K :=
  if a.1 % 2 = p.1 % 2 then C.get [a.1 / 2, p.1 / 2] else 0

/-- The determinant of the first `N` new orbitals with the coefficients `C`. -/
def orbitalDet {M : ℕ} (C : Fin L → Fin M → K) (hn : N ≤ M) : Wave K N L := fun x =>
  Matrix.det (Matrix.of fun i j => C (x i) (Fin.castLE hn j))

/-- The wave function `Ψ`, given in terms of products of new functions, in terms of products of old functions: the
new function `p` is the combination `∑_a C a p` of old functions. -/
def liftWave {M : ℕ} (C : Fin L → Fin M → K) (Ψ : Wave K N M) : Wave K N L := fun x =>
  ∑ y, (∏ i, C (x i) (y i)) * Ψ y

end QS
