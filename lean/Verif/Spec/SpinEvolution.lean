import Verif.Spec.Evolution
import Verif.Spec.Adiabatic

/-!
# Quantities that do not change while the particles move
-/

namespace QS

open Finset

/-- The components of the total spin and its square. -/
inductive SpinPart
  | x | y | z | square

/-- The operators `S a` are conserved by the motion of `N` identical fermions with the elements `h` and `u`.

* Their matrix elements between two solutions of the Schrödinger equation (hence their mean values) do not change.
* Functions on which one of them is a number remain such functions, with the same number.
* The probability to measure the values `c a` of some of them at the same time does not change. -/
structure Kept {ι : Type} (N : ℕ) {L : ℕ} (h : ℝ → Fin L → Fin L → ℂ) (u : ℝ → Fin L → Fin L → Fin L → Fin L → ℂ)
    (S : ι → Wave ℂ N L → Wave ℂ N L) : Prop where
  inner : ∀ Φ Ψ : ℝ → Wave ℂ N L, Evolves h u Φ → Evolves h u Ψ → ∀ s, Antisymmetric (Ψ s) →
    ∀ a t, waveInner (Φ t) (S a (Ψ t)) = waveInner (Φ s) (S a (Ψ s))
  value : ∀ Ψ : ℝ → Wave ℂ N L, Evolves h u Ψ → ∀ s, Antisymmetric (Ψ s) → ∀ a c, (S a (Ψ s) = fun x => c * Ψ s x) →
    ∀ t, S a (Ψ t) = fun x => c * Ψ t x
  probability : ∀ Ψ : ℝ → Wave ℂ N L, Evolves h u Ψ → ∀ s, Antisymmetric (Ψ s) →
    ∀ (D : ℕ) (Φ : ℕ → Wave ℂ N L) (v : ι → ℕ → ℂ) (J : Set ι), (∀ i < D, Antisymmetric (Φ i)) →
    (∀ i < D, ∀ j < D, waveInner (Φ i) (Φ j) = if i = j then 1 else 0) →
    (∀ Χ : Wave ℂ N L, Antisymmetric Χ → ∀ x, Χ x = ∑ i ∈ range D, waveInner (Φ i) Χ * Φ i x) →
    (∀ a ∈ J, ∀ i < D, S a (Φ i) = fun x => v a i * Φ i x) → ∀ (c : ι → ℂ) (P : Finset ℕ),
    (∀ i, i ∈ P ↔ i < D ∧ ∀ a ∈ J, v a i = c a) →
    ∀ t, ∑ i ∈ P, population (Φ i) (Ψ t) = ∑ i ∈ P, population (Φ i) (Ψ s)

/-- A component of the total spin of `N` electrons in `l` orbitals: the sum of the matrices `σ`, which act on the two spins of
every orbital. -/
noncomputable def spinSum (l N : ℕ) (σ : ℕ → ℕ → ℂ) (Ψ : Wave ℂ N (2 * l)) : Wave ℂ N (2 * l) :=
  oneBodyOp (fun p q => if p.1 / 2 = q.1 / 2 then σ (p.1 % 2) (q.1 % 2) else 0) Ψ

/-- Half the Pauli matrices. -/
noncomputable def halfPauliX (a b : ℕ) : ℂ := if a = b then 0 else 1 / 2

@[inherit_doc halfPauliX]
noncomputable def halfPauliY (a b : ℕ) : ℂ := if a = b then 0 else if a = 0 then -Complex.I / 2 else Complex.I / 2

@[inherit_doc halfPauliX]
noncomputable def halfPauliZ (a b : ℕ) : ℂ := if a = b then (if a = 0 then 1 / 2 else -1 / 2) else 0

/-- The total spin of `N` electrons in `l` orbitals: half the Pauli matrices, and the sum of the squares. -/
noncomputable def electronSpin (l N : ℕ) : SpinPart → Wave ℂ N (2 * l) → Wave ℂ N (2 * l)
  | .x => spinSum l N halfPauliX
  | .y => spinSum l N halfPauliY
  | .z => spinSum l N halfPauliZ
  | .square => fun Ψ x => spinSum l N halfPauliX (spinSum l N halfPauliX Ψ) x +
      spinSum l N halfPauliY (spinSum l N halfPauliY Ψ) x + spinSum l N halfPauliZ (spinSum l N halfPauliZ Ψ) x

/-- The two-body elements of fermions: half of the array if it is anti-symmetrised. -/
noncomputable def storedTwo (l : ℕ) (anti : Bool) (u : NDArray ℂ) (p q r s : Fin (2 * l)) : ℂ :=
  (if anti then 1 / 2 else 1) * arrayTwo (2 * l) u p q r s

/-- The total spin from the stored arrays `spin_x`, `spin_y`, `spin_z`, `spin_2` and `spin_2_tb` (half of it if it is
anti-symmetrised). -/
noncomputable def arraySpin (l N : ℕ) (anti : Bool) (X Y Z s2 tb : NDArray ℂ) : SpinPart → Wave ℂ N (2 * l) → Wave ℂ N (2 * l)
  | .x => oneBodyOp (arrayOne (2 * l) X)
  | .y => oneBodyOp (arrayOne (2 * l) Y)
  | .z => oneBodyOp (arrayOne (2 * l) Z)
  | .square => fun Ψ x => oneBodyOp (arrayOne (2 * l) s2) Ψ x +
      (if anti then 1 / 2 else 1) * twoBodyOp (arrayTwo (2 * l) tb) Ψ x

end QS
