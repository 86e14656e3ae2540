import Verif.Spec.Levels

/-!
# Conserved quantum numbers of `N` particles
-/

namespace QS

open Finset

variable {N L : ℕ} {G : Type}

/-- The total of the quantum numbers `g` of the functions that the particles occupy. -/
def total [AddCommMonoid G] (g : Fin L → G) (x : Fin N → Fin L) : G := ∑ i, g (x i)

/-- The wave function has the total quantum number `Q`: only products of functions with this total occur in it. -/
def HasTotal [AddCommMonoid G] (g : Fin L → G) (Q : G) (Ψ : Wave ℂ N L) : Prop := ∀ x, total g x ≠ Q → Ψ x = 0

/-- All energies of `N` identical fermions with states that have a total quantum number: the state `Ψ i` has the energy
`E i` and the total quantum number `q i`. -/
structure LabelledSpectrum [AddCommMonoid G] (g : Fin L → G) (h : Fin L → Fin L → ℂ)
    (u : Fin L → Fin L → Fin L → Fin L → ℂ) (D : ℕ) (E : ℕ → ℝ) (Ψ : ℕ → Wave ℂ N L) (q : ℕ → G) : Prop
    extends Spectrum h u D E Ψ where
  label : ∀ i < D, HasTotal g (q i) (Ψ i)

/-- The elements vanish between functions with different totals. -/
structure ConservesTotal [Add G] (g : Fin L → G) (h : Fin L → Fin L → ℂ) (u : Fin L → Fin L → Fin L → Fin L → ℂ) :
    Prop where
  one : ∀ p q, g p ≠ g q → h p q = 0
  two : ∀ p q r s, g p + g q ≠ g r + g s → u p q r s = 0

/-- The quantum number of the spatial function and `1` for the second spin, for the spin orbital number `2 p + σ`: the total is
the total quantum number together with the number of electrons with the second spin. -/
def spinLabel (g : ℕ → G) (l : ℕ) (p : Fin (2 * l)) : G × ℕ := (g (p.1 / 2), p.1 % 2)

/-- How many of the states have the energy `ε` and the total `Q`. -/
noncomputable def multiplicity (D : ℕ) (E : ℕ → ℝ) (q : ℕ → G) (ε : ℝ) (Q : G) : ℕ :=
  Nat.card {i : Fin D // E i = ε ∧ q i = Q}

/-- The states `Ψ i` of `N` electrons with the one-body elements `H` and the two-body elements `U` between `l` orbitals: the
energies `E i`, the total quantum numbers and the numbers of electrons with the second spin `q i`. There are as many states with
given totals as choices of `N` spin orbitals, and exchanging the two spins does not change the energies. -/
structure ElectronStates [AddCommMonoid G] (g : ℕ → G) (l : ℕ) (H U : NDArray ℂ) (N : ℕ) (E : ℕ → ℝ)
    (Ψ : ℕ → Wave ℂ N (2 * l)) (q : ℕ → G × ℕ) : Prop where
  states : LabelledSpectrum (spinLabel g l) (spinOne l H) (spinTwo l U) ((2 * l).choose N) E Ψ q
  count : ∀ Q k, Nat.card {i : Fin ((2 * l).choose N) // q i = (Q, k)} = Nat.card {s : Finset (Fin (2 * l)) // s.card = N ∧
    ∑ p ∈ s, g (p.1 / 2) = Q ∧ ∑ p ∈ s, p.1 % 2 = k}
  spins : ∀ ε Q k, k ≤ N →
    multiplicity ((2 * l).choose N) E q ε (Q, k) = multiplicity ((2 * l).choose N) E q ε (Q, N - k)

/-- The component `c` of the dipole moment between spin orbitals. -/
def spinDipole (l : ℕ) (d : NDArray ℂ) (c : ℕ) (p q : Fin (2 * l)) : ℂ :=
  if p.1 % 2 = q.1 % 2 then d.get [c, p.1 / 2, q.1 / 2] else 0

end QS
