import Verif.Spec.Sectors

/-!
# States of `N` electrons with a total spin
-/

namespace QS

open Finset

variable {G : Type}

/-- The number of ways to put `N` electrons into the `2 l` spin orbitals, so that the total of the quantum numbers of the
orbitals is `Q` and `k` electrons have the second spin. -/
noncomputable def choices [AddCommMonoid G] (g : ℕ → G) (l N : ℕ) (Q : G) (k : ℕ) : ℕ :=
  Nat.card {s : Finset (Fin (2 * l)) // s.card = N ∧ ∑ p ∈ s, g (p.1 / 2) = Q ∧ ∑ p ∈ s, p.1 % 2 = k}

/-- The states of `N` electrons in `l` orbitals with the Hamilton operator `ham`, the square of the total spin `square` and its
component `comp`: the state `Ψ i` has the energy `E i`, the total quantum number `Q i`, the total spin `n i / 2` and the component
`N / 2 - k i`.

* The total spin differs from `N / 2` by a whole number and is at most `N / 2` and at most `l - N / 2`.
* The component takes all values between minus and plus the total spin, in steps of one and equally often for each energy.
* The number of states with the component equal to the total spin follows from counting the choices of spin orbitals. -/
structure SpinStates [AddCommMonoid G] (g : ℕ → G) (l N : ℕ) (ham square comp : Wave ℂ N (2 * l) → Wave ℂ N (2 * l))
    (E : ℕ → ℝ) (Ψ : ℕ → Wave ℂ N (2 * l)) (Q : ℕ → G) (n k : ℕ → ℕ) : Prop where
  sorted : ∀ i j, i ≤ j → j < (2 * l).choose N → E i ≤ E j
  anti : ∀ i < (2 * l).choose N, Antisymmetric (Ψ i)
  eigen : ∀ i < (2 * l).choose N, ham (Ψ i) = fun x => (E i : ℂ) * Ψ i x
  orth : ∀ i < (2 * l).choose N, ∀ j < (2 * l).choose N, waveInner (Ψ i) (Ψ j) = if i = j then 1 else 0
  complete : ∀ Φ : Wave ℂ N (2 * l), Antisymmetric Φ →
    ∀ x, Φ x = ∑ i ∈ range ((2 * l).choose N), waveInner (Ψ i) Φ * Ψ i x
  orbital : ∀ i < (2 * l).choose N, HasTotal (fun p : Fin (2 * l) => g (p.1 / 2)) (Q i) (Ψ i)
  spin : ∀ i < (2 * l).choose N, square (Ψ i) = fun x => ((n i : ℂ) / 2 * ((n i : ℂ) / 2 + 1)) * Ψ i x
  component : ∀ i < (2 * l).choose N, comp (Ψ i) = fun x => ((N : ℂ) / 2 - k i) * Ψ i x
  bound : ∀ i < (2 * l).choose N, n i + N ≤ 2 * l ∧ ∃ j, n i + 2 * j = N ∧ j ≤ k i ∧ k i ≤ j + n i
  multiplet : ∀ ε q s j m, s + 2 * j = N → j ≤ m → m ≤ j + s →
    Nat.card {i : Fin ((2 * l).choose N) // E i = ε ∧ Q i = q ∧ n i = s ∧ k i = m} =
      Nat.card {i : Fin ((2 * l).choose N) // E i = ε ∧ Q i = q ∧ n i = s ∧ k i = j}
  number : ∀ q s j, s + 2 * j = N →
    Nat.card {i : Fin ((2 * l).choose N) // Q i = q ∧ n i = s ∧ k i = j} +
      (if j = 0 then 0 else choices g l N q (j - 1)) = choices g l N q j

end QS
