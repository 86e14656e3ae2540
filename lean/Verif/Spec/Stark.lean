import Verif.Spec.Evolution

/-!
# The energies of `N` particles in a field
-/

namespace QS

open Finset

variable {N L : ℕ}

/-- The energies of `N` identical fermions with the elements `h t` and `u t`, where only the real forces `F k t` on the one-body
elements `d k` depend on the time: the sum of the `m` lowest energies (the lowest energy for `m = 1`) is a concave function of the
forces; the lowest energy changes at most by the mean value of the change of the forces in a state of lowest energy, which is its
derivative (Hellmann and Feynman); and no energy changes by more than the largest dipole elements allow. -/
structure FieldLevels (N n : ℕ) (h : ℝ → Fin L → Fin L → ℂ) (u : ℝ → Fin L → Fin L → Fin L → Fin L → ℂ) (F : ℕ → ℝ → ℝ)
    (d : ℕ → Fin L → Fin L → ℂ) : Prop where
  concave : ∀ t₁ t₂ t lam, 0 ≤ lam → lam ≤ 1 → (∀ k < n, F k t = (1 - lam) * F k t₁ + lam * F k t₂) →
    ∀ D₁ E₁ D₂ E₂ D E, ∀ Ψ₁ Ψ₂ Ψ : ℕ → Wave ℂ N L, Spectrum (h t₁) (u t₁) D₁ E₁ Ψ₁ → Spectrum (h t₂) (u t₂) D₂ E₂ Ψ₂ →
      Spectrum (h t) (u t) D E Ψ → ∀ m ≤ D,
      (1 - lam) * ∑ i ∈ range m, E₁ i + lam * ∑ i ∈ range m, E₂ i ≤ ∑ i ∈ range m, E i
  lowest : ∀ t₀ t D₀ E₀ D E, ∀ Ψ₀ Ψ : ℕ → Wave ℂ N L, Spectrum (h t₀) (u t₀) D₀ E₀ Ψ₀ → Spectrum (h t) (u t) D E Ψ → 0 < D →
    E 0 ≤ E₀ 0 + ∑ k ∈ range n, (F k t - F k t₀) * (meanOne (d k) (Ψ₀ 0)).re
  derivative : ∀ (D : ℕ) (E : ℝ → ℕ → ℝ) (Ψ : ℝ → ℕ → Wave ℂ N L), (∀ t, Spectrum (h t) (u t) D (E t) (Ψ t)) → 0 < D →
    ∀ t E' (F' : ℕ → ℝ), HasDerivAt (fun t => E t 0) E' t → (∀ k < n, HasDerivAt (F k) (F' k) t) →
      E' = ∑ k ∈ range n, F' k * (meanOne (d k) (Ψ t 0)).re
  change : ∀ t₁ t₂ D₁ E₁ D₂ E₂, ∀ Ψ₁ Ψ₂ : ℕ → Wave ℂ N L, Spectrum (h t₁) (u t₁) D₁ E₁ Ψ₁ → Spectrum (h t₂) (u t₂) D₂ E₂ Ψ₂ →
    ∀ δ : ℕ → ℝ, (∀ k < n, ∀ p q, ‖d k p q‖ ≤ δ k) → ∀ i < D₁,
      |E₁ i - E₂ i| ≤ N * L * ∑ k ∈ range n, |F k t₁ - F k t₂| * δ k

/-- In a symmetric well the energies in opposite fields agree, and a stronger field in the same or the opposite direction lowers
the sum of the `m` lowest energies (the lowest energy for `m = 1`); in particular every field lowers the lowest energy. -/
structure SymmetricLevels (N n : ℕ) (h : ℝ → Fin L → Fin L → ℂ) (u : ℝ → Fin L → Fin L → Fin L → Fin L → ℂ) (F : ℕ → ℝ → ℝ) :
    Prop where
  opposite : ∀ t₁ t₂, (∀ k < n, F k t₂ = -F k t₁) → ∀ D₁ E₁ D₂ E₂, ∀ Ψ₁ Ψ₂ : ℕ → Wave ℂ N L,
    Spectrum (h t₁) (u t₁) D₁ E₁ Ψ₁ → Spectrum (h t₂) (u t₂) D₂ E₂ Ψ₂ → ∀ i < D₁, E₁ i = E₂ i
  stronger : ∀ t₁ t₂ a, |a| ≤ 1 → (∀ k < n, F k t₁ = a * F k t₂) → ∀ D₁ E₁ D₂ E₂, ∀ Ψ₁ Ψ₂ : ℕ → Wave ℂ N L,
    Spectrum (h t₁) (u t₁) D₁ E₁ Ψ₁ → Spectrum (h t₂) (u t₂) D₂ E₂ Ψ₂ → ∀ m ≤ D₁,
    ∑ i ∈ range m, E₂ i ≤ ∑ i ∈ range m, E₁ i

/-- The energies of `N` identical fermions whose interaction is multiplied by the real number `f t`: the sum of the `m` lowest
energies is a concave function of this number, and no energy decreases with it. -/
structure SwitchedLevels (N : ℕ) (h : ℝ → Fin L → Fin L → ℂ) (u : ℝ → Fin L → Fin L → Fin L → Fin L → ℂ) (f : ℝ → ℝ) : Prop where
  concave : ∀ t₁ t₂ t lam, 0 ≤ lam → lam ≤ 1 → f t = (1 - lam) * f t₁ + lam * f t₂ →
    ∀ D₁ E₁ D₂ E₂ D E, ∀ Ψ₁ Ψ₂ Ψ : ℕ → Wave ℂ N L, Spectrum (h t₁) (u t₁) D₁ E₁ Ψ₁ → Spectrum (h t₂) (u t₂) D₂ E₂ Ψ₂ →
      Spectrum (h t) (u t) D E Ψ → ∀ m ≤ D,
      (1 - lam) * ∑ i ∈ range m, E₁ i + lam * ∑ i ∈ range m, E₂ i ≤ ∑ i ∈ range m, E i
  raises : ∀ t₁ t₂, f t₁ ≤ f t₂ → ∀ D₁ E₁ D₂ E₂, ∀ Ψ₁ Ψ₂ : ℕ → Wave ℂ N L, Spectrum (h t₁) (u t₁) D₁ E₁ Ψ₁ →
    Spectrum (h t₂) (u t₂) D₂ E₂ Ψ₂ → ∀ i < D₁, E₁ i ≤ E₂ i

/-- The functions have a parity: the one- and the two-body elements conserve it and the dipole moment changes it. -/
structure HasParity (g : ℕ → ZMod 2) (l n : ℕ) (h u d : NDArray ℂ) : Prop where
  one : ∀ p < l, ∀ q < l, g p ≠ g q → h.get [p, q] = 0
  two : ∀ p < l, ∀ q < l, ∀ r < l, ∀ s < l, g p + g q ≠ g r + g s → u.get [p, q, r, s] = 0
  dipole : ∀ k < n, ∀ p < l, ∀ q < l, g p = g q → d.get [k, p, q] = 0

end QS
