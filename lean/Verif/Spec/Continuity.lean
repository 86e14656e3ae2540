import Verif.Spec.Evolution
import Verif.Spec.WellFormed
import Verif.Model.OneDim

/-!
# Densities and currents of moving electrons (C147)
-/

namespace QS

open Finset NDArray BasisSet

/-- The density matrix of `N` electrons in `l` orbitals: `rho[q, p]` is the mean value of `∑_σ a†_pσ a_qσ`. -/
noncomputable def densityMatrix (l : ℕ) {N : ℕ} (Ψ : Wave ℂ N (2 * l)) : NDArray ℂ :=
  ofFn .complex128 [l, l] fun i => meanOne (fun a b : Fin (2 * l) =>
    if a.1 % 2 = b.1 % 2 ∧ a.1 / 2 = i.getD 1 0 ∧ b.1 / 2 = i.getD 0 0 then 1 else 0) Ψ

/-- The current between the grid points `k` and `k + 1` for the functions `f` (rows) on a grid with the spacing `dx` and the density
matrix `rho`: `(ψ* ψ' - ψ'* ψ) / (2 i)` with the finite difference as derivative. -/
noncomputable def gridCurrent (l : ℕ) (dx : ℝ) (f rho : NDArray ℂ) (k : ℕ) : ℂ :=
  1 / (2 * Complex.I * dx) * ∑ p ∈ range l, ∑ q ∈ range l, rho.get [q, p] *
    (star (f.get [p, k]) * f.get [q, k + 1] - star (f.get [p, k + 1]) * f.get [q, k])

/-- The density of `N` electrons that move with the elements `h` and `u` in the functions `f` (rows, on `num` points between `-L`
and `L`) of the basis set `b` flows, and the dipole moment `d` follows it. -/
structure Flows (N l num : ℕ) (L beta : ℝ) (b : BasisSet ℂ) (f d : NDArray ℂ) (h : ℝ → Fin (2 * l) → Fin (2 * l) → ℂ)
    (u : ℝ → Fin (2 * l) → Fin (2 * l) → Fin (2 * l) → Fin (2 * l) → ℂ) : Prop where
  /-- `compute_particle_density` of the density matrix of any wave function succeeds; there are no electrons at the ends. -/
  density : ∀ Ψ : Wave ℂ N (2 * l), ∃ n, ((computeParticleDensity (densityMatrix l Ψ) none none).run b).1 = .ok n ∧
    n.shape = [num] ∧ n.get [0] = 0 ∧ n.get [num - 1] = 0
  /-- Currents are real and vanish at the ends. -/
  real : ∀ (Ψ : Wave ℂ N (2 * l)) k, k < num - 1 → (gridCurrent l (2 * L / ((num : ℝ) - 1)) f (densityMatrix l Ψ) k).im = 0
  ends : ∀ Ψ : Wave ℂ N (2 * l), gridCurrent l (2 * L / ((num : ℝ) - 1)) f (densityMatrix l Ψ) 0 = 0 ∧
    gridCurrent l (2 * L / ((num : ℝ) - 1)) f (densityMatrix l Ψ) (num - 2) = 0
  /-- The density at an inner point changes by the difference of the currents on both sides. -/
  continuity : ∀ Ψ : ℝ → Wave ℂ N (2 * l), Evolves h u Ψ → ∀ n : ℝ → NDArray ℂ,
    (∀ t, ((computeParticleDensity (densityMatrix l (Ψ t)) none none).run b).1 = .ok (n t)) → ∀ t k, 1 ≤ k → k < num - 1 →
      HasDerivAt (fun t => (n t).get [k]) (-(gridCurrent l (2 * L / ((num : ℝ) - 1)) f (densityMatrix l (Ψ t)) k -
        gridCurrent l (2 * L / ((num : ℝ) - 1)) f (densityMatrix l (Ψ t)) (k - 1)) / (2 * L / ((num : ℝ) - 1) : ℝ)) t
  /-- The number of electrons between two points changes by what flows in and out at the ends. -/
  charge : ∀ Ψ : ℝ → Wave ℂ N (2 * l), Evolves h u Ψ → ∀ n : ℝ → NDArray ℂ,
    (∀ t, ((computeParticleDensity (densityMatrix l (Ψ t)) none none).run b).1 = .ok (n t)) → ∀ t i j, i ≤ j → j < num - 1 →
      HasDerivAt (fun t => (2 * L / ((num : ℝ) - 1) : ℝ) * ∑ k ∈ Ico (i + 1) (j + 1), (n t).get [k])
        (gridCurrent l (2 * L / ((num : ℝ) - 1)) f (densityMatrix l (Ψ t)) i -
          gridCurrent l (2 * L / ((num : ℝ) - 1)) f (densityMatrix l (Ψ t)) j) t
  /-- The velocity of the dipole moment is the sum of the currents (weighted if there is a quadratic term). -/
  dipole : ∀ Ψ : ℝ → Wave ℂ N (2 * l), Evolves h u Ψ → ∀ t, HasDerivAt (fun t => meanOne (spinDipole l d 0) (Ψ t))
    (∑ k ∈ range (num - 1), ((2 * L / ((num : ℝ) - 1) * (1 + beta * ((-L + k * (2 * L / ((num : ℝ) - 1))) +
      (-L + (k + 1) * (2 * L / ((num : ℝ) - 1))))) : ℝ) : ℂ) *
        gridCurrent l (2 * L / ((num : ℝ) - 1)) f (densityMatrix l (Ψ t)) k) t
  /-- No electron moves faster than `1 / dx` on the average. -/
  speed : ∀ Ψ : ℝ → Wave ℂ N (2 * l), Evolves h u Ψ → ∀ t v, HasDerivAt (fun t => meanOne (spinDipole l d 0) (Ψ t)) v t →
    ‖v‖ ≤ N * ((1 + 2 * |beta| * L) / (2 * L / ((num : ℝ) - 1))) * ∑ x, ‖Ψ t x‖ ^ 2

end QS
