import Verif.Spec.Continuity

/-!
# Currents between the points of a sinc-DVR grid
-/

namespace QS

open NDArray BasisSet PyM Finset

/-- The number of electrons per time that go from the point `q` to the point `i` of a grid with the spacing `dx`, for the density
matrix `rho`: every pair of points exchanges electrons, with a strength that falls off as the square of the distance. -/
noncomputable def sincCurrent (dx : ℝ) (rho : NDArray ℂ) (q i : ℕ) : ℂ :=
  if q = i then 0 else (((-1 : ℝ) ^ ((i : ℤ) - q) / (dx ^ 2 * ((i : ℝ) - q) ^ 2) : ℝ) : ℂ) *
    (Complex.I * (rho.get [i, q] - rho.get [q, i]))

/-- `N` electrons that move with the elements `h`, `u` between the points of a sinc-DVR grid of `l` points in `[-L, L]`. -/
structure SincFlows (N l : ℕ) (L beta : ℝ) (b : BasisSet ℂ) (h : ℝ → Fin (2 * l) → Fin (2 * l) → ℂ)
    (u : ℝ → Fin (2 * l) → Fin (2 * l) → Fin (2 * l) → Fin (2 * l) → ℂ) : Prop where
  /-- `compute_particle_density` gives the number of electrons at each point over the spacing. -/
  density : ∀ Ψ : Wave ℂ N (2 * l), ∃ n, ((computeParticleDensity (densityMatrix l Ψ) none none).run b).1 = .ok n ∧ n.shape = [l] ∧
    ∀ i < l, n.get [i] = (densityMatrix l Ψ).get [i, i] / ((2 * L / ((l : ℝ) - 1) : ℝ) : ℂ)
  /-- The number of electrons at a point changes by the currents from the other points. -/
  flow : ∀ Ψ : ℝ → Wave ℂ N (2 * l), Evolves h u Ψ → ∀ t, ∀ i < l, HasDerivAt (fun t => (densityMatrix l (Ψ t)).get [i, i])
    (∑ q ∈ range l, sincCurrent (2 * L / ((l : ℝ) - 1)) (densityMatrix l (Ψ t)) q i) t
  /-- The currents are real, and what leaves one point arrives at the other. -/
  current : ∀ Ψ : Wave ℂ N (2 * l), ∀ i < l, ∀ q < l,
    (sincCurrent (2 * L / ((l : ℝ) - 1)) (densityMatrix l Ψ) q i).im = 0 ∧
    sincCurrent (2 * L / ((l : ℝ) - 1)) (densityMatrix l Ψ) i q = -sincCurrent (2 * L / ((l : ℝ) - 1)) (densityMatrix l Ψ) q i
  /-- The velocity of the stored dipole moment: each current times the difference of the positions. -/
  dipole : ∃ d, b.dipole = some d ∧ ∀ Ψ : ℝ → Wave ℂ N (2 * l), Evolves h u Ψ → ∀ t,
    HasDerivAt (fun t => ∑ p ∈ range l, ∑ q ∈ range l, (densityMatrix l (Ψ t)).get [q, p] * d.get [0, p, q])
      (1 / 2 * ∑ i ∈ range l, ∑ q ∈ range l,
        (((-L + i * (2 * L / ((l : ℝ) - 1)) + beta * (-L + i * (2 * L / ((l : ℝ) - 1))) ^ 2) -
          (-L + q * (2 * L / ((l : ℝ) - 1)) + beta * (-L + q * (2 * L / ((l : ℝ) - 1))) ^ 2) : ℝ) : ℂ) *
          sincCurrent (2 * L / ((l : ℝ) - 1)) (densityMatrix l (Ψ t)) q i) t

end QS
