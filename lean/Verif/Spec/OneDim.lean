import Mathlib.Analysis.Complex.Basic
import Mathlib.Algebra.BigOperators.Intervals
import Mathlib.MeasureTheory.Integral.Bochner.Basic
import Mathlib.MeasureTheory.Measure.Lebesgue.Basic
import Mathlib.Analysis.Calculus.Deriv.Basic
import Verif.Core.NDArray

/-!
# Functions on a one-dimensional grid and on the line
-/

namespace QS.Spec

/-- The composite trapezoidal rule for a function with the values `f i` at the points `x i`, `i < n`. -/
noncomputable def trapezoid (n : ℕ) (x : ℕ → ℝ) (f : ℕ → ℂ) : ℂ :=
  ∑ i ∈ Finset.range (n - 1), ((x (i + 1) - x i : ℝ) : ℂ) * ((f i + f (i + 1)) / 2)

/-- `-½ f'' + V f` with the second derivative replaced by the central difference quotient. -/
noncomputable def gridHamiltonian (dx : ℝ) (x : ℕ → ℝ) (V : ℝ → ℝ) (f : ℕ → ℂ) (i : ℕ) : ℂ :=
  -(1 / 2) * ((f (i + 1) - 2 * f i + f (i - 1)) / (dx : ℂ) ^ 2) + (V (x i) : ℂ) * f i

/-- What `np.linalg.eigh` promises for a Hermitian matrix: eigenvalues in ascending order and orthonormal
eigenvectors in the columns of the second array. -/
structure EighOK (n : ℕ) (h w v : NDArray ℂ) : Prop where
  w_shape : w.shape = [n]
  v_shape : v.shape = [n, n]
  real : ∀ i, (w.get i).im = 0
  sorted : ∀ i j, i ≤ j → j < n → (w.get [i]).re ≤ (w.get [j]).re
  orthonormal : ∀ i j, i < n → j < n →
    ∑ k ∈ Finset.range n, (starRingEnd ℂ) (v.get [k, i]) * v.get [k, j] = if i = j then 1 else 0
  eigen : ∀ i j, i < n → j < n → ∑ k ∈ Finset.range n, h.get [j, k] * v.get [k, i] = w.get [i] * v.get [j, i]

/-- `eigh` does for every Hermitian matrix what it promises. -/
def IsEigh (eigh : NDArray ℂ → Except PyErr (NDArray ℂ × NDArray ℂ)) : Prop :=
  ∀ n h, h.shape = [n, n] → (∀ i j, h.get [i, j] = (starRingEnd ℂ) (h.get [j, i])) →
    ∃ w v, eigh h = .ok (w, v) ∧ EighOK n h w v

/-- The Coulomb elements `u[p, q, r, s]` of functions `f[p]` on the grid `x` for the interaction
`α / √((x - y)² + a²)`, with the trapezoidal rule for both integrals. -/
def GridCoulomb (l n : ℕ) (alpha a : ℝ) (x f u : NDArray ℂ) : Prop :=
  u.shape = [l, l, l, l] ∧ ∀ p q r s, p < l → q < l → r < l → s < l →
    u.get [p, q, r, s] = trapezoid n (fun i => (x.get [i]).re) fun i =>
      trapezoid n (fun i => (x.get [i]).re) fun j =>
        (starRingEnd ℂ) (f.get [p, i]) * (starRingEnd ℂ) (f.get [q, j])
          * ((alpha / Real.sqrt (((x.get [i]).re - (x.get [j]).re) ^ 2 + a ^ 2) : ℝ) : ℂ)
          * f.get [r, i] * f.get [s, j]

/-- The inner product of two real functions on the line. -/
noncomputable def lineInner (f g : ℝ → ℝ) : ℝ := ∫ x, f x * g x

/-- The Hamilton operator `-½ d²/dx² + V` on the line. -/
noncomputable def lineHamiltonian (V : ℝ → ℝ) (f : ℝ → ℝ) (x : ℝ) : ℝ :=
  -(1 / 2) * deriv (deriv f) x + V x * f x

end QS.Spec
