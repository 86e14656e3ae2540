import Verif.Model.RoundingLine
import Verif.Spec.OneDim

/-!
# The energies of one-dimensional quantum dots in floating-point arithmetic

The finite-difference matrix of `ODQD.setup_basis` and its eigenvalues as relations, with a relative error of at most `u`
in every operation.  Adding zeros and multiplying by one are exact.
-/

namespace QS.Rounding

/-- `M` is a possible value of the matrix `h` of `ODQD.setup_basis` (`one_dim_qd.py` 258-267) for the grid points `x`;
`V p` are the values that `self.potential` returns at the interior points. -/
def FloatFdMatrix (u : ℝ) (num : ℕ) (x V : ℕ → ℝ) (M : NDArray ℂ) : Prop :=
  ∃ (dx s i t o : ℝ) (D : ℕ → ℝ), Near u (x 1 - x 0 : ℝ) dx ∧ Near u (dx ^ 2 : ℝ) s ∧ Near u (1 / s : ℝ) i ∧
    Near u (2 * s : ℝ) t ∧ Near u (-1 / t : ℝ) o ∧ (∀ p < num - 2, Near u (i + V p : ℝ) (D p)) ∧
    ∀ p < num - 2, ∀ q < num - 2, M.get [p, q] = if p = q then (D p : ℂ) else if p + 1 = q ∨ q + 1 = p then (o : ℂ) else 0

/-- `w` are possible eigenvalues from `np.linalg.eigh(M)` (`one_dim_qd.py` 269) for a backward stable algorithm: the
eigenvalues of a matrix that differs from `M` by at most `η` in the operator norm. -/
def FloatEigh (η : ℝ) (n : ℕ) (M w : NDArray ℂ) : Prop :=
  ∃ M' v : NDArray ℂ, Spec.EighOK n M' w v ∧ ∀ f : ℕ → ℂ,
    ∑ i ∈ Finset.range n, ‖∑ j ∈ Finset.range n, (M'.get [i, j] - M.get [i, j]) * f j‖ ^ 2 ≤
      η ^ 2 * ∑ j ∈ Finset.range n, ‖f j‖ ^ 2

/-- `w` are possible values of `eigen_energies` before they are cut to the first `l` (`one_dim_qd.py` 242-269). -/
def FloatEnergies (u η L : ℝ) (num : ℕ) (x V : ℕ → ℝ) (w : NDArray ℂ) : Prop :=
  FloatLinspace u (-L) L num x ∧ ∃ M, FloatFdMatrix u num x V M ∧ FloatEigh η (num - 2) M w

/-- `z` is a possible value of `HOPotential(omega)(x)` (`one_dim_potentials.py` 18-19). -/
def FloatHO (u omega x z : ℝ) : Prop :=
  ∃ a b c : ℝ, Near u (omega ^ 2 : ℝ) a ∧ Near u (1 / 2 * a : ℝ) b ∧ Near u (x ^ 2 : ℝ) c ∧ Near u (b * c : ℝ) z

end QS.Rounding
