import Verif.Model.Rounding
import Verif.Model.OneDim

/-!
# The elements of one-dimensional quantum dots in floating-point arithmetic

`Model/OneDim` computes exactly.  Here the grid, the interaction integrals and the dipole elements are relations, with a
relative error of at most `u` in every operation (no overflow, no underflow); `x` are the computed grid points and `spf`
the stored single-particle functions, whatever they are.  The additions of a sum may be done in any order.
-/

namespace QS.Rounding

/-- `x` are possible results of `np.linspace(start, stop, num)`: `arange(0, num) * step + start`, the last one replaced
by `stop` (`one_dim_qd.py` 103-105, 242-244). -/
def FloatLinspace (u start stop : ℝ) (num : ℕ) (x : ℕ → ℝ) : Prop :=
  ∃ (delta step : ℝ) (m : ℕ → ℝ), Near u (stop - start : ℝ) delta ∧ Near u (delta / ((num : ℝ) - 1) : ℝ) step ∧
    (∀ i < num - 1, Near u (i * step : ℝ) (m i) ∧ Near u (m i + start : ℝ) (x i)) ∧ x (num - 1) = stop

/-- `z` is a possible result of `_trapz(f, x)` (`one_dim_qd.py` 20-29) with at most `d` additions to `val`. -/
def FloatTrapz (u : ℝ) (d n : ℕ) (f : ℕ → ℂ) (x : ℕ → ℝ) (z : ℂ) : Prop :=
  ∃ (dx : ℝ) (t : ℕ → ℂ) (v w : ℂ), Near u (x 1 - x 0 : ℝ) dx ∧ (∀ i < n - 1, Near u (f i + f (i + 1)) (t i)) ∧
    FloatTrace u d (n - 1) t v ∧ Near u (1 / 2 * v) w ∧ Near u (w * dx) z

/-- `w` is a possible result of `_shielded_coulomb(x_1, x_2, alpha, a)` (`one_dim_qd.py` 32-34): difference, two
squares, sum, root, quotient. -/
def FloatShield (u x1 x2 alpha a w : ℝ) : Prop :=
  ∃ d e b c r : ℝ, Near u (x1 - x2 : ℝ) d ∧ Near u (d ^ 2 : ℝ) e ∧ Near u (a ^ 2 : ℝ) b ∧ Near u (e + b : ℝ) c ∧
    Near u (Real.sqrt c : ℝ) r ∧ Near u (alpha / r : ℝ) w

/-- `t` are possible values of the array `f * g * h` at the grid points. -/
def FloatProduct (u : ℝ) (n : ℕ) (f g h t : ℕ → ℂ) : Prop :=
  ∃ m : ℕ → ℂ, ∀ j < n, Near u (f j * g j) (m j) ∧ Near u (m j * h j) (t j)

/-- `z` is a possible value of `inner_integral[q, s, i]` (`one_dim_qd.py` 37-51). -/
def FloatInnerIntegral (u : ℝ) (d num : ℕ) (spf : NDArray ℂ) (x : ℕ → ℝ) (alpha a : ℝ) (q s i : ℕ) (z : ℂ) : Prop :=
  ∃ (w : ℕ → ℝ) (t : ℕ → ℂ), (∀ j < num, FloatShield u (x i) (x j) alpha a (w j)) ∧
    FloatProduct u num (fun j => (starRingEnd ℂ) (spf.get [q, j])) (fun j => w j) (fun j => spf.get [s, j]) t ∧
    FloatTrapz u d num t x z

/-- `U` is a possible result of `_compute_inner_integral` followed by `_compute_orbital_integrals` (`one_dim_qd.py`
37-66). -/
def FloatOrbitalIntegrals (u : ℝ) (d l num : ℕ) (spf : NDArray ℂ) (x : ℕ → ℝ) (alpha a : ℝ) (U : NDArray ℂ) : Prop :=
  ∃ inner : ℕ → ℕ → ℕ → ℂ,
    (∀ q < l, ∀ s < l, ∀ i < num, FloatInnerIntegral u d num spf x alpha a q s i (inner q s i)) ∧
    ∀ p < l, ∀ q < l, ∀ r < l, ∀ s < l, ∃ t : ℕ → ℂ,
      FloatProduct u num (fun j => (starRingEnd ℂ) (spf.get [p, j])) (inner q s) (fun j => spf.get [r, j]) t ∧
      FloatTrapz u d num t x (U.get [p, q, r, s])

/-- `g` is a possible value of `grid + beta * grid ** 2` at the grid point `x` (`one_dim_qd.py` 302). -/
def FloatPosition (u beta x g : ℝ) : Prop :=
  ∃ s b : ℝ, Near u (x ^ 2 : ℝ) s ∧ Near u (beta * s : ℝ) b ∧ Near u (x + b : ℝ) g

/-- `z` is a possible result of `np.trapz(f, x)`: `(np.diff(x) * (f[1:] + f[:-1]) / 2.0).sum()`. -/
def FloatNpTrapz (u : ℝ) (d n : ℕ) (f : ℕ → ℂ) (x : ℕ → ℝ) (z : ℂ) : Prop :=
  ∃ (dx : ℕ → ℝ) (a p t : ℕ → ℂ), (∀ i < n - 1, Near u (x (i + 1) - x i : ℝ) (dx i) ∧
      Near u (f (i + 1) + f i) (a i) ∧ Near u (dx i * a i) (p i) ∧ Near u (p i / 2) (t i)) ∧ FloatTrace u d (n - 1) t z

/-- `D` is a possible result of `ODQD.construct_dipole_moment` (`one_dim_qd.py` 295-305). -/
def FloatLineDipole (u : ℝ) (d l num : ℕ) (spf : NDArray ℂ) (x : ℕ → ℝ) (beta : ℝ) (D : NDArray ℂ) : Prop :=
  ∃ g : ℕ → ℝ, (∀ j < num, FloatPosition u beta (x j) (g j)) ∧ ∀ p < l, ∀ q < l, ∃ t : ℕ → ℂ,
    FloatProduct u num (fun j => (starRingEnd ℂ) (spf.get [p, j])) (fun j => g j) (fun j => spf.get [q, j]) t ∧
    FloatNpTrapz u d num t x (D.get [0, p, q])

end QS.Rounding
