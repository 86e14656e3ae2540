import Verif.Model.RoundingLine
import Verif.Model.SincDvr

/-!
# The elements of `ODSincDVR` in floating-point arithmetic

`Model/SincDvr` computes exactly.  Here the stored arrays are relations, with a relative error of at most `u` in every
operation (no overflow, no underflow); `x` are the computed grid points.  The operations on arrays are elementwise and give
equal results for equal operands; integers, signs and zeros are exact.
-/

namespace QS.Rounding

/-- `d` is a possible value of `self.dx` (`sinc_dvr.py` 100). -/
def FloatSpacing (u : ℝ) (x : ℕ → ℝ) (d : ℝ) : Prop := Near u (x 1 - x 0 : ℝ) d

/-- `z` is a possible value of `1.0 / (self.dx ** 2 * diff_grid ** 2)` for the difference `k` of two indices (`sinc_dvr.py`
111-113); the square of the integer is converted to a float. -/
def FloatHop (u d : ℝ) (k : ℤ) (z : ℝ) : Prop :=
  ∃ s g t : ℝ, Near u (d ^ 2 : ℝ) s ∧ Near u (k ^ 2 : ℝ) g ∧ Near u (s * g : ℝ) t ∧ Near u (1 / t : ℝ) z

/-- `z` is a possible value of `np.pi ** 2 / (6 * self.dx ** 2)` (`sinc_dvr.py` 115); `np.pi` is a float. -/
def FloatKinetic (u d z : ℝ) : Prop :=
  ∃ c q s t : ℝ, Near u Real.pi c ∧ Near u (c ^ 2 : ℝ) q ∧ Near u (d ^ 2 : ℝ) s ∧ Near u (6 * s : ℝ) t ∧ Near u (q / t : ℝ) z

/-- `H` is a possible value of `self.h` (`sinc_dvr.py` 99-116); `V p` are the values that `self.potential` returns at the
grid points. -/
def FloatSincH (u : ℝ) (l : ℕ) (x V : ℕ → ℝ) (H : NDArray ℂ) : Prop :=
  ∃ (d k : ℝ) (D : ℕ → ℝ) (z : ℕ → ℝ), FloatSpacing u x d ∧ FloatKinetic u d k ∧ (∀ p < l, Near u (k + V p : ℝ) (D p)) ∧
    (∀ j < l, j ≠ 0 → FloatHop u d j (z j)) ∧
    ∀ p < l, ∀ q < l, H.get [p, q] =
      if p = q then (D p : ℂ) else (((-1 : ℝ) ^ ((p : ℤ) - q) * z ((p : ℤ) - q).natAbs : ℝ) : ℂ)

/-- `z` is a possible value of `np.sinc(y)` for a float `y`: NumPy replaces 0 by `1e-20`, for which the result is 1, and
computes `sin(pi * y) / (pi * y)` otherwise. -/
def FloatNpSinc (u y z : ℝ) : Prop :=
  if y = 0 then z = 1
  else ∃ c t s : ℝ, Near u Real.pi c ∧ Near u (c * y : ℝ) t ∧ Near u (Real.sin t : ℝ) s ∧ Near u (s / t : ℝ) z

/-- `F` is a possible value of `self.spf` (`sinc_dvr.py` 146-148). -/
def FloatSincSpf (u : ℝ) (l : ℕ) (x : ℕ → ℝ) (F : NDArray ℂ) : Prop :=
  ∃ d r n : ℝ, FloatSpacing u x d ∧ Near u (Real.sqrt d : ℝ) r ∧ Near u (1 / r : ℝ) n ∧
    ∀ p < l, ∀ i < l, ∃ e y s f : ℝ, Near u (x i - x p : ℝ) e ∧ Near u (e / d : ℝ) y ∧ FloatNpSinc u y s ∧
      Near u (n * s : ℝ) f ∧ F.get [p, i] = f

/-- `U` are possible values of the numbers of the list `data` of `construct_coulomb_elements` (`sinc_dvr.py` 159-166). -/
def FloatSincU (u : ℝ) (l : ℕ) (x : ℕ → ℝ) (alpha a : ℝ) (U : ℕ → ℕ → ℝ) : Prop :=
  ∀ p < l, ∀ q < l, FloatShield u (x p) (x q) alpha a (U p q)

/-- `g` are possible values of the diagonal of `self.dipole_moment[0]` (`sinc_dvr.py` 152). -/
def FloatSincDipole (u : ℝ) (l : ℕ) (x : ℕ → ℝ) (beta : ℝ) (g : ℕ → ℝ) : Prop :=
  ∀ p < l, FloatPosition u beta (x p) (g p)

end QS.Rounding
