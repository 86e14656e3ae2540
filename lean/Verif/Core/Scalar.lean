import Mathlib.Data.Complex.Basic
import Mathlib.Analysis.Complex.Norm
import Mathlib.Algebra.Star.Basic
import Mathlib.Tactic.Ring
import Mathlib.Tactic.FieldSimp
import Mathlib.Tactic.Positivity
import Mathlib.Tactic.Linarith

/-!
# Scalars

The code computes with NumPy `float64`/`complex128` numbers.  The model uses exact
arithmetic over any `PyScalar K`: a field of characteristic zero with an involution
(complex conjugation), an imaginary unit, and the Boolean test `abs(x) < 1e-12` that
`basis_set.py` lines 550-552 perform.

Two instances are given: `ℂ`, the intended meaning, and the Gaussian rationals `GaussQ`, on
which the model can be executed inside the kernel (used for the non-vacuity examples and
the counterexamples).
-/

namespace QS

/-- Exact scalars.  `small x` models the Python test `abs(x) < 1e-12`
(`basis_set.py` 550-552). Simplification: no rounding. -/
class PyScalar (K : Type) extends Field K, StarRing K where
  /-- Python's `1j`. -/
  I : K
  I_mul_I : I * I = -1
  star_I : star I = -I
  /-- `abs(x) < 1e-12` -/
  small : K → Bool
  small_zero : small 0 = true
  charZero : CharZero K

attribute [instance] PyScalar.charZero
attribute [simp] PyScalar.I_mul_I PyScalar.star_I PyScalar.small_zero

noncomputable instance : PyScalar ℂ where
  I := Complex.I
  I_mul_I := Complex.I_mul_I
  star_I := by simp
  small z := decide (‖z‖ < 1e-12)
  small_zero := by simp; norm_num
  charZero := inferInstance

/-- Gaussian rationals `re + im·i`. -/
@[ext] structure GaussQ where
  re : ℚ
  im : ℚ
deriving DecidableEq

namespace GaussQ

instance : Zero GaussQ := ⟨⟨0, 0⟩⟩
instance : One GaussQ := ⟨⟨1, 0⟩⟩
instance : Add GaussQ := ⟨fun x y => ⟨x.re + y.re, x.im + y.im⟩⟩
instance : Neg GaussQ := ⟨fun x => ⟨-x.re, -x.im⟩⟩
instance : Sub GaussQ := ⟨fun x y => ⟨x.re - y.re, x.im - y.im⟩⟩
instance : Mul GaussQ := ⟨fun x y => ⟨x.re * y.re - x.im * y.im, x.re * y.im + x.im * y.re⟩⟩
instance : Star GaussQ := ⟨fun x => ⟨x.re, -x.im⟩⟩
instance : Inv GaussQ :=
  ⟨fun x => ⟨x.re / (x.re * x.re + x.im * x.im), -x.im / (x.re * x.re + x.im * x.im)⟩⟩

theorem zero_def : (0 : GaussQ) = ⟨0, 0⟩ := rfl
theorem one_def : (1 : GaussQ) = ⟨1, 0⟩ := rfl
theorem add_def (x y : GaussQ) : x + y = ⟨x.re + y.re, x.im + y.im⟩ := rfl
theorem neg_def (x : GaussQ) : -x = ⟨-x.re, -x.im⟩ := rfl
theorem sub_def (x y : GaussQ) : x - y = ⟨x.re - y.re, x.im - y.im⟩ := rfl
theorem mul_def (x y : GaussQ) :
    x * y = ⟨x.re * y.re - x.im * y.im, x.re * y.im + x.im * y.re⟩ := rfl
theorem star_def (x : GaussQ) : star x = ⟨x.re, -x.im⟩ := rfl
theorem inv_def (x : GaussQ) :
    x⁻¹ = ⟨x.re / (x.re * x.re + x.im * x.im), -x.im / (x.re * x.re + x.im * x.im)⟩ := rfl

instance : NatCast GaussQ := ⟨fun n => ⟨n, 0⟩⟩
instance : IntCast GaussQ := ⟨fun n => ⟨n, 0⟩⟩
theorem natCast_def (n : ℕ) : (n : GaussQ) = ⟨n, 0⟩ := rfl
theorem intCast_def (n : ℤ) : (n : GaussQ) = ⟨n, 0⟩ := rfl

instance : CommRing GaussQ where
  add_assoc x y z := by simp only [add_def, add_assoc]
  zero_add x := by simp [zero_def, add_def]
  add_zero x := by simp [zero_def, add_def]
  add_comm x y := by simp only [add_def, add_comm]
  neg_add_cancel x := by simp [neg_def, add_def, zero_def]
  sub_eq_add_neg x y := by simp only [sub_def, add_def, neg_def, sub_eq_add_neg]
  mul_assoc x y z := by ext <;> simp only [mul_def] <;> ring
  one_mul x := by simp [one_def, mul_def]
  mul_one x := by simp [one_def, mul_def]
  left_distrib x y z := by ext <;> simp only [mul_def, add_def] <;> ring
  right_distrib x y z := by ext <;> simp only [mul_def, add_def] <;> ring
  zero_mul x := by simp [zero_def, mul_def]
  mul_zero x := by simp [zero_def, mul_def]
  mul_comm x y := by ext <;> simp only [mul_def] <;> ring
  nsmul := nsmulRec
  zsmul := zsmulRec
  natCast_zero := by simp [natCast_def, zero_def]
  natCast_succ n := by simp [natCast_def, add_def, one_def]
  intCast_ofNat n := by simp [natCast_def, intCast_def]
  intCast_negSucc n := by ext <;> simp [natCast_def, intCast_def, neg_def]

theorem normSq_pos {x : GaussQ} (hx : x ≠ 0) : x.re * x.re + x.im * x.im ≠ 0 := by
  intro h
  apply hx
  have h1 : 0 ≤ x.re * x.re := mul_self_nonneg _
  have h2 : 0 ≤ x.im * x.im := mul_self_nonneg _
  have h3 : x.re * x.re = 0 := by linarith
  have h4 : x.im * x.im = 0 := by linarith
  ext
  · simpa [zero_def] using h3
  · simpa [zero_def] using h4

instance : Nontrivial GaussQ := ⟨0, 1, by simp [zero_def, one_def]⟩

instance : Field GaussQ where
  mul_inv_cancel x hx := by
    have := normSq_pos hx
    ext
    · simp only [mul_def, inv_def, one_def]
      rw [← mul_div_assoc, ← mul_div_assoc, ← sub_div, div_eq_one_iff_eq this]; ring
    · simp only [mul_def, inv_def, one_def]
      rw [← mul_div_assoc, ← mul_div_assoc, ← add_div]
      rw [div_eq_zero_iff]; left; ring
  inv_zero := by simp [inv_def, zero_def]
  nnqsmul := _
  nnqsmul_def _ _ := rfl
  qsmul := _
  qsmul_def _ _ := rfl

instance : StarRing GaussQ where
  star_involutive x := by simp [star_def]
  star_mul x y := by ext <;> simp only [mul_def, star_def] <;> ring
  star_add x y := by ext <;> simp only [add_def, star_def]; ring

instance : PyScalar GaussQ where
  I := ⟨0, 1⟩
  I_mul_I := by ext <;> simp [mul_def, neg_def, one_def]
  star_I := by ext <;> simp [star_def, neg_def]
  small x := decide (x.re * x.re + x.im * x.im < 1 / 10 ^ 24)
  small_zero := by simp [zero_def]
  charZero := ⟨fun m n h => by
    have : ((m : ℚ)) = n := congrArg GaussQ.re h
    exact_mod_cast this⟩

end GaussQ

end QS
