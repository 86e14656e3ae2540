import Verif.Lemmas.General
import Verif.Spec.Spin
import Mathlib.LinearAlgebra.Matrix.NonsingularInverse

/-! # Pauli matrices and Kronecker products (helper file, no property theorems) -/

set_option linter.unusedSimpArgs false

namespace QS

open Finset

variable {K : Type} [PyScalar K]

namespace BasisSet
open NDArray

theorem sum_two {M : Type} [AddCommMonoid M] (f : ℕ → M) : ∑ i ∈ range 2, f i = f 0 + f 1 := by
  rw [sum_range_succ, sum_range_succ, sum_range_zero, zero_add]

theorem sum_range_two_mul {M : Type} [AddCommMonoid M] (f : ℕ → M) (l : ℕ) :
    ∑ t ∈ range (2 * l), f t = ∑ p ∈ range l, ∑ a ∈ range 2, f (2 * p + a) := by
  induction l with
  | zero => simp
  | succ l ih =>
    rw [show 2 * (l + 1) = 2 * l + 1 + 1 by ring, sum_range_succ, sum_range_succ, ih,
      sum_range_succ, sum_two, add_assoc]
    rfl

/-! ### completeness of an orthonormal spin basis -/

/-- Completeness relations. -/
theorem _root_.QS.OrthoSpin.complete {a₀ a₁ b₀ b₁ : K} (h : OrthoSpin a₀ a₁ b₀ b₁) :
    a₀ * star a₀ + b₀ * star b₀ = 1 ∧ a₀ * star a₁ + b₀ * star b₁ = 0 ∧
    a₁ * star a₀ + b₁ * star b₀ = 0 ∧ a₁ * star a₁ + b₁ * star b₁ = 1 := by
  have hba : star b₀ * a₀ + star b₁ * a₁ = 0 := by
    have := congrArg star h.ab
    simp only [spinor, star_add, star_mul', star_star, star_zero] at this
    linear_combination this
  have key : (!![star a₀, star a₁; star b₀, star b₁] : Matrix (Fin 2) (Fin 2) K) *
      !![a₀, b₀; a₁, b₁] = 1 := by
    have h1 := h.aa
    have h2 := h.bb
    have h3 := h.ab
    simp only [spinor] at h1 h2 h3
    ext i j
    fin_cases i <;> fin_cases j <;> simp [Matrix.mul_apply, Fin.sum_univ_two, h1, h2, h3, hba]
  have key' := mul_eq_one_comm.1 key
  refine ⟨?_, ?_, ?_, ?_⟩
  · have := congrFun (congrFun key' 0) 0
    simpa [Matrix.mul_apply, Fin.sum_univ_two] using this
  · have := congrFun (congrFun key' 0) 1
    simpa [Matrix.mul_apply, Fin.sum_univ_two] using this
  · have := congrFun (congrFun key' 1) 0
    simpa [Matrix.mul_apply, Fin.sum_univ_two] using this
  · have := congrFun (congrFun key' 1) 1
    simpa [Matrix.mul_apply, Fin.sum_univ_two] using this

/-! ### entries -/

theorem lit22_get (x y z w : K) : (lit22 x y z w).get [0, 0] = x ∧ (lit22 x y z w).get [0, 1] = y ∧
    (lit22 x y z w).get [1, 0] = z ∧ (lit22 x y z w).get [1, 1] = w := ⟨rfl, rfl, rfl, rfl⟩

section
variable (a₀ a₁ b₀ b₁ : K)

/-- The Pauli matrix `m` in the basis of the columns `a`, `b`. -/
abbrev pauliOf (m : NDArray K) : NDArray K := pauliArr m (column [a₀, a₁]) (column [b₀, b₁])

theorem bk_lit (x₀ x₁ y₀ y₁ m₀ m₁ m₂ m₃ : K) :
    bk (column [x₀, x₁]) (lit22 m₀ m₁ m₂ m₃) (column [y₀, y₁]) =
      star x₀ * (m₀ * y₀ + m₁ * y₁) + star x₁ * (m₂ * y₀ + m₃ * y₁) := by
  simp only [bk, sum_two]
  simp only [(column_get _ _).1, (column_get _ _).2, (lit22_get _ _ _ _).1,
    (lit22_get _ _ _ _).2.1, (lit22_get _ _ _ _).2.2.1, (lit22_get _ _ _ _).2.2.2]

theorem pauliOf_get00 (m₀ m₁ m₂ m₃ : K) : (pauliOf a₀ a₁ b₀ b₁ (lit22 m₀ m₁ m₂ m₃)).get [0, 0] =
    star a₀ * (m₀ * a₀ + m₁ * a₁) + star a₁ * (m₂ * a₀ + m₃ * a₁) :=
  (lit22_get _ _ _ _).1.trans (bk_lit ..)
theorem pauliOf_get01 (m₀ m₁ m₂ m₃ : K) : (pauliOf a₀ a₁ b₀ b₁ (lit22 m₀ m₁ m₂ m₃)).get [0, 1] =
    star a₀ * (m₀ * b₀ + m₁ * b₁) + star a₁ * (m₂ * b₀ + m₃ * b₁) :=
  (lit22_get _ _ _ _).2.1.trans (bk_lit ..)
theorem pauliOf_get10 (m₀ m₁ m₂ m₃ : K) : (pauliOf a₀ a₁ b₀ b₁ (lit22 m₀ m₁ m₂ m₃)).get [1, 0] =
    star b₀ * (m₀ * a₀ + m₁ * a₁) + star b₁ * (m₂ * a₀ + m₃ * a₁) :=
  (lit22_get _ _ _ _).2.2.1.trans (bk_lit ..)
theorem pauliOf_get11 (m₀ m₁ m₂ m₃ : K) : (pauliOf a₀ a₁ b₀ b₁ (lit22 m₀ m₁ m₂ m₃)).get [1, 1] =
    star b₀ * (m₀ * b₀ + m₁ * b₁) + star b₁ * (m₂ * b₀ + m₃ * b₁) :=
  (lit22_get _ _ _ _).2.2.2.trans (bk_lit ..)

end

theorem lt_two {p : ℕ} (h : p < 2) : p = 0 ∨ p = 1 := by omega

/-- Products of operators are represented by products of their matrices. -/
theorem pauliOf_mul {a₀ a₁ b₀ b₁ : K} (h : OrthoSpin a₀ a₁ b₀ b₁) (m₀ m₁ m₂ m₃ n₀ n₁ n₂ n₃ : K)
    {p q : ℕ} (hp : p < 2) (hq : q < 2) :
    mulAt 2 (pauliOf a₀ a₁ b₀ b₁ (lit22 m₀ m₁ m₂ m₃)) (pauliOf a₀ a₁ b₀ b₁ (lit22 n₀ n₁ n₂ n₃)) p q =
      (pauliOf a₀ a₁ b₀ b₁ (lit22 (m₀ * n₀ + m₁ * n₂) (m₀ * n₁ + m₁ * n₃)
        (m₂ * n₀ + m₃ * n₂) (m₂ * n₁ + m₃ * n₃))).get [p, q] := by
  obtain ⟨c1, c2, c3, c4⟩ := h.complete
  rw [mulAt, sum_two]
  rcases lt_two hp with rfl | rfl <;> rcases lt_two hq with rfl | rfl <;>
    simp only [pauliOf_get00, pauliOf_get01, pauliOf_get10, pauliOf_get11]
  · linear_combination
      (star a₀ * m₀ + star a₁ * m₂) * (n₀ * a₀ + n₁ * a₁) * c1 +
      (star a₀ * m₀ + star a₁ * m₂) * (n₂ * a₀ + n₃ * a₁) * c2 +
      (star a₀ * m₁ + star a₁ * m₃) * (n₀ * a₀ + n₁ * a₁) * c3 +
      (star a₀ * m₁ + star a₁ * m₃) * (n₂ * a₀ + n₃ * a₁) * c4
  · linear_combination
      (star a₀ * m₀ + star a₁ * m₂) * (n₀ * b₀ + n₁ * b₁) * c1 +
      (star a₀ * m₀ + star a₁ * m₂) * (n₂ * b₀ + n₃ * b₁) * c2 +
      (star a₀ * m₁ + star a₁ * m₃) * (n₀ * b₀ + n₁ * b₁) * c3 +
      (star a₀ * m₁ + star a₁ * m₃) * (n₂ * b₀ + n₃ * b₁) * c4
  · linear_combination
      (star b₀ * m₀ + star b₁ * m₂) * (n₀ * a₀ + n₁ * a₁) * c1 +
      (star b₀ * m₀ + star b₁ * m₂) * (n₂ * a₀ + n₃ * a₁) * c2 +
      (star b₀ * m₁ + star b₁ * m₃) * (n₀ * a₀ + n₁ * a₁) * c3 +
      (star b₀ * m₁ + star b₁ * m₃) * (n₂ * a₀ + n₃ * a₁) * c4
  · linear_combination
      (star b₀ * m₀ + star b₁ * m₂) * (n₀ * b₀ + n₁ * b₁) * c1 +
      (star b₀ * m₀ + star b₁ * m₂) * (n₂ * b₀ + n₃ * b₁) * c2 +
      (star b₀ * m₁ + star b₁ * m₃) * (n₀ * b₀ + n₁ * b₁) * c3 +
      (star b₀ * m₁ + star b₁ * m₃) * (n₂ * b₀ + n₃ * b₁) * c4

/-- The identity operator is represented by the identity matrix. -/
theorem pauliOf_one {a₀ a₁ b₀ b₁ : K} (h : OrthoSpin a₀ a₁ b₀ b₁)
    {p q : ℕ} (hp : p < 2) (hq : q < 2) :
    (pauliOf a₀ a₁ b₀ b₁ (lit22 1 0 0 1)).get [p, q] = kd p q := by
  have h1 := h.aa
  have h2 := h.bb
  have h3 := h.ab
  have h4 : star b₀ * a₀ + star b₁ * a₁ = 0 := by
    have := congrArg star h.ab
    simp only [spinor, star_add, star_mul', star_star, star_zero] at this
    linear_combination this
  simp only [spinor] at h1 h2 h3
  rcases lt_two hp with rfl | rfl <;> rcases lt_two hq with rfl | rfl <;>
    simp [pauliOf_get00, pauliOf_get01, pauliOf_get10, pauliOf_get11, kd, h1, h2, h3, h4]

/-- Scalar multiples. -/
theorem pauliOf_smul (a₀ a₁ b₀ b₁ c m₀ m₁ m₂ m₃ : K) {p q : ℕ} (hp : p < 2) (hq : q < 2) :
    (pauliOf a₀ a₁ b₀ b₁ (lit22 (c * m₀) (c * m₁) (c * m₂) (c * m₃))).get [p, q] =
      c * (pauliOf a₀ a₁ b₀ b₁ (lit22 m₀ m₁ m₂ m₃)).get [p, q] := by
  rcases lt_two hp with rfl | rfl <;> rcases lt_two hq with rfl | rfl <;>
    simp only [pauliOf_get00, pauliOf_get01, pauliOf_get10, pauliOf_get11] <;> ring

/-- Adjoints. -/
theorem pauliOf_star (a₀ a₁ b₀ b₁ m₀ m₁ m₂ m₃ : K) {p q : ℕ} (hp : p < 2) (hq : q < 2) :
    star ((pauliOf a₀ a₁ b₀ b₁ (lit22 m₀ m₁ m₂ m₃)).get [q, p]) =
      (pauliOf a₀ a₁ b₀ b₁ (lit22 (star m₀) (star m₂) (star m₁) (star m₃))).get [p, q] := by
  rcases lt_two hp with rfl | rfl <;> rcases lt_two hq with rfl | rfl <;>
    simp only [pauliOf_get00, pauliOf_get01, pauliOf_get10, pauliOf_get11, star_add, star_mul',
      star_star] <;> ring

/-- Trace. -/
theorem pauliOf_trace {a₀ a₁ b₀ b₁ : K} (h : OrthoSpin a₀ a₁ b₀ b₁) (m₀ m₁ m₂ m₃ : K) :
    (pauliOf a₀ a₁ b₀ b₁ (lit22 m₀ m₁ m₂ m₃)).get [0, 0] +
      (pauliOf a₀ a₁ b₀ b₁ (lit22 m₀ m₁ m₂ m₃)).get [1, 1] = m₀ + m₃ := by
  obtain ⟨c1, c2, c3, c4⟩ := h.complete
  simp only [pauliOf_get00, pauliOf_get11]
  linear_combination m₀ * c1 + m₁ * c3 + m₂ * c2 + m₃ * c4

/-! ### Kronecker products -/

/-- Product of two Kronecker products. -/
theorem kron_mul (A B σ τ : List ℕ → K) (l p q : ℕ) :
    ∑ t ∈ range (2 * l), (A [p / 2, t / 2] * σ [p % 2, t % 2]) *
        (B [t / 2, q / 2] * τ [t % 2, q % 2]) =
      (∑ k ∈ range l, A [p / 2, k] * B [k, q / 2]) *
        (∑ c ∈ range 2, σ [p % 2, c] * τ [c, q % 2]) := by
  rw [sum_range_two_mul, sum_mul_sum]
  refine sum_congr rfl fun k _ => sum_congr rfl fun c hc => ?_
  have hc' := mem_range.1 hc
  rw [show (2 * k + c) / 2 = k by omega, show (2 * k + c) % 2 = c by omega]
  ring

end BasisSet

end QS
