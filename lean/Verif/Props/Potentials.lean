import Verif.Spec.Potentials
import Mathlib.Analysis.Calculus.Deriv.Abs
import Mathlib.Analysis.SpecialFunctions.Pow.Deriv

/-!
# One-dimensional potentials (C63, C64)
-/

namespace QS.Props

open Potentials Spec

/-! ## C63 -/

/-- **C63** as stated: whenever `derivative(x)` returns a number, it is the derivative. -/
def C63_statement : Prop :=
  ∀ (V : Potential) (x d : ℝ), Regular V x → V.derivative x = .ok d → HasDerivAt V.call d x

/-- **C63** What `SymmetricDWPotential.derivative` returns: the derivative minus `b x³`. -/
theorem C63_actual (a b c x : ℝ) : ∃ d, (Potential.symmetricDW a b c).derivative x = .ok d ∧
    HasDerivAt (Potential.symmetricDW a b c).call (d + b * x ^ 3) x := by
  refine ⟨_, rfl, ?_⟩
  have := (((hasDerivAt_pow 6 x).const_mul a).fun_add ((hasDerivAt_pow 4 x).const_mul b)).fun_add
    ((hasDerivAt_pow 2 x).const_mul c)
  refine this.congr_deriv ?_
  push_cast
  ring

/-- **C63** is false: `x⁴` has the derivative 4 at 1, `SymmetricDWPotential(0, 1, 0).derivative(1)` is 3. -/
theorem C63_false : ¬ C63_statement := by
  intro h
  obtain ⟨d, h1, h2⟩ := C63_actual 0 1 0 1
  have := (h (.symmetricDW 0 1 0) 1 d trivial h1).unique h2
  norm_num at this

theorem heaviside_abs {x : ℝ} (hx : x ≠ 0) :
    HasDerivAt (fun y : ℝ => |y|) (2 * (heaviside x 0.5 - 0.5)) x := by
  rcases lt_or_gt_of_ne hx with h | h
  · have := hasDerivAt_abs_neg h
    convert this using 1
    unfold heaviside
    rw [if_pos h]
    norm_num
  · have := hasDerivAt_abs_pos h
    convert this using 1
    unfold heaviside
    rw [if_neg (by linarith), if_neg hx]
    norm_num

theorem hoCall_deriv (omega x : ℝ) : HasDerivAt (hoCall omega) (hoDerivative omega x) x := by
  have := (hasDerivAt_pow 2 x).const_mul (0.5 * omega ^ 2)
  refine this.congr_deriv ?_
  unfold hoDerivative
  push_cast
  norm_num
  ring

/-- **C63** for all classes but `SymmetricDWPotential` and for that class with `b = 0`.  Missing:
`SymmetricDWPotential` with `b ≠ 0`, for which the claim is false at every `x ≠ 0`. -/
theorem C63_partial (V : Potential) (hV : ∀ a b c, V = .symmetricDW a b c → b = 0) (x d : ℝ) (hx : Regular V x)
    (h : V.derivative x = .ok d) : HasDerivAt V.call d x := by
  cases V with
  | ho omega =>
    obtain rfl := Except.ok.inj h
    exact hoCall_deriv omega x
  | dw omega l =>
    obtain rfl := Except.ok.inj h
    have := (hoCall_deriv omega x).fun_add ((((heaviside_abs hx).const_mul l).const_sub
      (0.25 * l ^ 2)).const_mul (0.5 * omega ^ 2))
    refine this.congr_deriv ?_
    norm_num
    ring
  | dwSmooth a =>
    obtain rfl := Except.ok.inj h
    have ha : a ≠ 0 := hx
    have h1 := ((hasDerivAt_id x).add_const (0.5 * a)).fun_pow 2
    have h2 := ((hasDerivAt_id x).sub_const (0.5 * a)).fun_pow 2
    have := (h1.const_mul (1.0 / (2 * a ^ 2))).fun_mul h2
    refine this.congr_deriv ?_
    simp only [id]
    push_cast
    norm_num
    field_simp
  | symmetricDW a b c =>
    obtain rfl := hV a b c rfl
    obtain ⟨d', h1, h2⟩ := C63_actual a 0 c x
    obtain rfl := Except.ok.inj (h.symm.trans h1)
    simpa using h2
  | asymmetricDW a b c =>
    obtain rfl := Except.ok.inj h
    have := (((hasDerivAt_pow 4 x).const_mul a).fun_add ((hasDerivAt_pow 3 x).const_mul b)).fun_add
      ((hasDerivAt_pow 2 x).const_mul c)
    refine this.congr_deriv ?_
    push_cast
    ring
  | gaussian w c s =>
    obtain rfl := Except.ok.inj h
    have hs : s ≠ 0 := hx
    have h1 := (((hasDerivAt_id x).sub_const c).fun_pow 2).fun_neg.div_const (2.0 * s ^ 2)
    have := h1.exp.const_mul (-w)
    refine this.congr_deriv ?_
    simp only [id, gaussianCall]
    push_cast
    norm_num
    field_simp
    ring
  | gaussianHardWall w c s xw => cases h
  | atomic Za c =>
    obtain rfl := Except.ok.inj h
    have hp : 0 < x ^ 2 + c := hx
    have h1 := ((hasDerivAt_pow 2 x).add_const c).sqrt hp.ne'
    have h2 := h1.fun_inv (Real.sqrt_pos.2 hp).ne' |>.const_mul (-Za)
    have e : (Potential.atomic Za c).call = fun y => -Za * (Real.sqrt (y ^ 2 + c))⁻¹ := by
      funext y
      simp only [Potential.call, div_eq_mul_inv]
    rw [e]
    refine h2.congr_deriv ?_
    have h3 : (x ^ 2 + c) ^ ((3 : ℝ) / 2) = Real.sqrt (x ^ 2 + c) ^ 3 := by
      rw [Real.sqrt_eq_rpow, ← Real.rpow_natCast (_ ^ ((1 : ℝ) / 2)) 3, ← Real.rpow_mul hp.le]
      norm_num
    rw [h3]
    have h4 := (Real.sqrt_pos.2 hp).ne'
    push_cast
    field_simp

example : HasDerivAt (Potential.dw 2 3).call (-2) 1 := by
  refine C63_partial _ (by simp) 1 _ (by exact one_ne_zero) ?_
  unfold Potential.derivative heaviside hoDerivative
  norm_num

/-- **C63** The class with a hard wall offers no derivative. -/
theorem C63_not_offered (w c s xw x : ℝ) :
    (Potential.gaussianHardWall w c s xw).derivative x = .error .notImplemented := rfl

/-! ## C64 -/

/-- The potentials that are named in **C64**. -/
def IsSymmetric : Potential → Prop
  | .ho _ | .dw _ _ | .dwSmooth _ | .symmetricDW _ _ _ | .atomic _ _ => True
  | _ => False

/-- **C64** The symmetric potentials are even. -/
theorem C64_even (V : Potential) (hV : IsSymmetric V) (x : ℝ) : V.call (-x) = V.call x := by
  cases V <;> simp only [IsSymmetric] at hV <;> simp only [Potential.call, hoCall, abs_neg, even_two.neg_pow,
    (by decide : Even 6).neg_pow, (by decide : Even 4).neg_pow]
  generalize (0.5 : ℝ) = c
  generalize (1.0 : ℝ) = d
  ring

/-- **C64** as stated for the double wells. -/
def C64_statement : Prop :=
  (∀ omega l x : ℝ, (Potential.dw omega l).call (l / 2) = 0 ∧ (Potential.dw omega l).call (-(l / 2)) = 0 ∧
    0 ≤ (Potential.dw omega l).call x) ∧
  ∀ a x : ℝ, a ≠ 0 → (Potential.dwSmooth a).call (a / 2) = 0 ∧ (Potential.dwSmooth a).call (-(a / 2)) = 0 ∧
    0 ≤ (Potential.dwSmooth a).call x

theorem dw_square (omega l x : ℝ) : (Potential.dw omega l).call x = 1 / 2 * omega ^ 2 * (|x| - l / 2) ^ 2 := by
  simp only [Potential.call, hoCall]
  have : x ^ 2 = |x| ^ 2 := (sq_abs x).symm
  rw [this]
  norm_num only
  ring

/-- **C64** What happens for negative `l`: the potential is a single well with a cusp at 0, and
`V(±l/2) = ω²l²/2`. -/
theorem C64_actual (omega : ℝ) {l : ℝ} (hl : l < 0) :
    (Potential.dw omega l).call (l / 2) = 1 / 2 * omega ^ 2 * l ^ 2 ∧
    ∀ x, (Potential.dw omega l).call 0 ≤ (Potential.dw omega l).call x := by
  constructor
  · rw [dw_square, abs_of_neg (by linarith)]
    ring
  · intro x
    rw [dw_square, dw_square, abs_zero]
    have := abs_nonneg x
    have h2 := sq_nonneg omega
    have : (0 - l / 2) ^ 2 ≤ (|x| - l / 2) ^ 2 := by nlinarith
    nlinarith

/-- **C64** is false for a negative distance of the wells. -/
theorem C64_false : ¬ C64_statement := by
  rintro ⟨h, _⟩
  have h1 := (h 1 (-1) 0).1
  rw [(C64_actual 1 (l := -1) (by norm_num)).1] at h1
  norm_num at h1

/-- **C64** The double wells for `l ≥ 0` resp. all `a ≠ 0`.  Missing: `DWPotential` with negative `l`, for which the
claim is false. -/
theorem C64_partial :
    (∀ omega l x : ℝ, 0 ≤ l → (Potential.dw omega l).call (l / 2) = 0 ∧
      (Potential.dw omega l).call (-(l / 2)) = 0 ∧ 0 ≤ (Potential.dw omega l).call x) ∧
    ∀ a x : ℝ, a ≠ 0 → (Potential.dwSmooth a).call (a / 2) = 0 ∧ (Potential.dwSmooth a).call (-(a / 2)) = 0 ∧
      0 ≤ (Potential.dwSmooth a).call x := by
  constructor
  · intro omega l x hl
    rw [dw_square, dw_square, dw_square, abs_neg, abs_of_nonneg (by linarith : 0 ≤ l / 2)]
    refine ⟨by ring, by ring, by positivity⟩
  · intro a x _
    simp only [Potential.call]
    refine ⟨by norm_num; right; ring, by norm_num; left; right; ring, by positivity⟩

/-- **C64** The minima of the wells are at these points only. -/
theorem C64_only_minima (omega l x : ℝ) (ho : omega ≠ 0) (h : (Potential.dw omega l).call x = 0) :
    x = l / 2 ∨ x = -(l / 2) := by
  rw [dw_square] at h
  have h1 : |x| = l / 2 := by
    have h2 : (|x| - l / 2) ^ 2 = 0 := by
      rcases mul_eq_zero.1 h with h3 | h3
      · exact absurd h3 (by positivity)
      · exact h3
    nlinarith [pow_eq_zero_iff (two_ne_zero) |>.1 h2]
  exact eq_or_eq_neg_of_abs_eq h1

example : (Potential.dw 2 3).call 1 = 1 / 2 := by
  rw [dw_square]
  norm_num

end QS.Props
