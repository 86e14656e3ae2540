import Verif.Lemmas.Angular
import Verif.Spec.Angular

/-!
# Angular integrals (C47, C48)
-/

namespace QS.Props

open TwoDim Spec

theorem angular_eq (f : ℝ → ℝ) (mp mq : ℤ) : angular f mp mq
    = ∫ t in (0 : ℝ)..2 * Real.pi, (f t : ℂ) * Complex.exp (Complex.I * ((mq - mp : ℤ) : ℂ) * t) := by
  simp only [angular, braket_exp]

/-! ## C47 -/

/-- **C47** `theta_1_integral` is the integral of the cosine. -/
theorem C47_cos (mp mq : ℤ) : theta1 mp mq = angular Real.cos mp mq := by
  rw [angular_eq, integral_cos_exp, theta1, abs_sub_comm]

example : angular Real.cos 3 4 = Real.pi ∧ angular Real.cos 2 4 = 0 := by
  rw [← C47_cos, ← C47_cos]; simp [theta1]

/-- **C47** `theta_2_integral` is the integral of the sine. -/
theorem C47_sin (mp mq : ℤ) : theta2 mp mq = angular Real.sin mp mq := by
  rw [angular_eq, integral_sin_exp, theta2, abs_sub_comm]
  push_cast
  rw [neg_sub]

example : angular Real.sin 3 4 = Complex.I * Real.pi := by
  rw [← C47_sin]; simp [theta2]; norm_num

/-- **C47** `theta_1_tilde_integral` is the integral of the absolute value of the cosine. -/
theorem C47_abs_cos (mp mq : ℤ) : (theta1Tilde mp mq : ℂ) = angular (fun t => |Real.cos t|) mp mq := by
  rw [angular_eq, integral_abscos, theta1Tilde]
  have hodd : |mp - mq| % 2 = 1 ↔ (mq - mp) % 2 = 1 := by
    rcases abs_choice (mp - mq) with h | h <;> rw [h] <;> omega
  by_cases h : (mq - mp) % 2 = 1
  · rw [if_pos (hodd.2 h), if_pos h]; simp
  · rw [if_neg (fun h' => h (hodd.1 h')), if_neg h]
    have hs : (((if (|mp - mq| / 2) % 2 = 0 then 1 else -1 : ℝ)) : ℂ) = (-1) ^ ((mq - mp) / 2) := by
      have : (|mp - mq| / 2) % 2 = 0 ↔ Even ((mq - mp) / 2) := by
        rw [Int.even_iff]
        rcases abs_choice (mp - mq) with h | h <;> rw [h] <;> omega
      by_cases he : Even ((mq - mp) / 2)
      · rw [if_pos (this.2 he), he.neg_one_zpow]; simp
      · rw [if_neg (fun h' => he (this.1 h')), (Int.not_even_iff_odd.1 he).neg_one_zpow]; simp
    rw [Complex.ofReal_div, Complex.ofReal_mul, hs]
    push_cast
    congr 1
    ring

example : angular (fun t => |Real.cos t|) 1 3 = 4 / 3 := by
  rw [← C47_abs_cos]; simp [theta1Tilde]; norm_num

/-- **C47** `theta_2_tilde_integral` is the integral of the absolute value of the sine. -/
theorem C47_abs_sin (mp mq : ℤ) : (theta2Tilde mp mq : ℂ) = angular (fun t => |Real.sin t|) mp mq := by
  rw [angular_eq, integral_abssin, theta2Tilde]
  have hodd : |mp - mq| % 2 = 1 ↔ (mq - mp) % 2 = 1 := by
    rcases abs_choice (mp - mq) with h | h <;> rw [h] <;> omega
  by_cases h : (mq - mp) % 2 = 1
  · rw [if_pos (hodd.2 h), if_pos h]; simp
  · rw [if_neg (fun h' => h (hodd.1 h')), if_neg h]
    push_cast
    congr 1
    ring

example : angular (fun t => |Real.sin t|) 1 3 = -4 / 3 := by
  rw [← C47_abs_sin]; simp [theta2Tilde]; norm_num

/-! ## C48 -/

/-- The claim of C48: the two functions are the integrals of the fourth power and of the square of the
cosine, or of the sine. -/
def C48_statement : Prop :=
  ∃ f : ℝ → ℝ, (f = Real.cos ∨ f = Real.sin) ∧ ∀ mp mq : ℤ,
    (smoothTheta1 mp mq : ℂ) = angular (fun t => f t ^ 4) mp mq ∧
    (smoothTheta2 mp mq : ℂ) = angular (fun t => f t ^ 2) mp mq

/-- **C48** (what the functions compute) They equal the integrals exactly if `m_p = m_q`. -/
theorem C48_actual (f : ℝ → ℝ) (hf : f = Real.cos ∨ f = Real.sin) (mp mq : ℤ) :
    ((smoothTheta1 mp mq : ℂ) = angular (fun t => f t ^ 4) mp mq ↔ mp = mq) ∧
    ((smoothTheta2 mp mq : ℂ) = angular (fun t => f t ^ 2) mp mq ↔ mp = mq) := by
  have hpi := Real.pi_pos
  have val (n : ℕ) (x : ℝ) (hx : 0 < x) (y : ℝ) (hy : |y| < x) : ((-1 : ℝ) ^ n * x) ≠ y := by
    intro h
    have := congrArg abs h
    rw [abs_mul, abs_pow, abs_neg, abs_one, one_pow, one_mul, abs_of_pos hx] at this
    linarith
  constructor
  · constructor
    · intro h
      by_contra hne
      rw [angular_eq] at h
      have hk : mq - mp ≠ 0 := fun e => hne (by omega)
      have : ∃ y : ℝ, |y| < 3 * Real.pi / 4 ∧ ((smoothTheta1 mp mq : ℝ) : ℂ) = (y : ℂ) := by
        rcases hf with rfl | rfl
        · rw [integral_cos4_exp, if_neg hk] at h
          split_ifs at h
          · exact ⟨Real.pi / 2, by rw [abs_of_pos (by positivity)]; linarith, by rw [h]; push_cast; rfl⟩
          · exact ⟨Real.pi / 8, by rw [abs_of_pos (by positivity)]; linarith, by rw [h]; push_cast; rfl⟩
          · exact ⟨0, by simp; positivity, by rw [h]; simp⟩
        · rw [integral_sin4_exp, if_neg hk] at h
          split_ifs at h
          · exact ⟨-(Real.pi / 2), by rw [abs_neg, abs_of_pos (by positivity)]; linarith,
              by rw [h]; push_cast; rfl⟩
          · exact ⟨Real.pi / 8, by rw [abs_of_pos (by positivity)]; linarith, by rw [h]; push_cast; rfl⟩
          · exact ⟨0, by simp; positivity, by rw [h]; simp⟩
      obtain ⟨y, hy, hxy⟩ := this
      exact val _ _ (by positivity) y hy (Complex.ofReal_injective hxy)
    · rintro rfl
      rw [angular_eq]
      rcases hf with rfl | rfl
      · rw [integral_cos4_exp]; simp [smoothTheta1]
      · rw [integral_sin4_exp]; simp [smoothTheta1]
  · constructor
    · intro h
      by_contra hne
      rw [angular_eq] at h
      have hk : mq - mp ≠ 0 := fun e => hne (by omega)
      have : ∃ y : ℝ, |y| < Real.pi ∧ ((smoothTheta2 mp mq : ℝ) : ℂ) = (y : ℂ) := by
        rcases hf with rfl | rfl
        · rw [integral_cos2_exp, if_neg hk] at h
          split_ifs at h
          · exact ⟨Real.pi / 2, by rw [abs_of_pos (by positivity)]; linarith, by rw [h]; push_cast; rfl⟩
          · exact ⟨0, by simp; positivity, by rw [h]; simp⟩
        · rw [integral_sin2_exp, if_neg hk] at h
          split_ifs at h
          · exact ⟨-(Real.pi / 2), by rw [abs_neg, abs_of_pos (by positivity)]; linarith,
              by rw [h]; push_cast; rfl⟩
          · exact ⟨0, by simp; positivity, by rw [h]; simp⟩
      obtain ⟨y, hy, hxy⟩ := this
      exact val _ _ hpi y hy (Complex.ofReal_injective hxy)
    · rintro rfl
      rw [angular_eq]
      rcases hf with rfl | rfl
      · rw [integral_cos2_exp]; simp [smoothTheta2]
      · rw [integral_sin2_exp]; simp [smoothTheta2]

/-- For `m_p = 0`, `m_q = 1` the functions differ from the integrals. -/
example : (smoothTheta1 0 1 : ℂ) ≠ angular (fun t => Real.cos t ^ 4) 0 1 := fun h => by
  simpa using (C48_actual Real.cos (.inl rfl) 0 1).1.1 h

/-- **C48** is false: for `m_p = 0`, `m_q = 1` the integrals vanish, and the functions return `-3π/4` and
`-π`. -/
theorem C48_false : ¬ C48_statement := by
  rintro ⟨f, hf, h⟩
  simpa using (C48_actual f hf 0 1).1.1 (h 0 1).1

/-- **C48** (partial; missing: `m_p ≠ m_q`, where the claim is false) For equal quantum numbers the
functions are the integrals, both for the cosine and for the sine. -/
theorem C48_partial (f : ℝ → ℝ) (hf : f = Real.cos ∨ f = Real.sin) (m : ℤ) :
    (smoothTheta1 m m : ℂ) = angular (fun t => f t ^ 4) m m ∧
    (smoothTheta2 m m : ℂ) = angular (fun t => f t ^ 2) m m :=
  ⟨(C48_actual f hf m m).1.2 rfl, (C48_actual f hf m m).2.2 rfl⟩

example : angular (fun t => Real.sin t ^ 4) 5 5 = 3 * Real.pi / 4 := by
  rw [← (C48_partial Real.sin (.inr rfl) 5).1]; simp [smoothTheta1]

end QS.Props
