import Verif.Lemmas.SmoothWell
import Verif.Props.TwoDim

/-!
# The smooth double well (C71, C77)
-/

namespace QS.Props

open TwoDim Idx Spec NDArray

/-! ## C71 -/

/-- C71 as stated: the constructor returns a basis set (for all arguments its assertion lets through), if
the lines after the first assignment do. -/
def C71_statement : Prop :=
  ∀ (lHoFactor : ℝ) (rest : BasisSet ℂ), 1 ≤ lHoFactor → ∃ b, smoothDoubleWell lHoFactor (.ok rest) = .ok b

/-- **C71** (what the constructor does) It raises for all arguments, whatever the lines after the first
assignment would do: `AssertionError` if `l_ho_factor < 1`, else `NameError`, because `l` is no parameter. -/
theorem C71_actual {α : Type} (lHoFactor : ℝ) (rest : Except PyErr α) :
    (lHoFactor < 1 → smoothDoubleWell lHoFactor rest = .error .assertion) ∧
    (1 ≤ lHoFactor → smoothDoubleWell lHoFactor rest = .error .name) := by
  have h1 : lookupName smoothInitLocals twoDimHoGlobals pythonBuiltins "math" = .ok () := by decide
  have h2 : lookupName smoothInitLocals twoDimHoGlobals pythonBuiltins "l" = .error .name := by decide
  unfold smoothDoubleWell
  rw [h1, h2]
  constructor
  · intro h
    rw [if_neg (by linarith)]
    rfl
  · intro h
    rw [if_pos h]
    rfl

/-- **C71 is false as stated**, for every argument. -/
theorem C71_false : ¬ C71_statement := by
  intro h
  obtain ⟨b, hb⟩ := h 1 (BasisSet.init 2 2 0) le_rfl
  rw [(C71_actual 1 _).2 le_rfl] at hb
  cases hb

/-! ## C77 -/

/-- **C77** The elements of the smooth double well are Hermitian, for all sizes and parameters. -/
theorem C77_hermitian (l : ℕ) (omega mass a b : ℝ) (dt : DType) :
    ∃ h, getSmoothDoubleWellOneBodyElements l omega mass a b dt = .ok h ∧ h.shape = [l, l] ∧
      ∀ p q, h.get [p, q] = (starRingEnd ℂ) (h.get [q, p]) := by
  refine ⟨_, getSmoothDoubleWell_eq l omega mass a b dt, rfl, fun p q => ?_⟩
  by_cases hpq : InRange [l, l] [p, q]
  · have hqp : InRange [l, l] [q, p] := ⟨hpq.2.1, hpq.1, trivial⟩
    rw [ofFn_get_of hpq, ofFn_get_of hqp, Complex.conj_ofReal]
    simp only [List.getD_cons_zero, List.getD_cons_succ]
    congr 1
    unfold smoothWellEntry smoothTheta1 smoothTheta2
    rw [abs_sub_comm (getIndicesNm q).2, radialIntegral_comm (spfRadial (getIndicesNm q).1 _ _ _) _ 4,
      radialIntegral_comm (spfRadial (getIndicesNm q).1 _ _ _) _ 2]
    have h : (if p = q then omega * getShellEnergy (getIndicesNm p).1 (getIndicesNm p).2
          + omega ^ 2 * a ^ 2 / 64 else 0 : ℝ)
        = if q = p then omega * getShellEnergy (getIndicesNm q).1 (getIndicesNm q).2
          + omega ^ 2 * a ^ 2 / 64 else 0 := by
      by_cases h : p = q
      · subst h; rfl
      · rw [if_neg h, if_neg (fun e => h e.symm)]
    rw [h]
    ring
  · have hqp : ¬ InRange [l, l] [q, p] := fun h => hpq ⟨h.2.1, h.1, trivial⟩
    rw [show (ofFn _ _ _).get [p, q] = (0 : ℂ) from if_neg hpq,
      show (ofFn _ _ _).get [q, p] = (0 : ℂ) from if_neg hqp, map_zero]

/-- The potential `ω²/4 (x⁴/a² - 5b/2 x² + a²/16)` in polar coordinates. -/
noncomputable def smoothBarrier (omega a b r t : ℝ) : ℝ :=
  omega ^ 2 / 4 * ((r * Real.cos t) ^ 4 / a ^ 2 - 5 * b / 2 * (r * Real.cos t) ^ 2 + a ^ 2 / 16)

theorem smoothWell_elements {mass omega : ℝ} (hm : 0 < mass) (ho : 0 < omega) (a b : ℝ) {p q : ℕ}
    (hpq : (getIndicesNm p).2 = (getIndicesNm q).2) :
    (smoothWellEntry omega mass a b p q : ℂ) = planeInner (spfState getIndicesNm mass omega p)
      (planeHamiltonian mass (fun r t => 1 / 2 * mass * omega ^ 2 * r ^ 2 + smoothBarrier omega a b r t)
        (spfState getIndicesNm mass omega q)) := by
  let E : ℝ := omega * getShellEnergy (getIndicesNm q).1 (getIndicesNm q).2 + omega ^ 2 * a ^ 2 / 64
  let w : Fin 3 → ℝ → ℝ := ![fun _ => E, fun r => omega ^ 2 / 4 * (1 / a ^ 2) * r ^ 4,
    fun r => -(omega ^ 2 / 4 * (5 * b / 2)) * r ^ 2]
  let v : Fin 3 → ℝ → ℝ := ![fun _ => 1, fun t => Real.cos t ^ 4, fun t => Real.cos t ^ 2]
  have key : planeInner (spfState getIndicesNm mass omega p)
      (planeHamiltonian mass (fun r t => 1 / 2 * mass * omega ^ 2 * r ^ 2 + smoothBarrier omega a b r t)
        (spfState getIndicesNm mass omega q))
      = planeInner (spfState getIndicesNm mass omega p) (fun r t =>
        ((∑ k, w k r * v k t : ℝ) : ℂ) * spfState getIndicesNm mass omega q r t) := by
    unfold planeInner planeIntegral
    refine MeasureTheory.setIntegral_congr_fun measurableSet_Ioi fun r hr => ?_
    have hr' : 0 < r := hr
    dsimp only
    congr 2
    funext t
    congr 1
    have he := oscillator_eigen hm ho getIndicesNm q (C42_nonneg q) hr' t
    have hb : (∑ k, w k r * v k t) = omega * getShellEnergy (getIndicesNm q).1 (getIndicesNm q).2
        + smoothBarrier omega a b r t := by
      rw [Fin.sum_univ_three]
      simp only [w, v, E, smoothBarrier, Matrix.cons_val_zero, Matrix.cons_val_one, Matrix.cons_val]
      ring
    unfold planeHamiltonian at he ⊢
    rw [hb]
    push_cast at he ⊢
    linear_combination he
  rw [key, plane_add3 getIndicesNm mass omega w v]
  · rw [Fin.sum_univ_three, plane_factor, plane_factor, plane_factor]
    simp only [w, v, Matrix.cons_val_zero, Matrix.cons_val_one, Matrix.cons_val]
    rw [← (C48_actual Real.cos (Or.inl rfl) _ _).1.2 hpq, ← (C48_actual Real.cos (Or.inl rfl) _ _).2.2 hpq]
    have h1 : planeInner (spfState getIndicesNm mass omega p)
        (fun r t => ((E * 1 : ℝ) : ℂ) * spfState getIndicesNm mass omega q r t)
        = (E : ℂ) * if p = q then 1 else 0 := by
      rw [← C72_orthonormal hm ho p q]
      unfold planeInner planeIntegral
      rw [← MeasureTheory.integral_const_mul]
      congr 1
      funext r
      rw [← mul_assoc, ← intervalIntegral.integral_const_mul]
      congr 2
      funext t
      push_cast
      ring
    rw [plane_factor getIndicesNm mass omega (fun _ => E) (fun _ => 1) p q] at h1
    rw [h1]
    have hint : ∀ (c : ℝ) (k : ℕ), ∫ r in Set.Ioi (0 : ℝ), r * (c * r ^ k)
        * spfRadial (getIndicesNm p).1 (getIndicesNm p).2 mass omega r
        * spfRadial (getIndicesNm q).1 (getIndicesNm q).2 mass omega r
        = c * radialIntegral (spfRadial (getIndicesNm p).1 (getIndicesNm p).2 mass omega)
          (spfRadial (getIndicesNm q).1 (getIndicesNm q).2 mass omega) k := by
      intro c k
      unfold radialIntegral
      rw [← MeasureTheory.integral_const_mul]
      congr 1
      funext r
      ring
    rw [hint, hint]
    unfold smoothWellEntry
    have h5 : (if p = q then omega * getShellEnergy (getIndicesNm p).1 (getIndicesNm p).2
        + omega ^ 2 * a ^ 2 / 64 else 0 : ℝ) = E * if p = q then 1 else 0 := by
      by_cases h : p = q
      · subst h; simp [E]
      · simp [h]
    have h6 : (if p = q then 1 else 0 : ℂ) = ((if p = q then 1 else 0 : ℝ) : ℂ) := by
      by_cases h : p = q <;> simp [h]
    rw [h5, h6]
    push_cast
    ring
  · intro k
    fin_cases k <;> simp only [v] <;> simp <;> fun_prop
  · have hint : ∀ (c : ℝ) (k : ℕ), MeasureTheory.IntegrableOn (fun r => r * (c * r ^ k)
        * spfRadial (getIndicesNm p).1 (getIndicesNm p).2 mass omega r
        * spfRadial (getIndicesNm q).1 (getIndicesNm q).2 mass omega r) (Set.Ioi 0) := by
      intro c k
      have := (radial_integrable hm ho (k + 1) (getIndicesNm p).1 (getIndicesNm p).2 (getIndicesNm q).1
        (getIndicesNm q).2).const_mul c
      refine this.congr (Filter.Eventually.of_forall fun r => ?_)
      dsimp only
      ring
    intro k
    fin_cases k
    · have := hint E 0
      simp only [pow_zero, mul_one] at this
      exact this
    · exact hint _ 4
    · exact hint _ 2

/-- **C77** Between orbitals of equal angular momentum the elements are, for unit mass, the matrix elements
of the oscillator with the added potential `ω²/4 (x⁴/a² - 5b/2 x² + a²/16)`. -/
theorem C77_matrix_elements (l : ℕ) {omega : ℝ} (ho : 0 < omega) {a : ℝ} (_ha : a ≠ 0) (b : ℝ) (dt : DType) :
    ∃ h, getSmoothDoubleWellOneBodyElements l omega 1 a b dt = .ok h ∧
      ∀ p q, p < l → q < l → (getIndicesNm p).2 = (getIndicesNm q).2 →
        h.get [p, q] = planeInner (spfState getIndicesNm 1 omega p)
          (planeHamiltonian 1 (fun r t => 1 / 2 * omega ^ 2 * r ^ 2 + omega ^ 2 / 4
              * ((r * Real.cos t) ^ 4 / a ^ 2 - 5 * b / 2 * (r * Real.cos t) ^ 2 + a ^ 2 / 16))
            (spfState getIndicesNm 1 omega q)) := by
  refine ⟨_, getSmoothDoubleWell_eq l omega 1 a b dt, fun p q hp hq hpq => ?_⟩
  rw [ofFn_get_of (show InRange [l, l] [p, q] from ⟨hp, hq, trivial⟩)]
  simp only [List.getD_cons_zero, List.getD_cons_succ]
  rw [smoothWell_elements one_pos ho a b hpq]
  congr 2
  funext r t
  unfold smoothBarrier
  ring

/-- The orbitals 0 and 4 (`n = 0, 1`) have the same angular momentum and are covered, 0 and 1 are not. -/
example : (getIndicesNm 0).2 = (getIndicesNm 4).2 ∧ (getIndicesNm 0).2 ≠ (getIndicesNm 1).2 := by
  decide +kernel

end QS.Props
