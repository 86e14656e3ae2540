import Verif.Model.SmoothWell
import Verif.Lemmas.Polar

/-!
# Evaluation of the loops over the elements of the smooth double well
-/

namespace QS.TwoDim

open NDArray Idx

/-- The elements `get_smooth_double_well_one_body_elements` returns. -/
noncomputable def smoothWellEntry (omega mass a b : ℝ) (p q : ℕ) : ℝ :=
  (if p = q then omega * getShellEnergy (getIndicesNm p).1 (getIndicesNm p).2 + omega ^ 2 * a ^ 2 / 64 else 0)
    + omega ^ 2 / 4 * (1 / a ^ 2) * spfNorm (getIndicesNm p).1 (getIndicesNm p).2 mass omega
      * spfNorm (getIndicesNm q).1 (getIndicesNm q).2 mass omega
      * radialIntegral (spfRadial (getIndicesNm p).1 (getIndicesNm p).2 mass omega)
          (spfRadial (getIndicesNm q).1 (getIndicesNm q).2 mass omega) 4
      * smoothTheta1 (getIndicesNm p).2 (getIndicesNm q).2
    - omega ^ 2 / 4 * (5 * b / 2) * spfNorm (getIndicesNm p).1 (getIndicesNm p).2 mass omega
      * spfNorm (getIndicesNm q).1 (getIndicesNm q).2 mass omega
      * radialIntegral (spfRadial (getIndicesNm p).1 (getIndicesNm p).2 mass omega)
          (spfRadial (getIndicesNm q).1 (getIndicesNm q).2 mass omega) 2
      * smoothTheta2 (getIndicesNm p).2 (getIndicesNm q).2

theorem getSmoothDoubleWell_eq (num : ℕ) (omega mass a b : ℝ) (dt : DType) :
    getSmoothDoubleWellOneBodyElements num omega mass a b dt = .ok (ofFn dt [num, num]
      (fun i => (smoothWellEntry omega mass a b (i.getD 0 0) (i.getD 1 0) : ℂ))) := by
  unfold getSmoothDoubleWellOneBodyElements
  let A : ℕ → ℕ → ℝ := fun p q =>
    omega ^ 2 / 4 * (1 / a ^ 2) * spfNorm (getIndicesNm p).1 (getIndicesNm p).2 mass omega
      * spfNorm (getIndicesNm q).1 (getIndicesNm q).2 mass omega
      * radialIntegral (spfRadial (getIndicesNm p).1 (getIndicesNm p).2 mass omega)
          (spfRadial (getIndicesNm q).1 (getIndicesNm q).2 mass omega) 4
      * smoothTheta1 (getIndicesNm p).2 (getIndicesNm q).2
  let B : ℕ → ℕ → ℝ := fun p q =>
    omega ^ 2 / 4 * (5 * b / 2) * spfNorm (getIndicesNm p).1 (getIndicesNm p).2 mass omega
      * spfNorm (getIndicesNm q).1 (getIndicesNm q).2 mass omega
      * radialIntegral (spfRadial (getIndicesNm p).1 (getIndicesNm p).2 mass omega)
          (spfRadial (getIndicesNm q).1 (getIndicesNm q).2 mass omega) 2
      * smoothTheta2 (getIndicesNm p).2 (getIndicesNm q).2
  let D : ℕ → ℝ := fun p => omega * getShellEnergy (getIndicesNm p).1 (getIndicesNm p).2
      + omega ^ 2 * a ^ 2 / 64
  let φ : ℕ → ℕ → List ℕ → ℂ → ℂ := fun p q i x =>
    if i = [p, q] then (if i = [p, q] then x + (A p q : ℂ) else x) - (B p q : ℂ)
    else (if i = [p, q] then x + (A p q : ℂ) else x)
  rw [foldlM_pointwise [num, num] _ (fun p i x => (List.range num).foldl (fun x q => φ p q i x)
    (if i = [p, p] then x + (D p : ℂ) else x)) _ _ rfl]
  · congr 1
    unfold pointwise zeros
    simp only [ofFn]
    congr 1
    funext i
    by_cases hi : InRange [num, num] i
    · simp only [hi, if_true]
      obtain ⟨p, q, rfl, hp, hq⟩ := inRange2 hi
      rw [foldl_range_unique (fun p' x => (List.range num).foldl (fun x q' => φ p' q' [p, q] x)
        (if [p, q] = [p', p'] then x + (D p' : ℂ) else x)) num p _ hp]
      · rw [foldl_range_unique (fun q' x => φ p q' [p, q] x) num q _ hq]
        · simp only [φ, List.getD_cons_zero, List.getD_cons_succ, smoothWellEntry]
          by_cases h : p = q
          · subst h; simp [D, B, A]
          · have h' : ¬ q = p := fun e => h e.symm
            simp [h, h', B, A]
        · intro k hk x
          simp only [φ]
          rw [if_neg (by simp [hk.symm]), if_neg (by simp [hk.symm])]
      · intro k hk x
        have : ∀ q' : ℕ, ∀ x, φ k q' [p, q] x = x := by
          intro q' x
          simp only [φ]
          rw [if_neg (by simp [hk.symm]), if_neg (by simp [hk.symm])]
        simp only [this, List.foldl_const]
        rw [if_neg (by simp [hk.symm])]
        induction (List.range num) with
        | nil => rfl
        | cons _ _ ih => simpa using ih
    · simp [hi]
  · intro p hp a' ha
    have hp' : p < num := by simpa using hp
    dsimp only
    rw [modifyItem_ok a' _ (by rw [ha]; exact ⟨hp', hp', trivial⟩)]
    show List.foldlM _ _ _ = _
    rw [foldlM_pointwise [num, num] _ (φ p) _ _ (by rw [pointwise_shape, ha]), pointwise_pointwise]
    intro q hq a' ha
    have hq' : q < num := by simpa using hq
    rw [modifyItem_ok a' _ (by rw [ha]; exact ⟨hp', hq', trivial⟩)]
    show modifyItem _ _ _ = _
    rw [modifyItem_ok _ _ (by rw [pointwise_shape, ha]; exact ⟨hp', hq', trivial⟩), pointwise_pointwise]

open MeasureTheory Spec in
/-- Matrix elements of sums of three products of radial and angular functions. -/
theorem plane_add3 (nm : ℕ → ℤ × ℤ) (mass omega : ℝ) (w v : Fin 3 → ℝ → ℝ) (hv : ∀ k, Continuous (v k)) (p q : ℕ)
    (hw : ∀ k, IntegrableOn (fun r => r * w k r * spfRadial (nm p).1 (nm p).2 mass omega r
            * spfRadial (nm q).1 (nm q).2 mass omega r) (Set.Ioi 0)) :
    planeInner (spfState nm mass omega p)
        (fun r t => ((∑ k, w k r * v k t : ℝ) : ℂ) * spfState nm mass omega q r t)
      = ∑ k, planeInner (spfState nm mass omega p)
          (fun r t => ((w k r * v k t : ℝ) : ℂ) * spfState nm mass omega q r t) := by
  unfold planeInner planeIntegral
  have cont : ∀ (k : Fin 3) (r : ℝ), IntervalIntegrable (fun t =>
      (starRingEnd ℂ) (spfState nm mass omega p r t)
        * (((w k r * v k t : ℝ) : ℂ) * spfState nm mass omega q r t)) volume 0 (2 * Real.pi) := by
    intro k r
    refine Continuous.intervalIntegrable ?_ _ _
    simp only [bra_ket]
    have : Continuous fun t : ℝ => ((v k t : ℝ) : ℂ) := Complex.continuous_ofReal.comp (hv k)
    push_cast
    fun_prop
  have split : ∀ r : ℝ, (∫ t in (0 : ℝ)..2 * Real.pi, (starRingEnd ℂ) (spfState nm mass omega p r t)
        * (((∑ k, w k r * v k t : ℝ) : ℂ) * spfState nm mass omega q r t)) * (r : ℂ)
      = ∑ k, (∫ t in (0 : ℝ)..2 * Real.pi, (starRingEnd ℂ) (spfState nm mass omega p r t)
        * (((w k r * v k t : ℝ) : ℂ) * spfState nm mass omega q r t)) * (r : ℂ) := by
    intro r
    rw [← Finset.sum_mul, ← intervalIntegral.integral_finsetSum (fun k _ => cont k r)]
    congr 2
    funext t
    rw [← Finset.mul_sum, ← Finset.sum_mul]
    push_cast
    rfl
  simp only [split]
  have int : ∀ k,
      IntegrableOn (fun r : ℝ => (∫ t in (0 : ℝ)..2 * Real.pi, (starRingEnd ℂ) (spfState nm mass omega p r t)
        * (((w k r * v k t : ℝ) : ℂ) * spfState nm mass omega q r t)) * (r : ℂ)) (Set.Ioi 0) := by
    intro k
    simp only [plane_inner_factor]
    exact (((hw k).const_mul _).ofReal).mul_const _
  exact integral_finsetSum _ fun k _ => int k

end QS.TwoDim
