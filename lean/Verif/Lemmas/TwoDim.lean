import Verif.Lemmas.Laguerre
import Verif.Lemmas.Angular
import Verif.Spec.Angular

/-!
# Evaluation of the two-dimensional oscillator's loops
-/

namespace QS.TwoDim

open Finset NDArray Idx

theorem inRange2 {n m : ℕ} {i : List ℕ} (h : InRange [n, m] i) : ∃ p q, i = [p, q] ∧ p < n ∧ q < m := by
  match i, h with
  | [p, q], ⟨hp, hq, _⟩ => exact ⟨p, q, rfl, hp, hq⟩

theorem inRange3 {n m k : ℕ} {i : List ℕ} (h : InRange [n, m, k] i) :
    ∃ p q r, i = [p, q, r] ∧ p < n ∧ q < m ∧ r < k := by
  match i, h with
  | [p, q, r], ⟨hp, hq, hr, _⟩ => exact ⟨p, q, r, rfl, hp, hq, hr⟩

theorem getOneBodyElements_eq (num : ℕ) : getOneBodyElements num
    = .ok (ofFn .float64 [num, num] (fun i => if i.getD 0 0 = i.getD 1 0 then
        ((getShellEnergy (getIndicesNm (i.getD 0 0)).1 (getIndicesNm (i.getD 0 0)).2 : ℤ) : ℂ) else 0)) := by
  unfold getOneBodyElements
  rw [foldlM_pointwise [num, num] _ (fun p i x => if i = [p, p] then
    ((getShellEnergy (getIndicesNm p).1 (getIndicesNm p).2 : ℤ) : ℂ) else x) _ _ rfl]
  · congr 1
    unfold pointwise zeros
    simp only [ofFn]
    congr 1
    funext i
    by_cases hi : InRange [num, num] i
    · simp only [hi, if_true]
      obtain ⟨p, q, rfl, hp, hq⟩ := inRange2 hi
      rw [foldl_range_unique (fun p' x => if [p, q] = [p', p'] then
        ((getShellEnergy (getIndicesNm p').1 (getIndicesNm p').2 : ℤ) : ℂ) else x) num p _ hp]
      · by_cases h : p = q
        · subst h; simp
        · rw [if_neg (by simp; exact fun e => h e.symm), if_neg (by simpa using h)]
      · intro k hk x; simp [hk.symm]
    · simp [hi]
  · intro p hp a ha
    refine setItem_ok a _ ?_
    rw [ha]
    exact ⟨by simpa using hp, by simpa using hp, trivial⟩

/-- The dipole element the loop stores. -/
noncomputable def dipoleEntry (nm : ℕ → ℤ × ℤ) (omega mass : ℝ) (k p q : ℕ) : ℂ :=
  if |(nm p).2 - (nm q).2| = 1 then
    ((spfNorm (nm p).1 (nm p).2 mass omega : ℂ) * spfNorm (nm q).1 (nm q).2 mass omega)
      * (radialIntegral (spfRadial (nm p).1 (nm p).2 mass omega)
          (spfRadial (nm q).1 (nm q).2 mass omega) : ℂ)
      * (if k = 0 then theta1 (nm p).2 (nm q).2 else theta2 (nm p).2 (nm q).2)
  else 0

theorem constructDipoleMoment_eq (nm : ℕ → ℤ × ℤ) (l : ℕ) (omega mass : ℝ) :
    constructDipoleMoment nm l omega mass = .ok (ofFn .complex128 [2, l, l]
      (fun i => dipoleEntry nm omega mass (i.getD 0 0) (i.getD 1 0) (i.getD 2 0))) := by
  unfold constructDipoleMoment
  rw [foldlM_pointwise [2, l, l] _ (fun p i x => (List.range l).foldl (fun x q =>
    if |(nm p).2 - (nm q).2| = 1 ∧ (i = [0, p, q] ∨ i = [1, p, q]) then
      dipoleEntry nm omega mass (i.getD 0 0) p q else x) x) _ _ rfl]
  · congr 1
    unfold pointwise zeros
    simp only [ofFn]
    congr 1
    funext i
    by_cases hi : InRange [2, l, l] i
    · simp only [hi, if_true]
      obtain ⟨k, p, q, rfl, hk, hp, hq⟩ := inRange3 hi
      simp only [List.getD_cons_zero, List.getD_cons_succ]
      rw [foldl_range_unique (fun p' x => (List.range l).foldl (fun x q' =>
        if |(nm p').2 - (nm q').2| = 1 ∧ ([k, p, q] = [0, p', q'] ∨ [k, p, q] = [1, p', q']) then
          dipoleEntry nm omega mass k p' q' else x) x) l p _ hp]
      · rw [foldl_range_unique (fun q' x =>
          if |(nm p).2 - (nm q').2| = 1 ∧ ([k, p, q] = [0, p, q'] ∨ [k, p, q] = [1, p, q']) then
            dipoleEntry nm omega mass k p q' else x) l q _ hq]
        · by_cases h : |(nm p).2 - (nm q).2| = 1
          · rw [if_pos ⟨h, by simp; omega⟩]
          · rw [if_neg (fun h' => h h'.1), dipoleEntry, if_neg h]
        · intro j hj x; simp [hj.symm]
      · intro j hj x; simp [hj.symm, List.foldl_const]
    · simp [hi]
  · intro p hp a ha
    have hp' : p < l := by simpa using hp
    dsimp only
    rw [foldlM_pointwise [2, l, l] _ (fun q i x =>
      if |(nm p).2 - (nm q).2| = 1 ∧ (i = [0, p, q] ∨ i = [1, p, q]) then
        dipoleEntry nm omega mass (i.getD 0 0) p q else x) _ _ ha]
    intro q hq a ha
    have hq' : q < l := by simpa using hq
    by_cases h : |(nm p).2 - (nm q).2| = 1
    · rw [if_neg (by simpa using h), setItem_ok a _ (by rw [ha]; exact ⟨by omega, hp', hq', trivial⟩)]
      show setItem _ _ _ = _
      rw [setItem_ok _ _ (by rw [pointwise_shape, ha]; exact ⟨by omega, hp', hq', trivial⟩),
        pointwise_pointwise]
      congr 1
      refine pointwise_congr _ fun i _ => ?_
      by_cases h0 : i = [0, p, q]
      · subst h0
        simp [h, dipoleEntry]
      by_cases h1 : i = [1, p, q]
      · subst h1
        simp [h, dipoleEntry]
      · simp [h0, h1]
    · rw [if_pos (by simpa using h)]
      simp only [h, false_and, if_false, pointwise_id]

/-- The double-well element the loops store. -/
noncomputable def doubleWellEntry (omega mass barrier : ℝ) (axis p q : ℕ) : ℝ :=
  (if p = q then omega * getShellEnergy (getIndicesNm p).1 (getIndicesNm p).2
      + omega ^ 2 * barrier ^ 2 / 8 else 0)
  - (if |(getIndicesNm p).2 - (getIndicesNm q).2| = 1 then 0 else
      1 / 2 * omega ^ 2 * barrier * spfNorm (getIndicesNm p).1 (getIndicesNm p).2 mass omega
        * spfNorm (getIndicesNm q).1 (getIndicesNm q).2 mass omega
        * radialIntegral (spfRadial (getIndicesNm p).1 (getIndicesNm p).2 mass omega)
            (spfRadial (getIndicesNm q).1 (getIndicesNm q).2 mass omega)
        * (if axis = 0 then theta1Tilde (getIndicesNm p).2 (getIndicesNm q).2
            else theta2Tilde (getIndicesNm p).2 (getIndicesNm q).2))

theorem getDoubleWell_eq (num : ℕ) (omega mass barrier : ℝ) (dt : DType) (axis : ℕ) :
    getDoubleWellOneBodyElements num omega mass barrier dt axis = .ok (ofFn dt [num, num]
      (fun i => (doubleWellEntry omega mass barrier axis (i.getD 0 0) (i.getD 1 0) : ℂ))) := by
  unfold getDoubleWellOneBodyElements
  let B : ℕ → ℕ → ℝ := fun p q =>
    1 / 2 * omega ^ 2 * barrier * spfNorm (getIndicesNm p).1 (getIndicesNm p).2 mass omega
        * spfNorm (getIndicesNm q).1 (getIndicesNm q).2 mass omega
        * radialIntegral (spfRadial (getIndicesNm p).1 (getIndicesNm p).2 mass omega)
            (spfRadial (getIndicesNm q).1 (getIndicesNm q).2 mass omega)
        * (if axis = 0 then theta1Tilde (getIndicesNm p).2 (getIndicesNm q).2
            else theta2Tilde (getIndicesNm p).2 (getIndicesNm q).2)
  let D : ℕ → ℝ := fun p => omega * getShellEnergy (getIndicesNm p).1 (getIndicesNm p).2
      + omega ^ 2 * barrier ^ 2 / 8
  let φ : ℕ → ℕ → List ℕ → ℂ → ℂ := fun p q i x =>
    if |(getIndicesNm p).2 - (getIndicesNm q).2| = 1 then x else if i = [p, q] then x - (B p q : ℂ) else x
  rw [foldlM_pointwise [num, num] _ (fun p i x => (List.range num).foldl (fun x q => φ p q i x)
    (if i = [p, p] then x + (D p : ℂ) else x)) _ _ rfl]
  · congr 1
    unfold pointwise zeros
    simp only [ofFn]
    congr 1
    funext i
    by_cases hi : InRange [num, num] i
    · simp only [hi, if_true]
      obtain ⟨p, q, rfl, hp, hq⟩ := inRange2 hi
      rw [foldl_range_unique (fun p' x => (List.range num).foldl (fun x q' => φ p' q' [p, q] x)
        (if [p, q] = [p', p'] then x + (D p' : ℂ) else x)) num p _ hp]
      · rw [foldl_range_unique (fun q' x => φ p q' [p, q] x) num q _ hq]
        · simp only [φ, List.getD_cons_zero, List.getD_cons_succ, doubleWellEntry]
          by_cases h : p = q
          · subst h; simp [D, B]
          · have h' : ¬ q = p := fun e => h e.symm
            by_cases h1 : |(getIndicesNm p).2 - (getIndicesNm q).2| = 1
            · simp [h, h', h1]
            · simp [h, h', h1, B]
        · intro k hk x
          simp only [φ]
          split_ifs with h1 h2
          · rfl
          · simp at h2; exact absurd h2.symm hk
          · rfl
      · intro k hk x
        have : ∀ q' : ℕ, ∀ x, φ k q' [p, q] x = x := by
          intro q' x
          simp only [φ]
          split_ifs with h1 h2
          · rfl
          · simp at h2; exact absurd h2.1.symm hk
          · rfl
        simp only [this, List.foldl_const]
        rw [if_neg (by simp [hk.symm])]
        induction (List.range num) with
        | nil => rfl
        | cons _ _ ih => simpa using ih
    · simp [hi]
  · intro p hp a ha
    have hp' : p < num := by simpa using hp
    dsimp only
    rw [modifyItem_ok a _ (by rw [ha]; exact ⟨hp', hp', trivial⟩)]
    show List.foldlM _ _ _ = _
    rw [foldlM_pointwise [num, num] _ (φ p) _ _ (by rw [pointwise_shape, ha]), pointwise_pointwise]
    intro q hq a ha
    have hq' : q < num := by simpa using hq
    by_cases h1 : |(getIndicesNm p).2 - (getIndicesNm q).2| = 1
    · rw [if_pos h1, show φ p q = fun _ x => x from by funext i x; exact if_pos h1, pointwise_id]
    · rw [if_neg h1, show φ p q = fun i x => if i = [p, q] then x - (B p q : ℂ) else x from by
        funext i x; exact if_neg h1]
      exact modifyItem_ok a _ (by rw [ha]; exact ⟨hp', hq', trivial⟩)

end QS.TwoDim
