import Verif.Model.RoundingCoulomb
import Verif.Spec.CoulombScale
import Verif.Lemmas.Coulomb
import Verif.Props.Rounding
import Mathlib.Analysis.SpecialFunctions.Gamma.Beta

/-!
# The Coulomb routine in floating-point arithmetic
-/

namespace QS.Rounding

open Finset Spec Coulomb QS.Props

/-! ## The sums of the loops as sums over lists -/

theorem sum_flatMap {α β M : Type} [AddCommMonoid M] (L : List α) (g : α → List β) (f : β → M) :
    ((L.flatMap g).map f).sum = (L.map fun x => ((g x).map f).sum).sum := by
  induction L with
  | nil => simp
  | cons a L ih => simp [ih]

theorem sum_filter_map {α β M : Type} [AddCommMonoid M] (L : List α) (p : α → Prop) [DecidablePred p] (g : α → β)
    (f : β → M) :
    (((L.filter fun x => p x).map g).map f).sum = (L.map fun x => if p x then f (g x) else 0).sum := by
  induction L with
  | nil => simp
  | cons a L ih =>
    by_cases h : p a
    · simp only [List.filter_cons, h, decide_true, if_true, List.map_cons, List.sum_cons, ih]
    · rw [List.map_cons, List.sum_cons, if_neg h, zero_add, List.filter_cons_of_neg (by simpa using h), ih]

theorem sum_innerList {M : Type} [AddCommMonoid M] (g : Fin 4 → ℤ) (f : ℕ × ℕ × ℕ × ℕ → M) :
    ((innerList g).map f).sum = ∑ l1 ∈ range (g 0 + 1).toNat, ∑ l2 ∈ range (g 1 + 1).toNat,
      ∑ l3 ∈ range (g 2 + 1).toNat, ∑ l4 ∈ range (g 3 + 1).toNat,
        if l1 + l2 = l3 + l4 then f (l1, l2, l3, l4) else 0 := by
  simp only [innerList, sum_flatMap, sum_filter_map, list_sum_range]

theorem sum_outerList {M : Type} [AddCommMonoid M] (a b c d : ℤ) (f : ℕ × ℕ × ℕ × ℕ → M) :
    ((outerList a b c d).map f).sum = ∑ l1 ∈ range (a + 1).toNat, ∑ l2 ∈ range (b + 1).toNat,
      ∑ l3 ∈ range (c + 1).toNat, ∑ l4 ∈ range (d + 1).toNat, f (l1, l2, l3, l4) := by
  simp only [outerList, sum_flatMap, List.map_map, list_sum_range, Function.comp_def]

theorem logTerms_sum (s : ℝ) (n : ℤ) : (logTerms s n).sum = s * logFactorial n := by
  rw [logTerms, list_sum_range, logFactorial, NDArray.foldl_range_add, zero_add, mul_sum]

theorem outerTerms_sum (n m j : Fin 4 → ℤ) (G : ℤ) :
    (outerTerms n m j G).sum = logRatio1 j + logProduct2 n m j + logRatio2 G := by
  simp only [outerTerms, finRange4, logRatio1, logProduct2, List.flatMap_cons, List.flatMap_nil, List.sum_append,
    List.sum_cons, List.sum_nil, logTerms_sum, List.foldl_cons, List.foldl_nil]
  ring

theorem innerTerms_sum (g l : Fin 4 → ℤ) :
    (innerTerms g l).sum = logProduct3 l g + lgamma (1 + 1 / 2 * ((l 0 + l 1 + l 2 + l 3 : ℤ) : ℝ)) +
      lgamma (1 / 2 * (((g 0 + g 1 + g 2 + g 3 : ℤ) : ℝ) - ((l 0 + l 1 + l 2 + l 3 : ℤ) : ℝ) + 1)) := by
  simp only [innerTerms, finRange4, logProduct3, List.flatMap_cons, List.flatMap_nil, List.sum_append,
    List.sum_cons, List.sum_nil, logTerms_sum, List.foldl_cons, List.foldl_nil]
  ring

theorem normTerms_sum (n m : Fin 4 → ℤ) : Real.exp (normTerms n m).sum = logProduct1 n m := by
  rw [logProduct1]
  congr 1
  simp only [normTerms, finRange4, List.flatMap_cons, List.flatMap_nil, List.sum_append,
    List.sum_nil, logTerms_sum, List.foldl_cons, List.foldl_nil]
  ring

theorem innerLoops_list (g : Fin 4 → ℤ) :
    innerLoops g = ((innerList g).map fun l =>
      sign (g 1 + g 2 - arr l 1 - arr l 2) * Real.exp (innerTerms g (arr l)).sum).sum := by
  have step (P : Prop) [Decidable P] (x y : ℝ) :
      (if ¬ P then x else x + y) = x + (if P then y else 0) := by split_ifs <;> simp
  rw [sum_innerList]
  simp only [innerLoops, ne_eq, step, NDArray.foldl_range_add, zero_add, innerTerms_sum, arr]

/-- The array `g` for a tuple `j`. -/
abbrev gOf (mi mj mk ml : ℤ) (j : ℕ × ℕ × ℕ × ℕ) : Fin 4 → ℤ := gArr mi mj mk ml j.1 j.2.1 j.2.2.1 j.2.2.2

/-- The exponent of the outer loops. -/
noncomputable abbrev outerOf (ni nj nk nl mi mj mk ml : ℤ) (j : ℕ × ℕ × ℕ × ℕ) : List ℝ :=
  outerTerms ![ni, nj, nk, nl] ![mi, mj, mk, ml] (arr j)
    (gOf mi mj mk ml j 0 + gOf mi mj mk ml j 1 + gOf mi mj mk ml j 2 + gOf mi mj mk ml j 3)

theorem coulombHo_list {ni mi nj mj nl ml nk mk : ℤ} (h : mi + mj = mk + ml) :
    coulombHo ni mi nj mj nl ml nk mk = ((outerList ni nj nk nl).map fun j =>
      sign (arr j 0 + arr j 1 + arr j 2 + arr j 3) * Real.exp (outerOf ni nj nk nl mi mj mk ml j).sum *
        innerLoops (gOf mi mj mk ml j)).sum * Real.exp (normTerms ![ni, nj, nk, nl] ![mi, mj, mk, ml]).sum := by
  rw [sum_outerList, coulombHo, if_neg (by simpa using h), normTerms_sum]
  simp only [NDArray.foldl_range_add, zero_add, outerTerms_sum, arr]

theorem innerScale_list (a b c d : ℕ) :
    ((innerList ![(a : ℤ), b, c, d]).map fun l => Real.exp (innerTerms ![(a : ℤ), b, c, d] (arr l)).sum).sum =
      amInnerScale a b c d := by
  have t (k : ℕ) : ((k : ℤ) + 1).toNat = k + 1 := by omega
  rw [sum_innerList]
  simp only [amInnerScale, Matrix.cons_val, t]
  refine sum_congr rfl fun l1 h1 => sum_congr rfl fun l2 h2 => sum_congr rfl fun l3 h3 =>
    sum_congr rfl fun l4 h4 => ?_
  simp only [mem_range, Nat.lt_succ_iff] at h1 h2 h3 h4
  by_cases hc : l1 + l2 = l3 + l4
  · rw [if_pos hc, if_pos hc, innerTerms_sum]
    simp only [arr, Matrix.cons_val]
    rw [Real.exp_add, Real.exp_add, exp_logProduct3 h1 h2 h3 h4, exp_lgamma, exp_lgamma]
    · rw [show (1 : ℝ) + 1 / 2 * (((l1 : ℤ) + l2 + l3 + l4 : ℤ) : ℝ)
          = 1 + ((l1 + l2 + l3 + l4 : ℕ) : ℝ) / 2 by push_cast; ring,
        show (1 / 2 : ℝ) * ((((a : ℤ) + b + c + d : ℤ) : ℝ) - (((l1 : ℤ) + l2 + l3 + l4 : ℤ) : ℝ) + 1)
          = (((a + b + c + d : ℕ) : ℝ) - (l1 + l2 + l3 + l4 : ℕ) + 1) / 2 by push_cast; ring]
    · have : ((l1 + l2 + l3 + l4 : ℕ) : ℝ) ≤ ((a + b + c + d : ℕ) : ℝ) := by exact_mod_cast (by omega)
      push_cast at this ⊢
      linarith
    · push_cast; positivity
  · rw [if_neg hc, if_neg hc]

theorem scale_list (ni nj nk nl : ℕ) (mi mj mk ml : ℤ) :
    ((outerList ni nj nk nl).map fun j => Real.exp (outerOf ni nj nk nl mi mj mk ml j).sum *
      ((innerList (gOf mi mj mk ml j)).map fun l => Real.exp (innerTerms (gOf mi mj mk ml j) (arr l)).sum).sum).sum *
      Real.exp (normTerms ![(ni : ℤ), nj, nk, nl] ![mi, mj, mk, ml]).sum = amScale ni nj nk nl mi mj mk ml := by
  have t (k : ℕ) : ((k : ℤ) + 1).toNat = k + 1 := by omega
  rw [sum_outerList, normTerms_sum, logProduct1_eq, amScale, mul_comm]
  congr 1
  simp only [t]
  refine sum_congr rfl fun j1 h1 => sum_congr rfl fun j2 h2 => sum_congr rfl fun j3 h3 =>
    sum_congr rfl fun j4 h4 => ?_
  simp only [mem_range, Nat.lt_succ_iff] at h1 h2 h3 h4
  simp only [gArr_eq, innerScale_list]
  congr 1
  simp only [outerOf, gOf, gArr_eq, outerTerms_sum, arr, Matrix.cons_val]
  rw [Real.exp_add, Real.exp_add, exp_logRatio1, exp_logProduct2 mi mj mk ml h1 h2 h3 h4]
  simp only [← Nat.cast_add]
  rw [exp_logRatio2]

/-! ## Relative errors with a factor -/

/-- `x` is `e` up to the factor `c` of its terms; `T` bounds the sum of the absolute values of the terms of `e`. -/
def Close (c : ℝ) (x e : ℂ) (T : ℝ) : Prop := ‖x - e‖ ≤ (c - 1) * T ∧ ‖e‖ ≤ T

theorem Close.nonneg {c : ℝ} {x e : ℂ} {T : ℝ} (h : Close c x e T) : 0 ≤ T := (norm_nonneg _).trans h.2

theorem Close.norm_le {c : ℝ} {x e : ℂ} {T : ℝ} (h : Close c x e T) : ‖x‖ ≤ c * T := by
  have : ‖x‖ ≤ ‖x - e‖ + ‖e‖ := by
    simpa using norm_add_le (x - e) e
  have := h.1
  have := h.2
  linarith

theorem Close.mono {c c' : ℝ} {x e : ℂ} {T : ℝ} (h : Close c x e T) (hc : c ≤ c') : Close c' x e T :=
  ⟨h.1.trans (mul_le_mul_of_nonneg_right (by linarith) h.nonneg), h.2⟩

theorem Close.near {u : ℝ} (hu : 0 ≤ u) {c : ℝ} {x e z : ℂ} {T : ℝ} (h : Close c x e T) (hz : Near u x z) :
    Close (c * (1 + u)) z e T := by
  refine ⟨?_, h.2⟩
  have h1 : ‖z - e‖ ≤ ‖z - x‖ + ‖x - e‖ := norm_sub_le_norm_sub_add_norm_sub _ _ _
  have h2 : u * ‖x‖ ≤ u * (c * T) := mul_le_mul_of_nonneg_left h.norm_le hu
  have h3 := h.1
  unfold Near at hz
  linarith

theorem Close.add {c : ℝ} {x e y f : ℂ} {T S : ℝ} (h : Close c x e T) (h' : Close c y f S) :
    Close c (x + y) (e + f) (T + S) := by
  refine ⟨?_, (norm_add_le _ _).trans (add_le_add h.2 h'.2)⟩
  rw [show x + y - (e + f) = (x - e) + (y - f) by ring, mul_add]
  exact (norm_add_le _ _).trans (add_le_add h.1 h'.1)

theorem Close.mul {c c' : ℝ} (hc : 1 ≤ c) {x e y f : ℂ} {T S : ℝ} (h : Close c x e T) (h' : Close c' y f S) :
    Close (c * c') (x * y) (e * f) (T * S) := by
  refine ⟨?_, by rw [norm_mul]; exact mul_le_mul h.2 h'.2 (norm_nonneg _) h.nonneg⟩
  have e1 : x * y - e * f = (x - e) * y + e * (y - f) := by ring
  have h1 : ‖x * y - e * f‖ ≤ ‖x - e‖ * ‖y‖ + ‖e‖ * ‖y - f‖ := by
    rw [e1, ← norm_mul, ← norm_mul]
    exact norm_add_le _ _
  have h2 : ‖x - e‖ * ‖y‖ ≤ (c - 1) * T * (c' * S) :=
    mul_le_mul h.1 h'.norm_le (norm_nonneg _) (mul_nonneg (by linarith) h.nonneg)
  have h3 : ‖e‖ * ‖y - f‖ ≤ T * ((c' - 1) * S) := mul_le_mul h.2 h'.1 (norm_nonneg _) h.nonneg
  have h4 : (c - 1) * T * (c' * S) + T * ((c' - 1) * S) = (c * c' - 1) * (T * S) := by ring
  linarith

/-- Multiplication by a sign is exact. -/
theorem Close.sign {c : ℝ} {x e : ℂ} {T : ℝ} (h : Close c x e T) {s : ℂ} (hs : ‖s‖ = 1) : Close c (s * x) (s * e) T := by
  constructor
  · rw [← mul_sub, norm_mul, hs, one_mul]; exact h.1
  · rw [norm_mul, hs, one_mul]; exact h.2

theorem Close.sum {ι : Type} {u : ℝ} (hu : 0 ≤ u) {c : ℝ} (hc : 1 ≤ c) {t e : ι → ℂ} {T : ι → ℝ} {L : List ι} {d : ℕ}
    {z : ℂ} (h : ∀ i ∈ L, Close c (t i) (e i) (T i)) (hs : FloatSum u t L d z) :
    Close (c * (1 + u) ^ d) z (L.map e).sum (L.map T).sum := by
  have mono {d d' : ℕ} (hd : d ≤ d') : c * (1 + u) ^ d ≤ c * (1 + u) ^ d' :=
    mul_le_mul_of_nonneg_left (pow_le_pow_right₀ (by linarith) hd) (by linarith)
  induction hs with
  | nil => constructor <;> simp
  | single i => simpa using h i (by simp)
  | add _ _ hz ih ih' =>
    rename_i L L' d d' x y z _ _
    have i1 := (ih fun i hi => h i (by simp [hi])).mono (mono (show d ≤ d + d' by omega))
    have i2 := (ih' fun i hi => h i (by simp [hi])).mono (mono (show d' ≤ d + d' by omega))
    rw [List.map_append, List.map_append, List.sum_append, List.sum_append, pow_succ, ← mul_assoc]
    exact (i1.add i2).near hu hz
  | perm _ hp ih =>
    rw [← (hp.map e).sum_eq, ← (hp.map T).sum_eq]
    exact ih fun i hi => h i (hp.mem_iff.1 hi)

theorem abs_exp_sub_one (y : ℝ) : |Real.exp y - 1| ≤ Real.exp |y| - 1 := by
  rcases le_total 0 y with h | h
  · rw [abs_of_nonneg h, abs_of_nonneg (by linarith [Real.one_le_exp h])]
  · rw [abs_of_nonpos h, abs_of_nonpos (by linarith [Real.exp_le_one_iff.2 h])]
    linarith [Real.add_one_le_exp y, Real.add_one_le_exp (-y)]

/-- An error in the exponent becomes a relative error of the exponential. -/
theorem Close.exp {X x δ : ℝ} (h : |X - x| ≤ δ) : Close (Real.exp δ) (Real.exp X : ℝ) (Real.exp x : ℝ) (Real.exp x) := by
  constructor
  · rw [← Complex.ofReal_sub, Complex.norm_real, Real.norm_eq_abs,
      show Real.exp X - Real.exp x = (Real.exp (X - x) - 1) * Real.exp x by rw [Real.exp_sub]; field_simp, abs_mul,
      abs_of_pos (Real.exp_pos x)]
    refine mul_le_mul_of_nonneg_right ((abs_exp_sub_one _).trans ?_) (Real.exp_pos x).le
    linarith [Real.exp_le_exp.2 h]
  · rw [Complex.norm_real, Real.norm_of_nonneg (Real.exp_pos x).le]

/-- The sum of the absolute values of a list. -/
noncomputable def absSum (E : List ℝ) : ℝ := (E.map fun x => |x|).sum

theorem absSum_nonneg (E : List ℝ) : 0 ≤ absSum E := List.sum_nonneg (by simp)

theorem sum_getD {M : Type} [AddCommMonoid M] (E : List ℝ) (f : ℝ → M) :
    ∑ i ∈ range E.length, f (E.getD i 0) = (E.map f).sum := by
  induction E with
  | nil => simp
  | cons a E ih =>
    rw [List.length_cons, sum_range_succ', List.map_cons, List.sum_cons, ← ih, add_comm]
    simp

theorem FloatExp.close {u : ℝ} (hu : 0 ≤ u) {d : ℕ} {E : List ℝ} {e W : ℝ} (hW : absSum E ≤ W)
    (h : FloatExp u d E e) :
    Close (Real.exp (((1 + u) ^ (d + 2) - 1) * W) * (1 + u)) e (Real.exp E.sum : ℝ) (Real.exp E.sum) := by
  obtain ⟨t, X, ht, hX, he⟩ := h
  have w := Within.trace hu (k := 2) (e := fun i => ((E.getD i 0 : ℝ) : ℂ)) (T := fun i => |E.getD i 0|)
    (fun i hi => by
      obtain ⟨y, h1, h2⟩ := ht i hi
      have := ((Within.exact u ((E.getD i 0 : ℝ) : ℂ)).near hu h1).near hu h2
      rwa [Complex.norm_real, Real.norm_eq_abs] at this) hX
  have w1 := w.1
  rw [← Complex.ofReal_sum, sum_getD E (fun x => x), sum_getD E (fun x => |x|), ← Complex.ofReal_sub,
    Complex.norm_real, Real.norm_eq_abs, List.map_id', Nat.add_comm 2 d] at w1
  refine (Close.exp ?_).near hu he
  refine w1.trans (mul_le_mul_of_nonneg_left hW (sub_nonneg.2 (pow_ge hu _)))

theorem sign_norm (k : ℤ) : ‖((sign k : ℝ) : ℂ)‖ = 1 := by
  rw [sign, Complex.norm_real, Real.norm_eq_abs]
  rcases Int.emod_two_eq_zero_or_one k with h | h <;> rw [h] <;> norm_num

theorem ofReal_list_sum (L : List α) (f : α → ℝ) :
    (((L.map f).sum : ℝ) : ℂ) = (L.map fun x => ((f x : ℝ) : ℂ)).sum := by
  induction L with
  | nil => simp
  | cons a L ih => simp [ih]

theorem FloatInner.close {u : ℝ} (hu : 0 ≤ u) {d : ℕ} {g : Fin 4 → ℤ} {z W : ℝ} (hW0 : 0 ≤ W)
    (hW : ∀ l ∈ innerList g, absSum (innerTerms g (arr l)) ≤ W) (h : FloatInner u d g z) :
    Close (Real.exp (((1 + u) ^ (d + 2) - 1) * W) * (1 + u) * (1 + u) ^ d) z (innerLoops g : ℝ)
      ((innerList g).map fun l => Real.exp (innerTerms g (arr l)).sum).sum := by
  obtain ⟨e, he, d', hd, hs⟩ := h
  have hδ : 0 ≤ (1 + u) ^ (d + 2) - 1 := sub_nonneg.2 (pow_ge hu _)
  have hc : 1 ≤ Real.exp (((1 + u) ^ (d + 2) - 1) * W) * (1 + u) :=
    one_le_mul_of_one_le_of_one_le (Real.one_le_exp (mul_nonneg hδ hW0)) (by linarith)
  have := Close.sum hu hc (e := fun l => ((sign (g 1 + g 2 - arr l 1 - arr l 2) *
      Real.exp (innerTerms g (arr l)).sum : ℝ) : ℂ)) (T := fun l => Real.exp (innerTerms g (arr l)).sum)
    (fun l hl => by
      have := ((he l hl).close hu (hW l hl)).sign (sign_norm (g 1 + g 2 - arr l 1 - arr l 2))
      simpa only [Complex.ofReal_mul] using this) hs
  rw [innerLoops_list, ofReal_list_sum]
  exact this.mono (mul_le_mul_of_nonneg_left (pow_le_pow_right₀ (by linarith) hd) (by linarith))

theorem FloatCoulomb.close {u : ℝ} (hu : 0 ≤ u) {d : ℕ} {ni nj nk nl : ℕ} {mi mj mk ml : ℤ} {z Wo Wi Wn : ℝ}
    (hm : mi + mj = mk + ml) (hWo0 : 0 ≤ Wo) (hWi0 : 0 ≤ Wi)
    (hWo : ∀ j ∈ outerList ni nj nk nl, absSum (outerOf ni nj nk nl mi mj mk ml j) ≤ Wo)
    (hWi : ∀ j ∈ outerList ni nj nk nl, ∀ l ∈ innerList (gOf mi mj mk ml j),
      absSum (innerTerms (gOf mi mj mk ml j) (arr l)) ≤ Wi)
    (hWn : absSum (normTerms ![(ni : ℤ), nj, nk, nl] ![mi, mj, mk, ml]) ≤ Wn)
    (h : FloatCoulomb u d ni mi nj mj nl ml nk mk z) :
    |z - coulombHo ni mi nj mj nl ml nk mk| ≤
      (Real.exp (((1 + u) ^ (d + 2) - 1) * (Wo + Wi + Wn)) * (1 + u) ^ (2 * d + 5) - 1) *
        amScale ni nj nk nl mi mj mk ml := by
  rw [FloatCoulomb, if_neg (by simpa using hm)] at h
  obtain ⟨e, temp, t, el, N, hj, ⟨d', hd, hs⟩, hN, hz⟩ := h
  set δ := (1 + u) ^ (d + 2) - 1 with hδd
  have hδ : 0 ≤ δ := sub_nonneg.2 (pow_ge hu _)
  have hWn0 : 0 ≤ Wn := (absSum_nonneg _).trans hWn
  have one (W : ℝ) (hW : 0 ≤ W) : 1 ≤ Real.exp (δ * W) * (1 + u) :=
    one_le_mul_of_one_le_of_one_le (Real.one_le_exp (mul_nonneg hδ hW)) (by linarith)
  have hp := pow_ge hu d
  have c1 := fun j hjm => ((((hj j hjm).1.close hu (hWo j hjm)).mul (one Wo hWo0)
    ((hj j hjm).2.1.close hu hWi0 (hWi j hjm))).sign
      (sign_norm (arr j 0 + arr j 1 + arr j 2 + arr j 3))).near hu (z := t j) (by
        have := (hj j hjm).2.2
        rwa [Complex.ofReal_mul, Complex.ofReal_mul, mul_assoc] at this)
  have hc : 1 ≤ Real.exp (δ * Wo) * (1 + u) * (Real.exp (δ * Wi) * (1 + u) * (1 + u) ^ d) * (1 + u) :=
    one_le_mul_of_one_le_of_one_le (one_le_mul_of_one_le_of_one_le (one Wo hWo0)
      (one_le_mul_of_one_le_of_one_le (one Wi hWi0) hp)) (by linarith)
  have c2 := (Close.sum hu hc c1 hs).mono (mul_le_mul_of_nonneg_left
    (pow_le_pow_right₀ (show 1 ≤ 1 + u by linarith) hd) (by linarith))
  have c3 := (c2.mul (one_le_mul_of_one_le_of_one_le hc hp) (hN.close hu hWn)).near hu (z := z) (by
    rwa [Complex.ofReal_mul] at hz)
  have e1 := c3.1
  rw [scale_list] at e1
  rw [coulombHo_list hm, ← Real.norm_eq_abs, ← Complex.norm_real, Complex.ofReal_sub, Complex.ofReal_mul,
    ofReal_list_sum]
  refine le_of_eq_of_le ?_ (e1.trans (le_of_eq ?_))
  · simp only [Complex.ofReal_mul, mul_assoc]
  · congr 2
    rw [show δ * (Wo + Wi + Wn) = δ * Wo + δ * Wi + δ * Wn by ring, Real.exp_add, Real.exp_add, ← hδd]
    ring

end QS.Rounding
