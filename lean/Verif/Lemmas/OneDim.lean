import Verif.Model.OneDim
import Verif.Spec.OneDim
import Verif.Core.Loops

/-!
# Evaluation of the one-dimensional quantum dots
-/

namespace QS.OneDim

open NDArray PyM Spec

/-! ## Loops and rows -/

theorem ok_bind {α β : Type} (a : α) (f : α → Except PyErr β) : (Except.ok a >>= f) = f a := rfl

theorem foldlM_congr {α ι : Type} {f g : α → ι → Except PyErr α} {L : List ι} {a : α}
    (h : ∀ k ∈ L, ∀ a, f a k = g a k) : L.foldlM f a = L.foldlM g a := by
  induction L generalizing a with
  | nil => rfl
  | cons k L ih =>
    rw [List.foldlM_cons, List.foldlM_cons, h k (by simp)]
    congr 1
    funext b
    exact ih (fun k hk => h k (by simp [hk]))

theorem fill3 {K : Type} [Zero K] (dt : DType) (n m k : ℕ) (f : ℕ → ℕ → ℕ → K) :
    (List.range n).foldlM (fun a p => (List.range m).foldlM (fun a q =>
      (List.range k).foldlM (fun a r => NDArray.setItem a [p, q, r] (f p q r)) a) a) (zeros dt [n, m, k])
      = .ok (ofFn dt [n, m, k] (fun i => f (i.getD 0 0) (i.getD 1 0) (i.getD 2 0))) := by
  rw [foldlM_pointwise [n, m, k] _ (fun p i x => (List.range m).foldl (fun x q =>
    (List.range k).foldl (fun x r => if i = [p, q, r] then f p q r else x) x) x) _ _ rfl]
  · congr 1
    unfold pointwise zeros
    simp only [ofFn]
    congr 1
    funext i
    by_cases hi : InRange [n, m, k] i
    · simp only [hi, if_true]
      obtain ⟨p, q, r, rfl⟩ : ∃ p q r, i = [p, q, r] := by
        match i, hi with
        | [p, q, r], _ => exact ⟨p, q, r, rfl⟩
      obtain ⟨hp, hq, hr, -⟩ := hi
      rw [foldl_range_unique (fun p' x => (List.range m).foldl (fun x q' =>
        (List.range k).foldl (fun x r' => if [p, q, r] = [p', q', r'] then f p' q' r' else x) x) x) n p _ hp]
      · rw [foldl_range_unique (fun q' x =>
          (List.range k).foldl (fun x r' => if [p, q, r] = [p, q', r'] then f p q' r' else x) x) m q _ hq]
        · rw [foldl_range_unique (fun r' x => if [p, q, r] = [p, q, r'] then f p q r' else x) k r _ hr]
          · simp
          · intro t ht x; simp [ht.symm]
        · intro t ht x; simp [ht.symm]
      · intro t ht x; simp [ht.symm]
    · simp [hi]
  · intro p hp a ha
    rw [foldlM_pointwise [n, m, k] _ (fun q i x => (List.range k).foldl (fun x r =>
      if i = [p, q, r] then f p q r else x) x) _ _ ha]
    intro q hq a ha
    rw [foldlM_pointwise [n, m, k] _ (fun r i x => if i = [p, q, r] then f p q r else x) _ _ ha]
    intro r hr a ha
    refine setItem_ok a _ ?_
    rw [ha]
    exact ⟨by simpa using hp, by simpa using hq, by simpa using hr, trivial⟩

theorem fill12 {K : Type} [Zero K] (dt : DType) (n : ℕ) (f : ℕ → ℕ → K) :
    (List.range n).foldlM (fun a p => (List.range n).foldlM (fun a q =>
      NDArray.setItem a [0, p, q] (f p q)) a) (zeros dt [1, n, n])
      = .ok (ofFn dt [1, n, n] (fun i => f (i.getD 1 0) (i.getD 2 0))) := by
  have h := fill3 dt 1 n n (fun _ p q => f p q)
  simpa using h

/-- Row `p` of a 2-d array. -/
def row {K : Type} [Zero K] (a : NDArray K) (p n : ℕ) : NDArray K :=
  ofFn a.dtype [n] (fun j => a.get (p :: j))

theorem item_two {K : Type} [Zero K] {a : NDArray K} {m n p : ℕ} (h : a.shape = [m, n]) (hp : p < m) :
    a.item p = .ok (row a p n) := by
  unfold item row
  rw [h]
  exact if_pos hp

theorem row_get {K : Type} [Zero K] (a : NDArray K) {p n i : ℕ} (hi : i < n) :
    (row a p n).get [i] = a.get [p, i] := ofFn_get_of (show InRange [n] [i] from ⟨hi, trivial⟩)

theorem mul_same {K : Type} [PyScalar K] {a b : NDArray K} (h : a.shape = b.shape) :
    NDArray.mul a b = .ok (ofFn (a.dtype.promote b.dtype) a.shape (fun i => a.get i * b.get i)) :=
  binop_same h

/-! ## Trapezoidal sums -/

theorem trapz_eq (f x : NDArray ℂ) (n : ℕ) (h : x.shape = [n]) :
    trapz f x = ∑ i ∈ Finset.range (n - 1), (x.get [1] - x.get [0]) * ((f.get [i] + f.get [i + 1]) / 2) := by
  unfold trapz
  rw [h]
  simp only [List.getD_cons_zero]
  rw [List.range'_eq_map_range, List.foldl_map]
  have := foldl_range_add (fun i => f.get [i] + f.get [i + 1]) (n - 1) (0 : ℂ)
  rw [zero_add] at this
  rw [← Finset.mul_sum, ← Finset.sum_div, ← this]
  have e : ∀ i, f.get [1 + i - 1] + f.get [1 + i] = f.get [i] + f.get [i + 1] := by
    intro i; rw [Nat.add_sub_cancel_left, add_comm 1 i]
  simp only [e]
  ring

/-- Equidistant real grid points. -/
structure Uniform (grid : NDArray ℂ) (num : ℕ) (x : ℕ → ℝ) (dx : ℝ) : Prop where
  shape : grid.shape = [num]
  get : ∀ i, i < num → grid.get [i] = (x i : ℂ)
  step : ∀ i, x (i + 1) - x i = dx

theorem trapz_uniform {grid f : NDArray ℂ} {num : ℕ} {x : ℕ → ℝ} {dx : ℝ} (hg : Uniform grid num x dx)
    (h2 : 2 ≤ num) (φ : ℕ → ℂ) (hφ : ∀ i, i < num → f.get [i] = φ i) :
    trapz f grid = trapezoid num x φ := by
  rw [trapz_eq f grid num hg.shape, trapezoid]
  refine Finset.sum_congr rfl fun i hi => ?_
  have hi : i < num - 1 := by simpa using hi
  rw [hg.get 1 (by omega), hg.get 0 (by omega), hφ i (by omega), hφ (i + 1) (by omega), hg.step i,
    ← Complex.ofReal_sub, show x 1 - x 0 = dx from hg.step 0]

theorem npTrapz_eq {grid f : NDArray ℂ} {num : ℕ} {x : ℕ → ℝ} (hs : grid.shape = [num])
    (hx : ∀ i, i < num → grid.get [i] = (x i : ℂ)) (φ : ℕ → ℂ) (hφ : ∀ i, i < num → f.get [i] = φ i) :
    npTrapz f grid = trapezoid num x φ := by
  unfold npTrapz trapezoid
  rw [hs]
  refine Finset.sum_congr rfl fun i hi => ?_
  have hi : i < num - 1 := by simpa using hi
  rw [hx _ (by omega), hx _ (by omega), hφ i (by omega), hφ (i + 1) (by omega)]
  push_cast
  ring

/-- The trapezoidal rule as a weighted sum. -/
noncomputable def weight (n : ℕ) (x : ℕ → ℝ) (i : ℕ) : ℝ :=
  (if i + 1 < n then (x (i + 1) - x i) / 2 else 0) + (if 1 ≤ i then (x i - x (i - 1)) / 2 else 0)

theorem trapezoid_weight (n : ℕ) (x : ℕ → ℝ) (f : ℕ → ℂ) (hn : 1 ≤ n) :
    trapezoid n x f = ∑ i ∈ Finset.range n, (weight n x i : ℂ) * f i := by
  obtain ⟨n, rfl⟩ : ∃ m, n = m + 1 := ⟨n - 1, by omega⟩
  have h1 : ∑ i ∈ Finset.range (n + 1), (if i + 1 < n + 1 then ((x (i + 1) - x i) / 2 : ℂ) * f i else 0)
      = ∑ i ∈ Finset.range n, ((x (i + 1) - x i) / 2 : ℂ) * f i := by
    rw [Finset.sum_range_succ, if_neg (by omega), add_zero]
    refine Finset.sum_congr rfl fun i hi => ?_
    rw [if_pos (by have := Finset.mem_range.1 hi; omega)]
  have h2 : ∑ i ∈ Finset.range (n + 1), (if 1 ≤ i then ((x i - x (i - 1)) / 2 : ℂ) * f i else 0)
      = ∑ i ∈ Finset.range n, ((x (i + 1) - x i) / 2 : ℂ) * f (i + 1) := by
    rw [Finset.sum_range_succ']
    simp
  have h3 : ∀ i, (weight (n + 1) x i : ℂ) * f i
      = (if i + 1 < n + 1 then ((x (i + 1) - x i) / 2 : ℂ) * f i else 0)
        + (if 1 ≤ i then ((x i - x (i - 1)) / 2 : ℂ) * f i else 0) := by
    intro i
    unfold weight
    by_cases ha : i + 1 < n + 1 <;> by_cases hb : 1 ≤ i <;> simp only [ha, hb, if_true, if_false] <;>
      push_cast <;> ring
  simp only [h3]
  rw [Finset.sum_add_distrib, h1, h2, ← Finset.sum_add_distrib]
  unfold trapezoid
  refine Finset.sum_congr rfl fun i _ => ?_
  push_cast
  ring

theorem trapezoid_congr {n : ℕ} {x : ℕ → ℝ} {f g : ℕ → ℂ} (h : ∀ i, i < n → f i = g i) :
    trapezoid n x f = trapezoid n x g := by
  unfold trapezoid
  refine Finset.sum_congr rfl fun i hi => ?_
  have hi := Finset.mem_range.1 hi
  rw [h i (by omega), h (i + 1) (by omega)]

theorem trapezoid_conj (n : ℕ) (x : ℕ → ℝ) (f : ℕ → ℂ) :
    (starRingEnd ℂ) (trapezoid n x f) = trapezoid n x (fun i => (starRingEnd ℂ) (f i)) := by
  unfold trapezoid
  rw [map_sum]
  refine Finset.sum_congr rfl fun i _ => ?_
  rw [map_mul, Complex.conj_ofReal, map_div₀, map_add, Complex.conj_ofNat]

theorem trapezoid_mul (n : ℕ) (x : ℕ → ℝ) (f : ℕ → ℂ) (c : ℂ) :
    c * trapezoid n x f = trapezoid n x (fun i => c * f i) := by
  unfold trapezoid
  rw [Finset.mul_sum]
  refine Finset.sum_congr rfl fun i _ => ?_
  ring

theorem trapezoid_comm (n : ℕ) (x : ℕ → ℝ) (F : ℕ → ℕ → ℂ) :
    trapezoid n x (fun i => trapezoid n x (F i)) = trapezoid n x (fun j => trapezoid n x (fun i => F i j)) := by
  unfold trapezoid
  simp only [← Finset.sum_add_distrib, Finset.sum_div, Finset.mul_sum]
  rw [Finset.sum_comm]
  refine Finset.sum_congr rfl fun i _ => Finset.sum_congr rfl fun j _ => ?_
  ring

/-! ## The two-body elements -/

/-- The screened Coulomb interaction of the element `u[p, q, r, s]`. -/
noncomputable def coulombSum (num : ℕ) (x : ℕ → ℝ) (φ : ℕ → ℕ → ℂ) (alpha a : ℝ) (p q r s : ℕ) : ℂ :=
  trapezoid num x fun i => trapezoid num x fun j =>
    (starRingEnd ℂ) (φ p i) * (starRingEnd ℂ) (φ q j)
      * ((alpha / Real.sqrt ((x i - x j) ^ 2 + a ^ 2) : ℝ) : ℂ) * φ r i * φ s j

theorem innerIntegral_eq {grid spf : NDArray ℂ} {l num : ℕ} {x : ℕ → ℝ} {dx : ℝ}
    (hg : Uniform grid num x dx) (h2 : 2 ≤ num) (hs : spf.shape = [l, num]) (alpha a : ℝ) :
    computeInnerIntegral spf l num grid alpha a = .ok (ofFn .complex128 [l, l, num] (fun i =>
      trapezoid num x fun j => (starRingEnd ℂ) (spf.get [i.getD 0 0, j])
        * ((alpha / Real.sqrt ((x (i.getD 2 0) - x j) ^ 2 + a ^ 2) : ℝ) : ℂ) * spf.get [i.getD 1 0, j])) := by
  unfold computeInnerIntegral
  rw [← fill3 .complex128 l l num (fun q s i => trapezoid num x fun j =>
    (starRingEnd ℂ) (spf.get [q, j]) * ((alpha / Real.sqrt ((x i - x j) ^ 2 + a ^ 2) : ℝ) : ℂ)
      * spf.get [s, j])]
  refine foldlM_congr fun q hq I => foldlM_congr fun s hs' I => foldlM_congr fun i hi I => ?_
  have hq : q < l := by simpa using hq
  have hs' : s < l := by simpa using hs'
  have hi : i < num := by simpa using hi
  rw [item_two hs hq, getItem, if_pos (by rw [hg.shape]; exact ⟨hi, trivial⟩)]
  simp only [ok_bind]
  rw [mul_same (by simp [row, shieldedCoulomb, mapReal, hg.shape]), item_two hs hs']
  simp only [ok_bind]
  rw [mul_same (by simp [row])]
  simp only [ok_bind]
  congr 1
  refine trapz_uniform hg h2 _ fun j hj => ?_
  have hj1 : InRange [num] [j] := ⟨hj, trivial⟩
  have hc : (row spf q num).conj.shape = [num] := rfl
  simp only [hc, ofFn_shape]
  rw [ofFn_get_of hj1, ofFn_get_of hj1, conj_get, row_get _ hj, row_get _ hj, shieldedCoulomb, mapReal, hg.shape,
    ofFn_get_of hj1, hg.get i hi, hg.get j hj]
  simp only [Complex.ofReal_re]
  rfl

theorem orbitalIntegrals_eq {grid spf inner : NDArray ℂ} {l num : ℕ} {x : ℕ → ℝ} {dx : ℝ}
    (hg : Uniform grid num x dx) (h2 : 2 ≤ num) (hs : spf.shape = [l, num]) (hi : inner.shape = [l, l, num]) :
    computeOrbitalIntegrals spf l inner grid = .ok (ofFn .complex128 [l, l, l, l] (fun i =>
      trapezoid num x fun j => (starRingEnd ℂ) (spf.get [i.getD 0 0, j])
        * inner.get [i.getD 1 0, i.getD 3 0, j] * spf.get [i.getD 2 0, j])) := by
  unfold computeOrbitalIntegrals
  rw [← fill4 .complex128 l (fun p q r s => trapezoid num x fun j =>
    (starRingEnd ℂ) (spf.get [p, j]) * inner.get [q, s, j] * spf.get [r, j])]
  refine foldlM_congr fun p hp I => foldlM_congr fun q hq I => foldlM_congr fun r hr I =>
    foldlM_congr fun s hs' I => ?_
  have hp : p < l := by simpa using hp
  have hq : q < l := by simpa using hq
  have hr : r < l := by simpa using hr
  have hs' : s < l := by simpa using hs'
  have hitem : inner.item q = .ok (ofFn inner.dtype [l, num] (fun j => inner.get (q :: j))) := by
    unfold item
    rw [hi]
    exact if_pos hq
  rw [item_two hs hp, hitem]
  simp only [ok_bind]
  rw [item_two (ofFn_shape _ _ _) hs']
  simp only [ok_bind]
  rw [mul_same (by simp [row]), item_two hs hr]
  simp only [ok_bind]
  rw [mul_same (by simp [row])]
  simp only [ok_bind]
  congr 1
  refine trapz_uniform hg h2 _ fun j hj => ?_
  have hj1 : InRange [num] [j] := ⟨hj, trivial⟩
  have hc : (row spf p num).conj.shape = [num] := rfl
  simp only [hc, ofFn_shape]
  rw [ofFn_get_of hj1, ofFn_get_of hj1, conj_get, row_get _ hj, row_get _ hj, row_get _ hj,
    ofFn_get_of (show InRange [l, num] [s, j] from ⟨hs', hj, trivial⟩)]
  rfl

/-- The two integrations in turn give the double sum. -/
theorem twoBody_eq {grid spf : NDArray ℂ} {l num : ℕ} {x : ℕ → ℝ} {dx : ℝ}
    (hg : Uniform grid num x dx) (h2 : 2 ≤ num) (hs : spf.shape = [l, num]) (alpha a : ℝ) :
    ∃ inner, computeInnerIntegral spf l num grid alpha a = .ok inner ∧
      computeOrbitalIntegrals spf l inner grid = .ok (ofFn .complex128 [l, l, l, l] (fun i =>
        coulombSum num x (fun p j => spf.get [p, j]) alpha a
          (i.getD 0 0) (i.getD 1 0) (i.getD 2 0) (i.getD 3 0))) := by
  refine ⟨_, innerIntegral_eq hg h2 hs alpha a, ?_⟩
  rw [orbitalIntegrals_eq hg h2 hs rfl]
  congr 1
  refine ofFn_congr fun i hi => ?_
  obtain ⟨p, q, r, s, rfl, hp, hq, hr, hs'⟩ := inRange_four.1 hi
  simp only [List.getD_cons_zero, List.getD_cons_succ]
  unfold coulombSum
  refine trapezoid_congr fun j hj => ?_
  rw [ofFn_get_of (show InRange [l, l, num] [q, s, j] from ⟨hq, hs', hj, trivial⟩)]
  simp only [List.getD_cons_zero, List.getD_cons_succ]
  rw [trapezoid_mul, mul_comm, trapezoid_mul]
  refine trapezoid_congr fun k hk => ?_
  ring

theorem coulombSum_swap (num : ℕ) (x : ℕ → ℝ) (φ : ℕ → ℕ → ℂ) (alpha a : ℝ) (p q r s : ℕ) :
    coulombSum num x φ alpha a p q r s = coulombSum num x φ alpha a q p s r := by
  unfold coulombSum
  rw [trapezoid_comm]
  refine trapezoid_congr fun i _ => trapezoid_congr fun j _ => ?_
  rw [show (x j - x i) ^ 2 = (x i - x j) ^ 2 by ring]
  ring

theorem coulombSum_conj (num : ℕ) (x : ℕ → ℝ) (φ : ℕ → ℕ → ℂ) (alpha a : ℝ) (p q r s : ℕ) :
    coulombSum num x φ alpha a p q r s = (starRingEnd ℂ) (coulombSum num x φ alpha a r s p q) := by
  unfold coulombSum
  rw [trapezoid_conj]
  refine trapezoid_congr fun i _ => ?_
  rw [trapezoid_conj]
  refine trapezoid_congr fun j _ => ?_
  simp only [map_mul, Complex.conj_conj, Complex.conj_ofReal]
  ring

/-! ## The grid -/

theorem linspace_uniform (L : ℝ) {num : ℕ} :
    Uniform (linspaceArr (-L) L num) num (TwoDim.linspace (-L) L num) ((L - -L) / ((num : ℝ) - 1)) where
  shape := rfl
  get i hi := ofFn_get_of (show InRange [num] [i] from ⟨hi, trivial⟩)
  step i := by unfold TwoDim.linspace; push_cast; ring

end QS.OneDim
