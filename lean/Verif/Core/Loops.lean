import Verif.Core.Lemmas

/-!
# Arrays written entry by entry in loops
-/

namespace QS

namespace NDArray

variable {K : Type} [Zero K]

/-- Every entry `a[i]` replaced by `φ i a[i]`. -/
def pointwise (a : NDArray K) (φ : List ℕ → K → K) : NDArray K :=
  ofFn a.dtype a.shape (fun i => φ i (a.get i))

/-- `a[idx] = f(a[idx])` (for `+=`, `-=`), `idx` one non-negative integer per axis.  `IndexError` if out of
range.  Arrays are values in the model, so the changed array is returned. -/
def modifyItem (a : NDArray K) (idx : List ℕ) (f : K → K) : Except PyErr (NDArray K) :=
  if InRange a.shape idx then .ok (a.pointwise (fun i x => if i = idx then f x else x))
  else .error .index

/-- `a[idx] = v`. -/
def setItem (a : NDArray K) (idx : List ℕ) (v : K) : Except PyErr (NDArray K) :=
  a.modifyItem idx (fun _ => v)

@[simp] theorem pointwise_shape (a : NDArray K) (φ) : (a.pointwise φ).shape = a.shape := rfl
@[simp] theorem pointwise_dtype (a : NDArray K) (φ) : (a.pointwise φ).dtype = a.dtype := rfl

theorem pointwise_get (a : NDArray K) (φ) (i : List ℕ) (h : InRange a.shape i) :
    (a.pointwise φ).get i = φ i (a.get i) := if_pos h

theorem pointwise_pointwise (a : NDArray K) (φ ψ : List ℕ → K → K) :
    (a.pointwise φ).pointwise ψ = a.pointwise (fun i x => ψ i (φ i x)) := by
  unfold pointwise ofFn
  congr 1
  funext i
  by_cases h : InRange a.shape i <;> simp [h]

theorem pointwise_congr (a : NDArray K) {φ ψ : List ℕ → K → K}
    (h : ∀ i, InRange a.shape i → φ i (a.get i) = ψ i (a.get i)) : a.pointwise φ = a.pointwise ψ := by
  unfold pointwise ofFn
  congr 1
  funext i
  by_cases hi : InRange a.shape i <;> simp [hi, h]

theorem pointwise_id (a : NDArray K) : a.pointwise (fun _ x => x) = a := by
  cases a with
  | mk dt sh get supp =>
    unfold pointwise ofFn
    congr 1
    funext i
    by_cases h : InRange sh i
    · simp [h]
    · simp [h, supp i h]

theorem modifyItem_ok (a : NDArray K) {idx : List ℕ} (f : K → K) (h : InRange a.shape idx) :
    a.modifyItem idx f = .ok (a.pointwise (fun i x => if i = idx then f x else x)) := if_pos h

theorem setItem_ok (a : NDArray K) {idx : List ℕ} (v : K) (h : InRange a.shape idx) :
    a.setItem idx v = .ok (a.pointwise (fun i x => if i = idx then v else x)) := if_pos h

/-- A loop whose steps update entries in place updates every entry step by step. -/
theorem foldlM_pointwise {ι : Type} (sh : List ℕ) (step : NDArray K → ι → Except PyErr (NDArray K))
    (φ : ι → List ℕ → K → K) (L : List ι) (a : NDArray K) (ha : a.shape = sh)
    (h : ∀ k ∈ L, ∀ a, a.shape = sh → step a k = .ok (a.pointwise (φ k))) :
    L.foldlM step a = .ok (a.pointwise (fun i x => L.foldl (fun x k => φ k i x) x)) := by
  induction L generalizing a with
  | nil => simp [pointwise_id]; rfl
  | cons k L ih =>
    rw [List.foldlM_cons, h k (by simp) a ha]
    show L.foldlM step _ = _
    rw [ih _ (by simp [ha]) (fun k hk => h k (by simp [hk])), pointwise_pointwise]
    rfl

/-- If only step `p` of a loop touches a value, the loop does what step `p` does. -/
theorem foldl_range_unique {α : Type} (φ : ℕ → α → α) (n p : ℕ) (x : α) (hp : p < n)
    (h : ∀ k, k ≠ p → ∀ x, φ k x = x) : (List.range n).foldl (fun x k => φ k x) x = φ p x := by
  induction n with
  | zero => omega
  | succ n ih =>
    rw [List.range_succ, List.foldl_append, List.foldl_cons, List.foldl_nil]
    by_cases hn : p = n
    · subst hn
      congr 1
      clear ih hp
      have : ∀ m ≤ p, (List.range m).foldl (fun x k => φ k x) x = x := by
        intro m
        induction m with
        | zero => intro _; rfl
        | succ m ih =>
          intro hm
          rw [List.range_succ, List.foldl_append, ih (by omega)]
          exact h m (by omega) x
      exact this p le_rfl
    · rw [ih (by omega), h n (fun e => hn e.symm)]

/-- A loop of additions is a sum. -/
theorem foldl_range_add {R : Type} [AddCommMonoid R] (f : ℕ → R) (n : ℕ) (x : R) :
    (List.range n).foldl (fun x k => x + f k) x = x + ∑ k ∈ Finset.range n, f k := by
  induction n with
  | zero => simp
  | succ n ih =>
    rw [List.range_succ, List.foldl_append, ih, Finset.sum_range_succ, ← add_assoc]; rfl

end NDArray

end QS

namespace QS

namespace NDArray

variable {K : Type} [Zero K]

/-- Two nested loops that set every entry. -/
theorem fill2 (dt : DType) (n m : ℕ) (f : ℕ → ℕ → K) :
    (List.range n).foldlM (fun a p => (List.range m).foldlM
        (fun a q => NDArray.setItem a [p, q] (f p q)) a) (zeros dt [n, m])
      = .ok (ofFn dt [n, m] (fun i => f (i.getD 0 0) (i.getD 1 0))) := by
  rw [foldlM_pointwise [n, m] _ (fun p i x => (List.range m).foldl
    (fun x q => if i = [p, q] then f p q else x) x) _ _ rfl]
  · congr 1
    unfold pointwise zeros
    simp only [ofFn]
    congr 1
    funext i
    by_cases hi : InRange [n, m] i
    · simp only [hi, if_true]
      obtain ⟨p, q, rfl⟩ : ∃ p q, i = [p, q] := by
        match i, hi with
        | [p, q], _ => exact ⟨p, q, rfl⟩
      obtain ⟨hp, hq, -⟩ := hi
      rw [foldl_range_unique (fun p' x => (List.range m).foldl
        (fun x q' => if [p, q] = [p', q'] then f p' q' else x) x) n p _ hp]
      · rw [foldl_range_unique (fun q' x => if [p, q] = [p, q'] then f p q' else x) m q _ hq]
        · simp
        · intro k hk x
          simp [hk.symm]
      · intro k hk x
        simp [hk.symm, List.foldl_const]
    · simp [hi]
  · intro p hp a ha
    rw [foldlM_pointwise [n, m] _ (fun q i x => if i = [p, q] then f p q else x) _ _ ha]
    intro q hq a ha
    refine setItem_ok a _ ?_
    rw [ha]
    exact ⟨by simpa using hp, by simpa using hq, trivial⟩

/-- Four nested loops that set every entry. -/
theorem fill4 (dt : DType) (n : ℕ) (f : ℕ → ℕ → ℕ → ℕ → K) :
    (List.range n).foldlM (fun a p => (List.range n).foldlM (fun a q =>
      (List.range n).foldlM (fun a r => (List.range n).foldlM
        (fun a s => NDArray.setItem a [p, q, r, s] (f p q r s)) a) a) a) (zeros dt [n, n, n, n])
      = .ok (ofFn dt [n, n, n, n]
          (fun i => f (i.getD 0 0) (i.getD 1 0) (i.getD 2 0) (i.getD 3 0))) := by
  rw [foldlM_pointwise [n, n, n, n] _ (fun p i x => (List.range n).foldl (fun x q =>
    (List.range n).foldl (fun x r => (List.range n).foldl
      (fun x s => if i = [p, q, r, s] then f p q r s else x) x) x) x) _ _ rfl]
  · congr 1
    unfold pointwise zeros
    simp only [ofFn]
    congr 1
    funext i
    by_cases hi : InRange [n, n, n, n] i
    · simp only [hi, if_true]
      obtain ⟨p, q, r, s, rfl⟩ : ∃ p q r s, i = [p, q, r, s] := by
        match i, hi with
        | [p, q, r, s], _ => exact ⟨p, q, r, s, rfl⟩
      obtain ⟨hp, hq, hr, hs, -⟩ := hi
      rw [foldl_range_unique (fun p' x => (List.range n).foldl (fun x q' =>
        (List.range n).foldl (fun x r' => (List.range n).foldl
          (fun x s' => if [p, q, r, s] = [p', q', r', s'] then f p' q' r' s' else x) x) x) x) n p _ hp]
      · rw [foldl_range_unique (fun q' x =>
          (List.range n).foldl (fun x r' => (List.range n).foldl
            (fun x s' => if [p, q, r, s] = [p, q', r', s'] then f p q' r' s' else x) x) x) n q _ hq]
        · rw [foldl_range_unique (fun r' x => (List.range n).foldl
            (fun x s' => if [p, q, r, s] = [p, q, r', s'] then f p q r' s' else x) x) n r _ hr]
          · rw [foldl_range_unique (fun s' x =>
              if [p, q, r, s] = [p, q, r, s'] then f p q r s' else x) n s _ hs]
            · simp
            · intro k hk x; simp [hk.symm]
          · intro k hk x; simp [hk.symm, List.foldl_const]
        · intro k hk x; simp [hk.symm, List.foldl_const]
      · intro k hk x; simp [hk.symm, List.foldl_const]
    · simp [hi]
  · intro p hp a ha
    rw [foldlM_pointwise [n, n, n, n] _ (fun q i x => (List.range n).foldl (fun x r =>
      (List.range n).foldl (fun x s => if i = [p, q, r, s] then f p q r s else x) x) x) _ _ ha]
    intro q hq a ha
    rw [foldlM_pointwise [n, n, n, n] _ (fun r i x => (List.range n).foldl (fun x s =>
      if i = [p, q, r, s] then f p q r s else x) x) _ _ ha]
    intro r hr a ha
    rw [foldlM_pointwise [n, n, n, n] _ (fun s i x =>
      if i = [p, q, r, s] then f p q r s else x) _ _ ha]
    intro s hs a ha
    refine setItem_ok a _ ?_
    rw [ha]
    exact ⟨by simpa using hp, by simpa using hq, by simpa using hr, by simpa using hs, trivial⟩

end NDArray

end QS
