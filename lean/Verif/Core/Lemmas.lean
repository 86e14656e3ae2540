import Verif.Core.PyM

/-! # Lemmas about the array primitives (helper file, no property theorems) -/

namespace QS

open Finset

section inRange

@[simp] theorem inRange_nil : InRange [] [] := trivial
@[simp] theorem inRange_cons {n i : ℕ} {ns is : List ℕ} :
    InRange (n :: ns) (i :: is) ↔ i < n ∧ InRange ns is := Iff.rfl
@[simp] theorem not_inRange_nil_cons {i : ℕ} {is : List ℕ} : ¬ InRange [] (i :: is) := fun h => h
@[simp] theorem not_inRange_cons_nil {n : ℕ} {ns : List ℕ} : ¬ InRange (n :: ns) [] := fun h => h

theorem InRange.length_eq {sh i : List ℕ} (h : InRange sh i) : i.length = sh.length := by
  induction sh generalizing i with
  | nil => cases i with
    | nil => rfl
    | cons => exact h.elim
  | cons n ns ih => cases i with
    | nil => exact h.elim
    | cons j js => simp [ih h.2]

theorem inRange_nil_iff {i : List ℕ} : InRange [] i ↔ i = [] := by
  cases i <;> simp

theorem inRange_one {n : ℕ} {i : List ℕ} : InRange [n] i ↔ ∃ p, i = [p] ∧ p < n := by
  cases i with
  | nil => simp
  | cons a as => cases as <;> simp [inRange_nil_iff]

theorem inRange_cons_iff {n : ℕ} {ns i : List ℕ} :
    InRange (n :: ns) i ↔ ∃ p j, i = p :: j ∧ p < n ∧ InRange ns j := by
  cases i <;> simp

theorem inRange_two {m n : ℕ} {i : List ℕ} :
    InRange [m, n] i ↔ ∃ p q, i = [p, q] ∧ p < m ∧ q < n := by
  simp only [inRange_cons_iff, inRange_nil_iff]
  constructor
  · rintro ⟨p, _, rfl, hp, q, _, rfl, hq, rfl⟩; exact ⟨p, q, rfl, hp, hq⟩
  · rintro ⟨p, q, rfl, hp, hq⟩; exact ⟨p, _, rfl, hp, q, _, rfl, hq, rfl⟩

theorem inRange_three {a b c : ℕ} {i : List ℕ} :
    InRange [a, b, c] i ↔ ∃ p q r, i = [p, q, r] ∧ p < a ∧ q < b ∧ r < c := by
  simp only [inRange_cons_iff, inRange_nil_iff]
  constructor
  · rintro ⟨p, _, rfl, hp, q, _, rfl, hq, r, _, rfl, hr, rfl⟩; exact ⟨p, q, r, rfl, hp, hq, hr⟩
  · rintro ⟨p, q, r, rfl, hp, hq, hr⟩; exact ⟨p, _, rfl, hp, q, _, rfl, hq, r, _, rfl, hr, rfl⟩

theorem inRange_four {a b c d : ℕ} {i : List ℕ} :
    InRange [a, b, c, d] i ↔
      ∃ p q r s, i = [p, q, r, s] ∧ p < a ∧ q < b ∧ r < c ∧ s < d := by
  simp only [inRange_cons_iff, inRange_nil_iff]
  constructor
  · rintro ⟨p, _, rfl, hp, q, _, rfl, hq, r, _, rfl, hr, s, _, rfl, hs, rfl⟩
    exact ⟨p, q, r, s, rfl, hp, hq, hr, hs⟩
  · rintro ⟨p, q, r, s, rfl, hp, hq, hr, hs⟩
    exact ⟨p, _, rfl, hp, q, _, rfl, hq, r, _, rfl, hr, s, _, rfl, hs, rfl⟩

end inRange

namespace DType
@[simp] theorem promote_self (a : DType) : a.promote a = a := by simp [promote]
@[simp] theorem promote_complex (a : DType) : a.promote .complex128 = .complex128 := by
  cases a <;> rfl
@[simp] theorem complex_promote (a : DType) : DType.complex128.promote a = .complex128 := by
  cases a <;> rfl
theorem promote_comm (a b : DType) : a.promote b = b.promote a := by cases a <;> cases b <;> rfl
theorem promote_assoc (a b c : DType) : (a.promote b).promote c = a.promote (b.promote c) := by
  cases a <;> cases b <;> cases c <;> rfl
@[simp] theorem promote_left_self (a b : DType) : a.promote (a.promote b) = a.promote b := by
  cases a <;> cases b <;> rfl
end DType

namespace NDArray

variable {K : Type}

section zero
variable [Zero K]

@[simp] theorem ofFn_dtype (dt : DType) (sh f) : (ofFn (K := K) dt sh f).dtype = dt := rfl
@[simp] theorem ofFn_shape (dt : DType) (sh f) : (ofFn (K := K) dt sh f).shape = sh := rfl
theorem ofFn_get (dt : DType) (sh f i) :
    (ofFn (K := K) dt sh f).get i = if InRange sh i then f i else 0 := rfl
theorem ofFn_get_of {dt : DType} {sh f i} (h : InRange sh i) :
    (ofFn (K := K) dt sh f).get i = f i := if_pos h

/-- Two arrays are equal if dtype, shape and the in-range entries agree. -/
theorem ext' {a b : NDArray K} (hd : a.dtype = b.dtype) (hs : a.shape = b.shape)
    (hg : ∀ i, InRange a.shape i → a.get i = b.get i) : a = b := by
  obtain ⟨d, s, g, sup⟩ := a
  obtain ⟨d', s', g', sup'⟩ := b
  simp only at hd hs hg
  subst hd hs
  have : g = g' := by
    funext i
    by_cases h : InRange s i
    · exact hg i h
    · rw [sup i h, sup' i h]
  subst this
  rfl

theorem ofFn_congr {dt : DType} {sh : List ℕ} {f g : List ℕ → K}
    (h : ∀ i, InRange sh i → f i = g i) : ofFn dt sh f = ofFn dt sh g :=
  ext' rfl rfl (fun i hi => by
    have hi' : InRange sh i := hi
    rw [ofFn_get_of hi', ofFn_get_of hi', h i hi'])

theorem ofFn_get_self (a : NDArray K) : ofFn a.dtype a.shape a.get = a :=
  ext' rfl rfl (fun i hi => by
    have hi' : InRange a.shape i := hi
    rw [ofFn_get_of hi'])

@[simp] theorem zeros_dtype (dt sh) : (zeros (K := K) dt sh).dtype = dt := rfl
@[simp] theorem zeros_shape (dt sh) : (zeros (K := K) dt sh).shape = sh := rfl
@[simp] theorem zeros_get (dt sh i) : (zeros (K := K) dt sh).get i = 0 := by
  simp [zeros, ofFn_get]
@[simp] theorem toComplex_dtype (a : NDArray K) : a.toComplex.dtype = .complex128 := rfl
@[simp] theorem toComplex_shape (a : NDArray K) : a.toComplex.shape = a.shape := rfl
@[simp] theorem toComplex_get (a : NDArray K) (i) : a.toComplex.get i = a.get i := rfl

@[simp] theorem T_dtype (a : NDArray K) : a.T.dtype = a.dtype := rfl
@[simp] theorem T_shape (a : NDArray K) : a.T.shape = a.shape.reverse := rfl

theorem T_get2 (a : NDArray K) {m n : ℕ} (h : a.shape = [m, n]) (p q : ℕ) :
    a.T.get [p, q] = a.get [q, p] := by
  simp only [T, ofFn_get, h]
  by_cases h' : InRange ([m, n].reverse) [p, q]
  · rw [if_pos h']; rfl
  · rw [if_neg h', a.supp]
    rw [h]
    simp only [List.reverse_cons, List.reverse_nil, List.nil_append, List.cons_append, inRange_cons,
      inRange_nil, and_true] at h' ⊢
    tauto

end zero

section ops
variable [PyScalar K]

@[simp] theorem conj_dtype (a : NDArray K) : a.conj.dtype = a.dtype := rfl
@[simp] theorem conj_shape (a : NDArray K) : a.conj.shape = a.shape := rfl
@[simp] theorem conj_get (a : NDArray K) (i) : a.conj.get i = star (a.get i) := by
  simp only [conj, ofFn_get]
  by_cases h : InRange a.shape i
  · rw [if_pos h]
  · rw [if_neg h, a.supp i h, star_zero]

theorem conjT_get2 (a : NDArray K) {m n : ℕ} (h : a.shape = [m, n]) (p q : ℕ) :
    a.conj.T.get [p, q] = star (a.get [q, p]) := by
  rw [T_get2 a.conj (m := m) (n := n) (by simp [h]), conj_get]

theorem conjT_shape {a : NDArray K} {m n : ℕ} (h : a.shape = [m, n]) :
    a.conj.T.shape = [n, m] := by simp [h]

@[simp] theorem eye_dtype (n : ℕ) : (eye (K := K) n).dtype = .float64 := rfl
@[simp] theorem eye_shape (n : ℕ) : (eye (K := K) n).shape = [n, n] := rfl
theorem eye_get (n p q : ℕ) (hp : p < n) :
    (eye (K := K) n).get [p, q] = if p = q then 1 else 0 := by
  simp only [eye, ofFn_get, inRange_cons, inRange_nil, and_true]
  by_cases hq : q < n
  · simp [hp, hq]
  · have : p ≠ q := by omega
    simp [hq, this]

@[simp] theorem smul_shape (dt : DType) (c : K) (a : NDArray K) : (smul dt c a).shape = a.shape := rfl
@[simp] theorem smul_dtype (dt : DType) (c : K) (a : NDArray K) :
    (smul dt c a).dtype = dt.promote a.dtype := rfl
@[simp] theorem smul_get (dt : DType) (c : K) (a : NDArray K) (i) :
    (smul dt c a).get i = c * a.get i := by
  simp only [smul, ofFn_get]
  by_cases h : InRange a.shape i
  · rw [if_pos h]
  · rw [if_neg h, a.supp i h, mul_zero]

/-! ### tensordot -/

theorem tensordot_eq {a b : NDArray K} {i j n : ℕ} (hi : a.shape[i]? = some n)
    (hj : b.shape[j]? = some n) :
    tensordot a b i j = .ok (ofFn (a.dtype.promote b.dtype)
      (a.shape.eraseIdx i ++ b.shape.eraseIdx j)
        (fun idx => ∑ t ∈ range n,
          a.get ((idx.take (a.ndim - 1)).insertIdx i t) *
          b.get ((idx.drop (a.ndim - 1)).insertIdx j t))) := by
  simp [tensordot, hi, hj]

/-- Product of two matrices as the code computes it. -/
def matMul (a b : NDArray K) (m k n : ℕ) : NDArray K :=
  ofFn (a.dtype.promote b.dtype) [m, n] (fun x => match x with
    | [p, q] => ∑ t ∈ range k, a.get [p, t] * b.get [t, q]
    | _ => 0)

theorem dot_two {a b : NDArray K} {m k n : ℕ} (ha : a.shape = [m, k]) (hb : b.shape = [k, n]) :
    dot a b = .ok (matMul a b m k n) := by
  have hna : a.ndim = 2 := by simp [ndim, ha]
  have hnb : b.ndim = 2 := by simp [ndim, hb]
  simp only [dot, hna, hnb]
  rw [if_neg (by omega), tensordot_eq (n := k) (by simp [ha]) (by simp [hb])]
  simp only [ha, hb, hna, matMul, Except.ok.injEq]
  apply ofFn_congr
  intro i hi
  simp only [List.eraseIdx, List.cons_append, List.nil_append] at hi
  obtain ⟨p, q, rfl, _, _⟩ := inRange_two.1 hi
  rfl

@[simp] theorem matMul_shape (a b : NDArray K) (m k n) : (matMul a b m k n).shape = [m, n] := rfl
@[simp] theorem matMul_dtype (a b : NDArray K) (m k n) :
    (matMul a b m k n).dtype = a.dtype.promote b.dtype := rfl
theorem matMul_get {a b : NDArray K} {m k n p q : ℕ} (hp : p < m) (hq : q < n) :
    (matMul a b m k n).get [p, q] = ∑ t ∈ range k, a.get [p, t] * b.get [t, q] := by
  rw [matMul, ofFn_get_of (by simp [hp, hq])]

/-- `np.dot` of matrices of different inner length raises `ValueError`. -/
theorem dot_two_error {a b : NDArray K} {m k k' n : ℕ} (ha : a.shape = [m, k])
    (hb : b.shape = [k', n]) (h : k ≠ k') : dot a b = .error .value := by
  simp [dot, ndim, ha, hb, tensordot, h]

/-! ### element-wise operations -/

theorem bcRev_self (s : List ℕ) : bcRev s s = some s := by
  induction s with
  | nil => rfl
  | cons x xs ih => simp [bcRev, ih]

@[simp] theorem bcShape_self (s : List ℕ) : bcShape s s = some s := by
  simp [bcShape, bcRev_self]

theorem bcIdx_self {sh i : List ℕ} (h : InRange sh i) : bcIdx sh i = i := by
  have hl := h.length_eq
  simp only [bcIdx, hl, Nat.sub_self, List.drop_zero]
  clear hl
  induction sh generalizing i with
  | nil => cases i <;> simp_all
  | cons n ns ih =>
    cases i with
    | nil => exact h.elim
    | cons j js =>
      simp only [List.zipWith_cons_cons, ih h.2]
      by_cases hn : n = 1
      · have := h.1; simp only [hn, if_true]; congr 1; omega
      · simp [hn]

theorem binop_same {f : K → K → K} {a b : NDArray K} (h : a.shape = b.shape) :
    binop f a b = .ok (ofFn (a.dtype.promote b.dtype) a.shape (fun i => f (a.get i) (b.get i))) := by
  simp only [binop, h, bcShape_self, Except.ok.injEq]
  apply ofFn_congr
  intro i hi
  rw [bcIdx_self hi]

theorem add_same {a b : NDArray K} (h : a.shape = b.shape) :
    add a b = .ok (ofFn (a.dtype.promote b.dtype) a.shape (fun i => a.get i + b.get i)) :=
  binop_same h
theorem sub_same {a b : NDArray K} (h : a.shape = b.shape) :
    sub a b = .ok (ofFn (a.dtype.promote b.dtype) a.shape (fun i => a.get i - b.get i)) :=
  binop_same h

theorem ibinop_same {f : K → K → K} {a b : NDArray K} (h : a.shape = b.shape)
    (hd : a.dtype.promote b.dtype = a.dtype) :
    ibinop f a b = .ok (ofFn a.dtype a.shape (fun i => f (a.get i) (b.get i))) := by
  simp only [ibinop, hd, if_true, h, bcShape_self, Except.ok.injEq]
  apply ofFn_congr
  intro i hi
  rw [bcIdx_self hi]

end ops

end NDArray

end QS
