import Verif.Core.Lemmas
import Verif.Model.BasisSet
import Mathlib.Tactic.Ring

/-! # Lemmas about the transformation functions (helper file, no property theorems) -/

namespace QS

open Finset

namespace NDArray
variable {K : Type} [PyScalar K]

theorem transpose_ok {a : NDArray K} {perm : List ℕ}
    (h : perm.length = a.ndim ∧ ∀ t ∈ List.range a.ndim, t ∈ perm) :
    transpose perm a = .ok (ofFn a.dtype (perm.map (fun t => a.shape.getD t 0))
      (fun i => a.get ((List.range a.ndim).map (fun t => i.getD (perm.idxOf t) 0)))) := by
  simp only [transpose]; rw [if_pos h]

/-- `transpose(0,1,3,2)` of a 4-d array. -/
theorem transpose_0132 {a : NDArray K} {w x y z : ℕ} (h : a.shape = [w, x, y, z]) :
    ∃ r, transpose [0, 1, 3, 2] a = .ok r ∧ r.dtype = a.dtype ∧ r.shape = [w, x, z, y] ∧
      ∀ p q s t, r.get [p, q, s, t] = a.get [p, q, t, s] := by
  have hn : a.ndim = 4 := by simp [ndim, h]
  refine ⟨_, transpose_ok (by rw [hn]; decide), rfl, by simp [h], ?_⟩
  intro p q s t
  rw [ofFn_get]
  split_ifs with hi
  · rw [hn]; rfl
  · rw [a.supp]
    simp only [h, inRange_cons, inRange_nil, and_true] at hi ⊢
    simp at hi
    rintro ⟨h1, h2, h3, h4⟩
    have := hi h1 h2 h4
    omega

/-- `transpose(0,3,1,2)` of a 4-d array. -/
theorem transpose_0312 {a : NDArray K} {w x y z : ℕ} (h : a.shape = [w, x, y, z]) :
    ∃ r, transpose [0, 3, 1, 2] a = .ok r ∧ r.dtype = a.dtype ∧ r.shape = [w, z, x, y] ∧
      ∀ p q s t, r.get [p, q, s, t] = a.get [p, s, t, q] := by
  have hn : a.ndim = 4 := by simp [ndim, h]
  refine ⟨_, transpose_ok (by rw [hn]; decide), rfl, by simp [h], ?_⟩
  intro p q s t
  rw [ofFn_get]
  split_ifs with hi
  · rw [hn]; rfl
  · rw [a.supp]
    simp only [h, inRange_cons, inRange_nil, and_true] at hi ⊢
    simp at hi
    rintro ⟨h1, h2, h3, h4⟩
    have := hi h1 h4 h2
    omega

theorem tensordot_ok {a b : NDArray K} {i j n : ℕ} (hi : a.shape[i]? = some n)
    (hj : b.shape[j]? = some n) :
    ∃ r, tensordot a b i j = .ok r ∧ r.dtype = a.dtype.promote b.dtype ∧
      r.shape = a.shape.eraseIdx i ++ b.shape.eraseIdx j ∧
      ∀ idx, InRange (a.shape.eraseIdx i ++ b.shape.eraseIdx j) idx → r.get idx =
        ∑ t ∈ range n,
          a.get ((idx.take (a.ndim - 1)).insertIdx i t) *
          b.get ((idx.drop (a.ndim - 1)).insertIdx j t) :=
  ⟨_, tensordot_eq hi hj, rfl, rfl, fun _ h => ofFn_get_of h⟩

end NDArray

namespace BasisSet
variable {K : Type} [PyScalar K]

open NDArray

/-- The array `transform_one_body_elements` returns. -/
def oneBodyArr (h C Ct : NDArray K) (m k l n : ℕ) : NDArray K :=
  ofFn (Ct.dtype.promote (h.dtype.promote C.dtype)) [m, n] (fun i => match i with
    | [p, q] => ∑ a ∈ range k, ∑ b ∈ range l, Ct.get [p, a] * h.get [a, b] * C.get [b, q]
    | _ => 0)

/-- The array `transform_two_body_elements` returns. -/
def twoBodyArr (u C Ct : NDArray K) (l m n : ℕ) : NDArray K :=
  ofFn (Ct.dtype.promote (u.dtype.promote C.dtype)) [m, m, n, n] (fun i => match i with
    | [p, q, r, s] => ∑ a ∈ range l, ∑ b ∈ range l, ∑ c ∈ range l, ∑ d ∈ range l,
        Ct.get [p, a] * Ct.get [q, b] * u.get [a, b, c, d] * C.get [c, r] * C.get [d, s]
    | _ => 0)

@[simp] theorem oneBodyArr_shape (h C Ct : NDArray K) (m k l n) :
    (oneBodyArr h C Ct m k l n).shape = [m, n] := rfl
@[simp] theorem twoBodyArr_shape (u C Ct : NDArray K) (l m n) :
    (twoBodyArr u C Ct l m n).shape = [m, m, n, n] := rfl
theorem oneBodyArr_get {h C Ct : NDArray K} {m k l n p q : ℕ} (hp : p < m) (hq : q < n) :
    (oneBodyArr h C Ct m k l n).get [p, q] =
      ∑ a ∈ range k, ∑ b ∈ range l, Ct.get [p, a] * h.get [a, b] * C.get [b, q] := by
  rw [oneBodyArr, ofFn_get_of (by simp [hp, hq])]
theorem twoBodyArr_get {u C Ct : NDArray K} {l m n p q r s : ℕ} (hp : p < m) (hq : q < m)
    (hr : r < n) (hs : s < n) :
    (twoBodyArr u C Ct l m n).get [p, q, r, s] =
      ∑ a ∈ range l, ∑ b ∈ range l, ∑ c ∈ range l, ∑ d ∈ range l,
        Ct.get [p, a] * Ct.get [q, b] * u.get [a, b, c, d] * C.get [c, r] * C.get [d, s] := by
  rw [twoBodyArr, ofFn_get_of (by simp [hp, hq, hr, hs])]

theorem transformOneBody_eq {np : Module} {h C Ct : NDArray K} {m k l n : ℕ}
    (hh : h.shape = [k, l]) (hC : C.shape = [l, n]) (hCt : Ct.shape = [m, k]) :
    transformOneBody (some np) (some h) C (some Ct) = .ok (oneBodyArr h C Ct m k l n) := by
  simp only [transformOneBody, needNp, orErr, Option.getD, bind, Except.bind]
  rw [dot_two hh hC]
  simp only
  rw [dot_two hCt (matMul_shape ..)]
  congr 1
  refine ext' (by simp [oneBodyArr]) rfl ?_
  intro i hi
  obtain ⟨p, q, rfl, hp, hq⟩ := inRange_two.1 (show InRange [m, n] i from hi)
  rw [matMul_get hp hq, oneBodyArr_get hp hq]
  refine sum_congr rfl fun a ha => ?_
  rw [matMul_get (mem_range.1 ha) hq, mul_sum]
  refine sum_congr rfl fun b _ => ?_
  ring

theorem transformOneBody_none {np : Option Module} {h : Option (NDArray K)} {C : NDArray K} :
    transformOneBody np h C none = transformOneBody np h C (some C.conj.T) := rfl

theorem transformTwoBody_none {np : Option Module} {h : Option (NDArray K)} {C : NDArray K} :
    transformTwoBody np h C none = transformTwoBody np h C (some C.conj.T) := rfl

theorem transformTwoBody_eq {np : Module} {u C Ct : NDArray K} {l m n : ℕ}
    (hu : u.shape = [l, l, l, l]) (hC : C.shape = [l, n]) (hCt : Ct.shape = [m, l]) :
    transformTwoBody (some np) (some u) C (some Ct) = .ok (twoBodyArr u C Ct l m n) := by
  simp only [transformTwoBody, needNp, orErr, Option.getD, bind, Except.bind]
  obtain ⟨u₁, e₁, d₁, s₁, g₁⟩ := tensordot_ok (a := u) (b := C) (i := 3) (j := 0) (n := l)
    (by simp [hu]) (by simp [hC])
  rw [e₁]; simp only
  simp only [hu, hC, List.eraseIdx, List.cons_append, List.nil_append, ndim, List.length] at s₁ g₁
  obtain ⟨u₂, e₂, d₂, s₂, g₂⟩ := tensordot_ok (a := u₁) (b := C) (i := 2) (j := 0) (n := l)
    (by simp [s₁]) (by simp [hC])
  rw [e₂]; simp only
  simp only [s₁, hC, List.eraseIdx, List.cons_append, List.nil_append, ndim, List.length] at s₂ g₂
  obtain ⟨u₂', e₂', d₂', s₂', g₂'⟩ := transpose_0132 s₂
  rw [e₂']; simp only
  obtain ⟨u₃, e₃, d₃, s₃, g₃⟩ := tensordot_ok (a := u₂') (b := Ct) (i := 1) (j := 1) (n := l)
    (by simp [s₂']) (by simp [hCt])
  rw [e₃]; simp only
  simp only [s₂', hCt, List.eraseIdx, List.cons_append, List.nil_append, ndim, List.length]
    at s₃ g₃
  obtain ⟨u₃', e₃', d₃', s₃', g₃'⟩ := transpose_0312 s₃
  rw [e₃']; simp only
  obtain ⟨u₄, e₄, d₄, s₄, g₄⟩ := tensordot_ok (a := Ct) (b := u₃') (i := 1) (j := 0) (n := l)
    (by simp [hCt]) (by simp [s₃'])
  rw [e₄]
  simp only [s₃', hCt, List.eraseIdx, List.cons_append, List.nil_append, ndim, List.length]
    at s₄ g₄
  congr 1
  refine ext' ?_ s₄ ?_
  · simp only [d₄, d₃', d₃, d₂', d₂, d₁, twoBodyArr, ofFn_dtype]
    cases u.dtype <;> cases C.dtype <;> cases Ct.dtype <;> rfl
  intro i hi
  rw [s₄] at hi
  obtain ⟨p, q, r, s, rfl, hp, hq, hr, hs⟩ := inRange_four.1 hi
  rw [twoBodyArr_get hp hq hr hs, g₄ _ hi]
  refine sum_congr rfl fun a ha => ?_
  have ha := mem_range.1 ha
  show Ct.get [p, a] * u₃'.get [a, q, r, s] = _
  rw [g₃', g₃ _ (by simp [ha, hr, hs, hq]), mul_sum]
  refine sum_congr rfl fun b hb => ?_
  have hb := mem_range.1 hb
  show Ct.get [p, a] * (u₂'.get [a, b, r, s] * Ct.get [q, b]) = _
  rw [g₂', g₂ _ (by simp [ha, hr, hs, hb]), sum_mul, mul_sum]
  refine sum_congr rfl fun c hc => ?_
  have hc := mem_range.1 hc
  show Ct.get [p, a] * (u₁.get [a, b, c, s] * C.get [c, r] * Ct.get [q, b]) = _
  rw [g₁ _ (by simp [ha, hc, hs, hb]), sum_mul, sum_mul, mul_sum]
  refine sum_congr rfl fun d _ => ?_
  show Ct.get [p, a] * (u.get [a, b, c, d] * C.get [d, s] * C.get [c, r] * Ct.get [q, b]) = _
  ring

end BasisSet

end QS
