import Verif.Lemmas.Compose
import Mathlib.Tactic.Linarith

/-! # Running `change_to_general_orbital_basis` symbolically (helper file, no property theorems) -/

set_option linter.unusedSimpArgs false

namespace QS

open Finset

namespace NDArray
variable {K : Type} [PyScalar K]

theorem kron_two {a b : NDArray K} {m n k l : ℕ} (ha : a.shape = [m, n]) (hb : b.shape = [k, l]) :
    kron a b = ofFn (a.dtype.promote b.dtype) [m * k, n * l] (fun i => match i with
      | [p, q] => a.get [p / k, q / l] * b.get [p % k, q % l]
      | _ => 0) := by
  have hna : a.ndim = 2 := by simp [ndim, ha]
  have hnb : b.ndim = 2 := by simp [ndim, hb]
  refine ext' rfl ?_ fun i hi => ?_
  · simp [kron, padTo, hna, hnb, ha, hb]
  · simp only [kron, hna, hnb, max_self, padTo, Nat.sub_self, List.replicate_zero, List.nil_append,
      ofFn_shape, ha, hb, List.zipWith_cons_cons, List.zipWith_nil_right] at hi ⊢
    obtain ⟨p, q, rfl, hp, hq⟩ := inRange_two.1 hi
    rw [ofFn_get_of hi, ofFn_get_of hi]
    have hk : 0 < k := Nat.pos_of_ne_zero (by rintro rfl; simp at hp)
    have hl : 0 < l := Nat.pos_of_ne_zero (by rintro rfl; simp at hq)
    have h1 : p / k < m := Nat.div_lt_of_lt_mul (by rwa [mul_comm] at hp)
    have h2 : q / l < n := Nat.div_lt_of_lt_mul (by rwa [mul_comm] at hq)
    simp only [List.zipWith_cons_cons, List.zipWith_nil_right]
    rw [ofFn_get_of (by simp [h1, h2]), ofFn_get_of (by simp [Nat.mod_lt _ hk, Nat.mod_lt _ hl])]
    rfl

theorem kron_four {a b : NDArray K} {m₁ m₂ m₃ m₄ k₁ k₂ k₃ k₄ : ℕ}
    (ha : a.shape = [m₁, m₂, m₃, m₄]) (hb : b.shape = [k₁, k₂, k₃, k₄]) :
    kron a b = ofFn (a.dtype.promote b.dtype) [m₁ * k₁, m₂ * k₂, m₃ * k₃, m₄ * k₄]
      (fun i => match i with
      | [p, q, r, s] => a.get [p / k₁, q / k₂, r / k₃, s / k₄] *
          b.get [p % k₁, q % k₂, r % k₃, s % k₄]
      | _ => 0) := by
  have hna : a.ndim = 4 := by simp [ndim, ha]
  have hnb : b.ndim = 4 := by simp [ndim, hb]
  refine ext' rfl ?_ fun i hi => ?_
  · simp [kron, padTo, hna, hnb, ha, hb]
  · simp only [kron, hna, hnb, max_self, padTo, Nat.sub_self, List.replicate_zero, List.nil_append,
      ofFn_shape, ha, hb, List.zipWith_cons_cons, List.zipWith_nil_right] at hi ⊢
    obtain ⟨p, q, r, s, rfl, hp, hq, hr, hs⟩ := inRange_four.1 hi
    rw [ofFn_get_of hi, ofFn_get_of hi]
    have hk : ∀ {x m k : ℕ}, x < m * k → x / k < m ∧ x % k < k := fun {x m k} h =>
      have hk : 0 < k := Nat.pos_of_ne_zero (by rintro rfl; simp at h)
      ⟨Nat.div_lt_of_lt_mul (by rwa [mul_comm] at h), Nat.mod_lt _ hk⟩
    simp only [List.zipWith_cons_cons, List.zipWith_nil_right]
    rw [ofFn_get_of (by simp [hk hp, hk hq, hk hr, hk hs]),
      ofFn_get_of (by simp [hk hp, hk hq, hk hr, hk hs])]
    rfl

theorem iadd_same {a b : NDArray K} (h : a.shape = b.shape)
    (hd : a.dtype.promote b.dtype = a.dtype) :
    iadd a b = .ok (ofFn a.dtype a.shape (fun i => a.get i + b.get i)) := ibinop_same h hd

theorem isub_same {a b : NDArray K} (h : a.shape = b.shape)
    (hd : a.dtype.promote b.dtype = a.dtype) :
    isub a b = .ok (ofFn a.dtype a.shape (fun i => a.get i - b.get i)) := ibinop_same h hd

end NDArray

namespace BasisSet
variable {K : Type} [PyScalar K]

open NDArray PyM

/-! ### result arrays -/

/-- Spin-doubled one-body elements. -/
def dbl1 (x : NDArray K) (m n : ℕ) : NDArray K :=
  ofFn (x.dtype.promote .float64) [2 * m, 2 * n] (fun i => match i with
    | [p, q] => if p % 2 = q % 2 then x.get [p / 2, q / 2] else 0
    | _ => 0)

/-- Spin-doubled two-body elements. -/
def dbl2 (x : NDArray K) (l : ℕ) : NDArray K :=
  ofFn (x.dtype.promote .float64) [2 * l, 2 * l, 2 * l, 2 * l] (fun i => match i with
    | [p, q, r, s] =>
      if p % 2 = r % 2 ∧ q % 2 = s % 2 then x.get [p / 2, q / 2, r / 2, s / 2] else 0
    | _ => 0)

/-- Spin-doubled dipole elements. -/
def dblDip (x : NDArray K) (dim l : ℕ) : NDArray K :=
  ofFn (x.dtype.promote .float64) [dim, 2 * l, 2 * l] (fun i => match i with
    | [i, p, q] => if p % 2 = q % 2 then x.get [i, p / 2, q / 2] else 0
    | _ => 0)

/-- Spin-doubled functions. -/
def dblSpf (x : NDArray K) (l : ℕ) : NDArray K :=
  ofFn x.dtype (2 * l :: x.shape.tail) (fun i => match i with
    | p :: g => x.get (p / 2 :: g)
    | _ => 0)

/-- Anti-symmetrised two-body elements. -/
def asym (x : NDArray K) (l : ℕ) : NDArray K :=
  ofFn x.dtype [l, l, l, l] (fun i => match i with
    | [p, q, r, s] => x.get [p, q, r, s] - x.get [p, q, s, r]
    | _ => 0)

/-- `0.5 * kron(s, sigma)` -/
def spinArr (s sigma : NDArray K) (l : ℕ) : NDArray K :=
  ofFn .complex128 [2 * l, 2 * l] (fun i => match i with
    | [p, q] => 1 / 2 * (s.get [p / 2, q / 2] * sigma.get [p % 2, q % 2])
    | _ => 0)

theorem half_mod {p : ℕ} : p / 2 * 2 + p % 2 = p := by omega

theorem dbl1_get {x : NDArray K} {m n p q : ℕ} (hp : p < 2 * m) (hq : q < 2 * n) :
    (dbl1 x m n).get [p, q] = if p % 2 = q % 2 then x.get [p / 2, q / 2] else 0 := by
  rw [dbl1, ofFn_get_of (by simp [hp, hq])]
theorem dbl2_get {x : NDArray K} {l p q r s : ℕ} (hp : p < 2 * l) (hq : q < 2 * l)
    (hr : r < 2 * l) (hs : s < 2 * l) :
    (dbl2 x l).get [p, q, r, s] =
      if p % 2 = r % 2 ∧ q % 2 = s % 2 then x.get [p / 2, q / 2, r / 2, s / 2] else 0 := by
  rw [dbl2, ofFn_get_of (by simp [hp, hq, hr, hs])]
theorem dblDip_get {x : NDArray K} {dim l i p q : ℕ} (hi : i < dim) (hp : p < 2 * l)
    (hq : q < 2 * l) :
    (dblDip x dim l).get [i, p, q] = if p % 2 = q % 2 then x.get [i, p / 2, q / 2] else 0 := by
  rw [dblDip, ofFn_get_of (by simp [hi, hp, hq])]
theorem dblSpf_get {x : NDArray K} {l p : ℕ} {g : List ℕ} (hp : p < 2 * l)
    (hg : InRange x.shape.tail g) : (dblSpf x l).get (p :: g) = x.get (p / 2 :: g) := by
  rw [dblSpf, ofFn_get_of (by simp [hp, hg])]
theorem asym_get {x : NDArray K} {l p q r s : ℕ} (hp : p < l) (hq : q < l)
    (hr : r < l) (hs : s < l) :
    (asym x l).get [p, q, r, s] = x.get [p, q, r, s] - x.get [p, q, s, r] := by
  rw [asym, ofFn_get_of (by simp [hp, hq, hr, hs])]
theorem spinArr_get {x y : NDArray K} {l p q : ℕ} (hp : p < 2 * l) (hq : q < 2 * l) :
    (spinArr x y l).get [p, q] = 1 / 2 * (x.get [p / 2, q / 2] * y.get [p % 2, q % 2]) := by
  rw [spinArr, ofFn_get_of (by simp [hp, hq])]

theorem kron_eye {x : NDArray K} {m n : ℕ} (hx : x.shape = [m, n]) :
    kron x (eye 2) = dbl1 x m n := by
  rw [kron_two hx (eye_shape 2)]
  refine ext' rfl (by simp [dbl1, mul_comm]) fun i hi => ?_
  have hi' : InRange [m * 2, n * 2] i := hi
  obtain ⟨p, q, rfl, hp, hq⟩ := inRange_two.1 hi'
  rw [ofFn_get_of hi', dbl1_get (by omega) (by omega)]
  simp only
  rw [eye_get 2 _ _ (by omega)]
  split_ifs <;> simp

theorem addSpinOneBody_eq {np : Module} {x : NDArray K} {m n : ℕ} (hx : x.shape = [m, n]) :
    addSpinOneBody (some np) (some x) = .ok (dbl1 x m n) := by
  simp only [addSpinOneBody, needNp, orErr, bind, Except.bind, kron_eye hx]

theorem addSpinTwoBodyBase_eq {np : Module} {x : NDArray K} {l : ℕ} (hx : x.shape = [l, l, l, l]) :
    addSpinTwoBodyBase (some np) (some x) = .ok (dbl2 x l) := by
  simp only [addSpinTwoBodyBase, needNp, orErr, bind, Except.bind, einsum_pr_qs, eye_shape]
  congr 1
  rw [kron_four hx (by rfl)]
  refine ext' rfl (by simp [dbl2, mul_comm]) fun i hi => ?_
  have hi' : InRange [l * 2, l * 2, l * 2, l * 2] i := hi
  obtain ⟨p, q, r, s, rfl, hp, hq, hr, hs⟩ := inRange_four.1 hi'
  rw [ofFn_get_of hi', dbl2_get (by omega) (by omega) (by omega) (by omega)]
  have h2 : ∀ x : ℕ, x % 2 < 2 := fun x => Nat.mod_lt _ (by norm_num)
  simp only
  rw [ofFn_get_of (by simp [h2])]
  simp only
  rw [eye_get 2 _ _ (h2 p), eye_get 2 _ _ (h2 q)]
  by_cases h1 : p % 2 = r % 2 <;> by_cases h3 : q % 2 = s % 2 <;> simp [h1, h3]

theorem addSpinTwoBody_eq {c : Cls} {np : Module} {x : NDArray K} {l : ℕ}
    (hx : x.shape = [l, l, l, l]) :
    addSpinTwoBody c (some np) (some x) = .ok (dbl2 x l) := by
  cases c with
  | plain => exact addSpinTwoBodyBase_eq hx
  | sincDVR =>
    simp only [addSpinTwoBody, addSpinTwoBodySinc, needNp, bind, Except.bind, ndim, hx]
    exact addSpinTwoBodyBase_eq hx

theorem addSpinSpf_eq {np : Module} {x : NDArray K} {l : ℕ} {g : List ℕ} (hx : x.shape = l :: g) :
    addSpinSpf (some np) x = .ok (dblSpf x l) := by
  simp only [addSpinSpf, hx, needNp, bind, Except.bind]
  congr 1
  refine ext' rfl (by simp [dblSpf, hx, mul_comm]) fun i hi => ?_
  have hi' : InRange (l * 2 :: g) i := hi
  obtain ⟨p, j, rfl, hp, hj⟩ := inRange_cons_iff.1 hi'
  rw [ofFn_get_of hi', dblSpf_get (by omega) (by simpa [hx] using hj)]

theorem antiSymmetrizeUBase_eq {x : NDArray K} {l : ℕ} (hx : x.shape = [l, l, l, l]) :
    antiSymmetrizeUBase (some x) = .ok (asym x l) := by
  obtain ⟨r, e, d, s, gg⟩ := transpose_0132 hx
  simp only [antiSymmetrizeUBase, orErr, bind, Except.bind, e]
  rw [sub_same (by rw [hx, s])]
  congr 1
  refine ext' (by simp [asym, d]) (by simp [asym, hx]) fun i hi => ?_
  simp only [ofFn_shape, hx] at hi
  obtain ⟨p, q, r, s, rfl, hp, hq, hr, hs⟩ := inRange_four.1 hi
  rw [ofFn_get_of (by rw [hx]; exact hi), asym_get hp hq hr hs, gg]

theorem antiSymmetrizeU_eq {c : Cls} {x : NDArray K} {l : ℕ} (hx : x.shape = [l, l, l, l]) :
    antiSymmetrizeU c (some x) = .ok (asym x l) := by
  cases c with
  | plain => exact antiSymmetrizeUBase_eq hx
  | sincDVR =>
    simp only [antiSymmetrizeU, antiSymmetrizeUSinc, ndim, hx]
    exact antiSymmetrizeUBase_eq hx

/-! ### Pauli matrices -/

/-- `⟨s| m |t⟩` for column vectors of length 2. -/
def bk (s m t : NDArray K) : K :=
  ∑ i ∈ range 2, star (s.get [i, 0]) * ∑ j ∈ range 2, m.get [i, j] * t.get [j, 0]

theorem braket_eq {s m t : NDArray K} (hs : s.shape = [2, 1]) (hm : m.shape = [2, 2])
    (ht : t.shape = [2, 1]) : braket s m t = .ok (bk s m t) := by
  simp only [braket, bind, Except.bind]
  rw [dot_two hm ht]
  simp only
  rw [dot_two (conjT_shape hs) (matMul_shape ..)]
  simp only [matMul_shape, if_true]
  rw [matMul_get (by norm_num) (by norm_num)]
  congr 1
  refine sum_congr rfl fun i hi => ?_
  rw [conjT_get2 s hs, matMul_get (mem_range.1 hi) (by norm_num)]

/-- One Pauli matrix in the basis `(a, b)`. -/
def pauliArr (m a b : NDArray K) : NDArray K := lit22 (bk a m a) (bk a m b) (bk b m a) (bk b m b)

@[simp] theorem pauliArr_shape (m a b : NDArray K) : (pauliArr m a b).shape = [2, 2] := rfl
@[simp] theorem pauliArr_dtype (m a b : NDArray K) : (pauliArr m a b).dtype = .complex128 := rfl

theorem pauliIn_eq {m a b : NDArray K} (hm : m.shape = [2, 2]) (ha : a.shape = [2, 1])
    (hb : b.shape = [2, 1]) : pauliIn m a b = .ok (pauliArr m a b) := by
  simp only [pauliIn, bind, Except.bind, braket_eq ha hm ha, braket_eq ha hm hb, braket_eq hb hm ha,
    braket_eq hb hm hb, pauliArr]

theorem setupPauli_eq {np : Module} {a b : NDArray K} (ha : a.shape = [2, 1])
    (hb : b.shape = [2, 1]) : setupPauli (some np) a b =
      .ok (pauliArr sigmaXMat a b, pauliArr sigmaYMat a b, pauliArr sigmaZMat a b) := by
  simp only [setupPauli, needNp, bind, Except.bind]
  rw [pauliIn_eq (by rfl) ha hb]; simp only
  rw [pauliIn_eq (by rfl) ha hb]; simp only
  rw [pauliIn_eq (by rfl) ha hb]

/-! ### spin squared -/

/-- `s @ overlap @ s` -/
def sandwichArr (s ov : NDArray K) (n : ℕ) (p q : ℕ) : K :=
  ∑ t ∈ range n, (∑ r ∈ range n, s.get [p, r] * ov.get [r, t]) * s.get [t, q]

/-- The array `spin_2`. -/
def spin2Arr (sx sy sz ov : NDArray K) (n : ℕ) : NDArray K :=
  ofFn .complex128 [n, n] (fun i => match i with
    | [p, q] => sandwichArr sx ov n p q + sandwichArr sy ov n p q + sandwichArr sz ov n p q
    | _ => 0)

/-- The array `spin_2_tb`. -/
def spin2tbArr (sx sy sz : NDArray K) (n : ℕ) : NDArray K :=
  ofFn .complex128 [n, n, n, n] (fun i => match i with
    | [p, q, r, s] => sx.get [p, r] * sx.get [q, s] + sy.get [p, r] * sy.get [q, s] +
        sz.get [p, r] * sz.get [q, s]
    | _ => 0)

theorem spin2Arr_get {sx sy sz ov : NDArray K} {n p q : ℕ} (hp : p < n) (hq : q < n) :
    (spin2Arr sx sy sz ov n).get [p, q] =
      sandwichArr sx ov n p q + sandwichArr sy ov n p q + sandwichArr sz ov n p q := by
  rw [spin2Arr, ofFn_get_of (by simp [hp, hq])]
theorem spin2tbArr_get {sx sy sz : NDArray K} {n p q r s : ℕ} (hp : p < n) (hq : q < n)
    (hr : r < n) (hs : s < n) :
    (spin2tbArr sx sy sz n).get [p, q, r, s] = sx.get [p, r] * sx.get [q, s] +
      sy.get [p, r] * sy.get [q, s] + sz.get [p, r] * sz.get [q, s] := by
  rw [spin2tbArr, ofFn_get_of (by simp [hp, hq, hr, hs])]

theorem spinSquaredStep_ok {ov si : NDArray K} {acc : NDArray K × NDArray K} {n : ℕ}
    (hov : ov.shape = [n, n]) (hs : si.shape = [n, n])
    (h1 : acc.1.shape = [n, n]) (d1 : acc.1.dtype = .complex128)
    (h2 : acc.2.shape = [n, n, n, n]) (d2 : acc.2.dtype = .complex128) :
    ∃ r, spinSquaredStep ov acc si = .ok r ∧ r.1.shape = [n, n] ∧ r.1.dtype = .complex128 ∧
      r.2.shape = [n, n, n, n] ∧ r.2.dtype = .complex128 ∧
      (∀ p < n, ∀ q < n, r.1.get [p, q] = acc.1.get [p, q] + sandwichArr si ov n p q) ∧
      (∀ p < n, ∀ q < n, ∀ t < n, ∀ s < n, r.2.get [p, q, t, s] =
        acc.2.get [p, q, t, s] + si.get [p, t] * si.get [q, s]) := by
  simp only [spinSquaredStep, bind, Except.bind]
  rw [dot_two hs hov]; simp only
  rw [dot_two (matMul_shape ..) hs]; simp only
  rw [iadd_same (by rw [h1, matMul_shape]) (by rw [d1]; simp)]; simp only
  simp only [einsum_pr_qs, hs]
  rw [iadd_same (by rw [h2]; rfl) (by rw [d2]; simp)]
  refine ⟨_, rfl, h1, d1, h2, d2, ?_, ?_⟩
  · intro p hp q hq
    rw [ofFn_get_of (by rw [h1]; simp [hp, hq]), matMul_get hp hq]
    congr 1
    exact sum_congr rfl fun t ht => by rw [matMul_get hp (mem_range.1 ht)]
  · intro p hp q hq t ht s hs'
    rw [ofFn_get_of (by rw [h2]; simp [hp, hq, ht, hs'])]
    rw [ofFn_get_of (by simp [hp, hq, ht, hs'])]

theorem setupSpinSquared_eq {np : Module} {sx sy sz ov : NDArray K} {n : ℕ}
    (hx : sx.shape = [n, n]) (hy : sy.shape = [n, n]) (hz : sz.shape = [n, n])
    (hov : ov.shape = [n, n]) (hd : sx.dtype = .complex128) :
    setupSpinSquared (some np) sx sy sz ov = .ok (spin2Arr sx sy sz ov n, spin2tbArr sx sy sz n) := by
  simp only [setupSpinSquared, len, hx, needNp, bind, Except.bind]
  obtain ⟨r₁, e₁, a₁, b₁, c₁, d₁, f₁, g₁⟩ := spinSquaredStep_ok (si := sx)
    (acc := (sx.zerosLike, zeros sx.zerosLike.dtype [n, n, n, n])) hov hx hx hd rfl hd
  rw [e₁]; simp only
  obtain ⟨r₂, e₂, a₂, b₂, c₂, d₂, f₂, g₂⟩ := spinSquaredStep_ok (si := sy) hov hy a₁ b₁ c₁ d₁
  rw [e₂]; simp only
  obtain ⟨r₃, e₃, a₃, b₃, c₃, d₃, f₃, g₃⟩ := spinSquaredStep_ok (si := sz) hov hz a₂ b₂ c₂ d₂
  rw [e₃]
  congr 1
  refine Prod.ext (ext' (by rw [b₃]; rfl) (by rw [a₃]; rfl) fun i hi => ?_)
    (ext' (by rw [d₃]; rfl) (by rw [c₃]; rfl) fun i hi => ?_)
  · rw [a₃] at hi
    obtain ⟨p, q, rfl, hp, hq⟩ := inRange_two.1 hi
    rw [f₃ p hp q hq, f₂ p hp q hq, f₁ p hp q hq, spin2Arr_get hp hq]
    simp [zerosLike]
  · rw [c₃] at hi
    obtain ⟨p, q, r, s, rfl, hp, hq, hr, hs⟩ := inRange_four.1 hi
    rw [g₃ p hp q hq r hr s hs, g₂ p hp q hq r hr s hs, g₁ p hp q hq r hr s hs,
      spin2tbArr_get hp hq hr hs]
    simp

theorem smul_kron {s m : NDArray K} {l : ℕ} (hs : s.shape = [l, l]) (hm : m.shape = [2, 2])
    (hd : m.dtype = .complex128) :
    NDArray.smul .float64 (1 / 2) (kron s m) = spinArr s m l := by
  rw [kron_two hs hm]
  refine ext' (by simp [spinArr, hd]) (by simp [spinArr, mul_comm]) fun i hi => ?_
  have hi' : InRange [l * 2, l * 2] i := hi
  obtain ⟨p, q, rfl, hp, hq⟩ := inRange_two.1 hi'
  rw [smul_get, ofFn_get_of hi', spinArr_get (by omega) (by omega)]

/-! ### `setup` of the spin operators -/

theorem column_shape2 (x y : K) : (column [x, y]).shape = [2, 1] := rfl
theorem column_get (x y : K) : (column [x, y]).get [0, 0] = x ∧ (column [x, y]).get [1, 0] = y :=
  ⟨rfl, rfl⟩

/-- `⟨x|y⟩` for 2-vectors. -/
def ip (x₀ x₁ y₀ y₁ : K) : K := star x₀ * y₀ + star x₁ * y₁

theorem checkOverlap_eq (x₀ x₁ y₀ y₁ c : K) :
    checkOverlap (column [x₀, x₁]) (column [y₀, y₁]) c =
      .ok (PyScalar.small (ip x₀ x₁ y₀ y₁ - c)) := by
  simp only [checkOverlap, bind, Except.bind]
  rw [dot_two (conjT_shape (column_shape2 x₀ x₁)) (column_shape2 y₀ y₁)]
  simp only [matMul_shape, if_true]
  rw [matMul_get (by norm_num) (by norm_num)]
  simp only [sum_range_succ, sum_range_zero, zero_add, conjT_get2 _ (column_shape2 x₀ x₁)]
  rfl

/-- The basis set after the spin operators are set up. -/
def withSpin (b : BasisSet K) (ov s : NDArray K) (a₀ a₁ b₀ b₁ : K) (l : ℕ) : BasisSet K :=
  let ca := column [a₀, a₁]
  let cb := column [b₀, b₁]
  let gx := pauliArr sigmaXMat ca cb
  let gy := pauliArr sigmaYMat ca cb
  let gz := pauliArr sigmaZMat ca cb
  { b with
    a := some ca, b := some cb, sigmaX := some gx, sigmaY := some gy, sigmaZ := some gz
    spinX := some (spinArr ov gx l), spinY := some (spinArr ov gy l)
    spinZ := some (spinArr ov gz l)
    spin2 := some (spin2Arr (spinArr ov gx l) (spinArr ov gy l) (spinArr ov gz l) s (2 * l))
    spin2tb := some (spin2tbArr (spinArr ov gx l) (spinArr ov gy l) (spinArr ov gz l) (2 * l)) }

theorem setupSpin_run {b : BasisSet K} {np : Module} {ov s : NDArray K} {l : ℕ} {a₀ a₁ b₀ b₁ : K}
    (hnp : b.np = some np) (hl : b.l = 2 * l) (hsp : b.includesSpin = true) (hs : b.s = some s)
    (hss : s.shape = [2 * l, 2 * l]) (hov : ov.shape = [l, l])
    (ha : PyScalar.small (ip a₀ a₁ a₀ a₁ - 1) = true)
    (hb : PyScalar.small (ip b₀ b₁ b₀ b₁ - 1) = true)
    (hab : PyScalar.small (ip a₀ a₁ b₀ b₁) = true) :
    (setupSpin ov [a₀, a₁] [b₀, b₁]).run b = (.ok (), withSpin b ov s a₀ a₁ b₀ b₁ l) := by
  simp only [setupSpin, PyM.run_bind, run_get, run_liftM, hnp, needNp, run_modify, checkOverlap_eq,
    ha, hb, run_assert_true, sub_zero, hab]
  rw [setupPauli_eq (column_shape2 ..) (column_shape2 ..)]
  simp only [PyM.run_bind, setSigma, run_get, hsp, run_assert_true, run_modify]
  rw [smul_kron hov (by rfl) (by rfl), smul_kron hov (by rfl) (by rfl),
    smul_kron hov (by rfl) (by rfl)]
  have hax : ∀ m : NDArray K, axesOk (spinArr ov m l) (2 * l) = true := fun m => axesOk_two rfl
  rw [setSpinX_run (by simp only [hl]; exact hax _) (by first | exact hsp | rfl)]
  simp only
  rw [setSpinY_run (by simp only [hl]; exact hax _) (by first | exact hsp | rfl)]
  simp only
  rw [setSpinZ_run (by simp only [hl]; exact hax _) (by first | exact hsp | rfl)]
  simp only [run_get, orErr, hs, hnp]
  rw [setupSpinSquared_eq (n := 2 * l) rfl rfl rfl hss rfl]
  simp only
  rw [setSpin2_run (by simp only [hl]; exact axesOk_two rfl) (by first | exact hsp | rfl)]
  simp only
  rw [setSpin2tb_run (by simp only [hl]; exact axesOk_four rfl) (by first | exact hsp | rfl)]
  simp only [withSpin, hnp, hs, hsp]

/-! ### anti-symmetrisation, cast -/

/-- The basis set after `anti_symmetrize_two_body_elements()`. -/
def antiSymmed (b : BasisSet K) (l : ℕ) : BasisSet K :=
  if b.antiSym then b else { b with
    u := b.u.map fun x => asym x l
    spin2tb := b.spin2tb.map fun x => asym x l
    antiSym := true }

theorem antiSymmetrizeTwoBody_run {b : BasisSet K} {u : NDArray K} {l : ℕ} (hl : b.l = l)
    (hu : b.u = some u) (hus : u.shape = [l, l, l, l])
    (htb : ∀ x, b.spin2tb = some x → x.shape = [l, l, l, l] ∧ b.includesSpin = true) :
    (antiSymmetrizeTwoBody).run b = (.ok (), antiSymmed b l) := by
  simp only [antiSymmetrizeTwoBody, antiSymmed, PyM.run_bind, run_get]
  cases h : b.antiSym with
  | true => simp
  | false =>
    simp only [Bool.not_false, if_true, PyM.run_bind, run_liftM, hu]
    rw [antiSymmetrizeU_eq hus]
    simp only
    rw [setU_run (by rw [hl]; exact axesOk_four rfl)]
    simp only [run_get]
    rcases hx : b.spin2tb with _ | x
    · simp [PyM.run_bind]
    · obtain ⟨h1, h2⟩ := htb x hx
      simp only [PyM.run_bind, run_liftM]
      rw [antiSymmetrizeU_eq h1]
      simp only
      rw [setSpin2tb_run (by simp only [hl]; exact axesOk_four rfl) (by exact h2)]
      simp

/-- The basis set after `cast_to_complex()`. -/
def casted (b : BasisSet K) : BasisSet K :=
  { b with
    h := b.h.map NDArray.toComplex
    s := b.s.map NDArray.toComplex
    u := b.u.map NDArray.toComplex
    spf := b.spf.map NDArray.toComplex
    braSpf := b.bra.map NDArray.toComplex
    dipole := b.dipole.map NDArray.toComplex
    spinX := b.spinX.map NDArray.toComplex
    spinY := b.spinY.map NDArray.toComplex
    spinZ := b.spinZ.map NDArray.toComplex
    spin2 := b.spin2.map NDArray.toComplex
    spin2tb := b.spin2tb.map NDArray.toComplex }

theorem castToComplex_run {b : BasisSet K} {np : Module} (hnp : b.np = some np) :
    (castToComplex).run b = (.ok (), casted b) := by
  simp only [castToComplex, PyM.run_bind, getBra_run, run_get]
  split_ifs
  · simp only [PyM.run_bind, run_liftM, hnp, needNp, run_modify, casted]
  · simp only [PyM.run_bind, run_pure, run_modify, casted]

/-! ### spin doubling of dipole moments -/

theorem addSpinDipole_eq {np : Module} {d : NDArray K} {dim l : ℕ} (hd : d.shape = [dim, l, l])
    {is : List ℕ} (his : ∀ i ∈ is, i < dim) :
    addSpinDipole (some np) d is = .ok (is.map fun i =>
      dbl1 (ofFn d.dtype [l, l] (fun j => d.get (i :: j))) l l) := by
  induction is with
  | nil => rfl
  | cons i is ih =>
    simp only [addSpinDipole, item_ok hd (his i (by simp)), bind, Except.bind]
    rw [addSpinOneBody_eq (m := l) (n := l) rfl]
    simp only
    rw [ih fun j hj => his j (by simp [hj])]
    rfl

theorem stack_dbl {d : NDArray K} {dim l : ℕ} (hdim : 0 < dim) :
    stack ((List.range dim).map fun i => dbl1 (ofFn d.dtype [l, l] (fun j => d.get (i :: j))) l l) =
      .ok (dblDip d dim l) := by
  rw [stack_range (dt := d.dtype.promote .float64) (sh := [2 * l, 2 * l]) hdim
    (fun _ _ => rfl) (fun _ _ => rfl)]
  congr 1
  refine ext' rfl rfl fun i hi => ?_
  have hi' : InRange [dim, 2 * l, 2 * l] i := hi
  obtain ⟨i, p, q, rfl, h1, h2, h3⟩ := inRange_three.1 hi'
  rw [ofFn_get_of hi', dblDip_get h1 h2 h3]
  simp only
  rw [dbl1_get h2 h3]
  split_ifs
  · rw [ofFn_get_of (by simp; omega)]
  · rfl

/-! ### the whole method -/

/-- The basis set after `change_to_general_orbital_basis(a, b, anti_symmetrize)`. -/
def general (b : BasisSet K) (l : ℕ) (ov : NDArray K) (a₀ a₁ b₀ b₁ : K) (anti : Bool) :
    BasisSet K :=
  let b₁' : BasisSet K := { b with
    includesSpin := true, l := 2 * l
    h := b.h.map fun x => dbl1 x l l
    s := b.s.map fun x => dbl1 x l l
    u := b.u.map fun x => dbl2 x l }
  let b₂ := withSpin b₁' ov (dbl1 ov l l) a₀ a₁ b₀ b₁ l
  let b₃ := if anti then antiSymmed b₂ (2 * l) else b₂
  casted { b₃ with
    dipole := b.dipole.map fun x => dblDip x b.dim l
    spf := b.spf.map fun x => dblSpf x l
    braSpf := b.braSpf.map fun x => dblSpf x l }

theorem doubleDipole_run {b : BasisSet K} {np : Module} {l : ℕ} (hnp : b.np = some np)
    (hl : b.l = 2 * l)
    (hdip : ∀ x, b.dipole = some x → 0 < b.dim ∧ x.shape = [b.dim, l, l]) :
    (doubleDipole).run b =
      (.ok (), { b with dipole := b.dipole.map fun x => dblDip x b.dim l }) := by
  simp only [doubleDipole, PyM.run_bind, run_get]
  rcases hd : b.dipole with _ | d
  · cases b; simp_all
  · obtain ⟨hdim, hds⟩ := hdip d hd
    have hlen : d.len = .ok b.dim := by simp [len, hds]
    simp only [PyM.run_bind, run_liftM, hlen, hnp]
    rw [addSpinDipole_eq hds (fun i hi => List.mem_range.1 hi)]
    simp only
    rw [stack_dbl hdim]
    simp only
    rw [setDipole_run (sh := [2 * l, 2 * l]) (by rfl) (by simp [hl])]
    simp [hnp]

theorem doubleSpf_run {b : BasisSet K} {np : Module} {l : ℕ} (hnp : b.np = some np)
    (hl : b.l = 2 * l)
    (hspf : ∀ x, b.spf = some x → ∃ g, x.shape = l :: g ∧ g.length = b.dim)
    (hbra : ∀ x, b.braSpf = some x → ∃ g, x.shape = l :: g ∧ g.length = b.dim)
    (hbn : b.spf = none → b.braSpf = none) :
    (doubleSpf).run b = (.ok (), { b with
        spf := b.spf.map fun x => dblSpf x l
        braSpf := b.braSpf.map fun x => dblSpf x l }) := by
  simp only [doubleSpf, PyM.run_bind, run_get]
  rcases hx : b.spf with _ | x
  · have := hbn hx
    cases b; simp_all
  · obtain ⟨g, hg, hg'⟩ := hspf x hx
    simp only [PyM.run_bind, run_liftM, hnp]
    rw [addSpinSpf_eq hg]
    simp only
    rw [setSpf_run (sh := g) (by simp [hl, dblSpf, hg]) hg']
    simp only [run_get]
    rcases hy : b.braSpf with _ | y
    · cases b; simp_all
    · obtain ⟨g', hg2, hg2'⟩ := hbra y hy
      simp only [PyM.run_bind, run_liftM, hnp]
      rw [addSpinSpf_eq hg2]
      simp only
      rw [setBra_run (sh := g') (by simp [hl, dblSpf, hg2]) (by exact hg2')]
      simp [hnp]

theorem changeToGeneralBase_run {b : BasisSet K} {ov : NDArray K} {l : ℕ} {a₀ a₁ b₀ b₁ : K}
    {anti : Bool} (hb : WellFormed b l) (hsp : b.includesSpin = false) (hs : b.s = some ov)
    (ha : PyScalar.small (ip a₀ a₁ a₀ a₁ - 1) = true)
    (hbb : PyScalar.small (ip b₀ b₁ b₀ b₁ - 1) = true)
    (hab : PyScalar.small (ip a₀ a₁ b₀ b₁) = true) :
    (changeToGeneralBase [a₀, a₁] [b₀, b₁] anti).run b =
      (.ok true, general b l ov a₀ a₁ b₀ b₁ anti) := by
  obtain ⟨np, hnp⟩ := hb.np
  obtain ⟨h, hh, hhs⟩ := hb.h
  obtain ⟨u, hu, hus⟩ := hb.u
  have hl := hb.l_eq
  have hovs := hb.s ov hs
  unfold changeToGeneralBase
  simp only [PyM.run_bind, run_get, hsp, Bool.false_eq_true, if_false, run_modify, run_liftM, hs,
    orErr, hnp, hh]
  rw [addSpinOneBody_eq hhs]
  simp only [hl]
  rw [setH_run (by exact axesOk_two rfl)]
  simp only [run_get, run_liftM, hs, hnp]
  rw [addSpinOneBody_eq hovs]
  simp only
  rw [setS_run (by exact axesOk_two rfl)]
  simp only [run_get, run_liftM, hu, hnp]
  rw [addSpinTwoBody_eq hus]
  simp only
  rw [setU_run (by exact axesOk_four rfl)]
  simp only [run_get]
  rw [if_pos (by
    rintro ⟨_, h2⟩
    simp [uRepr, ndim, dbl2] at h2)]
  rw [PyM.run_bind, setupSpin_run (np := np) (l := l) (by rfl) (by rfl) (by rfl) (by rfl) (by rfl) hovs
    ha hbb hab]
  simp only
  cases anti with
  | false =>
    simp only [Bool.false_eq_true, if_false, PyM.run_bind]
    rw [doubleDipole_run (np := np) (l := l) (by rfl) (by rfl) (by exact hb.dipole)]
    simp only
    rw [doubleSpf_run (np := np) (l := l) (by rfl) (by rfl)
      (by exact hb.spf) (by exact hb.bra) (by exact hb.braNeedsSpf)]
    simp only
    rw [castToComplex_run (np := np) (by rfl)]
    simp [general, withSpin, hh, hu, hs, hnp]
  | true =>
    simp only [if_true, PyM.run_bind]
    rw [antiSymmetrizeTwoBody_run (u := dbl2 u l) (l := 2 * l) (by rfl) (by rfl) (by rfl)
      (by rintro x ⟨⟩; exact ⟨rfl, rfl⟩)]
    simp only
    cases hanti : b.antiSym with
    | true =>
      simp only [antiSymmed, withSpin, hanti, if_true]
      rw [doubleDipole_run (np := np) (l := l) (by rfl) (by rfl) (by exact hb.dipole)]
      simp only
      rw [doubleSpf_run (np := np) (l := l) (by rfl) (by rfl)
        (by exact hb.spf) (by exact hb.bra) (by exact hb.braNeedsSpf)]
      simp only
      rw [castToComplex_run (np := np) (by rfl)]
      simp [general, antiSymmed, withSpin, hh, hu, hs, hanti, hnp]
    | false =>
      simp only [antiSymmed, withSpin, hanti, if_false, Bool.false_eq_true]
      rw [doubleDipole_run (np := np) (l := l) (by rfl) (by rfl) (by exact hb.dipole)]
      simp only
      rw [doubleSpf_run (np := np) (l := l) (by rfl) (by rfl)
        (by exact hb.spf) (by exact hb.bra) (by exact hb.braNeedsSpf)]
      simp only
      rw [castToComplex_run (np := np) (by rfl)]
      simp [general, antiSymmed, withSpin, hh, hu, hs, hanti, hnp]

end BasisSet

end QS
