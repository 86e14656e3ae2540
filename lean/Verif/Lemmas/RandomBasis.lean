import Verif.Model.RandomBasis
import Verif.Lemmas.ChangeBasis
import Verif.Lemmas.OneDim

/-! # The matrix elements of random basis sets -/

namespace QS.RandomBasis

open NDArray BasisSet PyM OneDim

variable {K : Type} [PyScalar K]

theorem star_half : star (1 / 2 : K) = 1 / 2 := by
  rw [star_div₀, star_one, star_ofNat]

theorem smul_get (dt : DType) (c : K) (a : NDArray K) (i : List ℕ) : (smul dt c a).get i = c * a.get i := by
  unfold smul
  rw [ofFn_get]
  split_ifs with h
  · rfl
  · rw [a.supp i h, mul_zero]

theorem makeHermitian_ok {h : NDArray K} {l : ℕ} (hh : h.shape = [l, l]) :
    ∃ x, makeHermitian h = .ok x ∧ x.shape = [l, l] ∧
      ∀ p < l, ∀ q < l, x.get [p, q] = 1 / 2 * (h.get [p, q] + star (h.get [q, p])) := by
  unfold makeHermitian
  rw [add_same (by simp [hh]), ok_bind]
  refine ⟨_, rfl, by simp [smul, hh], ?_⟩
  intro p hp q hq
  rw [smul_get, ofFn_get_of (by rw [hh]; exact ⟨hp, hq, trivial⟩), conjT_get2 h hh]

theorem makeTwoBodySymmetry_ok {u : NDArray K} {l : ℕ} (hu : u.shape = [l, l, l, l]) :
    ∃ x, makeTwoBodySymmetry u = .ok x ∧ x.shape = [l, l, l, l] ∧
      ∀ p < l, ∀ q < l, ∀ r < l, ∀ s < l,
        x.get [p, q, r, s] = 1 / 2 * (u.get [p, q, r, s] + u.get [q, p, s, r]) := by
  have hn : u.ndim = 4 := by simp [ndim, hu]
  unfold makeTwoBodySymmetry
  rw [transpose_ok (by rw [hn]; decide), ok_bind, add_same (by simp [hu]), ok_bind]
  refine ⟨_, rfl, by simp [smul, hu], ?_⟩
  intro p hp q hq r hr s hs
  have hi : InRange u.shape [p, q, r, s] := by rw [hu]; exact ⟨hp, hq, hr, hs, trivial⟩
  rw [smul_get, ofFn_get_of hi, ofFn_get_of (by simp only [hu]; exact ⟨hp, hq, hr, hs, trivial⟩), hn]
  rfl

theorem dipoleLoop_ok {d : NDArray K} {dim l : ℕ} (hd : d.shape = [dim, l, l]) (n : ℕ) (hn : n ≤ dim) :
    ∃ x, (List.range n).foldlM (fun d i => do
        let row ← NDArray.item i d
        let x ← makeHermitian row
        setRow d i x) d = .ok x ∧ x.shape = [dim, l, l] ∧
      ∀ i < dim, ∀ p < l, ∀ q < l, x.get [i, p, q]
        = if i < n then 1 / 2 * (d.get [i, p, q] + star (d.get [i, q, p])) else d.get [i, p, q] := by
  induction n with
  | zero => exact ⟨d, rfl, hd, fun i _ p _ q _ => by simp⟩
  | succ n ih =>
    obtain ⟨x, h1, h2, h3⟩ := ih (by omega)
    rw [List.range_succ, List.foldlM_append, h1]
    obtain ⟨y, hy, hys, hyg⟩ := makeHermitian_ok (h := ofFn x.dtype [l, l] (fun j => x.get (n :: j))) (l := l) rfl
    refine ⟨x.pointwise (fun j z => if j.head? = some n then y.get j.tail else z), ?_, ?_, ?_⟩
    · rw [ok_bind]
      rw [List.foldlM_cons, item_ok h2 (by omega), ok_bind, hy, ok_bind]
      unfold setRow
      rw [h2]
      simp only
      rw [if_neg (by omega), if_neg (by simp [hys])]
      rfl
    · simp [pointwise, h2]
    · intro i hi p hp q hq
      unfold pointwise
      rw [ofFn_get_of (by rw [h2]; exact ⟨hi, hp, hq, trivial⟩)]
      simp only [List.head?_cons, Option.some.injEq, List.tail_cons]
      by_cases hin : i = n
      · subst hin
        rw [if_pos rfl, if_pos (by omega), hyg p hp q hq, ofFn_get_of (by exact ⟨hp, hq, trivial⟩),
          ofFn_get_of (by exact ⟨hq, hp, trivial⟩), h3 i hi p hp q hq, h3 i hi q hq p hp, if_neg (by omega),
          if_neg (by omega)]
      · rw [if_neg hin, h3 i hi p hp q hq]
        by_cases h : i < n
        · rw [if_pos h, if_pos (by omega)]
        · rw [if_neg h, if_neg (by omega)]

theorem makeDipoleHermitian_ok {d : NDArray K} {dim l : ℕ} (hd : d.shape = [dim, l, l]) :
    ∃ x, makeDipoleHermitian d = .ok x ∧ x.shape = [dim, l, l] ∧
      ∀ i < dim, ∀ p < l, ∀ q < l, x.get [i, p, q] = 1 / 2 * (d.get [i, p, q] + star (d.get [i, q, p])) := by
  obtain ⟨x, h1, h2, h3⟩ := dipoleLoop_ok hd dim le_rfl
  refine ⟨x, ?_, h2, fun i hi p hp q hq => by rw [h3 i hi p hp q hq, if_pos hi]⟩
  unfold makeDipoleHermitian len
  rw [hd]
  exact h1

theorem getRandomElements_ok {rand : ℕ → List ℕ → NDArray K} (hr : ∀ k sh, (rand k sh).shape = sh) (k : ℕ)
    (sh : List ℕ) : ∃ x, getRandomElements rand k sh = .ok x ∧ x.shape = sh ∧
      ∀ i, x.get i = (rand k sh).get i + PyScalar.I * (rand (k + 1) sh).get i := by
  unfold getRandomElements
  rw [add_same (by simp [smul, hr])]
  refine ⟨_, rfl, hr k sh, fun i => ?_⟩
  rw [ofFn_get, smul_get]
  split_ifs with h
  · rfl
  · rw [(rand k sh).supp i h, (rand (k + 1) sh).supp i (by rw [hr] at h ⊢; exact h)]
    ring

theorem symmetrised_ok {rand : ℕ → List ℕ → NDArray K} (hr : ∀ k sh, (rand k sh).shape = sh) (k : ℕ)
    (sh : List ℕ) (f : NDArray K → Except PyErr (NDArray K)) : ∃ x, x.shape = sh ∧
      (∀ i, x.get i = (rand k sh).get i + PyScalar.I * (rand (k + 1) sh).get i) ∧
      symmetrised rand k sh f = f x := by
  obtain ⟨x, h1, h2, h3⟩ := getRandomElements_ok hr k sh
  refine ⟨x, h2, h3, ?_⟩
  unfold symmetrised
  rw [h1, ok_bind]

end QS.RandomBasis
