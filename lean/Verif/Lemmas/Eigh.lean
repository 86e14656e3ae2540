import Verif.Spec.OneDim
import Verif.Core.Lemmas
import Mathlib.Analysis.Matrix.Spectrum
import Mathlib.Data.Fin.Tuple.Sort

/-!
# An eigenvalue routine that does what `np.linalg.eigh` promises exists
-/

namespace QS.Spec

open NDArray

theorem eigh_exists (n : ℕ) (h : NDArray ℂ) (hh : ∀ i j, h.get [i, j] = (starRingEnd ℂ) (h.get [j, i])) :
    ∃ w v, EighOK n h w v := by
  let M : Matrix (Fin n) (Fin n) ℂ := fun i j => h.get [i, j]
  have hM : M.IsHermitian := by
    ext i j
    exact (hh i j).symm
  let σ := Tuple.sort hM.eigenvalues
  have hσ : Monotone (hM.eigenvalues ∘ σ) := Tuple.monotone_sort _
  let vec : ℕ → ℕ → ℂ := fun k i =>
    if hk : k < n then if hi : i < n then (hM.eigenvectorBasis (σ ⟨i, hi⟩)).ofLp ⟨k, hk⟩ else 0 else 0
  let ev : ℕ → ℝ := fun i => if hi : i < n then hM.eigenvalues (σ ⟨i, hi⟩) else 0
  have hvec : ∀ k i, k < n → i < n → (ofFn .float64 [n, n] (fun x => vec (x.getD 0 0) (x.getD 1 0))).get [k, i]
      = vec k i := fun k i hk hi => ofFn_get_of (by exact ⟨hk, hi, trivial⟩)
  have hev : ∀ i, i < n → (ofFn .float64 [n] (fun x => (ev (x.getD 0 0) : ℂ))).get [i] = (ev i : ℂ) :=
    fun i hi => ofFn_get_of (by exact ⟨hi, trivial⟩)
  refine ⟨ofFn .float64 [n] (fun x => (ev (x.getD 0 0) : ℂ)),
    ofFn .float64 [n, n] (fun x => vec (x.getD 0 0) (x.getD 1 0)), rfl, rfl, ?_, ?_, ?_, ?_⟩
  · intro i
    rw [ofFn_get]
    split_ifs
    · simp
    · simp
  · intro i j hij hj
    rw [hev i (by omega), hev j hj, Complex.ofReal_re, Complex.ofReal_re]
    simp only [ev]
    rw [dif_pos (by omega), dif_pos hj]
    exact hσ (show (⟨i, by omega⟩ : Fin n) ≤ ⟨j, hj⟩ from hij)
  · intro i j hi hj
    have ho := hM.eigenvectorBasis.orthonormal
    rw [orthonormal_iff_ite] at ho
    have h1 := ho (σ ⟨i, hi⟩) (σ ⟨j, hj⟩)
    rw [EuclideanSpace.inner_eq_star_dotProduct] at h1
    rw [Finset.sum_congr rfl (g := fun k => (starRingEnd ℂ) (vec k i) * vec k j) (fun k hk => by
      rw [hvec k i (Finset.mem_range.1 hk) hi, hvec k j (Finset.mem_range.1 hk) hj])]
    rw [← Fin.sum_univ_eq_sum_range (fun k => (starRingEnd ℂ) (vec k i) * vec k j)]
    have e : (if σ ⟨i, hi⟩ = σ ⟨j, hj⟩ then (1 : ℂ) else 0) = if i = j then 1 else 0 := by
      by_cases hij : i = j
      · subst hij; simp
      · rw [if_neg (fun h => hij (by simpa using σ.injective h)), if_neg hij]
    rw [← e, ← h1]
    unfold dotProduct
    refine Finset.sum_congr rfl fun k _ => ?_
    simp only [vec, dif_pos k.2, dif_pos hi, dif_pos hj]
    rw [mul_comm]
    rfl
  · intro i j hi hj
    have h1 := congrFun (hM.mulVec_eigenvectorBasis (σ ⟨i, hi⟩)) ⟨j, hj⟩
    rw [Finset.sum_congr rfl (g := fun k => h.get [j, k] * vec k i) (fun k hk => by
      rw [hvec k i (Finset.mem_range.1 hk) hi]), hev i hi, hvec j i hj hi]
    rw [← Fin.sum_univ_eq_sum_range (fun k => h.get [j, k] * vec k i)]
    have e : ev i = hM.eigenvalues (σ ⟨i, hi⟩) := dif_pos hi
    have e2 : vec j i = (hM.eigenvectorBasis (σ ⟨i, hi⟩)).ofLp ⟨j, hj⟩ := by
      simp only [vec, dif_pos hi, dif_pos hj]
    rw [e, e2]
    have e3 : ((hM.eigenvalues (σ ⟨i, hi⟩) : ℝ) : ℂ) * (hM.eigenvectorBasis (σ ⟨i, hi⟩)).ofLp ⟨j, hj⟩
      = (hM.eigenvalues (σ ⟨i, hi⟩) • (hM.eigenvectorBasis (σ ⟨i, hi⟩)).ofLp) ⟨j, hj⟩ := by
      simp
    rw [e3, ← h1]
    unfold Matrix.mulVec dotProduct
    refine Finset.sum_congr rfl fun k _ => ?_
    simp only [vec, dif_pos k.2, dif_pos hi]
    rfl

/-- The promise of `np.linalg.eigh` can be kept. -/
theorem isEigh_exists : ∃ eigh, IsEigh eigh := by
  have h : ∀ h : NDArray ℂ, ∃ r : Except PyErr (NDArray ℂ × NDArray ℂ), ∀ n, h.shape = [n, n] →
      (∀ i j, h.get [i, j] = (starRingEnd ℂ) (h.get [j, i])) → ∃ w v, r = .ok (w, v) ∧ EighOK n h w v := by
    intro h
    by_cases hx : (∃ n, h.shape = [n, n]) ∧ ∀ i j, h.get [i, j] = (starRingEnd ℂ) (h.get [j, i])
    · obtain ⟨⟨n, hn⟩, hh⟩ := hx
      obtain ⟨w, v, hwv⟩ := eigh_exists n h hh
      refine ⟨.ok (w, v), fun m hm _ => ⟨w, v, rfl, ?_⟩⟩
      obtain rfl : n = m := by rw [hn] at hm; simpa using hm
      exact hwv
    · exact ⟨.error .value, fun n hn hh => (hx ⟨⟨n, hn⟩, hh⟩).elim⟩
  choose eigh he using h
  exact ⟨eigh, fun n h hs hh => he h n hs hh⟩

open Finset in
/-- Orthonormal columns of a square matrix have orthonormal rows. -/
theorem EighOK.complete {n : ℕ} {h w v : NDArray ℂ} (E : EighOK n h w v) {j k : ℕ} (hj : j < n) (hk : k < n) :
    ∑ i ∈ range n, v.get [j, i] * (starRingEnd ℂ) (v.get [k, i]) = if j = k then 1 else 0 := by
  let U : Matrix (Fin n) (Fin n) ℂ := fun i j => v.get [i, j]
  have h1 : U.conjTranspose * U = 1 := by
    ext a b
    rw [Matrix.mul_apply, Matrix.one_apply]
    have := E.orthonormal a b a.2 b.2
    rw [← Fin.sum_univ_eq_sum_range (fun k => (starRingEnd ℂ) (v.get [k, a]) * v.get [k, b])] at this
    rw [show (if a = b then (1 : ℂ) else 0) = if (a : ℕ) = b then 1 else 0 by simp [Fin.ext_iff], ← this]
    rfl
  have h2 : U * U.conjTranspose = 1 := mul_eq_one_comm.1 h1
  have h3 := congrFun (congrFun h2 ⟨j, hj⟩) ⟨k, hk⟩
  rw [Matrix.mul_apply, Matrix.one_apply] at h3
  rw [← Fin.sum_univ_eq_sum_range (fun i => v.get [j, i] * (starRingEnd ℂ) (v.get [k, i]))]
  rw [show (if j = k then (1 : ℂ) else 0) = if (⟨j, hj⟩ : Fin n) = ⟨k, hk⟩ then 1 else 0 by simp, ← h3]
  rfl

open Finset in
/-- The variational principle: a vector orthogonal to the first `k` eigenvectors has at least the energy
of eigenvector `k`. -/
theorem EighOK.bound {n : ℕ} {h w v : NDArray ℂ} (E : EighOK n h w v) (f : ℕ → ℂ) {k : ℕ}
    (ho : ∀ p, p < k → ∑ j ∈ range n, (starRingEnd ℂ) (v.get [j, p]) * f j = 0) :
    (w.get [k]).re * (∑ j ∈ range n, (starRingEnd ℂ) (f j) * f j).re
      ≤ (∑ i ∈ range n, (starRingEnd ℂ) (f i) * ∑ j ∈ range n, h.get [i, j] * f j).re := by
  let c : ℕ → ℂ := fun i => ∑ j ∈ range n, (starRingEnd ℂ) (v.get [j, i]) * f j
  have hf : ∀ j, j < n → f j = ∑ i ∈ range n, v.get [j, i] * c i := by
    intro j hj
    simp only [c, mul_sum]
    rw [sum_comm]
    have : ∀ m ∈ range n, ∑ i ∈ range n, v.get [j, i] * ((starRingEnd ℂ) (v.get [m, i]) * f m)
        = (if j = m then 1 else 0) * f m := by
      intro m hm
      rw [← E.complete hj (mem_range.1 hm), sum_mul]
      exact sum_congr rfl fun i _ => by ring
    rw [sum_congr rfl this]
    simp [hj]
  have hc : ∀ m, ∑ i ∈ range n, (starRingEnd ℂ) (f i) * v.get [i, m] = (starRingEnd ℂ) (c m) := by
    intro m
    simp only [c, map_sum, map_mul, Complex.conj_conj]
    exact sum_congr rfl fun i _ => by ring
  have hH : ∀ i, i < n → ∑ j ∈ range n, h.get [i, j] * f j = ∑ m ∈ range n, w.get [m] * v.get [i, m] * c m := by
    intro i hi
    rw [sum_congr rfl (fun j hj => by rw [hf j (mem_range.1 hj), mul_sum])]
    rw [sum_comm]
    refine sum_congr rfl fun m hm => ?_
    rw [← E.eigen m i (mem_range.1 hm) hi, sum_mul]
    exact sum_congr rfl fun j _ => by ring
  have h1 : ∑ j ∈ range n, (starRingEnd ℂ) (f j) * f j = ((∑ m ∈ range n, Complex.normSq (c m) : ℝ) : ℂ) := by
    rw [sum_congr rfl (g := fun j => ∑ i ∈ range n, (starRingEnd ℂ) (f j) * v.get [j, i] * c i)
      (fun j hj => by
        conv_lhs => rw [hf j (mem_range.1 hj), ← hf j (mem_range.1 hj)]
        conv_lhs => arg 2; rw [hf j (mem_range.1 hj)]
        rw [mul_sum]
        exact sum_congr rfl fun i _ => by ring)]
    rw [sum_comm]
    push_cast
    refine sum_congr rfl fun m _ => ?_
    rw [← sum_mul, hc, Complex.normSq_eq_conj_mul_self]
  have h2 : ∑ i ∈ range n, (starRingEnd ℂ) (f i) * ∑ j ∈ range n, h.get [i, j] * f j
      = ((∑ m ∈ range n, (w.get [m]).re * Complex.normSq (c m) : ℝ) : ℂ) := by
    rw [sum_congr rfl (g := fun i => ∑ m ∈ range n, w.get [m] * ((starRingEnd ℂ) (f i) * v.get [i, m]) * c m)
      (fun i hi => by
        rw [hH i (mem_range.1 hi), mul_sum]
        exact sum_congr rfl fun m _ => by ring)]
    rw [sum_comm]
    push_cast
    refine sum_congr rfl fun m _ => ?_
    rw [← sum_mul, ← mul_sum, hc, Complex.normSq_eq_conj_mul_self]
    have : w.get [m] = ((w.get [m]).re : ℂ) := Complex.ext rfl (by rw [E.real, Complex.ofReal_im])
    rw [this, Complex.ofReal_re]
    ring
  rw [h1, h2, Complex.ofReal_re, Complex.ofReal_re, mul_sum]
  refine sum_le_sum fun m hm => ?_
  by_cases hmk : m < k
  · have : c m = 0 := ho m hmk
    rw [this]
    simp
  · exact mul_le_mul_of_nonneg_right (E.sorted k m (by omega) (mem_range.1 hm)) (Complex.normSq_nonneg _)

end QS.Spec
