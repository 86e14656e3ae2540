import Verif.Lemmas.Eigh
import Verif.Lemmas.ManyBodySpectrum

/-!
# Eigenvalues of perturbed Hermitian matrices
-/

namespace QS.Spec

open Finset QS.NDArray

/-- The quadratic form of a matrix. -/
noncomputable def matForm (n : ℕ) (h : NDArray ℂ) (f : ℕ → ℂ) : ℝ :=
  (∑ i ∈ range n, (starRingEnd ℂ) (f i) * ∑ j ∈ range n, h.get [i, j] * f j).re

theorem sum_conj_self (n : ℕ) (f : ℕ → ℂ) :
    ∑ j ∈ range n, (starRingEnd ℂ) (f j) * f j = ((∑ j ∈ range n, ‖f j‖ ^ 2 : ℝ) : ℂ) := by
  push_cast
  exact sum_congr rfl fun j _ => Complex.conj_mul' _

theorem EighOK.form_comb {n : ℕ} {h w v : NDArray ℂ} (F : EighOK n h w v) {m : ℕ} (hm : m ≤ n) (a : ℕ → ℂ) :
    ∑ j ∈ range n, ‖∑ i ∈ range m, a i * v.get [j, i]‖ ^ 2 = ∑ i ∈ range m, ‖a i‖ ^ 2 ∧
      matForm n h (fun j => ∑ i ∈ range m, a i * v.get [j, i]) = ∑ i ∈ range m, (w.get [i]).re * ‖a i‖ ^ 2 := by
  have hin : ∀ p < n, ∀ (b : ℕ → ℂ), ∑ j ∈ range n, (starRingEnd ℂ) (v.get [j, p]) * ∑ i ∈ range m, b i * v.get [j, i]
      = if p < m then b p else 0 := by
    intro p hp b
    simp only [mul_sum]
    rw [sum_comm, sum_congr rfl (g := fun i => b i * if p = i then 1 else 0) fun i hi => ?_]
    · simp
    · have := mem_range.1 hi
      rw [← F.orthonormal p i hp (by omega), mul_sum]
      exact sum_congr rfl fun j _ => by ring
  have key : ∀ b : ℕ → ℂ, ∑ j ∈ range n, (starRingEnd ℂ) (∑ i ∈ range m, a i * v.get [j, i]) *
      ∑ i ∈ range m, b i * v.get [j, i] = ∑ i ∈ range m, (starRingEnd ℂ) (a i) * b i := by
    intro b
    simp only [map_sum, map_mul]
    rw [sum_congr rfl fun j _ => sum_mul _ _ _, sum_comm]
    refine sum_congr rfl fun i hi => ?_
    have := mem_range.1 hi
    have h1 := hin i (by omega) b
    rw [if_pos this] at h1
    rw [← h1, mul_sum]
    exact sum_congr rfl fun j _ => by ring
  constructor
  · have h1 := key a
    rw [sum_conj_self, sum_conj_self] at h1
    exact_mod_cast h1
  · have e : ∀ i ∈ range n, ∑ j ∈ range n, h.get [i, j] * ∑ p ∈ range m, a p * v.get [j, p]
        = ∑ p ∈ range m, (w.get [p] * a p) * v.get [i, p] := fun i hi => by
      simp only [mul_sum]
      rw [sum_comm]
      refine sum_congr rfl fun p hp => ?_
      have := mem_range.1 hp
      rw [show w.get [p] * a p * v.get [i, p] = a p * (w.get [p] * v.get [i, p]) by ring,
        ← F.eigen p i (by omega) (mem_range.1 hi), mul_sum]
      exact sum_congr rfl fun j _ => by ring
    unfold matForm
    rw [sum_congr rfl fun i hi => by rw [e i hi], key, Complex.re_sum]
    refine sum_congr rfl fun i hi => ?_
    rw [show (starRingEnd ℂ) (a i) * (w.get [i] * a i) = w.get [i] * ((starRingEnd ℂ) (a i) * a i) by ring,
      Complex.conj_mul', ← Complex.ofReal_pow, Complex.re_mul_ofReal]

/-- The eigenvalues are ordered as the forms are. -/
theorem EighOK.le_of_form {n : ℕ} {h w v h' w' v' : NDArray ℂ} (F : EighOK n h w v) (F' : EighOK n h' w' v') {A c : ℝ}
    (hA : 0 ≤ A) (hc : ∀ f : ℕ → ℂ, matForm n h' f ≤ A * matForm n h f + c * ∑ j ∈ range n, ‖f j‖ ^ 2) {k : ℕ} (hk : k < n) :
    (w'.get [k]).re ≤ A * (w.get [k]).re + c := by
  obtain ⟨a, ⟨j, hj, hne⟩, ha⟩ := exists_coeff_complex (m := k + 1) (n := k) (by omega)
    fun p i => ∑ j ∈ range n, (starRingEnd ℂ) (v'.get [j, p]) * v.get [j, i]
  have h1 := F.form_comb (m := k + 1) (by omega) a
  have h2 := F'.bound (fun j => ∑ i ∈ range (k + 1), a i * v.get [j, i]) (k := k) (fun p hp => by
    rw [← ha p hp]
    simp only [mul_sum]
    rw [sum_comm]
    exact sum_congr rfl fun i _ => sum_congr rfl fun j _ => by ring)
  rw [sum_conj_self, Complex.ofReal_re, h1.1] at h2
  have h4 := hc fun j => ∑ i ∈ range (k + 1), a i * v.get [j, i]
  rw [h1.1, h1.2] at h4
  have h5 : ∑ i ∈ range (k + 1), (w.get [i]).re * ‖a i‖ ^ 2 ≤ (w.get [k]).re * ∑ i ∈ range (k + 1), ‖a i‖ ^ 2 := by
    rw [mul_sum]
    exact sum_le_sum fun i hi => mul_le_mul_of_nonneg_right
      (F.sorted i k (by have := mem_range.1 hi; omega) hk) (sq_nonneg _)
  have h8 : 0 < ∑ i ∈ range (k + 1), ‖a i‖ ^ 2 :=
    sum_pos' (fun i _ => sq_nonneg _) ⟨j, mem_range.2 hj, pow_pos (norm_pos_iff.2 hne) 2⟩
  refine le_of_mul_le_mul_right ?_ h8
  have h9 := mul_le_mul_of_nonneg_left h5 hA
  unfold matForm at h4
  nlinarith

/-- Weyl's inequality. -/
theorem EighOK.near_of_form {n : ℕ} {h w v h' w' v' : NDArray ℂ} (F : EighOK n h w v) (F' : EighOK n h' w' v') {c : ℝ}
    (hc : ∀ f : ℕ → ℂ, |matForm n h' f - matForm n h f| ≤ c * ∑ j ∈ range n, ‖f j‖ ^ 2) {k : ℕ} (hk : k < n) :
    |(w'.get [k]).re - (w.get [k]).re| ≤ c := by
  have h1 := F.le_of_form F' (A := 1) (c := c) zero_le_one (fun f => by linarith [(abs_le.1 (hc f)).2]) hk
  have h2 := F'.le_of_form F (A := 1) (c := c) zero_le_one (fun f => by linarith [(abs_le.1 (hc f)).1]) hk
  exact abs_le.2 ⟨by linarith, by linarith⟩

/-- Matrices that differ by at most `η` in the operator norm. -/
theorem matForm_sub_le {n : ℕ} {h h' : NDArray ℂ} {η : ℝ} (hη : 0 ≤ η)
    (hd : ∀ f : ℕ → ℂ, ∑ i ∈ range n, ‖∑ j ∈ range n, (h'.get [i, j] - h.get [i, j]) * f j‖ ^ 2 ≤
      η ^ 2 * ∑ j ∈ range n, ‖f j‖ ^ 2) (f : ℕ → ℂ) :
    |matForm n h' f - matForm n h f| ≤ η * ∑ j ∈ range n, ‖f j‖ ^ 2 := by
  have e : matForm n h' f - matForm n h f =
      (∑ i ∈ range n, (starRingEnd ℂ) (f i) * ∑ j ∈ range n, (h'.get [i, j] - h.get [i, j]) * f j).re := by
    unfold matForm
    rw [← Complex.sub_re, ← sum_sub_distrib]
    congr 1
    refine sum_congr rfl fun i _ => ?_
    rw [← mul_sub, ← sum_sub_distrib]
    simp only [sub_mul]
  rw [e]
  refine (Complex.abs_re_le_norm _).trans ((norm_sum_le _ _).trans ?_)
  have h1 := sum_mul_sq_le_sq_mul_sq (range n) (fun i => ‖f i‖)
    fun i => ‖∑ j ∈ range n, (h'.get [i, j] - h.get [i, j]) * f j‖
  have h2 := hd f
  have h0 : 0 ≤ ∑ j ∈ range n, ‖f j‖ ^ 2 := sum_nonneg fun _ _ => sq_nonneg _
  refine abs_le_of_sq_le_sq' ?_ (by positivity) |>.2
  calc _ = (∑ i ∈ range n, ‖f i‖ * ‖∑ j ∈ range n, (h'.get [i, j] - h.get [i, j]) * f j‖) ^ 2 := by
        congr 1
        exact sum_congr rfl fun i _ => by rw [norm_mul, RCLike.norm_conj]
    _ ≤ _ := h1
    _ ≤ (∑ j ∈ range n, ‖f j‖ ^ 2) * (η ^ 2 * ∑ j ∈ range n, ‖f j‖ ^ 2) := mul_le_mul_of_nonneg_left h2 h0
    _ = _ := by ring

end QS.Spec
