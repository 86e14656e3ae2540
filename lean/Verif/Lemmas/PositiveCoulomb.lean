import Verif.Lemmas.Positive
import Verif.Lemmas.Tridiagonal
import Verif.Spec.CoulombIntegral
import Mathlib.MeasureTheory.Integral.Prod

/-! # The interactions of the quantum dots are positive (helper file, no property theorems) -/

namespace QS

open Finset

/-- A sum of rank-one forms. -/
theorem form_rank_one {α κ : Type} (t : Finset α) (ks : Finset κ) (W : κ → ℝ) (ψ : α → κ → ℂ) (v : α → ℂ) :
    ∑ P ∈ t, ∑ R ∈ t, star (v P) * (∑ k ∈ ks, (W k : ℂ) * (star (ψ P k) * ψ R k)) * v R
      = ((∑ k ∈ ks, W k * ‖∑ P ∈ t, ψ P k * v P‖ ^ 2 : ℝ) : ℂ) := by
  have h : ∀ P R, star (v P) * (∑ k ∈ ks, (W k : ℂ) * (star (ψ P k) * ψ R k)) * v R
      = ∑ k ∈ ks, (W k : ℂ) * (star (ψ P k * v P) * (ψ R k * v R)) := by
    intro P R
    rw [mul_sum, sum_mul]
    refine sum_congr rfl fun k _ => ?_
    rw [star_mul']
    ring
  rw [sum_congr rfl fun P _ => sum_congr rfl fun R _ => h P R, sum_congr rfl fun P _ => sum_comm, sum_comm,
    Complex.ofReal_sum]
  refine sum_congr rfl fun k _ => ?_
  rw [Complex.ofReal_mul, show ((‖∑ P ∈ t, ψ P k * v P‖ ^ 2 : ℝ) : ℂ)
      = star (∑ P ∈ t, ψ P k * v P) * ∑ P ∈ t, ψ P k * v P by
    rw [show star (∑ P ∈ t, ψ P k * v P) = (starRingEnd ℂ) (∑ P ∈ t, ψ P k * v P) from rfl, Complex.conj_mul']
    push_cast
    rfl, star_sum, sum_mul_sum, mul_sum]
  exact sum_congr rfl fun P _ => (mul_sum ..).symm

namespace OneDim

theorem coulombSum_pos {n : ℕ} (hn : 1 ≤ n) {x : ℕ → ℝ} {dx : ℝ} (hx : ∀ i, x (i + 1) - x i = dx)
    (hdx : 0 ≤ dx) (φ : ℕ → ℕ → ℂ) {alpha : ℝ} (ha : 0 ≤ alpha) (a : ℝ) {l : ℕ} {u : NDArray ℂ}
    (hu : ∀ p q r s, p < l → q < l → r < l → s < l → u.get [p, q, r, s] = coulombSum n x φ alpha a p q r s) :
    PosU l u := by
  intro v
  have e : pairForm l u v = ((∑ k ∈ range n ×ˢ range n, pairWeight n x alpha a k
      * ‖∑ P ∈ range l ×ˢ range l, φ P.1 k.1 * φ P.2 k.2 * v P‖ ^ 2 : ℝ) : ℂ) := by
    rw [← form_rank_one (range l ×ˢ range l) (range n ×ˢ range n) (pairWeight n x alpha a)
      (fun P k => φ P.1 k.1 * φ P.2 k.2) v]
    unfold pairForm
    refine sum_congr rfl fun P hP => sum_congr rfl fun R hR => ?_
    simp only [mem_product, mem_range] at hP hR
    rw [hu _ _ _ _ hP.1 hP.2 hR.1 hR.2, coulombSum_pairs hn]
    rfl
  rw [e, Complex.ofReal_im, Complex.ofReal_re]
  exact ⟨rfl, sum_nonneg fun k _ => mul_nonneg (pairWeight_nonneg hx hdx ha a k) (by positivity)⟩

theorem coulombSum_exchU {n : ℕ} {x : ℕ → ℝ} (φ : ℕ → ℕ → ℂ) {alpha : ℝ} (a : ℝ) {l : ℕ} {u : NDArray ℂ}
    (hu : ∀ p q r s, p < l → q < l → r < l → s < l → u.get [p, q, r, s] = coulombSum n x φ alpha a p q r s) :
    ExchU l u := by
  intro p hp q hq r hr s hs
  rw [hu p q r s hp hq hr hs, hu q p s r hq hp hs hr]
  exact coulombSum_swap n x φ alpha a p q r s

theorem coulombSum_hermU {n : ℕ} {x : ℕ → ℝ} (φ : ℕ → ℕ → ℂ) {alpha : ℝ} (a : ℝ) {l : ℕ} {u : NDArray ℂ}
    (hu : ∀ p q r s, p < l → q < l → r < l → s < l → u.get [p, q, r, s] = coulombSum n x φ alpha a p q r s) :
    HermU l u := by
  intro p hp q hq r hr s hs
  rw [hu p q r s hp hq hr hs, hu r s p q hr hs hp hq]
  exact coulombSum_conj n x φ alpha a p q r s

end OneDim

namespace Spec

open MeasureTheory

theorem coulombIntegral_swap (a b c d : ℂ → ℂ) : coulombIntegral a b c d = coulombIntegral b a d c := by
  unfold coulombIntegral
  rw [show (volume : Measure (ℂ × ℂ)) = (volume : Measure ℂ).prod volume from rfl, ← integral_prod_swap]
  refine integral_congr_ae (.of_forall fun z => ?_)
  simp only [coulombIntegrand, Prod.fst_swap, Prod.snd_swap]
  rw [norm_sub_rev]
  ring

theorem integrals_pos {l : ℕ} {c : ℝ} (hc : 0 ≤ c) {phi : ℕ → ℂ → ℂ} {u : NDArray ℂ}
    (hu : ∀ p q r s, p < l → q < l → r < l → s < l →
      Integrable (coulombIntegrand (phi p) (phi q) (phi r) (phi s)) ∧
      u.get [p, q, r, s] = c * coulombIntegral (phi p) (phi q) (phi r) (phi s)) :
    PosU l u ∧ ExchU l u := by
  refine ⟨fun v => ?_, fun p hp q hq r hr s hs => ?_⟩
  · have e : pairForm l u v = ((c * ∫ z : ℂ × ℂ, 1 / ‖z.1 - z.2‖
        * ‖∑ P ∈ range l ×ˢ range l, phi P.1 z.1 * phi P.2 z.2 * v P‖ ^ 2 : ℝ) : ℂ) := by
      rw [Complex.ofReal_mul, ← integral_complex_ofReal]
      have h1 : ∀ z : ℂ × ℂ, ((1 / ‖z.1 - z.2‖
          * ‖∑ P ∈ range l ×ˢ range l, phi P.1 z.1 * phi P.2 z.2 * v P‖ ^ 2 : ℝ) : ℂ)
          = ∑ P ∈ range l ×ˢ range l, ∑ R ∈ range l ×ˢ range l, star (v P)
            * coulombIntegrand (phi P.1) (phi P.2) (phi R.1) (phi R.2) z * v R := by
        intro z
        have := form_rank_one (range l ×ˢ range l) ({()} : Finset Unit) (fun _ => 1 / ‖z.1 - z.2‖)
          (fun P _ => phi P.1 z.1 * phi P.2 z.2) v
        simp only [sum_singleton] at this
        rw [← this]
        refine sum_congr rfl fun P _ => sum_congr rfl fun R _ => ?_
        unfold coulombIntegrand
        rw [star_mul']
        simp only [Complex.star_def]
        ring
      rw [funext h1, integral_finsetSum]
      · unfold pairForm
        rw [mul_sum]
        refine sum_congr rfl fun P hP => ?_
        simp only [mem_product, mem_range] at hP
        rw [integral_finsetSum, mul_sum]
        · refine sum_congr rfl fun R hR => ?_
          simp only [mem_product, mem_range] at hR
          rw [(hu _ _ _ _ hP.1 hP.2 hR.1 hR.2).2, integral_mul_const, integral_const_mul]
          unfold coulombIntegral
          ring
        · intro R hR
          simp only [mem_product, mem_range] at hR
          exact ((hu _ _ _ _ hP.1 hP.2 hR.1 hR.2).1.const_mul _).mul_const _
      · intro P hP
        refine integrable_finsetSum _ fun R hR => ?_
        simp only [mem_product, mem_range] at hP hR
        exact ((hu _ _ _ _ hP.1 hP.2 hR.1 hR.2).1.const_mul _).mul_const _
    rw [e, Complex.ofReal_im, Complex.ofReal_re]
    exact ⟨rfl, mul_nonneg hc (integral_nonneg fun z => by dsimp only [Pi.zero_apply]; positivity)⟩
  · rw [(hu p q r s hp hq hr hs).2, (hu q p s r hq hp hs hr).2, coulombIntegral_swap]

end Spec

/-- An interaction that is diagonal in the basis. -/
theorem diag_pos {l : ℕ} {u : NDArray ℂ} {w : ℕ → ℕ → ℝ} (h0 : ∀ p q, 0 ≤ w p q)
    (hu : ∀ p < l, ∀ q < l, ∀ r < l, ∀ s < l, u.get [p, q, r, s] = if p = r ∧ q = s then (w p q : ℂ) else 0) :
    PosU l u := by
  intro v
  have e : pairForm l u v = ((∑ P ∈ range l ×ˢ range l, w P.1 P.2 * ‖v P‖ ^ 2 : ℝ) : ℂ) := by
    unfold pairForm
    rw [Complex.ofReal_sum]
    refine sum_congr rfl fun P hP => ?_
    rw [sum_eq_single_of_mem P hP fun R hR hne => ?_]
    · simp only [mem_product, mem_range] at hP
      rw [hu _ hP.1 _ hP.2 _ hP.1 _ hP.2, if_pos ⟨rfl, rfl⟩, Complex.ofReal_mul,
        show ((‖v P‖ ^ 2 : ℝ) : ℂ) = star (v P) * v P by
          rw [show star (v P) = (starRingEnd ℂ) (v P) from rfl, Complex.conj_mul']; push_cast; rfl]
      ring
    · simp only [mem_product, mem_range] at hP hR
      rw [hu _ hP.1 _ hP.2 _ hR.1 _ hR.2, if_neg fun h => hne (Prod.ext h.1.symm h.2.symm), mul_zero, zero_mul]
  rw [e, Complex.ofReal_im, Complex.ofReal_re]
  exact ⟨rfl, sum_nonneg fun k _ => mul_nonneg (h0 _ _) (by positivity)⟩

/-- Diagonal one-body elements with unit overlaps. -/
theorem diag_bounded {m : ℝ} {l : ℕ} {h s : NDArray ℂ} (h0 : ∀ p < l, ∀ q < l, p ≠ q → h.get [p, q] = 0)
    (h1 : ∀ p < l, (h.get [p, p]).im = 0 ∧ m ≤ (h.get [p, p]).re)
    (hs : ∀ p < l, ∀ q < l, s.get [p, q] = if p = q then 1 else 0) : BoundedBelow m l h s := by
  intro v
  have e (x : NDArray ℂ) (hx : ∀ p < l, ∀ q < l, p ≠ q → x.get [p, q] = 0) (hr : ∀ p < l, (x.get [p, p]).im = 0) :
      (oneForm l x v).re = ∑ p ∈ range l, (x.get [p, p]).re * ‖v p‖ ^ 2 := by
    unfold oneForm
    rw [Complex.re_sum]
    refine sum_congr rfl fun p hp => ?_
    rw [sum_eq_single_of_mem p hp fun q hq hne => by
      rw [hx p (mem_range.1 hp) q (mem_range.1 hq) hne.symm, mul_zero, zero_mul],
      mul_right_comm, show star (v p) * v p = ((‖v p‖ ^ 2 : ℝ) : ℂ) by
          rw [show star (v p) = (starRingEnd ℂ) (v p) from rfl, Complex.conj_mul']; push_cast; rfl,
      Complex.re_ofReal_mul, mul_comm]
  rw [e h h0 fun p hp => (h1 p hp).1, e s (fun p hp q hq hne => by rw [hs p hp q hq, if_neg hne])
    (fun p hp => by rw [hs p hp p hp, if_pos rfl]; rfl), mul_sum]
  refine sum_le_sum fun p hp => ?_
  have hp := mem_range.1 hp
  rw [hs p hp p hp, if_pos rfl, Complex.one_re, one_mul]
  exact mul_le_mul_of_nonneg_right (h1 p hp).2 (by positivity)

end QS
