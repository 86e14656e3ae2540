import Verif.Spec.Evolution
import Verif.Lemmas.Sectors
import Mathlib.Analysis.ODE.ExistUnique
import Mathlib.Analysis.Calculus.Deriv.Star
import Mathlib.Analysis.Calculus.Deriv.Mul
import Mathlib.Analysis.Calculus.Deriv.Pi
import Mathlib.Analysis.Calculus.MeanValue
import Mathlib.Analysis.Normed.Lp.PiLp

/-!
# Linear differential equations with a Hermitian matrix, and the time evolution of `N` particles
-/

namespace QS

open Finset Function Metric
open scoped NNReal

section Flow

variable {ι : Type} [Fintype ι]

/-- With a Hermitian matrix and real factors `ρ`, inner products of solutions of `x' = -i ρ A x` do not change. -/
theorem inner_deriv {A : ι → ι → ℂ} (herm : ∀ i j, star (A i j) = A j i) {ρ : ℝ} {x y : ℝ → ι → ℂ} {S : Set ℝ} {t : ℝ}
    (hx : ∀ i, HasDerivWithinAt (fun t => x t i) (-Complex.I * (ρ * ∑ j, A i j * x t j)) S t)
    (hy : ∀ i, HasDerivWithinAt (fun t => y t i) (-Complex.I * (ρ * ∑ j, A i j * y t j)) S t) :
    HasDerivWithinAt (fun t => ∑ i, star (x t i) * y t i) 0 S t := by
  have h := HasDerivWithinAt.fun_sum (u := univ) fun i _ => (hx i).star.fun_mul (hy i)
  refine h.congr_deriv ?_
  simp only [star_mul', star_neg, star_sum, sum_add_distrib, mul_sum, sum_mul]
  rw [sum_comm, ← sum_add_distrib]
  refine sum_eq_zero fun i _ => ?_
  rw [← sum_add_distrib]
  refine sum_eq_zero fun j _ => ?_
  rw [herm, show star Complex.I = -Complex.I from Complex.conj_I, show star (ρ : ℂ) = ρ from Complex.conj_ofReal ρ]
  ring

theorem inner_const {A : ℝ → ι → ι → ℂ} (herm : ∀ t i j, star (A t i j) = A t j i) {ρ : ℝ → ℝ} {x y : ℝ → ι → ℂ}
    {a b : ℝ}
    (hx : ∀ t ∈ Set.Icc a b, ∀ i, HasDerivWithinAt (fun t => x t i) (-Complex.I * (ρ t * ∑ j, A t i j * x t j)) (Set.Icc a b) t)
    (hy : ∀ t ∈ Set.Icc a b, ∀ i, HasDerivWithinAt (fun t => y t i) (-Complex.I * (ρ t * ∑ j, A t i j * y t j)) (Set.Icc a b) t)
    {s t : ℝ} (hs : s ∈ Set.Icc a b) (ht : t ∈ Set.Icc a b) :
    ∑ i, star (x s i) * y s i = ∑ i, star (x t i) * y t i := by
  have h := (convex_Icc a b).norm_image_sub_le_of_norm_hasDerivWithin_le (C := 0)
    (fun τ hτ => inner_deriv (herm τ) (hx τ hτ) (hy τ hτ)) (fun _ _ => by rw [norm_zero]) hs ht
  rw [zero_mul] at h
  exact (sub_eq_zero.1 (norm_le_zero_iff.1 h)).symm

theorem sum_sq_eq (x : ι → ℂ) : ∑ i, star (x i) * x i = ((∑ i, ‖x i‖ ^ 2 : ℝ) : ℂ) := by
  rw [Complex.ofReal_sum]
  refine sum_congr rfl fun i _ => ?_
  rw [show star (x i) * x i = (starRingEnd ℂ) (x i) * x i from rfl, ← Complex.normSq_eq_conj_mul_self,
    Complex.normSq_eq_norm_sq]

theorem sq_const {A : ℝ → ι → ι → ℂ} (herm : ∀ t i j, star (A t i j) = A t j i) {ρ : ℝ → ℝ} {x : ℝ → ι → ℂ} {a b : ℝ}
    (hx : ∀ t ∈ Set.Icc a b, ∀ i, HasDerivWithinAt (fun t => x t i) (-Complex.I * (ρ t * ∑ j, A t i j * x t j)) (Set.Icc a b) t)
    {s t : ℝ} (hs : s ∈ Set.Icc a b) (ht : t ∈ Set.Icc a b) : ∑ i, ‖x s i‖ ^ 2 = ∑ i, ‖x t i‖ ^ 2 := by
  have h := inner_const herm hx hx hs ht
  rw [sum_sq_eq, sum_sq_eq] at h
  exact_mod_cast h

theorem norm_le_of_sq {x : ι → ℂ} {R : ℝ} (hR : 0 ≤ R) (h : ∑ i, ‖x i‖ ^ 2 ≤ R ^ 2) : ‖x‖ ≤ R := by
  refine (pi_norm_le_iff_of_nonneg hR).2 fun i => ?_
  have h1 := single_le_sum (f := fun i => ‖x i‖ ^ 2) (fun i _ => sq_nonneg _) (mem_univ i)
  exact abs_le_of_sq_le_sq' (h1.trans h) hR |>.2

/-- Two solutions that agree once agree always. -/
theorem flow_unique {A : ℝ → ι → ι → ℂ} (herm : ∀ t i j, star (A t i j) = A t j i) {x y : ℝ → ι → ℂ} {a b : ℝ}
    (hx : ∀ t ∈ Set.Icc a b, ∀ i, HasDerivWithinAt (fun t => x t i) (-Complex.I * ∑ j, A t i j * x t j) (Set.Icc a b) t)
    (hy : ∀ t ∈ Set.Icc a b, ∀ i, HasDerivWithinAt (fun t => y t i) (-Complex.I * ∑ j, A t i j * y t j) (Set.Icc a b) t)
    {s t : ℝ} (hs : s ∈ Set.Icc a b) (ht : t ∈ Set.Icc a b) (h : x s = y s) : x t = y t := by
  have hd : ∀ t ∈ Set.Icc a b, ∀ i, HasDerivWithinAt (fun t => x t i - y t i)
      (-Complex.I * ((1 : ℝ) * ∑ j, A t i j * (x t j - y t j))) (Set.Icc a b) t := fun t ht i => by
    refine ((hx t ht i).sub (hy t ht i)).congr_deriv ?_
    simp only [mul_sub, sum_sub_distrib, Complex.ofReal_one, one_mul]
  have e := sq_const (x := fun t i => x t i - y t i) (ρ := fun _ => 1) herm hd hs ht
  rw [sum_eq_zero fun i _ => by rw [h, sub_self, norm_zero]; norm_num] at e
  funext i
  have h1 := (sum_eq_zero_iff_of_nonneg fun i _ => sq_nonneg _).1 e.symm i (mem_univ i)
  exact sub_eq_zero.1 (norm_eq_zero.1 (pow_eq_zero_iff (two_ne_zero)|>.1 h1))

/-- A factor that makes every vector no longer than `R`. -/
noncomputable def cut (R : ℝ) (x : ι → ℂ) : ℝ := R / max R ‖x‖

theorem cut_of_le {R : ℝ} (hR : 0 < R) {x : ι → ℂ} (h : ‖x‖ ≤ R) : cut R x = 1 := by
  rw [cut, max_eq_left h, div_self hR.ne']

theorem cut_nonneg {R : ℝ} (hR : 0 < R) (x : ι → ℂ) : 0 ≤ cut R x := div_nonneg hR.le (hR.le.trans (le_max_left _ _))

theorem cut_le_one {R : ℝ} (hR : 0 < R) (x : ι → ℂ) : cut R x ≤ 1 :=
  (div_le_one (hR.trans_le (le_max_left _ _))).2 (le_max_left _ _)

theorem cut_norm_le {R : ℝ} (hR : 0 < R) (x : ι → ℂ) : cut R x * ‖x‖ ≤ R := by
  have h0 : 0 < max R ‖x‖ := hR.trans_le (le_max_left _ _)
  rw [cut, div_mul_eq_mul_div, div_le_iff₀ h0]
  exact mul_le_mul_of_nonneg_left (le_max_right _ _) hR.le

theorem cut_sub_le {R : ℝ} (hR : 0 < R) (x y : ι → ℂ) : |cut R x - cut R y| ≤ ‖x - y‖ / R := by
  have hx : 0 < max R ‖x‖ := hR.trans_le (le_max_left _ _)
  have hy : 0 < max R ‖y‖ := hR.trans_le (le_max_left _ _)
  have h1 : cut R x - cut R y = R * (max R ‖y‖ - max R ‖x‖) / (max R ‖x‖ * max R ‖y‖) := by
    unfold cut
    field_simp
  have h2 : |max R ‖y‖ - max R ‖x‖| ≤ ‖x - y‖ := by
    rw [max_comm R, max_comm R, norm_sub_rev]
    refine (abs_max_sub_max_le_abs _ _ _).trans ?_
    exact abs_norm_sub_norm_le y x
  rw [h1, abs_div, abs_mul, abs_of_pos hR, abs_of_pos (mul_pos hx hy), div_le_div_iff₀ (mul_pos hx hy) hR]
  calc R * |max R ‖y‖ - max R ‖x‖| * R = |max R ‖y‖ - max R ‖x‖| * (R * R) := by ring
    _ ≤ ‖x - y‖ * (max R ‖x‖ * max R ‖y‖) :=
        mul_le_mul h2 (mul_le_mul (le_max_left _ _) (le_max_left _ _) hR.le hx.le) (mul_pos hR hR).le (norm_nonneg _)

/-- The vector made no longer than `R`. -/
noncomputable def shorten (R : ℝ) (x : ι → ℂ) : ι → ℂ := fun i => cut R x * x i

theorem shorten_norm {R : ℝ} (hR : 0 < R) (x : ι → ℂ) : ‖shorten R x‖ ≤ R := by
  refine (pi_norm_le_iff_of_nonneg hR.le).2 fun i => ?_
  rw [shorten, norm_mul, Complex.norm_real, Real.norm_of_nonneg (cut_nonneg hR x)]
  exact (mul_le_mul_of_nonneg_left (norm_le_pi_norm x i) (cut_nonneg hR x)).trans (cut_norm_le hR x)

theorem shorten_sub {R B : ℝ} (hR : 0 < R) {x y : ι → ℂ} (hy : ‖y‖ ≤ B) :
    ‖shorten R x - shorten R y‖ ≤ (1 + B / R) * ‖x - y‖ := by
  have hB : 0 ≤ B := (norm_nonneg _).trans hy
  refine (pi_norm_le_iff_of_nonneg (mul_nonneg (by positivity) (norm_nonneg _))).2 fun i => ?_
  have e : (shorten R x - shorten R y) i = cut R x * (x - y) i + ((cut R x - cut R y : ℝ) : ℂ) * y i := by
    simp only [Pi.sub_apply, shorten, Complex.ofReal_sub]
    ring
  rw [e]
  refine (norm_add_le _ _).trans ?_
  rw [norm_mul, norm_mul, Complex.norm_real, Complex.norm_real, Real.norm_of_nonneg (cut_nonneg hR x), Real.norm_eq_abs]
  have h1 : cut R x * ‖(x - y) i‖ ≤ 1 * ‖x - y‖ :=
    mul_le_mul (cut_le_one hR x) (norm_le_pi_norm _ i) (norm_nonneg _) zero_le_one
  have h2 : |cut R x - cut R y| * ‖y i‖ ≤ ‖x - y‖ / R * B :=
    mul_le_mul (cut_sub_le hR x y) ((norm_le_pi_norm y i).trans hy) (norm_nonneg _) (div_nonneg (norm_nonneg _) hR.le)
  calc _ ≤ 1 * ‖x - y‖ + ‖x - y‖ / R * B := add_le_add h1 h2
    _ = _ := by ring

/-- The right-hand side of the equation. -/
noncomputable def field (A : ι → ι → ℂ) (z : ι → ℂ) : ι → ℂ := fun i => -Complex.I * ∑ j, A i j * z j

theorem field_norm {A : ι → ι → ℂ} {C : ℝ} (h : ∑ i, ∑ j, ‖A i j‖ ≤ C) (z : ι → ℂ) : ‖field A z‖ ≤ C * ‖z‖ := by
  have h0 : 0 ≤ C := (sum_nonneg fun i _ => sum_nonneg fun j _ => norm_nonneg _).trans h
  refine (pi_norm_le_iff_of_nonneg (mul_nonneg h0 (norm_nonneg _))).2 fun i => ?_
  rw [field, norm_mul, norm_neg, Complex.norm_I, one_mul]
  have h1 : ∑ j, ‖A i j‖ ≤ C :=
    (single_le_sum (f := fun i => ∑ j, ‖A i j‖) (fun i _ => sum_nonneg fun j _ => norm_nonneg _) (mem_univ i)).trans h
  refine (norm_sum_le _ _).trans (le_trans ?_ (mul_le_mul_of_nonneg_right h1 (norm_nonneg _)))
  rw [sum_mul]
  refine sum_le_sum fun j _ => ?_
  rw [norm_mul]
  exact mul_le_mul_of_nonneg_left (norm_le_pi_norm z j) (norm_nonneg _)

theorem field_sub (A : ι → ι → ℂ) (z z' : ι → ℂ) : field A z - field A z' = field A (z - z') := by
  funext i
  simp only [field, Pi.sub_apply, mul_sub, sum_sub_distrib]

theorem flow_on {A : ℝ → ι → ι → ℂ} (hA : ∀ i j, Continuous fun t => A t i j)
    (herm : ∀ t i j, star (A t i j) = A t j i) (t₀ : ℝ) {T : ℝ} (hT : 0 ≤ T) (x₀ : ι → ℂ) :
    ∃ x : ℝ → ι → ℂ, x t₀ = x₀ ∧ ∀ t ∈ Set.Icc (t₀ - T) (t₀ + T), ∀ i,
      HasDerivWithinAt (fun t => x t i) (-Complex.I * ∑ j, A t i j * x t j) (Set.Icc (t₀ - T) (t₀ + T)) t := by
  obtain ⟨C, hC⟩ := (isCompact_Icc (a := t₀ - T) (b := t₀ + T)).exists_bound_of_continuousOn
    (f := fun t => ∑ i, ∑ j, ‖A t i j‖)
    (continuous_finsetSum _ fun i _ => continuous_finsetSum _ fun j _ => (hA i j).norm).continuousOn
  have hC : ∀ t ∈ Set.Icc (t₀ - T) (t₀ + T), ∑ i, ∑ j, ‖A t i j‖ ≤ C := fun t ht => (le_abs_self _).trans (hC t ht)
  have hmem : t₀ ∈ Set.Icc (t₀ - T) (t₀ + T) := ⟨by linarith, by linarith⟩
  have hC0 : 0 ≤ C := (sum_nonneg fun i _ => sum_nonneg fun j _ => norm_nonneg _).trans (hC t₀ hmem)
  obtain ⟨R, hR, hRx⟩ : ∃ R : ℝ, 0 < R ∧ ∑ i, ‖x₀ i‖ ^ 2 ≤ R ^ 2 := by
    have h0 : 0 ≤ ∑ i, ‖x₀ i‖ ^ 2 := sum_nonneg fun i _ => sq_nonneg _
    exact ⟨∑ i, ‖x₀ i‖ ^ 2 + 1, by linarith, by nlinarith⟩
  have hL : 0 ≤ C * R := mul_nonneg hC0 hR.le
  have ha : 0 ≤ C * R * T := mul_nonneg hL hT
  have hB : 0 ≤ ‖x₀‖ + C * R * T := add_nonneg (norm_nonneg _) ha
  have hK : 0 ≤ C * (1 + (‖x₀‖ + C * R * T) / R) := by positivity
  have hP : IsPicardLindelof (fun t x => field (A t) (shorten R x)) (tmin := t₀ - T) (tmax := t₀ + T) ⟨t₀, hmem⟩ x₀
      ⟨C * R * T, ha⟩ 0 ⟨C * R, hL⟩ ⟨C * (1 + (‖x₀‖ + C * R * T) / R), hK⟩ := by
    constructor
    · intro t ht
      refine LipschitzOnWith.of_dist_le_mul fun x _ y hy => ?_
      have hy' : ‖y‖ ≤ ‖x₀‖ + C * R * T := by
        have h1 : ‖y - x₀‖ ≤ C * R * T := by
          rw [← dist_eq_norm]
          exact hy
        have h2 := norm_add_le x₀ (y - x₀)
        rw [add_sub_cancel] at h2
        linarith
      rw [dist_eq_norm, dist_eq_norm, field_sub]
      refine (field_norm (hC t ht) _).trans ?_
      refine (mul_le_mul_of_nonneg_left (shorten_sub hR hy') hC0).trans (le_of_eq ?_)
      rw [← mul_assoc]
      rfl
    · intro x _
      refine (continuous_pi fun i => ?_).continuousOn
      exact continuous_const.mul (continuous_finsetSum _ fun j _ => (hA i j).mul continuous_const)
    · intro t ht x _
      exact (field_norm (hC t ht) _).trans (mul_le_mul_of_nonneg_left (shorten_norm hR x) hC0)
    · show C * R * max (t₀ + T - t₀) (t₀ - (t₀ - T)) ≤ C * R * T - (0 : ℝ)
      rw [add_sub_cancel_left, sub_sub_cancel, max_self, sub_zero]
  obtain ⟨x, h0, hx⟩ := hP.exists_eq_forall_mem_Icc_hasDerivWithinAt₀
  have hx' : ∀ t ∈ Set.Icc (t₀ - T) (t₀ + T), ∀ i, HasDerivWithinAt (fun t => x t i)
      (-Complex.I * (cut R (x t) * ∑ j, A t i j * x t j)) (Set.Icc (t₀ - T) (t₀ + T)) t := fun t ht i => by
    refine ((hasDerivWithinAt_pi.1 (hx t ht)) i).congr_deriv ?_
    simp only [field, shorten, mul_sum]
    exact sum_congr rfl fun j _ => by ring
  refine ⟨x, h0, fun t ht i => ?_⟩
  have hn : ‖x t‖ ≤ R := norm_le_of_sq hR.le (by
    rw [sq_const (ρ := fun t => cut R (x t)) herm hx' ht hmem]
    show ∑ i, ‖x t₀ i‖ ^ 2 ≤ R ^ 2
    rw [show x t₀ = x₀ from h0]
    exact hRx)
  have := hx' t ht i
  rwa [cut_of_le hR hn, Complex.ofReal_one, one_mul] at this

/-- The equation `i x' = A(t) x` with a continuous Hermitian matrix has exactly one solution for all times. -/
theorem flow {A : ℝ → ι → ι → ℂ} (hA : ∀ i j, Continuous fun t => A t i j)
    (herm : ∀ t i j, star (A t i j) = A t j i) (t₀ : ℝ) (x₀ : ι → ℂ) :
    ∃ x : ℝ → ι → ℂ, x t₀ = x₀ ∧ ∀ t i, HasDerivAt (fun t => x t i) (-Complex.I * ∑ j, A t i j * x t j) t := by
  choose! y y0 hy using fun T (hT : 0 ≤ T) => flow_on hA herm t₀ hT x₀
  have sub : ∀ {S T : ℝ}, S ≤ T → Set.Icc (t₀ - S) (t₀ + S) ⊆ Set.Icc (t₀ - T) (t₀ + T) := fun h =>
    Set.Icc_subset_Icc (by linarith) (by linarith)
  have agree : ∀ {S T : ℝ}, 0 ≤ S → S ≤ T → ∀ t ∈ Set.Icc (t₀ - S) (t₀ + S), y S t = y T t := fun {S T} hS hST t ht => by
    have hm : t₀ ∈ Set.Icc (t₀ - S) (t₀ + S) := ⟨by linarith, by linarith⟩
    exact flow_unique herm (hy S hS) (fun t ht i => (hy T (hS.trans hST) t (sub hST ht) i).mono (sub hST)) hm ht
      ((y0 S hS).trans (y0 T (hS.trans hST)).symm)
  have mem : ∀ t : ℝ, t ∈ Set.Icc (t₀ - |t - t₀|) (t₀ + |t - t₀|) := fun t =>
    ⟨by linarith [neg_abs_le (t - t₀)], by linarith [le_abs_self (t - t₀)]⟩
  refine ⟨fun t => y |t - t₀| t, ?_, fun t i => ?_⟩
  · show y |t₀ - t₀| t₀ = x₀
    exact y0 _ (abs_nonneg _)
  · have hT : 0 ≤ |t - t₀| + 1 := by positivity
    have hin : Set.Icc (t₀ - (|t - t₀| + 1)) (t₀ + (|t - t₀| + 1)) ∈ nhds t := by
      refine Icc_mem_nhds ?_ ?_
      · linarith [neg_abs_le (t - t₀)]
      · linarith [le_abs_self (t - t₀)]
    have e : ∀ s ∈ Set.Icc (t₀ - (|t - t₀| + 1)) (t₀ + (|t - t₀| + 1)), y |s - t₀| s = y (|t - t₀| + 1) s := fun s hs =>
      agree (abs_nonneg _) (abs_le.2 ⟨by linarith [hs.1], by linarith [hs.2]⟩) s (mem s)
    have h1 := (hy _ hT t (mem_of_mem_nhds hin) i).hasDerivAt hin
    rw [← e t (mem_of_mem_nhds hin)] at h1
    refine h1.congr_of_eventuallyEq ?_
    filter_upwards [hin] with s hs
    rw [e s hs]

end Flow

section Waves

variable {N L : ℕ}

/-- The element of the Hamilton operator between two products. -/
noncomputable def element (h : Fin L → Fin L → ℂ) (u : Fin L → Fin L → Fin L → Fin L → ℂ) (x y : Fin N → Fin L) : ℂ :=
  hamiltonOp h u (fun z => if z = y then 1 else 0) x

theorem hamiltonOp_eq (h : Fin L → Fin L → ℂ) (u : Fin L → Fin L → Fin L → Fin L → ℂ) (Ψ : Wave ℂ N L) (x) :
    hamiltonOp h u Ψ x = ∑ y, element h u x y * Ψ y := by
  have e := hamiltonOp_comb h u univ Ψ (fun y z => if z = y then 1 else 0) x
  have : (fun z => ∑ y, Ψ y * if z = y then (1 : ℂ) else 0) = Ψ := by
    funext z
    simp
  rw [this] at e
  rw [e]
  exact sum_congr rfl fun y _ => mul_comm _ _

theorem element_herm {h : Fin L → Fin L → ℂ} {u : Fin L → Fin L → Fin L → Fin L → ℂ}
    (hh : ∀ p q, star (h p q) = h q p) (hu : ∀ p q r s, star (u p q r s) = u r s p q) (x y : Fin N → Fin L) :
    star (element h u x y) = element h u y x := by
  have e := hamiltonOp_symm hh hu (fun z => if z = y then (1 : ℂ) else 0) (fun z : Fin N → Fin L => if z = x then 1 else 0)
  unfold waveInner at e
  simpa [element] using e

variable {h : ℝ → Fin L → Fin L → ℂ} {u : ℝ → Fin L → Fin L → Fin L → Fin L → ℂ}

theorem element_continuous (hc : ContinuousElements h u) (x y : Fin N → Fin L) :
    Continuous fun t => element (h t) (u t) x y := by
  unfold element hamiltonOp oneBodyOp twoBodyOp
  refine (continuous_finsetSum _ fun i _ => continuous_finsetSum _ fun z _ => (hc.one _ _).mul continuous_const).add
    (continuous_const.mul (continuous_finsetSum _ fun i _ => continuous_finsetSum _ fun j _ =>
      continuous_finsetSum _ fun y _ => continuous_finsetSum _ fun z _ => (hc.two _ _ _ _).mul continuous_const))

theorem evolves_iff {Ψ : ℝ → Wave ℂ N L} : Evolves h u Ψ ↔
    ∀ t x, HasDerivAt (fun t => Ψ t x) (-Complex.I * ∑ y, element (h t) (u t) x y * Ψ t y) t := by
  unfold Evolves
  simp only [hamiltonOp_eq]

theorem evolves_inner (hh : HermitianElements h u) {Φ Ψ : ℝ → Wave ℂ N L} (hΦ : Evolves h u Φ) (hΨ : Evolves h u Ψ)
    (s t : ℝ) : waveInner (Φ s) (Ψ s) = waveInner (Φ t) (Ψ t) := by
  have key : ∀ {X : ℝ → Wave ℂ N L}, Evolves h u X → ∀ τ ∈ Set.Icc (min s t) (max s t), ∀ x,
      HasDerivWithinAt (fun t => X t x) (-Complex.I * ((1 : ℝ) * ∑ y, element (h τ) (u τ) x y * X τ y))
        (Set.Icc (min s t) (max s t)) τ := fun hX τ _ x => by
    rw [Complex.ofReal_one, one_mul]
    exact (evolves_iff.1 hX τ x).hasDerivWithinAt
  exact inner_const (A := fun t => element (h t) (u t)) (ρ := fun _ => 1)
    (fun t => element_herm (hh.one t) (hh.two t)) (key hΦ) (key hΨ) ⟨min_le_left _ _, le_max_left _ _⟩
    ⟨min_le_right _ _, le_max_right _ _⟩

theorem evolves_unique (hh : HermitianElements h u) {Φ Ψ : ℝ → Wave ℂ N L} (hΦ : Evolves h u Φ) (hΨ : Evolves h u Ψ)
    {s : ℝ} (e : Φ s = Ψ s) : Φ = Ψ := by
  funext t
  exact flow_unique (A := fun t => element (h t) (u t)) (a := min s t) (b := max s t)
    (fun t => element_herm (hh.one t) (hh.two t)) (fun τ _ x => (evolves_iff.1 hΦ τ x).hasDerivWithinAt)
    (fun τ _ x => (evolves_iff.1 hΨ τ x).hasDerivWithinAt) ⟨min_le_left _ _, le_max_left _ _⟩
    ⟨min_le_right _ _, le_max_right _ _⟩ e

theorem evolves_exists (hh : HermitianElements h u) (hc : ContinuousElements h u) (t₀ : ℝ) (Ψ₀ : Wave ℂ N L) :
    ∃ Ψ, Evolves h u Ψ ∧ Ψ t₀ = Ψ₀ := by
  obtain ⟨Ψ, h0, h1⟩ := flow (A := fun t => element (h t) (u t)) (fun x y => element_continuous hc x y)
    (fun t => element_herm (hh.one t) (hh.two t)) t₀ Ψ₀
  exact ⟨Ψ, evolves_iff.2 h1, h0⟩

theorem oneBodyOp_perm (h : Fin L → Fin L → ℂ) (Ψ : Wave ℂ N L) (σ : Equiv.Perm (Fin N)) (x) :
    oneBodyOp h (fun x => Ψ (x ∘ σ)) x = oneBodyOp h Ψ (x ∘ σ) := by
  unfold oneBodyOp
  simp only [update_comp, Function.comp]
  rw [Equiv.sum_comp σ (fun i => ∑ y, h (x i) y * Ψ (update x i y ∘ σ))]

theorem twoBodyOp_perm (u : Fin L → Fin L → Fin L → Fin L → ℂ) (Ψ : Wave ℂ N L) (σ : Equiv.Perm (Fin N)) (x) :
    twoBodyOp u (fun x => Ψ (x ∘ σ)) x = twoBodyOp u Ψ (x ∘ σ) := by
  rw [twoBodyOp_eq, twoBodyOp_eq]
  simp only [update_comp, Function.comp]
  rw [← Equiv.sum_comp σ (fun i => ∑ j, if i = j then (0 : ℂ) else _)]
  refine sum_congr rfl fun i _ => ?_
  rw [← Equiv.sum_comp σ (fun j => if σ i = j then (0 : ℂ) else _)]
  refine sum_congr rfl fun j _ => ?_
  by_cases hij : i = j
  · subst hij; simp
  · rw [if_neg hij, if_neg (fun e => hij (σ.injective e))]

theorem hamiltonOp_perm (h : Fin L → Fin L → ℂ) (u : Fin L → Fin L → Fin L → Fin L → ℂ) (Ψ : Wave ℂ N L)
    (σ : Equiv.Perm (Fin N)) (x) : hamiltonOp h u (fun x => Ψ (x ∘ σ)) x = hamiltonOp h u Ψ (x ∘ σ) := by
  unfold hamiltonOp
  rw [oneBodyOp_perm, twoBodyOp_perm]

theorem evolves_perm {Ψ : ℝ → Wave ℂ N L} (hΨ : Evolves h u Ψ) (σ : Equiv.Perm (Fin N)) :
    Evolves h u fun t x => Ψ t (x ∘ σ) := fun t x => by
  rw [hamiltonOp_perm]
  exact hΨ t (x ∘ σ)

theorem evolves_smul {Ψ : ℝ → Wave ℂ N L} (hΨ : Evolves h u Ψ) (c : ℂ) : Evolves h u fun t x => c * Ψ t x := fun t x => by
  rw [hamiltonOp_smul, mul_left_comm]
  exact (hΨ t x).const_mul c

theorem evolves_sum {ι : Type} (s : Finset ι) {Ψ : ι → ℝ → Wave ℂ N L} (c : ι → ℂ) (hΨ : ∀ i ∈ s, Evolves h u (Ψ i)) :
    Evolves h u fun t x => ∑ i ∈ s, c i * Ψ i t x := fun t x => by
  rw [hamiltonOp_comb, mul_sum]
  refine (HasDerivAt.fun_sum fun i hi => (hΨ i hi t x).const_mul (c i)).congr_deriv ?_
  exact sum_congr rfl fun i _ => by ring

theorem evolves_fermions (hh : HermitianElements h u) {Ψ : ℝ → Wave ℂ N L} (hΨ : Evolves h u Ψ) {s : ℝ}
    (ha : Antisymmetric (Ψ s)) (t : ℝ) : Antisymmetric (Ψ t) := fun σ x => by
  have e := evolves_unique hh (evolves_perm hΨ σ) (evolves_smul hΨ ((Equiv.Perm.sign σ : ℤ) : ℂ)) (s := s)
    (funext fun x => ha σ x)
  exact congrFun (congrFun e t) x

theorem evolves_part {G : Type} [AddCommMonoid G] {g : Fin L → G} (hc : ∀ t, ConservesTotal g (h t) (u t))
    {Ψ : ℝ → Wave ℂ N L} (hΨ : Evolves h u Ψ) (Q : G) : Evolves h u fun t => part g Q (Ψ t) := fun t x => by
  rw [part_hamilton (hc t)]
  by_cases hx : total g x = Q
  · have e : (fun t => part g Q (Ψ t) x) = fun t => Ψ t x := funext fun t => if_pos hx
    show HasDerivAt (fun t => part g Q (Ψ t) x) _ t
    rw [e, show part g Q (hamiltonOp (h t) (u t) (Ψ t)) x = _ from if_pos hx]
    exact hΨ t x
  · have e : (fun t => part g Q (Ψ t) x) = fun _ => 0 := funext fun t => if_neg hx
    show HasDerivAt (fun t => part g Q (Ψ t) x) _ t
    rw [e, show part g Q (hamiltonOp (h t) (u t) (Ψ t)) x = 0 from if_neg hx, mul_zero]
    exact hasDerivAt_const t _

theorem evolves_total (hh : HermitianElements h u) {G : Type} [AddCommMonoid G] {g : Fin L → G}
    (hc : ∀ t, ConservesTotal g (h t) (u t)) {Ψ : ℝ → Wave ℂ N L} (hΨ : Evolves h u Ψ) {Q : G} {s : ℝ}
    (hs : HasTotal g Q (Ψ s)) (t : ℝ) : HasTotal g Q (Ψ t) := by
  have e := evolves_unique hh (evolves_part hc hΨ Q) hΨ (s := s) (part_of hs)
  have := congrFun e t
  rw [← this]
  exact part_total g Q _

/-- The derivative of the Hamilton operator applied to a moving wave function. -/
theorem hamiltonOp_deriv {a : ℝ → Fin L → Fin L → ℂ} {v : ℝ → Fin L → Fin L → Fin L → Fin L → ℂ}
    {a' : Fin L → Fin L → ℂ} {v' : Fin L → Fin L → Fin L → Fin L → ℂ} {Ψ : ℝ → Wave ℂ N L} {Ψ' : Wave ℂ N L} {t : ℝ}
    (ha : ∀ p q, HasDerivAt (fun t => a t p q) (a' p q) t) (hv : ∀ p q r s, HasDerivAt (fun t => v t p q r s) (v' p q r s) t)
    (hΨ : ∀ x, HasDerivAt (fun t => Ψ t x) (Ψ' x) t) (x) :
    HasDerivAt (fun t => hamiltonOp (a t) (v t) (Ψ t) x)
      (hamiltonOp a' v' (Ψ t) x + hamiltonOp (a t) (v t) Ψ' x) t := by
  have h1 := HasDerivAt.fun_sum (u := univ) fun (i : Fin N) _ => HasDerivAt.fun_sum (u := univ) fun (y : Fin L) _ =>
    (ha (x i) y).fun_mul (hΨ (update x i y))
  have h2 := HasDerivAt.fun_sum (u := univ) fun (i : Fin N) _ => HasDerivAt.fun_sum (u := univ.erase i) fun (j : Fin N) _ =>
    HasDerivAt.fun_sum (u := univ) fun (y : Fin L) _ => HasDerivAt.fun_sum (u := univ) fun (z : Fin L) _ =>
    (hv (x i) (x j) y z).fun_mul (hΨ (update (update x i y) j z))
  refine (h1.fun_add (h2.const_mul (1 / 2 : ℂ))).congr_deriv ?_
  unfold hamiltonOp oneBodyOp twoBodyOp
  simp only [sum_add_distrib]
  ring

/-- The derivative of a mean value. -/
theorem mean_deriv {a : ℝ → Fin L → Fin L → ℂ} {v : ℝ → Fin L → Fin L → Fin L → Fin L → ℂ}
    {a' : Fin L → Fin L → ℂ} {v' : Fin L → Fin L → Fin L → Fin L → ℂ} {Ψ : ℝ → Wave ℂ N L} (hΨ : Evolves h u Ψ) {t : ℝ}
    (ha : ∀ p q, HasDerivAt (fun t => a t p q) (a' p q) t) (hv : ∀ p q r s, HasDerivAt (fun t => v t p q r s) (v' p q r s) t) :
    HasDerivAt (fun t => meanEnergy (a t) (v t) (Ψ t)) (meanEnergy a' v' (Ψ t) +
      Complex.I * (waveInner (hamiltonOp (h t) (u t) (Ψ t)) (hamiltonOp (a t) (v t) (Ψ t)) -
        waveInner (Ψ t) (hamiltonOp (a t) (v t) (hamiltonOp (h t) (u t) (Ψ t))))) t := by
  have h1 := HasDerivAt.fun_sum (u := univ) fun (x : Fin N → Fin L) _ =>
    (hΨ t x).star.fun_mul (hamiltonOp_deriv ha hv (fun x => hΨ t x) x)
  refine h1.congr_deriv ?_
  unfold meanEnergy waveInner
  simp only [hamiltonOp_smul, star_mul', star_neg]
  rw [show star Complex.I = -Complex.I from Complex.conj_I, ← sum_sub_distrib, mul_sum, ← sum_add_distrib]
  exact sum_congr rfl fun x _ => by ring

end Waves

end QS
