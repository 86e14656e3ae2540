import Verif.Spec.Units
import Verif.Props.EighChoice
import Verif.Props.SincDvr
import Verif.Props.DipoleRules
import Mathlib.MeasureTheory.Integral.IntegralEqImproper

/-!
# Lemmas about units: how the functions and integrals of the model scale with lengths
-/

namespace QS.Units

open NDArray BasisSet Spec OneDim Finset Idx Props

variable {c : ℝ}

theorem scaled_congr {k : ℝ} {dt dt' : DType} {sh : List ℕ} {f g : List ℕ → ℂ}
    (h : ∀ i, InRange sh i → g i = (k : ℂ) * f i) : ScaledArr k (ofFn dt sh f) (ofFn dt' sh g) :=
  ⟨rfl, fun i hi => by rw [ofFn_get_of (by exact hi), ofFn_get_of (by exact hi), h i hi]⟩

theorem scaled_conj {k : ℝ} {x y : NDArray ℂ} (h : ScaledArr k x y) : ScaledArr k x.conj y.conj :=
  ⟨h.1, fun i hi => by rw [conj_get, conj_get, h.2 i hi, star_mul', Complex.star_def, Complex.conj_ofReal]⟩

theorem scaled_self (x : NDArray ℂ) : ScaledArr 1 x x := ⟨rfl, fun i _ => by simp⟩

theorem linspace_scale (c a b : ℝ) (num i : ℕ) :
    TwoDim.linspace (c * a) (c * b) num i = c * TwoDim.linspace a b num i := by
  unfold TwoDim.linspace
  ring

theorem linspace_scale' (c L : ℝ) (num i : ℕ) :
    TwoDim.linspace (-(c * L)) (c * L) num i = c * TwoDim.linspace (-L) L num i := by
  rw [← linspace_scale, mul_neg]

theorem trapezoid_scale {num : ℕ} {x x' : ℕ → ℝ} {f f' : ℕ → ℂ} {k : ℂ} (hx : ∀ i, x' i = c * x i)
    (hf : ∀ i < num, f' i = k * f i) : trapezoid num x' f' = (c : ℂ) * k * trapezoid num x f := by
  unfold trapezoid
  rw [mul_sum]
  refine sum_congr rfl fun i hi => ?_
  have := mem_range.1 hi
  rw [hx, hx, hf i (by omega), hf (i + 1) (by omega)]
  push_cast
  ring

theorem sqrt_div_sq (hc : 0 < c) (x : ℝ) : Real.sqrt (x / c ^ 2) = Real.sqrt x / c := by
  rw [Real.sqrt_div' _ (by positivity), Real.sqrt_sq hc.le]

theorem sqrt_mul_sq (hc : 0 < c) (x : ℝ) : Real.sqrt (c ^ 2 * x) = c * Real.sqrt x := by
  rw [Real.sqrt_mul (by positivity), Real.sqrt_sq hc.le]

theorem shield_scale (hc : 0 < c) (alpha a x y : ℝ) :
    alpha / c / Real.sqrt ((c * x - c * y) ^ 2 + (c * a) ^ 2) = 1 / c ^ 2 * (alpha / Real.sqrt ((x - y) ^ 2 + a ^ 2)) := by
  rw [show (c * x - c * y) ^ 2 + (c * a) ^ 2 = c ^ 2 * ((x - y) ^ 2 + a ^ 2) by ring, sqrt_mul_sq hc]
  by_cases h : Real.sqrt ((x - y) ^ 2 + a ^ 2) = 0
  · rw [h]; simp
  · field_simp

theorem root_four (hc : 0 < c) : (1 / Real.sqrt c) ^ 4 = 1 / c ^ 2 := by
  rw [div_pow, one_pow, show (4 : ℕ) = 2 * 2 by norm_num, pow_mul, Real.sq_sqrt hc.le]

theorem root_two (hc : 0 < c) : (1 / Real.sqrt c) ^ 2 = 1 / c := by
  rw [div_pow, one_pow, Real.sq_sqrt hc.le]

theorem coulombSum_scale (hc : 0 < c) {num : ℕ} {x x' : ℕ → ℝ} {φ φ' : ℕ → ℕ → ℂ} (hx : ∀ i, x' i = c * x i)
    {p q r s : ℕ} (h : ∀ k ∈ [p, q, r, s], ∀ j < num, φ' k j = ((1 / Real.sqrt c : ℝ) : ℂ) * φ k j) (alpha a : ℝ) :
    coulombSum num x' φ' (alpha / c) (c * a) p q r s = ((1 / c ^ 2 : ℝ) : ℂ) * coulombSum num x φ alpha a p q r s := by
  unfold coulombSum
  have key : ∀ i < num, (trapezoid num x' fun j => (starRingEnd ℂ) (φ' p i) * (starRingEnd ℂ) (φ' q j)
      * ((alpha / c / Real.sqrt ((x' i - x' j) ^ 2 + (c * a) ^ 2) : ℝ) : ℂ) * φ' r i * φ' s j)
      = ((c * (1 / c ^ 2 * (1 / c ^ 2)) : ℝ) : ℂ) * trapezoid num x fun j => (starRingEnd ℂ) (φ p i) * (starRingEnd ℂ) (φ q j)
      * ((alpha / Real.sqrt ((x i - x j) ^ 2 + a ^ 2) : ℝ) : ℂ) * φ r i * φ s j := by
    intro i hi
    rw [Complex.ofReal_mul]
    refine trapezoid_scale (c := c) (k := ((1 / c ^ 2 * (1 / c ^ 2) : ℝ) : ℂ)) hx fun j hj => ?_
    rw [h p (by simp) i hi, h q (by simp) j hj, h r (by simp) i hi, h s (by simp) j hj, hx, hx, shield_scale hc,
      ← root_four hc, map_mul, map_mul, Complex.conj_ofReal]
    push_cast
    ring
  rw [trapezoid_scale (c := c) hx key, ← Complex.ofReal_mul]
  congr 2
  field_simp

theorem normalization_scale (hc : 0 < c) {omega : ℝ} (ho : 0 ≤ omega) (n : ℕ) :
    normalization (omega / c ^ 2) n = 1 / Real.sqrt c * normalization omega n := by
  unfold normalization
  have : (omega / c ^ 2 / Real.pi) ^ (1 / 4 : ℝ) = (omega / Real.pi) ^ (1 / 4 : ℝ) * (1 / Real.sqrt c) := by
    rw [show omega / c ^ 2 / Real.pi = omega / Real.pi * (1 / Real.sqrt c) ^ (4 : ℕ) by rw [root_four hc]; ring,
      Real.mul_rpow (div_nonneg ho Real.pi_pos.le) (by positivity)]
    congr 1
    rw [← Real.rpow_natCast, ← Real.rpow_mul (by positivity)]
    norm_num
  rw [this]
  ring

theorem hoFunction_scale (hc : 0 < c) {omega : ℝ} (ho : 0 ≤ omega) (n : ℕ) (x : ℝ) :
    hoFunction (omega / c ^ 2) n (c * x) = 1 / Real.sqrt c * hoFunction omega n x := by
  unfold hoFunction
  rw [normalization_scale hc ho, sqrt_div_sq hc,
    show Real.sqrt omega / c * (c * x) = Real.sqrt omega * x by field_simp,
    show -(1 / 2) * (omega / c ^ 2) * (c * x) ^ 2 = -(1 / 2) * omega * x ^ 2 by field_simp]
  ring

theorem odhoDip_scale (hc : 0 < c) {omega : ℝ} (ho : 0 ≤ omega) (n : ℕ) :
    odhoDip (omega / c ^ 2) n = c * odhoDip omega n := by
  unfold odhoDip
  rw [normalization_scale hc ho, normalization_scale hc ho]
  have h := root_two hc
  rcases ho.eq_or_lt with rfl | ho
  · simp
  · have : (1 / Real.sqrt c) * (1 / Real.sqrt c) * c ^ 2 = c := by
      rw [← sq, h]; field_simp
    calc _ = (1 / Real.sqrt c * (1 / Real.sqrt c) * c ^ 2) * (normalization omega n * normalization omega (n + 1) * (n + 1)
          * Real.sqrt Real.pi * 2 ^ n * n.factorial / omega) := by field_simp
      _ = _ := by rw [this]

theorem fdEntry_scale (hc : 0 < c) (V : ℝ → ℝ) {x x' : ℕ → ℝ} (hx : ∀ i, x' i = c * x i) (dx : ℝ) (p q : ℕ) :
    fdEntry (fun y => V (y / c) / c ^ 2) x' (c * dx) p q = 1 / c ^ 2 * fdEntry V x dx p q := by
  unfold fdEntry
  simp only [hx, mul_div_cancel_left₀ _ hc.ne']
  split_ifs
  · rw [mul_pow]
    field_simp
  · rw [mul_pow]
    by_cases h : dx = 0
    · simp [h]
    · field_simp
  · simp

/-! ## Two dimensions -/

open TwoDim

theorem bohr_scale (hc : 0 < c) (mass omega : ℝ) : bohrRadius mass (omega / c ^ 2) = bohrRadius mass omega / c := by
  unfold bohrRadius
  rw [← mul_div_assoc, sqrt_div_sq hc]

theorem spfNorm_scale (hc : 0 < c) (n m : ℤ) (mass omega : ℝ) :
    spfNorm n m mass (omega / c ^ 2) = 1 / c * spfNorm n m mass omega := by
  simp only [spfNorm]
  rw [bohr_scale hc]
  ring

theorem spfRadial_scale (hc : 0 < c) (n m : ℤ) (mass omega r : ℝ) :
    spfRadial n m mass (omega / c ^ 2) (c * r) = spfRadial n m mass omega r := by
  simp only [spfRadial]
  rw [bohr_scale hc, show bohrRadius mass omega / c * (c * r) = bohrRadius mass omega * r by field_simp,
    show (bohrRadius mass omega / c) ^ 2 * (c * r) ^ 2 = bohrRadius mass omega ^ 2 * r ^ 2 by field_simp,
    show -((bohrRadius mass omega / c) ^ 2) * (c * r) ^ 2 / 2 = -(bohrRadius mass omega ^ 2) * r ^ 2 / 2 by field_simp]

theorem spfState_scale (hc : 0 < c) (nm : ℕ → ℤ × ℤ) (mass omega : ℝ) (p : ℕ) (r t : ℝ) :
    spfState nm mass (omega / c ^ 2) p (c * r) t = ((1 / c : ℝ) : ℂ) * spfState nm mass omega p r t := by
  simp only [spfState]
  rw [spfNorm_scale hc, spfRadial_scale hc]
  push_cast
  ring

theorem radialIntegral_scale (hc : 0 < c) (n m n' m' : ℤ) (mass omega : ℝ) :
    radialIntegral (spfRadial n m mass (omega / c ^ 2)) (spfRadial n' m' mass (omega / c ^ 2))
      = c ^ 3 * radialIntegral (spfRadial n m mass omega) (spfRadial n' m' mass omega) := by
  unfold radialIntegral
  have := MeasureTheory.integral_comp_mul_left_Ioi' (fun r => r * r ^ 1 * spfRadial n m mass (omega / c ^ 2) r
    * spfRadial n' m' mass (omega / c ^ 2) r) 0 hc
  rw [mul_zero] at this
  rw [← this, smul_eq_mul, ← MeasureTheory.integral_const_mul, ← MeasureTheory.integral_const_mul]
  congr 1
  funext r
  rw [spfRadial_scale hc, spfRadial_scale hc]
  ring

theorem dipoleEntry_scale (hc : 0 < c) (nm : ℕ → ℤ × ℤ) (omega mass : ℝ) (k p q : ℕ) :
    dipoleEntry nm (omega / c ^ 2) mass k p q = (c : ℂ) * dipoleEntry nm omega mass k p q := by
  unfold dipoleEntry
  rw [spfNorm_scale hc, spfNorm_scale hc, radialIntegral_scale hc]
  have hc' : (c : ℂ) ≠ 0 := by exact_mod_cast hc.ne'
  split_ifs
  · push_cast
    field_simp
  · push_cast
    field_simp
  · simp

theorem doubleWellEntry_scale (hc : 0 < c) (omega mass barrier : ℝ) (axis p q : ℕ) :
    doubleWellEntry (omega / c ^ 2) mass (c * barrier) axis p q = 1 / c ^ 2 * doubleWellEntry omega mass barrier axis p q := by
  unfold doubleWellEntry
  rw [spfNorm_scale hc, spfNorm_scale hc, radialIntegral_scale hc]
  split_ifs <;> field_simp <;> ring

/-! ## Sinc-DVR -/

open SincDvr

theorem spacing_scale (c : ℝ) (l : ℕ) (L : ℝ) : spacing l (c * L) = c * spacing l L := by
  unfold spacing
  ring

/-- All elements times one number. -/
theorem hamiltonOp_scale {N L : ℕ} {h h' : Fin L → Fin L → ℂ} {u u' : Fin L → Fin L → Fin L → Fin L → ℂ} {k : ℂ}
    (hh : ∀ p q, h' p q = k * h p q) (hu : ∀ p q r s, u' p q r s = k * u p q r s) (Ψ : Wave ℂ N L) (x) :
    hamiltonOp h' u' Ψ x = k * hamiltonOp h u Ψ x := by
  simp only [hamiltonOp, oneBodyOp, twoBodyOp, hh, hu, mul_assoc, ← mul_sum]
  ring

theorem spectrum_scale {N L D : ℕ} {h h' : Fin L → Fin L → ℂ} {u u' : Fin L → Fin L → Fin L → Fin L → ℂ} {k : ℝ} (hk : 0 ≤ k)
    (hh : ∀ p q, h' p q = k * h p q) (hu : ∀ p q r s, u' p q r s = k * u p q r s) {E : ℕ → ℝ} {Ψ : ℕ → Wave ℂ N L}
    (S : Spectrum h u D E Ψ) : Spectrum h' u' D (fun i => k * E i) Ψ where
  sorted i j hij hj := mul_le_mul_of_nonneg_left (S.sorted i j hij hj) hk
  anti := S.anti
  eigen i hi := by
    funext x
    rw [hamiltonOp_scale hh hu, S.eigen i hi]
    push_cast
    ring
  orth := S.orth
  complete := S.complete

theorem scaled_two {k : ℝ} {x y : NDArray ℂ} {l : ℕ} (h : ScaledArr k x y) (sx : x.shape = [l, l]) {p q : ℕ} (hp : p < l)
    (hq : q < l) : y.get [p, q] = k * x.get [p, q] := h.2 _ (by rw [sx]; exact ⟨hp, hq, trivial⟩)

theorem scaled_four {k : ℝ} {x y : NDArray ℂ} {l : ℕ} (h : ScaledArr k x y) (sx : x.shape = [l, l, l, l]) {p q r s : ℕ}
    (hp : p < l) (hq : q < l) (hr : r < l) (hs : s < l) : y.get [p, q, r, s] = k * x.get [p, q, r, s] :=
  h.2 _ (by rw [sx]; exact ⟨hp, hq, hr, hs, trivial⟩)

theorem scaled_three {k : ℝ} {x y : NDArray ℂ} {d l : ℕ} (h : ScaledArr k x y) (sx : x.shape = [d, l, l]) {i p q : ℕ}
    (hi : i < d) (hp : p < l) (hq : q < l) : y.get [i, p, q] = k * x.get [i, p, q] :=
  h.2 _ (by rw [sx]; exact ⟨hi, hp, hq, trivial⟩)

theorem scaled_cons {k : ℝ} {x y : NDArray ℂ} {l : ℕ} {g i : List ℕ} (h : ScaledArr k x y) (sx : x.shape = l :: g) {p : ℕ}
    (hp : p < l) (hi : InRange g i) : y.get (p :: i) = k * x.get (p :: i) := h.2 _ (by rw [sx]; exact ⟨hp, hi⟩)

theorem spinOne_scale {k : ℝ} {l : ℕ} {x y : NDArray ℂ} (h : ScaledArr k x y) (sx : x.shape = [l, l]) (p q : Fin (2 * l)) :
    spinOne l y p q = k * spinOne l x p q := by
  unfold spinOne
  split_ifs
  · exact scaled_two h sx (by omega) (by omega)
  · simp

theorem spinTwo_scale {k : ℝ} {l : ℕ} {x y : NDArray ℂ} (h : ScaledArr k x y) (sx : x.shape = [l, l, l, l])
    (p q r s : Fin (2 * l)) : spinTwo l y p q r s = k * spinTwo l x p q r s := by
  unfold spinTwo
  split_ifs
  · exact scaled_four h sx (by omega) (by omega) (by omega) (by omega)
  · simp

theorem optRel_and {R : NDArray ℂ → NDArray ℂ → Prop} (P : NDArray ℂ → Prop) {x y : Option (NDArray ℂ)}
    (h : OptRel R x y) (hx : ∀ a, x = some a → P a) : OptRel (fun a b => P a ∧ R a b) x y := by
  cases x <;> cases y <;> simp only [OptRel] at h ⊢
  exact ⟨hx _ rfl, h⟩

end QS.Units
