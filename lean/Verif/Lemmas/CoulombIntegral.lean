import Verif.Lemmas.Polar
import Verif.Lemmas.Coulomb
import Verif.Spec.CoulombIntegral
import Mathlib.Analysis.SpecialFunctions.PolarCoord
import Mathlib.MeasureTheory.Constructions.HaarToSphere
import Mathlib.MeasureTheory.Group.Prod
import Mathlib.LinearAlgebra.Complex.FiniteDimensional
import Mathlib.MeasureTheory.Measure.Lebesgue.Complex
import Mathlib.Analysis.SpecialFunctions.Gaussian.GaussianIntegral

/-!
# Coulomb integrals of polynomials times Gaussians in the plane
-/

namespace QS.CoulombIntegral

open MeasureTheory Set Complex

/-! ## Integrals over one plane -/

theorem angle_integral (a b : ℕ) :
    ∫ t in Ioo (-Real.pi) Real.pi, cexp (((a : ℂ) - b) * t * I) = if a = b then (2 * Real.pi : ℂ) else 0 := by
  rw [← integral_Ioc_eq_integral_Ioo, ← intervalIntegral.integral_of_le (by linarith [Real.pi_pos])]
  split_ifs with h
  · subst h
    simp
    ring
  · have hc : (((a : ℂ) - b) * I) ≠ 0 := mul_ne_zero (sub_ne_zero.2 (by exact_mod_cast h)) I_ne_zero
    rw [show (fun t : ℝ => cexp (((a : ℂ) - b) * t * I)) = fun t : ℝ => cexp ((((a : ℂ) - b) * I) * t) from by
      funext t; ring_nf]
    rw [integral_exp_mul_complex hc]
    have e : cexp (((a : ℂ) - b) * I * (Real.pi : ℝ)) = cexp (((a : ℂ) - b) * I * ((-Real.pi : ℝ) : ℂ)) := by
      rw [Complex.exp_eq_exp_iff_exists_int]
      exact ⟨(a : ℤ) - b, by push_cast; ring⟩
    rw [e, sub_self, zero_div]

/-- `∫ z^a z̄^b f(|z|)` over the plane. -/
theorem plane_monomial (a b : ℕ) (f : ℝ → ℝ) :
    ∫ z : ℂ, z ^ a * (starRingEnd ℂ) z ^ b * (f ‖z‖ : ℂ)
      = if a = b then ((2 * Real.pi * ∫ r in Ioi (0 : ℝ), r ^ (2 * a + 1) * f r : ℝ) : ℂ) else 0 := by
  rw [← Complex.integral_comp_polarCoord_symm, polarCoord_target]
  have : ∀ p ∈ (Ioi (0 : ℝ) ×ˢ Ioo (-Real.pi) Real.pi : Set (ℝ × ℝ)), p.1 • (Complex.polarCoord.symm p ^ a
      * (starRingEnd ℂ) (Complex.polarCoord.symm p) ^ b * (f ‖Complex.polarCoord.symm p‖ : ℂ))
      = (fun r : ℝ => ((r ^ (a + b + 1) * f r : ℝ) : ℂ)) p.1
        * (fun t : ℝ => cexp (((a : ℂ) - b) * t * I)) p.2 := by
    rintro ⟨r, t⟩ ⟨hr, -⟩
    have hr : 0 < r := hr
    rw [norm_polarCoord_symm, abs_of_pos hr, Complex.polarCoord_symm_apply]
    dsimp only
    rw [show (Real.cos t : ℂ) + Real.sin t * I = cexp (t * I) by
      rw [Complex.exp_mul_I, Complex.ofReal_cos, Complex.ofReal_sin]]
    rw [map_mul, conj_ofReal, ← exp_conj, map_mul, conj_ofReal, conj_I, mul_pow, mul_pow, ← exp_nat_mul,
      ← exp_nat_mul, show ((a : ℂ) - b) * t * I = a * (t * I) + b * (t * -I) by ring, exp_add]
    rw [Complex.real_smul]
    push_cast
    ring
  rw [setIntegral_congr_fun (measurableSet_Ioi.prod measurableSet_Ioo) this]
  have hp := setIntegral_prod_mul (μ := (volume : Measure ℝ)) (ν := (volume : Measure ℝ)) (L := ℂ)
    (fun r : ℝ => ((r ^ (a + b + 1) * f r : ℝ) : ℂ)) (fun t : ℝ => cexp (((a : ℂ) - b) * t * I))
    (Ioi 0) (Ioo (-Real.pi) Real.pi)
  refine hp.trans ?_
  rw [angle_integral]
  split_ifs with h
  · subst h
    rw [show (∫ r in Ioi (0 : ℝ), ((r ^ (a + a + 1) * f r : ℝ) : ℂ))
      = ((∫ r in Ioi (0 : ℝ), r ^ (a + a + 1) * f r : ℝ) : ℂ) from integral_ofReal,
      show a + a + 1 = 2 * a + 1 by ring]
    push_cast
    ring
  · simp

theorem rpow_integral {β : ℝ} (hβ : 0 < β) {q : ℝ} (hq : -1 < q) :
    ∫ r in Ioi (0 : ℝ), r ^ q * Real.exp (-β * r ^ 2)
      = β ^ (-(q + 1) / 2) * (1 / 2) * Real.Gamma ((q + 1) / 2) := by
  have h := integral_rpow_mul_exp_neg_mul_rpow (p := 2) (q := q) (b := β) two_pos hq hβ
  simpa only [Real.rpow_two] using h

/-- `∫ u^a ū^b e^{-β|u|²} = δ_ab π a!/β^{a+1}`. -/
theorem plane_gauss {β : ℝ} (hβ : 0 < β) (a b : ℕ) :
    ∫ z : ℂ, z ^ a * (starRingEnd ℂ) z ^ b * (Real.exp (-β * ‖z‖ ^ 2) : ℂ)
      = if a = b then ((Real.pi * Real.Gamma (a + 1) / β ^ (a + 1) : ℝ) : ℂ) else 0 := by
  rw [plane_monomial a b fun r => Real.exp (-β * r ^ 2)]
  split_ifs with h
  · rw [TwoDim.gauss_integral hβ, Real.Gamma_nat_eq_factorial]
    congr 1
    field_simp
  · rfl

/-- `∫ v^a v̄^b e^{-β|v|²}/|v| = δ_ab π Γ(a+1/2)/β^{a+1/2}`. -/
theorem plane_gauss_div {β : ℝ} (hβ : 0 < β) (a b : ℕ) :
    ∫ z : ℂ, z ^ a * (starRingEnd ℂ) z ^ b * ((Real.exp (-β * ‖z‖ ^ 2) / ‖z‖ : ℝ) : ℂ)
      = if a = b then ((Real.pi * Real.Gamma (a + 1 / 2) / (β ^ a * Real.sqrt β) : ℝ) : ℂ) else 0 := by
  rw [plane_monomial a b fun r => Real.exp (-β * r ^ 2) / r]
  split_ifs with h
  · congr 1
    have : ∀ r ∈ Ioi (0 : ℝ), r ^ (2 * a + 1) * (Real.exp (-β * r ^ 2) / r)
        = r ^ ((2 * a : ℕ) : ℝ) * Real.exp (-β * r ^ 2) := by
      intro r hr
      have hr : (0 : ℝ) < r := hr
      rw [Real.rpow_natCast, pow_succ]
      field_simp
    rw [setIntegral_congr_fun measurableSet_Ioi this, rpow_integral hβ (by
      have : (0 : ℝ) ≤ ((2 * a : ℕ) : ℝ) := Nat.cast_nonneg _
      linarith)]
    rw [show (((2 * a : ℕ) : ℝ) + 1) / 2 = a + 1 / 2 by push_cast; ring,
      show -(((2 * a : ℕ) : ℝ) + 1) / 2 = -((a : ℝ) + 1 / 2) by push_cast; ring, Real.rpow_neg hβ.le,
      Real.rpow_add hβ, Real.rpow_natCast, Real.sqrt_eq_rpow]
    field_simp
  · rfl

theorem norm_integrable {β : ℝ} (hβ : 0 < β) {q : ℝ} (hq : -2 < q) :
    Integrable (fun z : ℂ => ‖z‖ ^ q * Real.exp (-β * ‖z‖ ^ 2)) := by
  have h := (integrable_fun_norm_addHaar (volume : Measure ℂ)
    (f := fun r : ℝ => r ^ q * Real.exp (-β * r ^ 2))).2
  refine h ?_
  rw [Complex.finrank_real_complex]
  have h2 := (integrableOn_rpow_mul_exp_neg_mul_sq hβ (s := q + 1) (by linarith))
  refine h2.congr_fun (fun r hr => ?_) measurableSet_Ioi
  have hr : (0 : ℝ) < r := hr
  dsimp only
  rw [Real.rpow_add_one hr.ne', smul_eq_mul]
  ring

theorem plane_gauss_integrable {β : ℝ} (hβ : 0 < β) (a b : ℕ) :
    Integrable fun z : ℂ => z ^ a * (starRingEnd ℂ) z ^ b * (Real.exp (-β * ‖z‖ ^ 2) : ℂ) := by
  refine (norm_integrable hβ (q := ((a + b : ℕ) : ℝ)) (by
      have : (0 : ℝ) ≤ ((a + b : ℕ) : ℝ) := Nat.cast_nonneg _
      linarith)).mono' (by fun_prop) (Filter.Eventually.of_forall fun z => ?_)
  rw [norm_mul, norm_mul, norm_pow, norm_pow, RCLike.norm_conj, Complex.norm_real, Real.norm_eq_abs,
    abs_of_pos (Real.exp_pos _), Real.rpow_natCast, pow_add]

theorem plane_gauss_div_integrable {β : ℝ} (hβ : 0 < β) (a b : ℕ) :
    Integrable fun z : ℂ => z ^ a * (starRingEnd ℂ) z ^ b * ((Real.exp (-β * ‖z‖ ^ 2) / ‖z‖ : ℝ) : ℂ) := by
  refine (norm_integrable hβ (q := ((a + b : ℕ) : ℝ) - 1) (by
      have : (0 : ℝ) ≤ ((a + b : ℕ) : ℝ) := Nat.cast_nonneg _
      linarith)).mono' ?_ (Filter.Eventually.of_forall fun z => ?_)
  · refine Measurable.aestronglyMeasurable ?_
    fun_prop
  · rw [norm_mul, norm_mul, norm_pow, norm_pow, RCLike.norm_conj, Complex.norm_real, Real.norm_eq_abs,
      abs_of_nonneg (div_nonneg (Real.exp_pos _).le (norm_nonneg z)), ← pow_add]
    rcases eq_or_ne z 0 with rfl | hz
    · simp
      positivity
    · rw [Real.rpow_sub_one (norm_ne_zero_iff.2 hz), Real.rpow_natCast]
      exact le_of_eq (by ring)

/-! ## Centre of mass and relative coordinates -/

/-- `(u, v) ↦ (u + v/2, u - v/2)`. -/
noncomputable def fromCM : (ℂ × ℂ) ≃ₜ (ℂ × ℂ) where
  toFun x := (x.1 + x.2 / 2, x.1 - x.2 / 2)
  invFun y := ((y.1 + y.2) / 2, y.1 - y.2)
  left_inv x := by ext1 <;> simp
  right_inv y := by ext1 <;> simp <;> ring
  continuous_toFun := by fun_prop
  continuous_invFun := by fun_prop

theorem fromCM_preserving : MeasurePreserving fromCM := by
  have h1 : MeasurePreserving (fun x : ℂ × ℂ => (x.1, x.1 / 2 + x.2)) :=
    (MeasurePreserving.id (volume : Measure ℂ)).skew_product (g := fun x y => x / 2 + y) (by fun_prop)
      (Filter.Eventually.of_forall fun x => map_add_left_eq_self (volume : Measure ℂ) (x / 2))
  have h2 : MeasurePreserving (fun x : ℂ × ℂ => (x.1, -x.2)) :=
    (MeasurePreserving.id (volume : Measure ℂ)).prod (Measure.measurePreserving_neg (volume : Measure ℂ))
  have h3 : MeasurePreserving (fun z : ℂ × ℂ => (z.1, z.1 + z.2)) :=
    measurePreserving_prod_add (volume : Measure ℂ) (volume : Measure ℂ)
  have sw : MeasurePreserving (Prod.swap : ℂ × ℂ → ℂ × ℂ) := Measure.measurePreserving_swap
  have h := h3.comp (h2.comp (sw.comp (h1.comp sw)))
  convert h using 1
  funext x
  ext1
  · simp [fromCM]
    ring
  · simp [fromCM]
    ring

/-! ## Monomials in both planes -/

/-- `z₁^{γ₄} z̄₁^{γ₁} z₂^{γ₃} z̄₂^{γ₂} e^{-b(|z₁|²+|z₂|²)}/|z₁-z₂|`. -/
noncomputable def pairFn (b : ℝ) (γ1 γ2 γ3 γ4 : ℕ) (x : ℂ × ℂ) : ℂ :=
  x.1 ^ γ4 * (starRingEnd ℂ) x.1 ^ γ1 * (x.2 ^ γ3 * (starRingEnd ℂ) x.2 ^ γ2)
    * ((Real.exp (-b * (‖x.1‖ ^ 2 + ‖x.2‖ ^ 2)) / ‖x.1 - x.2‖ : ℝ) : ℂ)

/-- A term of the binomial expansion of `pairFn` in `u` and `v`. -/
noncomputable def cmTerm (b : ℝ) (γ1 γ2 γ3 γ4 l1 l2 l3 l4 : ℕ) (x : ℂ × ℂ) : ℂ :=
  (((-1 : ℝ) ^ (γ2 - l2 + (γ3 - l3)) * (γ1.choose l1 * γ2.choose l2 * γ3.choose l3 * γ4.choose l4)
    / 2 ^ (γ1 - l1 + (γ2 - l2) + (γ3 - l3) + (γ4 - l4)) : ℝ) : ℂ)
    * ((x.1 ^ (l3 + l4) * (starRingEnd ℂ) x.1 ^ (l1 + l2) * (Real.exp (-(2 * b) * ‖x.1‖ ^ 2) : ℂ))
      * (x.2 ^ (γ3 - l3 + (γ4 - l4)) * (starRingEnd ℂ) x.2 ^ (γ1 - l1 + (γ2 - l2))
        * ((Real.exp (-(b / 2) * ‖x.2‖ ^ 2) / ‖x.2‖ : ℝ) : ℂ)))

theorem norm_cm (u v : ℂ) : ‖u + v / 2‖ ^ 2 + ‖u - v / 2‖ ^ 2 = 2 * ‖u‖ ^ 2 + 1 / 2 * ‖v‖ ^ 2 := by
  have h := parallelogram_law_with_norm ℝ u (v / 2)
  rw [norm_div, Complex.norm_ofNat] at h
  nlinarith [h]

theorem pairFn_cm (b : ℝ) (γ1 γ2 γ3 γ4 : ℕ) (x : ℂ × ℂ) :
    pairFn b γ1 γ2 γ3 γ4 (fromCM x) = ∑ l1 ∈ Finset.range (γ1 + 1), ∑ l2 ∈ Finset.range (γ2 + 1),
      ∑ l3 ∈ Finset.range (γ3 + 1), ∑ l4 ∈ Finset.range (γ4 + 1), cmTerm b γ1 γ2 γ3 γ4 l1 l2 l3 l4 x := by
  obtain ⟨u, v⟩ := x
  have e1 : ‖(fromCM (u, v)).1‖ ^ 2 + ‖(fromCM (u, v)).2‖ ^ 2 = 2 * ‖u‖ ^ 2 + 1 / 2 * ‖v‖ ^ 2 := norm_cm u v
  have e2 : (fromCM (u, v)).1 - (fromCM (u, v)).2 = v := by
    show u + v / 2 - (u - v / 2) = v
    ring
  unfold pairFn
  rw [e1, e2]
  rw [show -b * (2 * ‖u‖ ^ 2 + 1 / 2 * ‖v‖ ^ 2) = -(2 * b) * ‖u‖ ^ 2 + -(b / 2) * ‖v‖ ^ 2 by ring,
    Real.exp_add]
  show (u + v / 2) ^ γ4 * (starRingEnd ℂ) (u + v / 2) ^ γ1 * ((u - v / 2) ^ γ3 * (starRingEnd ℂ) (u - v / 2) ^ γ2)
    * _ = _
  have hc : (starRingEnd ℂ) (2 : ℂ) = 2 := Complex.conj_ofNat 2
  rw [map_add, map_sub, map_div₀, hc, sub_eq_add_neg u, sub_eq_add_neg ((starRingEnd ℂ) u)]
  rw [add_pow u (v / 2), add_pow ((starRingEnd ℂ) u), add_pow u (-(v / 2)), add_pow ((starRingEnd ℂ) u)]
  rw [(fun a b c d e => by ring : ∀ a b c d e : ℂ, a * b * (c * d) * e = a * c * (d * b * e))]
  simp only [Finset.sum_mul, Finset.mul_sum]
  refine Finset.sum_congr rfl fun l1 _ => Finset.sum_congr rfl fun l2 _ => Finset.sum_congr rfl fun l3 _ =>
    Finset.sum_congr rfl fun l4 _ => ?_
  unfold cmTerm
  rw [neg_pow (v / 2), neg_pow ((starRingEnd ℂ) v / 2)]
  simp only [div_pow, pow_add]
  push_cast
  simp only [div_eq_mul_inv, mul_inv]
  ring

theorem cmTerm_integrable {b : ℝ} (hb : 0 < b) (γ1 γ2 γ3 γ4 l1 l2 l3 l4 : ℕ) :
    Integrable (cmTerm b γ1 γ2 γ3 γ4 l1 l2 l3 l4) :=
  ((plane_gauss_integrable (by positivity : 0 < 2 * b) _ _).mul_prod
    (plane_gauss_div_integrable (by positivity : 0 < b / 2) _ _)).const_mul _

theorem cmTerm_integral {b : ℝ} (hb : 0 < b) (γ1 γ2 γ3 γ4 l1 l2 l3 l4 : ℕ) :
    ∫ x, cmTerm b γ1 γ2 γ3 γ4 l1 l2 l3 l4 x
      = (((-1 : ℝ) ^ (γ2 - l2 + (γ3 - l3)) * (γ1.choose l1 * γ2.choose l2 * γ3.choose l3 * γ4.choose l4)
        / 2 ^ (γ1 - l1 + (γ2 - l2) + (γ3 - l3) + (γ4 - l4)) : ℝ) : ℂ)
        * ((if l3 + l4 = l1 + l2 then ((Real.pi * Real.Gamma ((l3 + l4 : ℕ) + 1) / (2 * b) ^ (l3 + l4 + 1) : ℝ) : ℂ)
              else 0)
          * (if γ3 - l3 + (γ4 - l4) = γ1 - l1 + (γ2 - l2) then
              ((Real.pi * Real.Gamma ((γ3 - l3 + (γ4 - l4) : ℕ) + 1 / 2)
                / ((b / 2) ^ (γ3 - l3 + (γ4 - l4)) * Real.sqrt (b / 2)) : ℝ) : ℂ) else 0)) := by
  unfold cmTerm
  rw [integral_const_mul]
  congr 1
  have hp := integral_prod_mul (μ := (volume : Measure ℂ)) (ν := (volume : Measure ℂ)) (L := ℂ)
    (fun z => z ^ (l3 + l4) * (starRingEnd ℂ) z ^ (l1 + l2) * (Real.exp (-(2 * b) * ‖z‖ ^ 2) : ℂ))
    (fun z => z ^ (γ3 - l3 + (γ4 - l4)) * (starRingEnd ℂ) z ^ (γ1 - l1 + (γ2 - l2))
        * ((Real.exp (-(b / 2) * ‖z‖ ^ 2) / ‖z‖ : ℝ) : ℂ))
  refine hp.trans ?_
  rw [plane_gauss (by positivity), plane_gauss_div (by positivity)]

theorem pairFn_integrable {b : ℝ} (hb : 0 < b) (γ1 γ2 γ3 γ4 : ℕ) : Integrable (pairFn b γ1 γ2 γ3 γ4) := by
  rw [← fromCM_preserving.integrable_comp_emb fromCM.measurableEmbedding]
  rw [show pairFn b γ1 γ2 γ3 γ4 ∘ fromCM = fun x => ∑ l1 ∈ Finset.range (γ1 + 1),
      ∑ l2 ∈ Finset.range (γ2 + 1), ∑ l3 ∈ Finset.range (γ3 + 1), ∑ l4 ∈ Finset.range (γ4 + 1),
        cmTerm b γ1 γ2 γ3 γ4 l1 l2 l3 l4 x from funext fun x => pairFn_cm b γ1 γ2 γ3 γ4 x]
  exact integrable_finsetSum _ fun _ _ => integrable_finsetSum _ fun _ _ => integrable_finsetSum _ fun _ _ =>
    integrable_finsetSum _ fun _ _ => cmTerm_integrable hb ..

theorem scale_const {b : ℝ} (hb : 0 < b) (l d : ℕ) :
    1 / (2 : ℝ) ^ (2 * d) * (1 / (2 * b) ^ (l + 1)) * (1 / ((b / 2) ^ d * Real.sqrt (b / 2)))
      = 1 / Real.sqrt b ^ (2 * l + 2 * d + 3) * (Real.sqrt 2 ^ (2 * l + 2 * d + 1))⁻¹ := by
  have hs : 0 < Real.sqrt b := Real.sqrt_pos.2 hb
  have ht : 0 < Real.sqrt 2 := Real.sqrt_pos.2 (by norm_num)
  have hb2 : b = Real.sqrt b ^ 2 := (Real.sq_sqrt hb.le).symm
  have h22 : (2 : ℝ) = Real.sqrt 2 ^ 2 := (Real.sq_sqrt (by norm_num)).symm
  rw [Real.sqrt_div hb.le]
  generalize Real.sqrt b = s at *
  generalize Real.sqrt 2 = t at *
  rw [hb2, h22]
  simp only [div_pow, mul_pow, ← pow_mul]
  field_simp
  ring

/-- The Coulomb integral of a product of monomials and Gaussians. -/
theorem pairFn_integral {b : ℝ} (hb : 0 < b) (γ1 γ2 γ3 γ4 : ℕ) :
    ∫ x, pairFn b γ1 γ2 γ3 γ4 x = if γ1 + γ2 = γ3 + γ4 then
      ((Real.pi ^ 2 / Real.sqrt b ^ (γ1 + γ2 + γ3 + γ4 + 3) * (Real.sqrt 2 ^ (γ1 + γ2 + γ3 + γ4 + 1))⁻¹
        * Spec.amInner γ1 γ2 γ3 γ4 : ℝ) : ℂ) else 0 := by
  rw [← fromCM_preserving.integral_comp fromCM.measurableEmbedding]
  simp only [pairFn_cm]
  have i4 : ∀ l1 l2 l3, Integrable fun x => ∑ l4 ∈ Finset.range (γ4 + 1), cmTerm b γ1 γ2 γ3 γ4 l1 l2 l3 l4 x :=
    fun l1 l2 l3 => integrable_finsetSum _ fun _ _ => cmTerm_integrable hb ..
  have i3 : ∀ l1 l2, Integrable fun x => ∑ l3 ∈ Finset.range (γ3 + 1), ∑ l4 ∈ Finset.range (γ4 + 1),
      cmTerm b γ1 γ2 γ3 γ4 l1 l2 l3 l4 x := fun l1 l2 => integrable_finsetSum _ fun l3 _ => i4 l1 l2 l3
  have i2 : ∀ l1, Integrable fun x => ∑ l2 ∈ Finset.range (γ2 + 1), ∑ l3 ∈ Finset.range (γ3 + 1),
      ∑ l4 ∈ Finset.range (γ4 + 1), cmTerm b γ1 γ2 γ3 γ4 l1 l2 l3 l4 x :=
    fun l1 => integrable_finsetSum _ fun l2 _ => i3 l1 l2
  rw [integral_finsetSum _ fun l1 _ => i2 l1]
  simp_rw [integral_finsetSum _ fun l2 _ => i3 _ l2, integral_finsetSum _ fun l3 _ => i4 _ _ l3,
    integral_finsetSum _ fun l4 _ => cmTerm_integrable hb γ1 γ2 γ3 γ4 _ _ _ l4, cmTerm_integral hb]
  split_ifs with hγ
  · unfold Spec.amInner
    simp only [Finset.mul_sum, Complex.ofReal_sum]
    refine Finset.sum_congr rfl fun l1 h1 => Finset.sum_congr rfl fun l2 h2 => Finset.sum_congr rfl fun l3 h3 =>
      Finset.sum_congr rfl fun l4 h4 => ?_
    have h1 := Finset.mem_range.1 h1
    have h2 := Finset.mem_range.1 h2
    have h3 := Finset.mem_range.1 h3
    have h4 := Finset.mem_range.1 h4
    by_cases hl : l3 + l4 = l1 + l2
    · rw [if_pos hl, if_pos (by omega : γ3 - l3 + (γ4 - l4) = γ1 - l1 + (γ2 - l2)), if_pos hl.symm]
      obtain ⟨d1, rfl⟩ := Nat.exists_eq_add_of_le (Nat.le_of_lt_succ h1)
      obtain ⟨d2, rfl⟩ := Nat.exists_eq_add_of_le (Nat.le_of_lt_succ h2)
      obtain ⟨d3, rfl⟩ := Nat.exists_eq_add_of_le (Nat.le_of_lt_succ h3)
      obtain ⟨d4, rfl⟩ := Nat.exists_eq_add_of_le (Nat.le_of_lt_succ h4)
      have hd : d1 + d2 = d3 + d4 := by omega
      simp only [Nat.add_sub_cancel_left]
      rw [show l2 + d2 + (l3 + d3) - l2 - l3 = d2 + d3 by omega]
      have hL : l1 + l2 + l3 + l4 = 2 * (l3 + l4) := by omega
      have hD : d1 + d2 + d3 + d4 = 2 * (d3 + d4) := by omega
      have hG : l1 + d1 + (l2 + d2) + (l3 + d3) + (l4 + d4) = 2 * (l3 + l4) + 2 * (d3 + d4) := by omega
      rw [hL, hD, hG]
      generalize l3 + l4 = l
      generalize d3 + d4 = d
      rw [← Complex.ofReal_mul, ← Complex.ofReal_mul]
      congr 1
      rw [show (1 : ℝ) + ((2 * l : ℕ) : ℝ) / 2 = (l : ℝ) + 1 by push_cast; ring,
        show (((2 * l + 2 * d : ℕ) : ℝ) - ((2 * l : ℕ) : ℝ) + 1) / 2 = (d : ℝ) + 1 / 2 by push_cast; ring]
      have hc := scale_const hb l d
      simp only [div_eq_mul_inv] at hc ⊢
      linear_combination (Real.pi ^ 2 * (-1) ^ (d2 + d3) * (((l1 + d1).choose l1) * ((l2 + d2).choose l2)
        * ((l3 + d3).choose l3) * ((l4 + d4).choose l4)) * Real.Gamma ((l : ℝ) + 1)
        * Real.Gamma ((d : ℝ) + 1 * 2⁻¹)) * hc
    · rw [if_neg hl, if_neg (Ne.symm hl)]
      push_cast
      ring
  · refine Finset.sum_eq_zero fun l1 h1 => Finset.sum_eq_zero fun l2 h2 => Finset.sum_eq_zero fun l3 h3 =>
      Finset.sum_eq_zero fun l4 h4 => ?_
    have h1 := Finset.mem_range.1 h1
    have h2 := Finset.mem_range.1 h2
    have h3 := Finset.mem_range.1 h3
    have h4 := Finset.mem_range.1 h4
    by_cases hl : l3 + l4 = l1 + l2
    · rw [if_neg (by omega : ¬ (γ3 - l3 + (γ4 - l4) = γ1 - l1 + (γ2 - l2)))]
      simp
    · rw [if_neg hl]
      simp

/-! ## The oscillator functions -/

open TwoDim in
theorem polar_power (m : ℤ) (r t : ℝ) :
    spfTheta t m * ((r ^ m.natAbs : ℝ) : ℂ) = (r * Complex.exp (t * Complex.I)) ^ m.toNat
      * (r * Complex.exp (-(t * Complex.I))) ^ (-m).toNat := by
  unfold spfTheta
  rcases le_total 0 m with h | h
  · obtain ⟨k, rfl⟩ := Int.eq_ofNat_of_zero_le h
    simp only [Int.toNat_natCast, Int.natAbs_natCast, Int.toNat_neg_natCast, pow_zero, mul_one]
    rw [mul_pow, ← Complex.exp_nat_mul]
    push_cast
    rw [mul_comm]
    congr 2
    ring
  · obtain ⟨k, hk⟩ := Int.eq_ofNat_of_zero_le (neg_nonneg.2 h)
    obtain rfl : m = -(k : ℤ) := by omega
    simp only [neg_neg, Int.toNat_natCast, Int.natAbs_neg, Int.natAbs_natCast, Int.toNat_neg_natCast, pow_zero,
      one_mul]
    rw [mul_pow, ← Complex.exp_nat_mul]
    push_cast
    rw [mul_comm]
    congr 2
    ring

open TwoDim in
/-- The angular factor and the power of the radius make a monomial. -/
theorem polar_monomial (m : ℤ) (z : ℂ) :
    spfTheta z.arg m * ((‖z‖ ^ m.natAbs : ℝ) : ℂ)
      = z ^ m.toNat * (starRingEnd ℂ) z ^ (-m).toNat := by
  have hz := Complex.norm_mul_exp_arg_mul_I z
  have hc : ‖z‖ * Complex.exp (-(z.arg * Complex.I)) = (starRingEnd ℂ) z := by
    conv_rhs => rw [← hz]
    rw [map_mul, Complex.conj_ofReal, ← Complex.exp_conj, map_mul, Complex.conj_ofReal, Complex.conj_I]
    congr 2
    ring
  rw [polar_power, hz, hc]

open TwoDim in
theorem spfState_expand {mass omega : ℝ} (hm : 0 < mass) (ho : 0 < omega) (nm : ℕ → ℤ × ℤ) (p : ℕ) (z : ℂ) :
    Spec.atPoint (spfState nm mass omega p) z = ∑ i ∈ Finset.range ((nm p).1.toNat + 1),
      ((spfNorm (nm p).1 (nm p).2 mass omega * radCoeff (nm p).1.toNat (nm p).2.natAbs mass omega i : ℝ) : ℂ)
        * (z ^ ((nm p).2.toNat + i) * (starRingEnd ℂ) z ^ ((-(nm p).2).toNat + i)
          * (Real.exp (-(mass * omega) * ‖z‖ ^ 2 / 2) : ℂ)) := by
  unfold Spec.atPoint spfState
  dsimp only
  rw [spfRadial_expand hm ho, Complex.ofReal_sum, Finset.mul_sum]
  refine Finset.sum_congr rfl fun i _ => ?_
  have h := polar_monomial (nm p).2 z
  have h2 : ((‖z‖ ^ (2 * i) : ℝ) : ℂ) = z ^ i * (starRingEnd ℂ) z ^ i := by
    rw [← mul_pow, Complex.mul_conj, Complex.normSq_eq_norm_sq, pow_mul]
    push_cast
    rfl
  rw [pow_add, pow_add z, pow_add ((starRingEnd ℂ) z)]
  rw [Complex.ofReal_mul, Complex.ofReal_mul, Complex.ofReal_mul, h2]
  rw [show z ^ (nm p).2.toNat * z ^ i * ((starRingEnd ℂ) z ^ (-(nm p).2).toNat * (starRingEnd ℂ) z ^ i)
    = (z ^ (nm p).2.toNat * (starRingEnd ℂ) z ^ (-(nm p).2).toNat) * (z ^ i * (starRingEnd ℂ) z ^ i) by ring, ← h]
  push_cast
  ring

open TwoDim in
/-- The coefficient of a term of the expanded integrand. -/
noncomputable def quadCoeff (nm : ℕ → ℤ × ℤ) (mass omega : ℝ) (p q r s j1 j2 j3 j4 : ℕ) : ℝ :=
  (spfNorm (nm p).1 (nm p).2 mass omega * radCoeff (nm p).1.toNat (nm p).2.natAbs mass omega j1)
    * (spfNorm (nm q).1 (nm q).2 mass omega * radCoeff (nm q).1.toNat (nm q).2.natAbs mass omega j2)
    * (spfNorm (nm s).1 (nm s).2 mass omega * radCoeff (nm s).1.toNat (nm s).2.natAbs mass omega j3)
    * (spfNorm (nm r).1 (nm r).2 mass omega * radCoeff (nm r).1.toNat (nm r).2.natAbs mass omega j4)

/-- A term of the expanded integrand. -/
noncomputable def quadTerm (nm : ℕ → ℤ × ℤ) (mass omega : ℝ) (p q r s j1 j2 j3 j4 : ℕ) (x : ℂ × ℂ) : ℂ :=
  (quadCoeff nm mass omega p q r s j1 j2 j3 j4 : ℂ)
    * pairFn (mass * omega) (j1 + j4 + (nm p).2.toNat + (-(nm r).2).toNat)
      (j2 + j3 + (nm q).2.toNat + (-(nm s).2).toNat) (j2 + j3 + (nm s).2.toNat + (-(nm q).2).toNat)
      (j1 + j4 + (nm r).2.toNat + (-(nm p).2).toNat) x

open TwoDim in
theorem integrand_expand {mass omega : ℝ} (hm : 0 < mass) (ho : 0 < omega) (nm : ℕ → ℤ × ℤ) (p q r s : ℕ)
    (x : ℂ × ℂ) :
    Spec.coulombIntegrand (Spec.atPoint (spfState nm mass omega p)) (Spec.atPoint (spfState nm mass omega q))
      (Spec.atPoint (spfState nm mass omega r)) (Spec.atPoint (spfState nm mass omega s)) x
      = ∑ j1 ∈ Finset.range ((nm p).1.toNat + 1), ∑ j2 ∈ Finset.range ((nm q).1.toNat + 1),
        ∑ j3 ∈ Finset.range ((nm s).1.toNat + 1), ∑ j4 ∈ Finset.range ((nm r).1.toNat + 1),
          quadTerm nm mass omega p q r s j1 j2 j3 j4 x := by
  unfold Spec.coulombIntegrand
  simp only [spfState_expand hm ho, map_sum]
  rw [(fun a b c d e => by ring : ∀ a b c d e : ℂ, a * b * e * c * d = c * d * (b * a * e))]
  simp only [Finset.sum_mul, Finset.mul_sum]
  refine Finset.sum_congr rfl fun j1 _ => Finset.sum_congr rfl fun j2 _ => Finset.sum_congr rfl fun j3 _ =>
    Finset.sum_congr rfl fun j4 _ => ?_
  unfold quadTerm quadCoeff pairFn
  simp only [map_mul, map_pow, Complex.conj_ofReal, Complex.conj_conj]
  rw [show Real.exp (-(mass * omega) * (‖x.1‖ ^ 2 + ‖x.2‖ ^ 2))
    = (Real.exp (-(mass * omega) * ‖x.1‖ ^ 2 / 2) * Real.exp (-(mass * omega) * ‖x.1‖ ^ 2 / 2))
      * (Real.exp (-(mass * omega) * ‖x.2‖ ^ 2 / 2) * Real.exp (-(mass * omega) * ‖x.2‖ ^ 2 / 2)) by
    rw [← Real.exp_add, ← Real.exp_add, ← Real.exp_add]
    congr 1
    ring]
  simp only [pow_add, div_eq_mul_inv, Complex.ofReal_mul]
  push_cast
  ring

open TwoDim in
theorem integrand_integrable {mass omega : ℝ} (hm : 0 < mass) (ho : 0 < omega) (nm : ℕ → ℤ × ℤ) (p q r s : ℕ) :
    Integrable (Spec.coulombIntegrand (Spec.atPoint (spfState nm mass omega p))
      (Spec.atPoint (spfState nm mass omega q)) (Spec.atPoint (spfState nm mass omega r))
      (Spec.atPoint (spfState nm mass omega s))) := by
  have hb : 0 < mass * omega := by positivity
  rw [funext fun x => integrand_expand hm ho nm p q r s x]
  exact integrable_finsetSum _ fun _ _ => integrable_finsetSum _ fun _ _ => integrable_finsetSum _ fun _ _ =>
    integrable_finsetSum _ fun _ _ => (pairFn_integrable hb ..).const_mul _

open TwoDim in
theorem norm_product {mass omega : ℝ} (hm : 0 < mass) (ho : 0 < omega) {np nq nr ns : ℤ} (hp : 0 ≤ np)
    (hq : 0 ≤ nq) (hr : 0 ≤ nr) (hs : 0 ≤ ns) (mp mq mr ms : ℤ) :
    spfNorm np mp mass omega * spfNorm nq mq mass omega * spfNorm ns ms mass omega * spfNorm nr mr mass omega
      = (mass * omega) ^ 2 / Real.pi ^ 2 * Real.sqrt (
        ((np.toNat.factorial : ℝ) / (np.toNat + mp.natAbs).factorial)
        * (nq.toNat.factorial / (nq.toNat + mq.natAbs).factorial)
        * (ns.toNat.factorial / (ns.toNat + ms.natAbs).factorial)
        * (nr.toNat.factorial / (nr.toNat + mr.natAbs).factorial)) := by
  have e {n : ℤ} (h : 0 ≤ n) (m : ℤ) : (n + |m|).toNat = n.toNat + m.natAbs := by
    rw [Int.abs_eq_natAbs]; omega
  have f {n : ℤ} (h : 0 ≤ n) (m : ℤ) : spfNorm n m mass omega = bohrRadius mass omega * (Real.sqrt Real.pi)⁻¹
      * Real.sqrt ((n.toNat.factorial : ℝ) / (n.toNat + m.natAbs).factorial) := by
    unfold spfNorm
    dsimp only
    rw [e h, mul_assoc, ← Real.sqrt_inv, ← Real.sqrt_mul (by positivity)]
    congr 2
    rw [div_mul_eq_div_div_swap, div_eq_inv_mul _ Real.pi]
  rw [f hp, f hq, f hr, f hs, Real.sqrt_mul (by positivity), Real.sqrt_mul (by positivity),
    Real.sqrt_mul (by positivity)]
  have h1 := bohr_sq hm ho
  have h2 : (Real.sqrt Real.pi)⁻¹ ^ 2 = Real.pi⁻¹ := by rw [inv_pow, Real.sq_sqrt Real.pi_pos.le]
  rw [← h1, div_eq_mul_inv (_ ^ 2 : ℝ) (Real.pi ^ 2), ← inv_pow Real.pi, ← h2]
  ring

theorem collect_factors {a S N1 N2 N3 N4 f1 f2 f3 f4 : ℝ} (ha : 0 < a) (h1 : f1 ≠ 0) (h2 : f2 ≠ 0) (h3 : f3 ≠ 0)
    (h4 : f4 ≠ 0) (hn : N1 * N2 * N3 * N4 = (a ^ 2) ^ 2 / Real.pi ^ 2 * S) (c1 c2 c3 c4 A B : ℝ)
    (j1 j2 j3 j4 k1 k2 k3 k4 : ℕ) :
    N1 * ((-1) ^ j1 * c1 / f1 * a ^ k1 * (a ^ 2) ^ j1) * (N2 * ((-1) ^ j2 * c2 / f2 * a ^ k2 * (a ^ 2) ^ j2))
      * (N3 * ((-1) ^ j3 * c3 / f3 * a ^ k3 * (a ^ 2) ^ j3)) * (N4 * ((-1) ^ j4 * c4 / f4 * a ^ k4 * (a ^ 2) ^ j4))
      * (Real.pi ^ 2 / a ^ (k1 + k2 + k3 + k4 + 2 * (j1 + j2 + j3 + j4) + 3) * B * A)
      = a * (S * ((-1) ^ (j1 + j2 + j3 + j4) / (f1 * f2 * f3 * f4) * (c1 * c2 * c3 * c4) * B * A)) := by
  have hp := Real.pi_ne_zero
  have ha := ha.ne'
  have e : N1 * ((-1) ^ j1 * c1 / f1 * a ^ k1 * (a ^ 2) ^ j1) * (N2 * ((-1) ^ j2 * c2 / f2 * a ^ k2 * (a ^ 2) ^ j2))
      * (N3 * ((-1) ^ j3 * c3 / f3 * a ^ k3 * (a ^ 2) ^ j3)) * (N4 * ((-1) ^ j4 * c4 / f4 * a ^ k4 * (a ^ 2) ^ j4))
      = (N1 * N2 * N3 * N4) * ((-1) ^ (j1 + j2 + j3 + j4) / (f1 * f2 * f3 * f4) * (c1 * c2 * c3 * c4)
        * a ^ (k1 + k2 + k3 + k4 + 2 * (j1 + j2 + j3 + j4))) := by
    simp only [pow_add, pow_mul, mul_add]
    field_simp
  rw [e, hn, pow_add a _ 3]
  field_simp

open TwoDim in
/-- The Coulomb integral of four oscillator functions. -/
theorem coulomb_integral {mass omega : ℝ} (hm : 0 < mass) (ho : 0 < omega) (nm : ℕ → ℤ × ℤ) {p q r s : ℕ}
    (hp : 0 ≤ (nm p).1) (hq : 0 ≤ (nm q).1) (hr : 0 ≤ (nm r).1) (hs : 0 ≤ (nm s).1) :
    Spec.coulombIntegral (Spec.atPoint (spfState nm mass omega p)) (Spec.atPoint (spfState nm mass omega q))
      (Spec.atPoint (spfState nm mass omega r)) (Spec.atPoint (spfState nm mass omega s))
      = ((Real.sqrt (mass * omega) * Coulomb.coulombHo (nm p).1 (nm p).2 (nm q).1 (nm q).2 (nm r).1 (nm r).2
          (nm s).1 (nm s).2 : ℝ) : ℂ) := by
  have hb : 0 < mass * omega := by positivity
  have i4 : ∀ j1 j2 j3, Integrable fun x => ∑ j4 ∈ Finset.range ((nm r).1.toNat + 1),
      quadTerm nm mass omega p q r s j1 j2 j3 j4 x :=
    fun j1 j2 j3 => integrable_finsetSum _ fun _ _ => (pairFn_integrable hb ..).const_mul _
  have i3 : ∀ j1 j2, Integrable fun x => ∑ j3 ∈ Finset.range ((nm s).1.toNat + 1),
      ∑ j4 ∈ Finset.range ((nm r).1.toNat + 1), quadTerm nm mass omega p q r s j1 j2 j3 j4 x :=
    fun j1 j2 => integrable_finsetSum _ fun j3 _ => i4 j1 j2 j3
  have i2 : ∀ j1, Integrable fun x => ∑ j2 ∈ Finset.range ((nm q).1.toNat + 1),
      ∑ j3 ∈ Finset.range ((nm s).1.toNat + 1), ∑ j4 ∈ Finset.range ((nm r).1.toNat + 1),
        quadTerm nm mass omega p q r s j1 j2 j3 j4 x :=
    fun j1 => integrable_finsetSum _ fun j2 _ => i3 j1 j2
  unfold Spec.coulombIntegral
  rw [funext fun x => integrand_expand hm ho nm p q r s x]
  rw [integral_finsetSum _ fun j1 _ => i2 j1]
  simp_rw [integral_finsetSum _ fun j2 _ => i3 _ j2, integral_finsetSum _ fun j3 _ => i4 _ _ j3]
  have i1 : ∀ j1 j2 j3, ∫ x, ∑ j4 ∈ Finset.range ((nm r).1.toNat + 1),
      quadTerm nm mass omega p q r s j1 j2 j3 j4 x = ∑ j4 ∈ Finset.range ((nm r).1.toNat + 1),
      ∫ x, quadTerm nm mass omega p q r s j1 j2 j3 j4 x :=
    fun j1 j2 j3 => integral_finsetSum _ fun _ _ => (pairFn_integrable hb ..).const_mul _
  simp_rw [i1]
  unfold quadTerm
  simp_rw [integral_const_mul, pairFn_integral hb]
  have hc := Coulomb.coulombHo_eq (nm p).1.toNat (nm q).1.toNat (nm s).1.toNat (nm r).1.toNat (nm p).2 (nm q).2
    (nm s).2 (nm r).2
  rw [Int.toNat_of_nonneg hp, Int.toNat_of_nonneg hq, Int.toNat_of_nonneg hr, Int.toNat_of_nonneg hs] at hc
  rw [hc, Spec.anisimovasMatulis]
  by_cases hM : (nm p).2 + (nm q).2 = (nm s).2 + (nm r).2
  · rw [if_pos hM]
    simp only [Finset.mul_sum, Complex.ofReal_sum]
    refine Finset.sum_congr rfl fun j1 _ => Finset.sum_congr rfl fun j2 _ => Finset.sum_congr rfl fun j3 _ =>
      Finset.sum_congr rfl fun j4 _ => ?_
    rw [if_pos (by omega), ← Complex.ofReal_mul]
    congr 1
    have hn := norm_product hm ho hp hq hr hs (nm p).2 (nm q).2 (nm r).2 (nm s).2
    have hG : j1 + j4 + (nm p).2.toNat + (-(nm r).2).toNat + (j2 + j3 + (nm q).2.toNat + (-(nm s).2).toNat)
        + (j2 + j3 + (nm s).2.toNat + (-(nm q).2).toNat) + (j1 + j4 + (nm r).2.toNat + (-(nm p).2).toNat)
        = (nm p).2.natAbs + (nm q).2.natAbs + (nm s).2.natAbs + (nm r).2.natAbs + 2 * (j1 + j2 + j3 + j4) := by
      omega
    rw [hG]
    generalize Spec.amInner _ _ _ _ = A
    generalize (Real.sqrt 2 ^ _)⁻¹ = B
    unfold quadCoeff radCoeff lagCoeff
    have ha : Real.sqrt (mass * omega) = bohrRadius mass omega := rfl
    have hb2 := bohr_sq hm ho
    have hba := bohr_pos hm ho
    rw [ha]
    generalize bohrRadius mass omega = a at *
    generalize mass * omega = b at *
    subst hb2
    generalize Real.sqrt _ = S at *
    generalize spfNorm _ _ mass omega = N1 at *
    generalize spfNorm _ _ mass omega = N2 at *
    generalize spfNorm _ _ mass omega = N3 at *
    generalize spfNorm _ _ mass omega = N4 at *
    exact collect_factors hba (by positivity) (by positivity) (by positivity) (by positivity) hn _ _ _ _ _ _ _ _ _ _
      _ _ _ _
  · rw [if_neg hM]
    simp only [mul_zero, Complex.ofReal_zero]
    refine Finset.sum_eq_zero fun j1 _ => Finset.sum_eq_zero fun j2 _ => Finset.sum_eq_zero fun j3 _ =>
      Finset.sum_eq_zero fun j4 _ => ?_
    rw [if_neg (by omega), mul_zero]

end QS.CoulombIntegral
