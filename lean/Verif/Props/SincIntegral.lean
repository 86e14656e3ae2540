import Verif.Lemmas.Plancherel
import Verif.Lemmas.SincKinetic
import Verif.Props.SincDvr

/-!
# The sinc functions on the whole line (C112)
-/

namespace QS.Props

open SincDvr OneDim NDArray Spec BasisSet PyM World Plancherel MeasureTheory

/-! ## Unit spacing -/

/-- The wave-number amplitude of the sinc function at the integer `m`. -/
noncomputable def wave (m : ℕ) (k : ℝ) : ℂ := Complex.exp (-(Complex.I * m * k))

theorem continuous_wave (m : ℕ) : Continuous (wave m) := by unfold wave; fun_prop

theorem band_wave (m : ℕ) (x : ℝ) : band (wave m) x = (npSinc (x - m) : ℂ) := by
  unfold band wave
  have hpi := Real.pi_ne_zero
  have e : ∀ k : ℝ, Complex.exp (-(Complex.I * m * k)) * Complex.exp (Complex.I * k * x)
      = Complex.exp ((Complex.I * ((x - m : ℝ) : ℂ)) * k) := fun k => by
    rw [← Complex.exp_add]
    congr 1
    push_cast
    ring
  simp only [e]
  unfold npSinc
  by_cases h : x - m = 0
  · rw [if_pos h, h]
    simp only [Complex.ofReal_zero, mul_zero, zero_mul, Complex.exp_zero, intervalIntegral.integral_const,
      Complex.real_smul, mul_one, ← Complex.ofReal_mul, Complex.ofReal_one]
    rw [← Complex.ofReal_one]
    congr 1
    field_simp
    ring
  · have hc : Complex.I * ((x - m : ℝ) : ℂ) ≠ 0 := mul_ne_zero Complex.I_ne_zero (by exact_mod_cast h)
    rw [if_neg h, integral_exp_mul_complex hc]
    have h' : ((x - m : ℝ) : ℂ) ≠ 0 := by exact_mod_cast h
    have hp : (Real.pi : ℂ) ≠ 0 := by exact_mod_cast hpi
    generalize x - (m : ℝ) = y at *
    have e1 : Complex.exp (Complex.I * y * Real.pi) = Complex.exp ((Real.pi * y : ℂ) * Complex.I) := by
      congr 1
      ring
    have e2 : Complex.exp (Complex.I * y * ((-Real.pi : ℝ) : ℂ)) = Complex.exp (-(Real.pi * y : ℂ) * Complex.I) := by
      congr 1
      push_cast
      ring
    rw [e1, e2]
    push_cast
    rw [Complex.sin]
    field_simp
    rw [Complex.I_sq]
    ring

/-- The derivatives of the sinc function at `m` have the amplitudes `i k` and `-k²` times that of the function. -/
theorem band_wave_deriv (m : ℕ) (x : ℝ) :
    band (fun k => Complex.I * k * wave m k) x = ((deriv npSinc (x - m) : ℝ) : ℂ) := by
  have h1 := hasDerivAt_band (continuous_wave m) x
  have h2 : HasDerivAt (fun x : ℝ => (npSinc (x - m) : ℂ)) ((deriv npSinc (x - m) : ℝ) : ℂ) x :=
    ((analyticAt_npSinc _).differentiableAt.hasDerivAt.comp_sub_const x (m : ℝ)).ofReal_comp
  rw [show band (wave m) = fun x : ℝ => (npSinc (x - m) : ℂ) from funext (band_wave m)] at h1
  exact h1.unique h2

theorem band_wave_deriv2 (m : ℕ) (x : ℝ) :
    band (fun k => Complex.I * k * (Complex.I * k * wave m k)) x = ((deriv (deriv npSinc) (x - m) : ℝ) : ℂ) := by
  have hc := continuous_wave m
  have h1 := hasDerivAt_band (a := fun k => Complex.I * k * wave m k) (by fun_prop) x
  have h2 : HasDerivAt (fun x : ℝ => ((deriv npSinc (x - m) : ℝ) : ℂ)) ((deriv (deriv npSinc) (x - m) : ℝ) : ℂ) x :=
    ((analyticAt_npSinc _).deriv.differentiableAt.hasDerivAt.comp_sub_const x (m : ℝ)).ofReal_comp
  rw [show band (fun k => Complex.I * k * wave m k) = fun x : ℝ => ((deriv npSinc (x - m) : ℝ) : ℂ) from
    funext (band_wave_deriv m)] at h1
  exact h1.unique h2

theorem wave_mul (p q : ℕ) (k : ℝ) :
    (starRingEnd ℂ) (wave p k) * wave q k = Complex.exp (Complex.I * (((p : ℤ) - q : ℤ) : ℂ) * k) := by
  unfold wave
  rw [← Complex.exp_conj, ← Complex.exp_add]
  congr 1
  simp only [map_neg, map_mul, Complex.conj_I, Complex.conj_ofReal, map_natCast]
  push_cast
  ring

theorem re_integral {f : ℝ → ℂ} (hf : Continuous f) :
    ∫ k in (-Real.pi)..Real.pi, (f k).re = (∫ k in (-Real.pi)..Real.pi, f k).re :=
  Complex.reCLM.intervalIntegral_comp_comm (hf.intervalIntegrable _ _)

theorem integral_wave (p q : ℕ) : 1 / (2 * Real.pi) * ∫ k in (-Real.pi)..Real.pi,
    ((starRingEnd ℂ) (wave p k) * wave q k).re = if p = q then 1 else 0 := by
  have hpi := Real.pi_ne_zero
  by_cases h : p = q
  · subst h
    simp only [wave_mul, sub_self, Int.cast_zero, mul_zero, zero_mul, Complex.exp_zero, Complex.one_re, if_pos,
      intervalIntegral.integral_const, smul_eq_mul]
    field_simp
    ring
  · rw [if_neg h]
    have hn : ((p : ℤ) - q : ℤ) ≠ 0 := by omega
    have hc : Complex.I * (((p : ℤ) - q : ℤ) : ℂ) ≠ 0 := mul_ne_zero Complex.I_ne_zero (by exact_mod_cast hn)
    have e : ∫ k in (-Real.pi)..Real.pi, (starRingEnd ℂ) (wave p k) * wave q k = 0 := by
      simp only [wave_mul]
      rw [integral_exp_mul_complex hc, SincKinetic.exp_pi_int, SincKinetic.exp_neg_pi_int, sub_self, zero_div]
    have e2 : ∫ k in (-Real.pi)..Real.pi, ((starRingEnd ℂ) (wave p k) * wave q k).re
        = (∫ k in (-Real.pi)..Real.pi, (starRingEnd ℂ) (wave p k) * wave q k).re :=
      re_integral (by
        have := continuous_wave p
        have := continuous_wave q
        fun_prop)
    rw [e2, e]
    simp

theorem integral_wave_sq (p q : ℕ) : 1 / (2 * Real.pi) * ∫ k in (-Real.pi)..Real.pi,
    k ^ 2 * ((starRingEnd ℂ) (wave p k) * wave q k).re = 2 * SincKinetic.kin p q := by
  have h := SincKinetic.kin_integral p q
  have e : ∀ k : ℝ, k ^ 2 * ((starRingEnd ℂ) (wave p k) * wave q k).re
      = ((k : ℂ) ^ 2 * Complex.exp (Complex.I * (((p : ℤ) - q : ℤ) : ℂ) * k)).re := fun k => by
    rw [← wave_mul, ← Complex.ofReal_pow, Complex.re_ofReal_mul]
  simp only [e]
  have e2 : ∫ k in (-Real.pi)..Real.pi, ((k : ℂ) ^ 2 * Complex.exp (Complex.I * (((p : ℤ) - q : ℤ) : ℂ) * k)).re
      = (∫ k in (-Real.pi)..Real.pi, (k : ℂ) ^ 2 * Complex.exp (Complex.I * (((p : ℤ) - q : ℤ) : ℂ) * k)).re :=
    re_integral (by fun_prop)
  rw [e2]
  have h2 := congrArg Complex.re h
  rw [Complex.ofReal_re, Complex.re_ofReal_mul] at h2
  rw [h2]
  generalize Complex.re _ = y
  have hpi := Real.pi_ne_zero
  field_simp
  ring

theorem npSinc_overlap (p q : ℕ) : Integrable (fun x => npSinc (x - p) * npSinc (x - q)) ∧
    ∫ x, npSinc (x - p) * npSinc (x - q) = if p = q then 1 else 0 := by
  have h := plancherel_re (continuous_wave p) (continuous_wave q)
  simpa only [band_wave, Complex.conj_ofReal, ← Complex.ofReal_mul, Complex.ofReal_re, integral_wave] using h

theorem npSinc_gradient (p q : ℕ) : Integrable (fun x => deriv npSinc (x - p) * deriv npSinc (x - q)) ∧
    ∫ x, deriv npSinc (x - p) * deriv npSinc (x - q) = 2 * SincKinetic.kin p q := by
  have hp := continuous_wave p
  have hq := continuous_wave q
  have h := plancherel_re (a := fun k => Complex.I * k * wave p k) (b := fun k => Complex.I * k * wave q k)
    (by fun_prop) (by fun_prop)
  simp only [band_wave_deriv, Complex.conj_ofReal, ← Complex.ofReal_mul, Complex.ofReal_re] at h
  rw [← integral_wave_sq]
  convert h using 5 with k
  rw [map_mul, map_mul, Complex.conj_I, Complex.conj_ofReal, ← Complex.re_ofReal_mul]
  congr 1
  push_cast
  linear_combination ((k : ℂ) ^ 2 * (starRingEnd ℂ) (wave p k) * wave q k) * Complex.I_sq

theorem npSinc_laplace (p q : ℕ) : Integrable (fun x => npSinc (x - p) * deriv (deriv npSinc) (x - q)) ∧
    ∫ x, npSinc (x - p) * deriv (deriv npSinc) (x - q) = -(2 * SincKinetic.kin p q) := by
  have hp := continuous_wave p
  have hq := continuous_wave q
  have h := plancherel_re (a := wave p) (b := fun k => Complex.I * k * (Complex.I * k * wave q k))
    (by fun_prop) (by fun_prop)
  simp only [band_wave_deriv2, band_wave, Complex.conj_ofReal, ← Complex.ofReal_mul, Complex.ofReal_re] at h
  rw [← integral_wave_sq, ← mul_neg, ← intervalIntegral.integral_neg]
  convert h using 5 with k
  rw [← Complex.re_ofReal_mul, ← Complex.neg_re]
  congr 1
  push_cast
  linear_combination (-(k : ℂ) ^ 2 * (starRingEnd ℂ) (wave p k) * wave q k) * Complex.I_sq

/-! ## The functions of the basis set -/

theorem scaled {g : ℝ → ℝ} (hg : Integrable g) {dx : ℝ} (hd : 0 < dx) (L : ℝ) :
    Integrable (fun x => g ((x + L) / dx)) ∧ ∫ x, g ((x + L) / dx) = dx * ∫ x, g x := by
  refine ⟨(hg.comp_div hd.ne').comp_add_right L, ?_⟩
  rw [integral_add_right_eq_self (fun x => g (x / dx)), Measure.integral_comp_div, abs_of_pos hd, smul_eq_mul]

theorem sincFunction_unit {dx : ℝ} (hd : 0 < dx) (L : ℝ) (p : ℕ) (x : ℝ) :
    sincFunction dx (-L + p * dx) x = 1 / Real.sqrt dx * npSinc ((x + L) / dx - p) := by
  rw [sincFunction_eq hd]
  simp only
  congr 2
  field_simp
  ring

theorem hasDerivAt_unit {dx : ℝ} (hd : 0 < dx) (L : ℝ) (p : ℕ) {g : ℝ → ℝ} (hg : ∀ x, AnalyticAt ℝ g x) (c x : ℝ) :
    HasDerivAt (fun x => c * g ((x + L) / dx - p)) (c * (1 / dx) * deriv g ((x + L) / dx - p)) x := by
  have hin : HasDerivAt (fun x : ℝ => (x + L) / dx - p) (1 / dx) x :=
    (((hasDerivAt_id x).add_const L).div_const dx).sub_const _
  exact (((hg _).differentiableAt.hasDerivAt.comp x hin).const_mul c).congr_deriv (by ring)

theorem deriv_sincFunction_unit {dx : ℝ} (hd : 0 < dx) (L : ℝ) (p : ℕ) (x : ℝ) :
    deriv (sincFunction dx (-L + p * dx)) x = 1 / Real.sqrt dx * (1 / dx) * deriv npSinc ((x + L) / dx - p) := by
  rw [show sincFunction dx (-L + p * dx) = _ from funext (sincFunction_unit hd L p)]
  exact (hasDerivAt_unit hd L p analyticAt_npSinc _ x).deriv

theorem deriv2_sincFunction_unit {dx : ℝ} (hd : 0 < dx) (L : ℝ) (p : ℕ) (x : ℝ) :
    deriv (deriv (sincFunction dx (-L + p * dx))) x
      = 1 / Real.sqrt dx * (1 / dx) * (1 / dx) * deriv (deriv npSinc) ((x + L) / dx - p) := by
  rw [show deriv (sincFunction dx (-L + p * dx)) = _ from funext (deriv_sincFunction_unit hd L p)]
  exact (hasDerivAt_unit hd L p (fun x => (analyticAt_npSinc x).deriv) _ x).deriv

theorem sinc_product {g : ℝ → ℝ} {v : ℝ} (hg : Integrable g ∧ ∫ x, g x = v) {dx : ℝ} (hd : 0 < dx) (L c : ℝ)
    {f : ℝ → ℝ} (hf : ∀ x, f x = c / dx * g ((x + L) / dx)) : Integrable f ∧ ∫ x, f x = c * v := by
  obtain ⟨h1, h2⟩ := scaled hg.1 hd L
  rw [show f = _ from funext hf]
  refine ⟨h1.const_mul _, ?_⟩
  rw [integral_const_mul, h2, hg.2]
  field_simp

theorem sinc_overlap {dx : ℝ} (hd : 0 < dx) (L : ℝ) (p q : ℕ) :
    Integrable (fun x => sincFunction dx (-L + p * dx) x * sincFunction dx (-L + q * dx) x) ∧
    ∫ x, sincFunction dx (-L + p * dx) x * sincFunction dx (-L + q * dx) x = if p = q then 1 else 0 := by
  have h := sinc_product (npSinc_overlap p q) hd L 1
    (f := fun x => sincFunction dx (-L + p * dx) x * sincFunction dx (-L + q * dx) x) (fun x => by
      have hs := Real.mul_self_sqrt hd.le
      rw [sincFunction_unit hd, sincFunction_unit hd]
      have e : 1 / Real.sqrt dx * (1 / Real.sqrt dx) = 1 / dx := by rw [div_mul_div_comm, hs, one_mul]
      linear_combination npSinc ((x + L) / dx - p) * npSinc ((x + L) / dx - q) * e)
  rwa [one_mul] at h

theorem sinc_gradient {dx : ℝ} (hd : 0 < dx) (L : ℝ) (p q : ℕ) :
    Integrable (fun x => deriv (sincFunction dx (-L + p * dx)) x * deriv (sincFunction dx (-L + q * dx)) x) ∧
    ∫ x, deriv (sincFunction dx (-L + p * dx)) x * deriv (sincFunction dx (-L + q * dx)) x
      = 1 / dx ^ 2 * (2 * SincKinetic.kin p q) := by
  refine sinc_product (npSinc_gradient p q) hd L (1 / dx ^ 2) fun x => ?_
  have hs := Real.mul_self_sqrt hd.le
  rw [deriv_sincFunction_unit hd, deriv_sincFunction_unit hd]
  have e : 1 / Real.sqrt dx * (1 / Real.sqrt dx) = 1 / dx := by rw [div_mul_div_comm, hs, one_mul]
  linear_combination (1 / dx) ^ 2 * deriv npSinc ((x + L) / dx - p) * deriv npSinc ((x + L) / dx - q) * e

theorem sinc_laplace {dx : ℝ} (hd : 0 < dx) (L : ℝ) (p q : ℕ) :
    Integrable (fun x => sincFunction dx (-L + p * dx) x * deriv (deriv (sincFunction dx (-L + q * dx))) x) ∧
    ∫ x, sincFunction dx (-L + p * dx) x * deriv (deriv (sincFunction dx (-L + q * dx))) x
      = 1 / dx ^ 2 * -(2 * SincKinetic.kin p q) := by
  refine sinc_product (npSinc_laplace p q) hd L (1 / dx ^ 2) fun x => ?_
  have hs := Real.mul_self_sqrt hd.le
  rw [sincFunction_unit hd, deriv2_sincFunction_unit hd]
  have e : 1 / Real.sqrt dx * (1 / Real.sqrt dx) = 1 / dx := by rw [div_mul_div_comm, hs, one_mul]
  linear_combination (1 / dx) ^ 2 * npSinc ((x + L) / dx - p) * deriv (deriv npSinc) ((x + L) / dx - q) * e

theorem sincH_kin {l : ℕ} (L : ℝ) (V : ℝ → ℝ) {p q : ℕ} (hp : p < l) (hq : q < l) :
    (sincH l L V).get [p, q] = ((1 / spacing l L ^ 2 * SincKinetic.kin p q
      + if p = q then V (-L + p * spacing l L) else 0 : ℝ) : ℂ) := by
  unfold sincH SincKinetic.kin
  rw [ofFn_get_of (by exact ⟨hp, hq, trivial⟩)]
  simp only [List.getD_cons_zero, List.getD_cons_succ]
  by_cases h : p = q
  · subst h
    rw [if_pos rfl, if_pos rfl, if_pos rfl, ← Complex.ofReal_add, linspace_spacing]
    congr 1
    rw [div_mul_div_comm, one_mul, mul_comm (6 : ℝ)]
  · rw [if_neg h, if_neg h, if_neg h, add_zero, div_mul_div_comm, one_mul]

/-- **C112** The identity stored as `s` is the overlap of the sinc functions on the whole line. -/
theorem C112_overlap {l : ℕ} (h2 : 2 ≤ l) {L : ℝ} (hL : 0 < L) (a alpha beta : ℝ) (V : ℝ → ℝ) {repr : URepr}
    (hr : repr ≠ .unknown) (hm : Bool) (np : Module) (sp an : Bool) (dx : ℝ) (hdx : dx = 2 * L / ((l : ℝ) - 1)) :
    ∃ b s, odSincDvr l L a alpha beta V repr hm np sp an = .ok b ∧ b.s = some s ∧ s.shape = [l, l] ∧
      ∀ p < l, ∀ q < l,
        Integrable (fun x => sincFunction dx (-L + p * dx) x * sincFunction dx (-L + q * dx) x) ∧
        s.get [p, q]
          = ((∫ x, sincFunction dx (-L + p * dx) x * sincFunction dx (-L + q * dx) x : ℝ) : ℂ) := by
  have hd : 0 < dx := by rw [hdx]; exact spacing_pos h2 hL
  refine ⟨_, _, odSincDvr_ok h2 L a alpha beta V hr hm np sp an, rfl, rfl, fun p hp q hq => ?_⟩
  obtain ⟨i1, i2⟩ := sinc_overlap hd L p q
  refine ⟨i1, ?_⟩
  rw [i2, toComplex_get, eye, ofFn_get_of (by exact ⟨hp, hq, trivial⟩)]
  simp only [List.getD_cons_zero, List.getD_cons_succ]
  split <;> simp

/-- **C112** The one-body elements are the kinetic-energy integrals over the whole line, in both of their forms,
plus the potential at the grid point. -/
theorem C112_kinetic {l : ℕ} (h2 : 2 ≤ l) {L : ℝ} (hL : 0 < L) (a alpha beta : ℝ) (V : ℝ → ℝ) {repr : URepr}
    (hr : repr ≠ .unknown) (hm : Bool) (np : Module) (sp an : Bool) (dx : ℝ) (hdx : dx = 2 * L / ((l : ℝ) - 1)) :
    ∃ b h, odSincDvr l L a alpha beta V repr hm np sp an = .ok b ∧ b.h = some h ∧ h.shape = [l, l] ∧
      ∀ p < l, ∀ q < l,
        Integrable (fun x => deriv (sincFunction dx (-L + p * dx)) x * deriv (sincFunction dx (-L + q * dx)) x) ∧
        Integrable (fun x => sincFunction dx (-L + p * dx) x * deriv (deriv (sincFunction dx (-L + q * dx))) x) ∧
        h.get [p, q] = ((1 / 2 * (∫ x, deriv (sincFunction dx (-L + p * dx)) x
            * deriv (sincFunction dx (-L + q * dx)) x) + if p = q then V (-L + p * dx) else 0 : ℝ) : ℂ) ∧
        h.get [p, q] = ((-(1 / 2) * (∫ x, sincFunction dx (-L + p * dx) x
            * deriv (deriv (sincFunction dx (-L + q * dx))) x) + if p = q then V (-L + p * dx) else 0 : ℝ) : ℂ) := by
  have hd : 0 < dx := by rw [hdx]; exact spacing_pos h2 hL
  refine ⟨_, sincH l L V, odSincDvr_ok h2 L a alpha beta V hr hm np sp an, rfl, rfl, fun p hp q hq => ?_⟩
  obtain ⟨g1, g2⟩ := sinc_gradient hd L p q
  obtain ⟨l1, l2⟩ := sinc_laplace hd L p q
  refine ⟨g1, l1, ?_, ?_⟩
  · rw [g2, sincH_kin L V hp hq, show spacing l L = dx from hdx.symm]
    congr 2
    ring
  · rw [l2, sincH_kin L V hp hq, show spacing l L = dx from hdx.symm]
    congr 2
    ring

theorem square_integral {l : ℕ} {φ : ℕ → ℝ → ℝ} {M : ℕ → ℕ → ℝ}
    (hφ : ∀ p q, Integrable (fun x => φ p x * φ q x) ∧ ∫ x, φ p x * φ q x = M p q) (c : ℕ → ℂ) :
    Integrable (fun x => ‖∑ q ∈ Finset.range l, c q * (φ q x : ℂ)‖ ^ 2) ∧
      ((∫ x, ‖∑ q ∈ Finset.range l, c q * (φ q x : ℂ)‖ ^ 2 : ℝ) : ℂ)
        = ∑ p ∈ Finset.range l, ∑ q ∈ Finset.range l, star (c p) * (M p q : ℂ) * c q := by
  have e : ∀ x, ((‖∑ q ∈ Finset.range l, c q * (φ q x : ℂ)‖ ^ 2 : ℝ) : ℂ)
      = ∑ p ∈ Finset.range l, ∑ q ∈ Finset.range l, star (c p) * c q * ((φ p x * φ q x : ℝ) : ℂ) := by
    intro x
    rw [Complex.ofReal_pow, ← Complex.conj_mul', map_sum, Finset.sum_mul_sum]
    refine Finset.sum_congr rfl fun p _ => Finset.sum_congr rfl fun q _ => ?_
    rw [map_mul, Complex.conj_ofReal, Complex.ofReal_mul]
    change (starRingEnd ℂ) (c p) * _ * _ = (starRingEnd ℂ) (c p) * _ * _
    ring
  have hi : ∀ p q, Integrable (fun x => star (c p) * c q * ((φ p x * φ q x : ℝ) : ℂ)) := fun p q =>
    (hφ p q).1.ofReal.const_mul _
  have hi2 : ∀ p, Integrable (fun x => ∑ q ∈ Finset.range l, star (c p) * c q * ((φ p x * φ q x : ℝ) : ℂ)) :=
    fun p => integrable_finsetSum _ fun q _ => hi p q
  constructor
  · have h := (integrable_finsetSum (Finset.range l) fun p _ => hi2 p).re
    refine h.congr (.of_forall fun x => ?_)
    simp only
    rw [← e]
    exact Complex.ofReal_re _
  · rw [← integral_complex_ofReal]
    simp only [e]
    rw [integral_finsetSum _ fun p _ => hi2 p]
    refine Finset.sum_congr rfl fun p _ => ?_
    rw [integral_finsetSum _ fun q _ => hi p q]
    refine Finset.sum_congr rfl fun q _ => ?_
    rw [integral_const_mul, integral_complex_ofReal, (hφ p q).2]
    ring

/-- **C112** For every linear combination `f` of the functions, `∑ conj c_p h_pq c_q` is the kinetic energy of `f`
on the whole line plus the potential energy summed over the grid, and `∑ |c_q|²` is the square integral of `f`. -/
theorem C112_state {l : ℕ} (h2 : 2 ≤ l) {L : ℝ} (hL : 0 < L) (a alpha beta : ℝ) (V : ℝ → ℝ) {repr : URepr}
    (hr : repr ≠ .unknown) (hm : Bool) (np : Module) (sp an : Bool) (dx : ℝ) (hdx : dx = 2 * L / ((l : ℝ) - 1))
    (c : ℕ → ℂ) (f : ℝ → ℂ)
    (hf : f = fun x => ∑ q ∈ Finset.range l, c q * (sincFunction dx (-L + q * dx) x : ℂ)) :
    ∃ b h, odSincDvr l L a alpha beta V repr hm np sp an = .ok b ∧ b.h = some h ∧
      Differentiable ℝ f ∧ Integrable (fun x => ‖f x‖ ^ 2) ∧ Integrable (fun x => ‖deriv f x‖ ^ 2) ∧
      ∫ x, ‖f x‖ ^ 2 = ∑ q ∈ Finset.range l, ‖c q‖ ^ 2 ∧
      ∑ p ∈ Finset.range l, ∑ q ∈ Finset.range l, star (c p) * h.get [p, q] * c q
        = ((1 / 2 * (∫ x, ‖deriv f x‖ ^ 2)
            + dx * ∑ q ∈ Finset.range l, V (-L + q * dx) * ‖f (-L + q * dx)‖ ^ 2 : ℝ) : ℂ) := by
  have hd : 0 < dx := by rw [hdx]; exact spacing_pos h2 hL
  have hD : ∀ x, HasDerivAt f
      (∑ q ∈ Finset.range l, c q * ((deriv (sincFunction dx (-L + q * dx)) x : ℝ) : ℂ)) x := by
    intro x
    rw [hf]
    exact HasDerivAt.fun_sum fun (q : ℕ) _ =>
      ((sincFunction_analytic hd (-L + q * dx) x).differentiableAt.hasDerivAt).ofReal_comp.const_mul (c q)
  obtain ⟨n1, n2⟩ := square_integral (l := l) (fun p q => sinc_overlap hd L p q) c
  obtain ⟨g1, g2⟩ := square_integral (l := l) (fun p q => sinc_gradient hd L p q) c
  have hD' : deriv f = fun x => ∑ q ∈ Finset.range l, c q * ((deriv (sincFunction dx (-L + q * dx)) x : ℝ) : ℂ) :=
    funext fun x => (hD x).deriv
  have hv : ∀ q < l, dx * ‖f (-L + q * dx)‖ ^ 2 = ‖c q‖ ^ 2 := by
    intro q hq
    rw [hf]
    simp only
    rw [Finset.sum_eq_single q]
    · rw [sincFunction_grid hd, if_pos rfl, norm_mul, Complex.norm_real, mul_pow, Real.norm_eq_abs, sq_abs, div_pow,
        Real.sq_sqrt hd.le]
      field_simp
    · intro r _ hrq
      rw [sincFunction_grid hd, if_neg (fun hc => hrq hc.symm), Complex.ofReal_zero, mul_zero]
    · intro hc
      exact absurd (Finset.mem_range.2 hq) hc
  refine ⟨_, sincH l L V, odSincDvr_ok h2 L a alpha beta V hr hm np sp an, rfl, fun x => (hD x).differentiableAt,
    by rw [hf]; exact n1, by rw [hD']; exact g1, ?_, ?_⟩
  · rw [hf]
    apply Complex.ofReal_injective
    rw [n2, Complex.ofReal_sum]
    refine Finset.sum_congr rfl fun p hp => ?_
    rw [Finset.sum_eq_single p]
    · rw [if_pos rfl, Complex.ofReal_one, mul_one, Complex.ofReal_pow, ← Complex.conj_mul']
      rfl
    · intro q _ hqp
      rw [if_neg (fun hc => hqp hc.symm)]
      simp
    · intro hc
      exact absurd hp hc
  · rw [Complex.ofReal_add, Complex.ofReal_mul, hD', g2, Finset.mul_sum, Finset.mul_sum, Complex.ofReal_sum,
      ← Finset.sum_add_distrib]
    refine Finset.sum_congr rfl fun p hp => ?_
    have hpl := Finset.mem_range.1 hp
    rw [mul_left_comm, hv p hpl, Finset.mul_sum]
    have e : ((V (-L + p * dx) * ‖c p‖ ^ 2 : ℝ) : ℂ)
        = ∑ q ∈ Finset.range l, star (c p) * ((if p = q then V (-L + p * dx) else 0 : ℝ) : ℂ) * c q := by
      rw [Finset.sum_eq_single p]
      · rw [if_pos rfl, Complex.ofReal_mul, Complex.ofReal_pow, ← Complex.conj_mul']
        change _ = (starRingEnd ℂ) (c p) * _ * _
        ring
      · intro q _ hqp
        rw [if_neg (fun hc => hqp hc.symm)]
        simp
      · intro hc
        exact absurd hp hc
    rw [e, ← Finset.sum_add_distrib]
    refine Finset.sum_congr rfl fun q hq => ?_
    rw [sincH_kin L V hpl (Finset.mem_range.1 hq), show spacing l L = dx from hdx.symm]
    push_cast
    ring

/-! ## Functions with wave numbers below that of the grid -/

theorem npSinc_projection {a : ℝ → ℂ} (ha : Continuous a) (q : ℕ) :
    Integrable (fun x => (npSinc (x - q) : ℂ) * band a x) ∧ ∫ x, (npSinc (x - q) : ℂ) * band a x = band a q := by
  have hw := continuous_wave q
  have hr := plancherel_re hw ha
  have hi := plancherel_re (b := fun k => -Complex.I * a k) hw (by fun_prop)
  have eI : ∀ x, band (fun k => -Complex.I * a k) x = -Complex.I * band a x := fun x => by
    unfold band
    simp only [mul_assoc]
    rw [intervalIntegral.integral_const_mul]
    ring
  simp only [eI, band_wave, Complex.conj_ofReal] at hr hi
  have eim : ∀ z w : ℂ, (z * (-Complex.I * w)).re = (z * w).im := fun z w => by
    simp only [Complex.mul_re, Complex.mul_im, Complex.neg_re, Complex.neg_im, Complex.I_re, Complex.I_im]
    ring
  simp only [eim] at hi
  have hint : Integrable (fun x => (npSinc (x - q) : ℂ) * band a x) := by
    have h := hr.1.ofReal (𝕜 := ℂ) |>.add ((hi.1.ofReal (𝕜 := ℂ)).mul_const Complex.I)
    refine h.congr (.of_forall fun x => ?_)
    exact Complex.re_add_im _
  refine ⟨hint, ?_⟩
  have hval : band a q = ((1 / (2 * Real.pi) : ℝ) : ℂ)
      * ∫ k in (-Real.pi)..Real.pi, (starRingEnd ℂ) (wave q k) * a k := by
    unfold band
    congr 1
    refine intervalIntegral.integral_congr fun k _ => ?_
    unfold wave
    rw [← Complex.exp_conj, mul_comm]
    congr 2
    simp only [map_neg, map_mul, Complex.conj_I, Complex.conj_ofReal, map_natCast, Complex.ofReal_natCast]
    ring
  have hcc : Continuous fun k => (starRingEnd ℂ) (wave q k) * a k := by fun_prop
  apply Complex.ext
  · rw [hval, Complex.re_ofReal_mul, ← re_integral hcc, ← hr.2]
    exact (integral_re hint).symm
  · have him : ∫ k in (-Real.pi)..Real.pi, ((starRingEnd ℂ) (wave q k) * a k).im
        = (∫ k in (-Real.pi)..Real.pi, (starRingEnd ℂ) (wave q k) * a k).im :=
      Complex.imCLM.intervalIntegral_comp_comm (hcc.intervalIntegrable _ _)
    rw [hval, Complex.im_ofReal_mul, ← him, ← hi.2]
    exact (integral_im hint).symm

/-- **C112** For a function all of whose wave numbers lie below that of the grid, the coefficient of a sinc
function, an integral over the whole line, is the value at its grid point times `√dx`. -/
theorem C112_projection {dx : ℝ} (hd : 0 < dx) (L : ℝ) {A : ℝ → ℂ} (hA : Continuous A) (f : ℝ → ℂ)
    (hf : ∀ x, f x = ∫ k in -(Real.pi / dx)..(Real.pi / dx), A k * Complex.exp (Complex.I * k * x)) (q : ℕ) :
    Integrable (fun x => (sincFunction dx (-L + q * dx) x : ℂ) * f x) ∧
      ∫ x, (sincFunction dx (-L + q * dx) x : ℂ) * f x = (Real.sqrt dx : ℂ) * f (-L + q * dx) := by
  have hc : (dx : ℂ) ≠ 0 := by exact_mod_cast hd.ne'
  have hpi : (Real.pi : ℂ) ≠ 0 := by exact_mod_cast Real.pi_ne_zero
  obtain ⟨a, ha, hfa⟩ : ∃ a : ℝ → ℂ, Continuous a ∧ ∀ x, f x = band a ((x + L) / dx) := by
    refine ⟨fun k => (2 * Real.pi / dx : ℝ) * A (k / dx) * Complex.exp (-(Complex.I * k * L / dx)), by fun_prop,
      fun x => ?_⟩
    unfold band
    have h := intervalIntegral.integral_comp_div (a := -Real.pi) (b := Real.pi)
      (fun k : ℝ => A k * Complex.exp (Complex.I * k * x)) hd.ne'
    rw [hf, ← neg_div, eq_comm]
    rw [Complex.real_smul] at h
    have e : ∀ k : ℝ, ((2 * Real.pi / dx : ℝ) : ℂ) * A (k / dx) * Complex.exp (-(Complex.I * k * L / dx))
        * Complex.exp (Complex.I * k * ((x + L) / dx : ℝ))
        = ((2 * Real.pi / dx : ℝ) : ℂ) * (A (k / dx) * Complex.exp (Complex.I * ((k / dx : ℝ) : ℂ) * x)) := by
      intro k
      rw [mul_assoc, ← Complex.exp_add, mul_assoc]
      congr 3
      push_cast
      field_simp
      ring
    simp only [e]
    rw [intervalIntegral.integral_const_mul, h]
    generalize (∫ k in (-Real.pi / dx)..(Real.pi / dx), A k * Complex.exp (Complex.I * k * x)) = y
    push_cast
    field_simp
  obtain ⟨p1, p2⟩ := npSinc_projection ha q
  have e : (fun x => (sincFunction dx (-L + q * dx) x : ℂ) * f x)
      = fun x => ((1 / Real.sqrt dx : ℝ) : ℂ) * ((npSinc ((x + L) / dx - q) : ℂ) * band a ((x + L) / dx)) := by
    funext x
    rw [sincFunction_unit hd, hfa]
    push_cast
    ring
  have hq : (-L + (q : ℝ) * dx + L) / dx = q := by
    field_simp
    ring
  rw [e]
  refine ⟨((p1.comp_div hd.ne').comp_add_right L).const_mul _, ?_⟩
  rw [integral_const_mul, integral_add_right_eq_self
    (fun x => (npSinc (x / dx - q) : ℂ) * band a (x / dx)),
    Measure.integral_comp_div (fun x => (npSinc (x - q) : ℂ) * band a x), p2, hfa, hq, abs_of_pos hd,
    Complex.real_smul]
  have hs : (Real.sqrt dx : ℂ) * Real.sqrt dx = dx := by exact_mod_cast Real.mul_self_sqrt hd.le
  have hn : (Real.sqrt dx : ℂ) ≠ 0 := by exact_mod_cast (Real.sqrt_pos.2 hd).ne'
  rw [← hs]
  push_cast
  field_simp

/-- Unit spacing: square integrals of the sinc function and of its derivative, and two functions side by side. -/
example : ∫ x, sincFunction 1 0 x * sincFunction 1 0 x = 1 ∧ ∫ x, sincFunction 1 0 x * sincFunction 1 1 x = 0 ∧
    ∫ x, deriv (sincFunction 1 0) x * deriv (sincFunction 1 0) x = Real.pi ^ 2 / 3 ∧
    ∫ x, deriv (sincFunction 1 0) x * deriv (sincFunction 1 1) x = -2 := by
  have h1 := (sinc_overlap one_pos 0 0 0).2
  have h2 := (sinc_overlap one_pos 0 0 1).2
  have h3 := (sinc_gradient one_pos 0 0 0).2
  have h4 := (sinc_gradient one_pos 0 0 1).2
  norm_num [SincKinetic.kin] at h1 h2 h3 h4
  refine ⟨h1, h2, ?_, h4⟩
  rw [h3]
  ring

end QS.Props
