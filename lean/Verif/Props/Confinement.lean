import Verif.Spec.Confinement
import Verif.Lemmas.Units
import Verif.Props.LevelBounds
import Verif.Props.Stark

/-!
# Property C139: the energies of a dot as a function of its frequency
-/

namespace QS.Props

open Finset NDArray BasisSet PyM Function OneDim Spec TwoDim Coulomb Idx QS.Units Filter Topology

variable {N L : ℕ}

theorem form_scale_one (k : ℝ) (h : Fin L → Fin L → ℂ) (v : Fin L → ℂ) :
    (∑ p, ∑ q, star (v p) * ((k : ℂ) * h p q) * v q).re = k * (∑ p, ∑ q, star (v p) * h p q * v q).re := by
  rw [← Complex.re_ofReal_mul]
  congr 1
  simp only [mul_sum]
  exact sum_congr rfl fun p _ => sum_congr rfl fun q _ => by ring

theorem form_scale_two (k : ℝ) (u : Fin L → Fin L → Fin L → Fin L → ℂ) (v : Fin L → Fin L → ℂ) :
    (∑ p, ∑ q, ∑ r, ∑ s, star (v p q) * ((k : ℂ) * u p q r s) * v r s).re =
      k * (∑ p, ∑ q, ∑ r, ∑ s, star (v p q) * u p q r s * v r s).re := by
  rw [← Complex.re_ofReal_mul]
  congr 1
  simp only [mul_sum]
  exact sum_congr rfl fun p _ => sum_congr rfl fun q _ => sum_congr rfl fun r _ => sum_congr rfl fun s _ => by ring

/-- **C139** For all one-body elements and interactions that are not negative: the energies with `ω` times the one-body elements
and `√ω` times the interaction. -/
theorem C139_levels {h : Fin L → Fin L → ℂ} {u : Fin L → Fin L → Fin L → Fin L → ℂ}
    (hh : ∀ v : Fin L → ℂ, 0 ≤ (∑ p, ∑ q, star (v p) * h p q * v q).re)
    (hu : ∀ v : Fin L → Fin L → ℂ, 0 ≤ (∑ p, ∑ q, ∑ r, ∑ s, star (v p q) * u p q r s * v r s).re)
    {ε δ : ℝ} (hε : ∀ p q, ‖h p q‖ ≤ ε) (hδ : ∀ p q r s, ‖u p q r s‖ ≤ δ)
    {D : ℕ} {E : ℝ → ℕ → ℝ} {E₀ W : ℕ → ℝ} {Ψ : ℝ → ℕ → Wave ℂ N L} {Ψ₀ Φ : ℕ → Wave ℂ N L}
    (S : ∀ ω : ℝ, 0 < ω → Spectrum (fun p q => (ω : ℂ) * h p q) (fun p q r s => (Real.sqrt ω : ℂ) * u p q r s) D (E ω) (Ψ ω))
    (S₀ : Spectrum h (fun _ _ _ _ => 0) D E₀ Ψ₀) (SW : Spectrum (fun _ _ => 0) u D W Φ) :
    Confinement D (N * (N - 1 : ℕ) / 2 * L ^ 2 * δ) (N * L * ε) E E₀ W := by
  -- the energies in units of the frequency and of the repulsion
  have T : ∀ ω, 0 < ω → Spectrum h (fun p q r s => ((1 / Real.sqrt ω : ℝ) : ℂ) * u p q r s) D (fun k => 1 / ω * E ω k) (Ψ ω) :=
    fun ω hω => by
      refine spectrum_scale (k := 1 / ω) (by positivity) (fun p q => ?_) (fun p q r s => ?_) (S ω hω)
      · rw [← mul_assoc, ← Complex.ofReal_mul, one_div_mul_cancel hω.ne', Complex.ofReal_one, one_mul]
      · rw [← mul_assoc, ← Complex.ofReal_mul]
        congr 2
        have : Real.sqrt ω ≠ 0 := (Real.sqrt_pos.2 hω).ne'
        have h2 := Real.mul_self_sqrt hω.le
        field_simp
        linarith
  have R : ∀ ω, 0 < ω → Spectrum (fun p q => (Real.sqrt ω : ℂ) * h p q) u D (fun k => 1 / Real.sqrt ω * E ω k) (Ψ ω) :=
    fun ω hω => by
      have h0 : Real.sqrt ω ≠ 0 := (Real.sqrt_pos.2 hω).ne'
      refine spectrum_scale (k := 1 / Real.sqrt ω) (by positivity) (fun p q => ?_) (fun p q r s => ?_) (S ω hω)
      · rw [← mul_assoc, ← Complex.ofReal_mul]
        congr 2
        have h2 := Real.mul_self_sqrt hω.le
        field_simp
        linarith
      · rw [← mul_assoc, ← Complex.ofReal_mul, one_div_mul_cancel h0, Complex.ofReal_one, one_mul]
  have one : ∀ {a b : ℝ}, a ≤ b → ∀ v : Fin L → ℂ, 0 ≤ (∑ p, ∑ q, star (v p) * ((b : ℂ) * h p q - (a : ℂ) * h p q) * v q).re :=
    fun {a b} hab v => by
      simp only [← sub_mul, ← Complex.ofReal_sub]
      rw [form_scale_one]
      exact mul_nonneg (by linarith) (hh v)
  have two : ∀ {a b : ℝ}, a ≤ b → ∀ v : Fin L → Fin L → ℂ,
      0 ≤ (∑ p, ∑ q, ∑ r, ∑ s, star (v p q) * ((b : ℂ) * u p q r s - (a : ℂ) * u p q r s) * v r s).re := fun {a b} hab v => by
    simp only [← sub_mul, ← Complex.ofReal_sub]
    rw [form_scale_two]
    exact mul_nonneg (by linarith) (hu v)
  have tight : ∀ ω, 0 < ω → ∀ k < D, E₀ k ≤ E ω k / ω ∧
      E ω k / ω ≤ E₀ k + (N * (N - 1 : ℕ) / 2 * L ^ 2 * δ) / Real.sqrt ω := fun ω hω k hk => by
    have hs := Real.sqrt_pos.2 hω
    have h1 := S₀.mono (T ω hω) (fun v => by simp) (fun v => by
      have := two (a := 0) (b := 1 / Real.sqrt ω) (by positivity) v
      simpa using this) hk
    have h2 := (T ω hω).near_phase S₀ (θ := fun _ => 1) (fun p => by simp) (ε := 0) (δ := 1 / Real.sqrt ω * δ) (fun p q => by simp)
      (fun p q r s => by
        simp only [mul_zero, sub_zero, norm_mul, Complex.norm_real, Real.norm_of_nonneg (by positivity : 0 ≤ 1 / Real.sqrt ω)]
        exact mul_le_mul_of_nonneg_left (hδ p q r s) (by positivity)) hk
    have h3 := (abs_le.1 h2).2
    refine ⟨by rw [div_eq_inv_mul, ← one_div]; exact h1, ?_⟩
    rw [div_eq_inv_mul, ← one_div]
    have e : N * (N - 1 : ℕ) / 2 * L ^ 2 * (1 / Real.sqrt ω * δ) = (N * (N - 1 : ℕ) / 2 * L ^ 2 * δ) / Real.sqrt ω := by ring
    rw [mul_zero, zero_add, e] at h3
    linarith
  have wide : ∀ ω, 0 < ω → ∀ k < D, W k ≤ E ω k / Real.sqrt ω ∧
      E ω k / Real.sqrt ω ≤ W k + (N * L * ε) * Real.sqrt ω := fun ω hω k hk => by
    have hs := Real.sqrt_pos.2 hω
    have h1 := SW.mono (R ω hω) (fun v => by
      have := one (a := 0) (b := Real.sqrt ω) (by positivity) v
      simpa using this) (fun v => by simp) hk
    have h2 := (R ω hω).near_phase SW (θ := fun _ => 1) (fun p => by simp) (ε := Real.sqrt ω * ε) (δ := 0) (fun p q => by
        simp only [mul_zero, sub_zero, norm_mul, Complex.norm_real, Real.norm_of_nonneg hs.le]
        exact mul_le_mul_of_nonneg_left (hε p q) hs.le) (fun p q r s => by simp) hk
    have h3 := (abs_le.1 h2).2
    refine ⟨by rw [div_eq_inv_mul, ← one_div]; exact h1, ?_⟩
    rw [div_eq_inv_mul, ← one_div]
    have e : N * L * (Real.sqrt ω * ε) = (N * L * ε) * Real.sqrt ω := by ring
    rw [mul_zero, add_zero, e] at h3
    linarith
  refine ⟨fun ω ω' hω hle k hk => ?_, fun ω ω' hω hle k hk => ?_, fun ω ω' hω hle k hk => ?_, tight, wide, fun k hk => ?_,
    fun k hk => ?_, fun ω ω₁ ω₂ lam hω h₁ h₂ h0 h1 e m hm => ?_⟩
  · exact (S ω hω).mono (S ω' (hω.trans_le hle)) (one hle) (two (Real.sqrt_le_sqrt hle)) hk
  · have := (T ω' (hω.trans_le hle)).mono (T ω hω) (fun v => by simp)
      (two (one_div_le_one_div_of_le (Real.sqrt_pos.2 hω) (Real.sqrt_le_sqrt hle))) hk
    rwa [div_eq_inv_mul, div_eq_inv_mul, ← one_div, ← one_div]
  · have := (R ω hω).mono (R ω' (hω.trans_le hle)) (one (Real.sqrt_le_sqrt hle)) (fun v => by simp) hk
    rwa [div_eq_inv_mul, div_eq_inv_mul, ← one_div, ← one_div]
  · refine tendsto_of_tendsto_of_tendsto_of_le_of_le' tendsto_const_nhds (g := fun _ => E₀ k)
      (h := fun ω => E₀ k + (N * (N - 1 : ℕ) / 2 * L ^ 2 * δ) / Real.sqrt ω) ?_
      ((eventually_gt_atTop 0).mono fun ω hω => (tight ω hω k hk).1) ((eventually_gt_atTop 0).mono fun ω hω => (tight ω hω k hk).2)
    have := (tendsto_const_nhds (x := (N * (N - 1 : ℕ) / 2 * L ^ 2 * δ : ℝ))).div_atTop Real.tendsto_sqrt_atTop
    simpa using (tendsto_const_nhds (x := E₀ k)).add this
  · refine tendsto_of_tendsto_of_tendsto_of_le_of_le' tendsto_const_nhds (g := fun _ => W k)
      (h := fun ω => W k + (N * L * ε) * Real.sqrt ω) ?_
      (eventually_nhdsWithin_of_forall fun ω hω => (wide ω hω k hk).1)
      (eventually_nhdsWithin_of_forall fun ω hω => (wide ω hω k hk).2)
    have h1 : Tendsto Real.sqrt (𝓝[>] 0) (𝓝 0) := by
      have := Real.continuous_sqrt.tendsto 0
      rw [Real.sqrt_zero] at this
      exact this.mono_left nhdsWithin_le_nhds
    simpa using (tendsto_const_nhds (x := W k)).add (h1.const_mul (N * L * ε : ℝ))
  · have := C134_concave h0 h1 (h := h) (h₁ := h) (h₂ := h) (fun p q => by push_cast; ring) (fun p q r s => ?_)
      (T ω₁ h₁) (T ω₂ h₂) (T ω hω) hm
    · have e2 : ∀ ω : ℝ, ∑ i ∈ range m, E ω i / ω = ∑ i ∈ range m, 1 / ω * E ω i := fun ω => sum_congr rfl fun i _ => by ring
      rw [e2, e2, e2]
      exact this
    · rw [e]
      push_cast
      ring

/-- **C139** Any basis set whose one-body part and interaction are not negative, and the same one with all lengths `c ≥ 1` times as
long (the interaction falls with the distance, the one-body part with its square): every energy of `N` electrons falls by a factor
between `c` and `c²`. -/
theorem C139_size {m c : ℝ} (h0 : 0 ≤ m) (hc : 1 ≤ c) {b b' : BasisSet ℂ} {l N : ℕ} (hb : Physical m b l)
    (hs : ∀ S, b.s = some S → ∀ p < l, ∀ q < l, S.get [p, q] = if p = q then 1 else 0) (I : InUnits c (1 / c ^ 2) (1 / c) b b')
    {H U H' U' : NDArray ℂ} (hh : b.h = some H) (hu : b.u = some U) (hh' : b'.h = some H') (hu' : b'.u = some U')
    {E E' : ℕ → ℝ} (S : ElectronEnergies l H U N E) (S' : ElectronEnergies l H' U' N E') :
    ∀ k < (2 * l).choose N, E k / c ^ 2 ≤ E' k ∧ E' k ≤ E k / c := by
  have c0 : 0 < c := by linarith
  have PH := I.h
  have PU := I.u
  rw [hh, hh'] at PH
  rw [hu, hu'] at PU
  have sh : H.shape = [l, l] := by
    obtain ⟨y, hy, s⟩ := hb.wf.h
    rwa [← Option.some.inj (hh.symm.trans hy)] at s
  have su : U.shape = [l, l, l, l] := by
    obtain ⟨y, hy, s⟩ := hb.wf.u
    rwa [← Option.some.inj (hu.symm.trans hy)] at s
  obtain ⟨H₁, s₁, e1, e2, -, B⟩ := hb.one
  obtain rfl := Option.some.inj (e1.symm.trans hh)
  obtain ⟨U₁, e3, P, -⟩ := hb.two
  obtain rfl := Option.some.inj (e3.symm.trans hu)
  obtain ⟨Ψ, S⟩ := S
  obtain ⟨Ψ', S'⟩ := S'
  have T : Spectrum (spinOne l H₁) (fun p q r s => (c : ℂ) * spinTwo l U₁ p q r s) ((2 * l).choose N) (fun k => c ^ 2 * E' k) Ψ' := by
    refine spectrum_scale (k := c ^ 2) (by positivity) (fun p q => ?_) (fun p q r s => ?_) S'
    · rw [spinOne_scale PH sh, ← mul_assoc, ← Complex.ofReal_mul, mul_one_div_cancel (by positivity), Complex.ofReal_one, one_mul]
    · rw [spinTwo_scale PU su, ← mul_assoc, ← Complex.ofReal_mul]
      congr 2
      field_simp
  have R : Spectrum (fun p q => ((1 / c : ℝ) : ℂ) * spinOne l H₁ p q) (spinTwo l U₁) ((2 * l).choose N) (fun k => c * E' k) Ψ' := by
    refine spectrum_scale (k := c) c0.le (fun p q => ?_) (fun p q r s => ?_) S'
    · rw [spinOne_scale PH sh, ← mul_assoc, ← Complex.ofReal_mul]
      congr 2
      field_simp
    · rw [spinTwo_scale PU su, ← mul_assoc, ← Complex.ofReal_mul, mul_one_div_cancel c0.ne', Complex.ofReal_one, one_mul]
  intro k hk
  constructor
  · have := S.mono T (fun v => by simp) (fun v => by
      have e : ∀ z : ℂ, (c : ℂ) * z - z = ((c - 1 : ℝ) : ℂ) * z := fun z => by push_cast; ring
      simp only [e]
      rw [form_scale_two]
      exact mul_nonneg (by linarith) (posU_spin P v)) hk
    rw [div_le_iff₀ (by positivity)]
    linarith
  · have := R.mono S (fun v => by
      have e : ∀ z : ℂ, z - ((1 / c : ℝ) : ℂ) * z = ((1 - 1 / c : ℝ) : ℂ) * z := fun z => by push_cast; ring
      simp only [e]
      rw [form_scale_one]
      refine mul_nonneg ?_ (le_trans ?_ (bounded_spin B (hs _ e2) v))
      · rw [sub_nonneg, div_le_one c0]
        exact hc
      · exact mul_nonneg h0 (sum_nonneg fun _ _ => sq_nonneg _)) (fun v => by simp) hk
    rw [le_div_iff₀ c0]
    linarith

/-- The energies of `N` particles without interaction start with the sum of the lowest `N` one-body energies. -/
theorem lowest_free {h : Fin L → Fin L → ℂ} {e : ℕ → ℝ} (hh : ∀ p q, h p q = if p = q then (e p : ℂ) else 0)
    (he : ∀ p q, p ≤ q → q < L → e p ≤ e q) (hN : N ≤ L) {D : ℕ} {E : ℕ → ℝ} {Ψ : ℕ → Wave ℂ N L}
    (S : Spectrum h (fun _ _ _ _ => 0) D E Ψ) (hD : 0 < D) : E 0 = ∑ i ∈ range N, e i := by
  apply le_antisymm
  · have h1 := (S.bounds (slater_antisymmetric (firstOrbitals hN))).1
    have hf : (0 : ℝ) < (N.factorial : ℝ) := Nat.cast_pos.2 (Nat.factorial_pos _)
    rw [(C106_determinants (K := ℂ) (firstOrbitals_injective hN)).2.2.1,
      slater_inner _ (hamiltonOp_antisymmetric _ _ (slater_antisymmetric _)), hamilton_slater _ _ (firstOrbitals_injective hN)] at h1
    have e1 : ∑ i, h (firstOrbitals hN i) (firstOrbitals hN i) = ((∑ i ∈ range N, e i : ℝ) : ℂ) := by
      rw [sum_range, Complex.ofReal_sum]
      exact sum_congr rfl fun i _ => by rw [hh, if_pos rfl]; rfl
    rw [e1] at h1
    simp only [sub_zero, sum_const_zero, mul_zero, add_zero] at h1
    rw [← Complex.ofReal_natCast, ← Complex.ofReal_mul, Complex.ofReal_re, Complex.ofReal_re, mul_comm] at h1
    exact le_of_mul_le_mul_left h1 hf
  · refine S.ge (fun Φ hΦ => ?_) (fun v => by simp) hD
    rw [oneBody_diag hh, Complex.ofReal_re, mul_sum]
    refine sum_le_sum fun x _ => ?_
    by_cases hx : Injective x
    · exact mul_le_mul_of_nonneg_right (aufbau_le he hx) (sq_nonneg _)
    · rw [not_injective_zero hΦ hx]
      simp

theorem norm_bounds (l : ℕ) (H U : NDArray ℂ) : ∃ ε δ : ℝ, (∀ p q, ‖spinOne l H p q‖ ≤ ε) ∧ ∀ p q r s, ‖spinTwo l U p q r s‖ ≤ δ := by
  refine ⟨∑ p, ∑ q, ‖spinOne l H p q‖, ∑ p, ∑ q, ∑ r, ∑ s, ‖spinTwo l U p q r s‖, fun p q => ?_, fun p q r s => ?_⟩
  · refine le_trans ?_ (single_le_sum (f := fun p => ∑ q, ‖spinOne l H p q‖) (fun _ _ => sum_nonneg fun _ _ => norm_nonneg _) (mem_univ p))
    exact single_le_sum (f := fun q => ‖spinOne l H p q‖) (fun _ _ => norm_nonneg _) (mem_univ q)
  · refine le_trans ?_ (single_le_sum (f := fun p => ∑ q, ∑ r, ∑ s, ‖spinTwo l U p q r s‖)
      (fun _ _ => sum_nonneg fun _ _ => sum_nonneg fun _ _ => sum_nonneg fun _ _ => norm_nonneg _) (mem_univ p))
    refine le_trans ?_ (single_le_sum (f := fun q => ∑ r, ∑ s, ‖spinTwo l U p q r s‖)
      (fun _ _ => sum_nonneg fun _ _ => sum_nonneg fun _ _ => norm_nonneg _) (mem_univ q))
    refine le_trans ?_ (single_le_sum (f := fun r => ∑ s, ‖spinTwo l U p q r s‖)
      (fun _ _ => sum_nonneg fun _ _ => norm_nonneg _) (mem_univ r))
    exact single_le_sum (f := fun s => ‖spinTwo l U p q r s‖) (fun _ _ => norm_nonneg _) (mem_univ s)

/-- **C139** `N` electrons in `TwoDimensionalHarmonicOscillator` with `l` orbitals, for every frequency: the energies in units of the
frequency decrease with it to those of electrons that do not repel each other, the lowest one to the sum of the `N` lowest one-body
energies; in units of the strength of the repulsion they increase, from those of the repulsion alone. -/
theorem C139_tdho (l N : ℕ) {mass : ℝ} (hm : 0 < mass) (np : Module) : ∃ (E : ℝ → ℕ → ℝ) (E₀ W : ℕ → ℝ) (C C' : ℝ),
    (∀ (num : ℕ) (radiusLength ω : ℝ), 0 < ω → ∃ b h u, tdho (getCoulombElementsRaw l) l num radiusLength ω mass np = .ok b ∧
      b.h = some h ∧ b.u = some u ∧ ElectronEnergies l h u N (E ω)) ∧
    (∀ (num : ℕ) (radiusLength : ℝ), ∃ b h u, tdho (getCoulombElementsRaw l) l num radiusLength 1 mass np = .ok b ∧
      b.h = some h ∧ b.u = some u ∧ ElectronEnergies l h (zeros .float64 [l, l, l, l]) N E₀ ∧
      ElectronEnergies l (zeros .float64 [l, l]) u N W) ∧
    Confinement ((2 * l).choose N) C C' E E₀ W ∧
    (N ≤ 2 * l → E₀ 0 = ∑ i ∈ range N, (getShellEnergy (getIndicesNm (i / 2)).1 (getIndicesNm (i / 2)).2 : ℝ)) := by
  obtain ⟨u, hu, -⟩ := C45_table l
  have F : ∀ (num : ℕ) (radiusLength ω : ℝ), ∃ b, tdho (getCoulombElementsRaw l) l num radiusLength ω mass np = .ok b ∧
      b.h = some (oscillatorH l ω) ∧ b.u = some (smul .float64 (Real.sqrt ω : ℂ) u) := fun num R ω => by
    obtain ⟨b, h1, O, hh⟩ := tdho_ok u l num R ω mass np
    exact ⟨b, by rw [hu, h1], hh, O.u_eq⟩
  have P : ∀ ω, 0 < ω → HermMat l (oscillatorH l ω) ∧ BoundedBelow ω l (oscillatorH l ω) (eye l) ∧
      PosU l (smul .float64 (Real.sqrt ω : ℂ) u) := fun ω hω => by
    obtain ⟨b, h1, P⟩ := C92_tdho l 0 0 hω hm np
    rw [hu] at h1
    obtain ⟨b', h1', O, hh⟩ := tdho_ok u l 0 0 ω mass np
    obtain rfl : b = b' := by simpa using h1.symm.trans h1'
    obtain ⟨h, s, e1, e2, Hh, B⟩ := P.one
    obtain ⟨u', e3, PU, -⟩ := P.two
    obtain rfl := Option.some.inj (e1.symm.trans hh)
    obtain rfl := Option.some.inj (e2.symm.trans O.s_eq)
    obtain rfl := Option.some.inj (e3.symm.trans O.u_eq)
    exact ⟨Hh, B, PU⟩
  obtain ⟨H1, B1, P1⟩ := P 1 one_pos
  have ex : ∀ ω : ℝ, ∃ E Ψ, 0 < ω → Spectrum (N := N) (spinOne l (oscillatorH l ω)) (spinTwo l (smul .float64 (Real.sqrt ω : ℂ) u))
      ((2 * l).choose N) E Ψ := fun ω => by
    by_cases hω : 0 < ω
    · obtain ⟨Hh, -, PU⟩ := P ω hω
      obtain ⟨E, Ψ, S⟩ := (C120_exist Hh PU.herm N).2.1
      exact ⟨E, Ψ, fun _ => S⟩
    · exact ⟨0, 0, fun h => (hω h).elim⟩
  choose E Ψ S using ex
  obtain ⟨E₀, Ψ₀, S₀⟩ := (C120_exist (U := zeros .float64 [l, l, l, l]) H1 (fun p _ q _ r _ s _ => by simp) N).2.1
  obtain ⟨W, Φ, SW⟩ := (C120_exist (H := zeros .float64 [l, l]) (fun p _ q _ => by simp) P1.herm N).2.1
  obtain ⟨ε, δ, hε, hδ⟩ := norm_bounds l (oscillatorH l 1) (smul .float64 (Real.sqrt 1 : ℂ) u)
  have z4 : spinTwo l (zeros .float64 [l, l, l, l] : NDArray ℂ) = fun _ _ _ _ => 0 := by
    funext p q r s; unfold spinTwo; simp
  have z2 : spinOne l (zeros .float64 [l, l] : NDArray ℂ) = fun _ _ => 0 := by
    funext p q; unfold spinOne; simp
  have eh : ∀ ω : ℝ, spinOne l (oscillatorH l ω) = fun p q => (ω : ℂ) * spinOne l (oscillatorH l 1) p q := fun ω => by
    funext p q
    unfold spinOne oscillatorH
    split_ifs
    · rw [smul_get, smul_get, Complex.ofReal_one, one_mul]
    · simp
  have eu : ∀ ω : ℝ, spinTwo l (smul .float64 (Real.sqrt ω : ℂ) u) =
      fun p q r s => (Real.sqrt ω : ℂ) * spinTwo l (smul .float64 (Real.sqrt 1 : ℂ) u) p q r s := fun ω => by
    funext p q r s
    unfold spinTwo
    split_ifs
    · rw [smul_get, smul_get, Real.sqrt_one, Complex.ofReal_one, one_mul]
    · simp
  have S₀' := S₀
  rw [z4] at S₀'
  have SW' := SW
  rw [z2] at SW'
  have hS : ∀ p < l, ∀ q < l, (eye l : NDArray ℂ).get [p, q] = if p = q then 1 else 0 := fun p hp q hq => by
    rw [eye, ofFn_get_of (by exact ⟨hp, hq, trivial⟩)]
  refine ⟨E, E₀, W, _, _, fun num R ω hω => ?_, fun num R => ?_, C139_levels (fun v => ?_) (posU_spin P1) hε hδ (Ψ := Ψ)
    (fun ω hω => ?_) S₀' SW', fun hN => ?_⟩
  · obtain ⟨b, h1, h2, h3⟩ := F num R ω
    exact ⟨b, _, _, h1, h2, h3, Ψ ω, S ω hω⟩
  · obtain ⟨b, h1, h2, h3⟩ := F num R 1
    exact ⟨b, _, _, h1, h2, h3, ⟨Ψ₀, S₀⟩, ⟨Φ, SW⟩⟩
  · refine le_trans ?_ (bounded_spin B1 hS v)
    rw [one_mul]
    exact sum_nonneg fun _ _ => sq_nonneg _
  · have := S ω hω
    rwa [eh, eu] at this
  · refine (lowest_free (e := fun p => (getShellEnergy (getIndicesNm (p / 2)).1 (getIndicesNm (p / 2)).2 : ℝ)) (fun p q => ?_)
      (fun p q hpq _ => by exact_mod_cast C43_monotone (by omega)) hN S₀' (Nat.choose_pos hN))
    unfold spinOne oscillatorH
    rw [smul_get, Complex.ofReal_one, one_mul, ofFn_get_of (by exact ⟨by omega, by omega, trivial⟩)]
    simp only [List.getD_cons_zero, List.getD_cons_succ]
    by_cases h : p = q
    · subst h
      simp
    · rw [if_neg h]
      by_cases h2 : p.1 % 2 = q.1 % 2
      · rw [if_pos h2, if_neg]
        exact fun h3 => h (Fin.ext (by omega))
      · rw [if_neg h2]

/-- Two electrons in six orbitals: the lowest energy divided by the frequency tends to two. -/
example (np : Module) : ∃ E : ℝ → ℕ → ℝ, (∀ (num : ℕ) (R ω : ℝ), 0 < ω → ∃ b h u,
      tdho (getCoulombElementsRaw 6) 6 num R ω 1 np = .ok b ∧ b.h = some h ∧ b.u = some u ∧ ElectronEnergies 6 h u 2 (E ω)) ∧
    Tendsto (fun ω => E ω 0 / ω) atTop (𝓝 2) ∧ ∀ ω, 0 < ω → 2 * ω ≤ E ω 0 := by
  obtain ⟨E, E₀, W, C, C', h1, -, h2, h3⟩ := C139_tdho 6 2 one_pos np
  have e : E₀ 0 = 2 := by
    rw [h3 (by norm_num), sum_range_succ, sum_range_one, show getShellEnergy (getIndicesNm (0 / 2)).1 (getIndicesNm (0 / 2)).2 = 1 by
      decide +kernel]
    norm_num
  have hD : 0 < (2 * 6).choose 2 := by decide
  refine ⟨E, h1, e ▸ h2.tight_limit 0 hD, fun ω hω => ?_⟩
  have := (h2.tight ω hω 0 hD).1
  rw [e, le_div_iff₀ hω] at this
  exact this

end QS.Props
