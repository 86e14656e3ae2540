import Verif.Lemmas.Trapezoid
import Verif.Props.OneDimSpectrum

/-!
# Accuracy of the two-body elements of the one-dimensional oscillator (C113)
-/

namespace QS.Props

open OneDim NDArray Spec BasisSet PyM MeasureTheory

theorem contDiff_hermite (n : ℕ) : ContDiff ℝ 2 (hermite n) := by
  suffices h : ContDiff ℝ 2 (hermite n) ∧ ContDiff ℝ 2 (hermite (n + 1)) from h.1
  induction n with
  | zero =>
    refine ⟨contDiff_const, ?_⟩
    change ContDiff ℝ 2 fun x => 2 * x
    fun_prop
  | succ n ih =>
    refine ⟨ih.2, ?_⟩
    change ContDiff ℝ 2 fun x => 2 * x * hermite (n + 1) x - 2 * (n + 1) * hermite n x
    exact (((contDiff_const.mul contDiff_id).mul ih.2).sub (contDiff_const.mul ih.1))

theorem contDiff_hoFunction (omega : ℝ) (n : ℕ) : ContDiff ℝ 2 (hoFunction omega n) := by
  change ContDiff ℝ 2 fun x => normalization omega n * Real.exp (-(1 / 2) * omega * x ^ 2)
    * hermite n (Real.sqrt omega * x)
  have := (contDiff_hermite n).comp (contDiff_const.mul contDiff_id : ContDiff ℝ 2 fun x => Real.sqrt omega * x)
  exact ContDiff.mul (by fun_prop) this

theorem ho_product_integrable {omega : ℝ} (ho : 0 < omega) (n m : ℕ) :
    Integrable fun x => hoFunction omega n x * hoFunction omega m x := by
  have h := ((hermite_integrable' n m).comp_mul_left' (Real.sqrt_pos.2 ho).ne').const_mul
    (normalization omega n * normalization omega m)
  refine h.congr (.of_forall fun x => ?_)
  simp only [hoFunction]
  have e : Real.exp (-(Real.sqrt omega * x) ^ 2)
      = Real.exp (-(1 / 2) * omega * x ^ 2) * Real.exp (-(1 / 2) * omega * x ^ 2) := by
    rw [← Real.exp_add, mul_pow, Real.sq_sqrt ho.le]
    congr 1
    ring
  rw [e]
  ring

/-- The integrand of the two-body element. -/
noncomputable def coulombIntegrand (ψ : ℕ → ℝ → ℝ) (alpha a : ℝ) (p q r s : ℕ) (x y : ℝ) : ℝ :=
  ψ p x * ψ q y * (alpha / Real.sqrt ((x - y) ^ 2 + a ^ 2)) * ψ r x * ψ s y

theorem contDiff_integrand {ψ : ℕ → ℝ → ℝ} (hψ : ∀ p, ContDiff ℝ 2 (ψ p)) (alpha : ℝ) {a : ℝ} (ha : a ≠ 0)
    (p q r s : ℕ) : ContDiff ℝ 2 fun z : ℝ × ℝ => ((coulombIntegrand ψ alpha a p q r s z.1 z.2 : ℝ) : ℂ) := by
  have h1 := fun p => (hψ p).comp (contDiff_fst (𝕜 := ℝ) (E := ℝ) (F := ℝ))
  have h2 := fun p => (hψ p).comp (contDiff_snd (𝕜 := ℝ) (E := ℝ) (F := ℝ))
  have h3 : ContDiff ℝ 2 fun z : ℝ × ℝ => (z.1 - z.2) ^ 2 + a ^ 2 := by fun_prop
  have h4 : ContDiff ℝ 2 fun z : ℝ × ℝ => alpha / Real.sqrt ((z.1 - z.2) ^ 2 + a ^ 2) :=
    contDiff_const.div (h3.sqrt fun z => by positivity) fun z => by positivity
  exact Complex.ofRealCLM.contDiff.comp (((((h1 p).mul (h2 q)).mul h4).mul (h1 r)).mul (h2 s))

theorem integrand_integrable {omega : ℝ} (ho : 0 < omega) (alpha : ℝ) {a : ℝ} (ha : a ≠ 0) (p q r s : ℕ) :
    Integrable (fun z : ℝ × ℝ => ((coulombIntegrand (hoFunction omega) alpha a p q r s z.1 z.2 : ℝ) : ℂ))
      (volume.prod volume) := by
  have h := ((ho_product_integrable ho p r).mul_prod (ho_product_integrable ho q s))
  have hc := contDiff_integrand (contDiff_hoFunction omega) alpha ha p q r s
  refine (h.norm.const_mul (|alpha| / |a|)).mono' hc.continuous.aestronglyMeasurable (.of_forall fun z => ?_)
  have hs : |a| ≤ Real.sqrt ((z.1 - z.2) ^ 2 + a ^ 2) := by
    rw [← Real.sqrt_sq_eq_abs]
    exact Real.sqrt_le_sqrt (by nlinarith [sq_nonneg (z.1 - z.2)])
  have hb : |alpha / Real.sqrt ((z.1 - z.2) ^ 2 + a ^ 2)| ≤ |alpha| / |a| := by
    rw [abs_div, abs_of_nonneg (Real.sqrt_nonneg _)]
    exact div_le_div_of_nonneg_left (abs_nonneg _) (abs_pos.2 ha) hs
  rw [Complex.norm_real, coulombIntegrand]
  rw [show hoFunction omega p z.1 * hoFunction omega q z.2 * (alpha / Real.sqrt ((z.1 - z.2) ^ 2 + a ^ 2))
      * hoFunction omega r z.1 * hoFunction omega s z.2 = alpha / Real.sqrt ((z.1 - z.2) ^ 2 + a ^ 2)
        * (hoFunction omega p z.1 * hoFunction omega r z.1 * (hoFunction omega q z.2 * hoFunction omega s z.2)) by ring,
    norm_mul]
  exact mul_le_mul_of_nonneg_right hb (norm_nonneg _)

/-- The two-body elements of an `ODHO` object are the double trapezoidal sums of the integrand. -/
theorem odho_sums (l : ℕ) (L : ℝ) {num : ℕ} (h2 : 2 ≤ num) (omega : ℝ) {a : ℝ} (ha : a ≠ 0)
    (alpha beta : ℝ) (np : Module) (sp an : Bool) :
    ∃ b u, odho l L num omega a alpha beta np sp an = .ok b ∧ b.u = some u ∧ u.shape = [l, l, l, l] ∧
      ∀ p q r s, p < l → q < l → r < l → s < l → u.get [p, q, r, s] =
        trapezoid num (fun i => -L + i * (2 * L / ((num : ℝ) - 1))) fun i =>
          trapezoid num (fun i => -L + i * (2 * L / ((num : ℝ) - 1))) fun j =>
            ((coulombIntegrand (hoFunction omega) alpha a p q r s (-L + i * (2 * L / ((num : ℝ) - 1)))
              (-L + j * (2 * L / ((num : ℝ) - 1))) : ℝ) : ℂ) := by
  obtain ⟨b, g, f, u, h1, hg, hf, hu, hs, hc⟩ := C55_odho l L h2 omega ha alpha beta np sp an
  obtain ⟨b', h1', hb, -⟩ := odho_ok l L h2 omega a alpha beta np sp an
  obtain rfl : b = b' := by simpa using h1.symm.trans h1'
  obtain rfl : _ = g := Option.some.inj (hb.grid_eq.symm.trans hg)
  obtain rfl : _ = f := Option.some.inj (hb.spf_eq.symm.trans hf)
  have hx : ∀ i < num, ((linspaceArr (-L) L num).get [i]) = ((-L + i * (2 * L / ((num : ℝ) - 1)) : ℝ) : ℂ) := by
    intro i hi
    rw [(linspace_uniform L).get i hi, TwoDim.linspace]
    congr 1
    ring
  have hψ : ∀ p < l, ∀ i < num, (odhoSpf l num L omega).get [p, i]
      = ((hoFunction omega p (-L + i * (2 * L / ((num : ℝ) - 1))) : ℝ) : ℂ) := by
    intro p hp i hi
    unfold odhoSpf
    rw [ofFn_get_of (by exact ⟨hp, hi, trivial⟩)]
    simp only [List.getD_cons_zero, List.getD_cons_succ, TwoDim.linspace]
    congr 2
    ring
  have ht : ∀ φ : ℕ → ℂ, trapezoid num (fun i => ((linspaceArr (-L) L num).get [i]).re) φ
      = trapezoid num (fun i => -L + i * (2 * L / ((num : ℝ) - 1))) φ := by
    intro φ
    unfold trapezoid
    refine Finset.sum_congr rfl fun i hi => ?_
    have hi := Finset.mem_range.1 hi
    have e1 : ((linspaceArr (-L) L num).get [i]).re = -L + i * (2 * L / ((num : ℝ) - 1)) := by
      rw [hx i (by omega), Complex.ofReal_re]
    have e2 : ((linspaceArr (-L) L num).get [i + 1]).re = -L + ((i + 1 : ℕ) : ℝ) * (2 * L / ((num : ℝ) - 1)) := by
      rw [hx (i + 1) (by omega), Complex.ofReal_re]
    simp only [e1, e2]
  refine ⟨b, u, h1, hu, hs, fun p q r s hp hq hr hs' => ?_⟩
  rw [hc p q r s hp hq hr hs']
  simp only [ht]
  refine trapezoid_congr fun i hi => trapezoid_congr fun j hj => ?_
  rw [hψ p hp i hi, hψ q hq j hj, hψ r hr i hi, hψ s hs' j hj, hx i hi, hx j hj, coulombIntegrand]
  simp only [Complex.conj_ofReal, Complex.ofReal_re]
  push_cast
  ring

/-- **C113** There are orthonormal eigenfunctions `ψ` of the oscillator such that the two-body elements of every
`ODHO` object differ from the Coulomb integrals of `ψ` over the box by at most a constant times the square of
the grid spacing. -/
theorem C113_second_order {omega : ℝ} (ho : 0 < omega) : ∃ ψ : ℕ → ℝ → ℝ,
    (∀ p x, lineHamiltonian (fun x => 1 / 2 * omega ^ 2 * x ^ 2) (ψ p) x = omega * (p + 1 / 2) * ψ p x) ∧
    (∀ p q, lineInner (ψ p) (ψ q) = if p = q then 1 else 0) ∧
    ∀ (l : ℕ) (L alpha a : ℝ), 0 < L → a ≠ 0 → ∃ C, ∀ (num : ℕ), 2 ≤ num → ∀ (beta : ℝ) (np : Module) (sp an : Bool),
      ∃ b u, odho l L num omega a alpha beta np sp an = .ok b ∧ b.u = some u ∧ u.shape = [l, l, l, l] ∧
        ∀ p q r s, p < l → q < l → r < l → s < l →
          ‖u.get [p, q, r, s] - ((∫ x in (-L)..L, ∫ y in (-L)..L,
            ψ p x * ψ q y * (alpha / Real.sqrt ((x - y) ^ 2 + a ^ 2)) * ψ r x * ψ s y : ℝ) : ℂ)‖
            ≤ C * (2 * L / ((num : ℝ) - 1)) ^ 2 := by
  refine ⟨hoFunction omega, ho_eigen ho, ho_orthonormal ho, fun l L alpha a hL ha => ?_⟩
  choose C hC using fun p q r s : ℕ =>
    Trapezoid.second_order (contDiff_integrand (contDiff_hoFunction omega) alpha ha p q r s) L hL.le
  have hb : ∀ (f : ℕ → ℕ → ℕ → ℕ → ℝ) (l : ℕ), ∃ B, ∀ p < l, ∀ q < l, ∀ r < l, ∀ s < l, f p q r s ≤ B := by
    intro f l
    obtain ⟨B, hB⟩ := (((Finset.range l ×ˢ Finset.range l) ×ˢ (Finset.range l ×ˢ Finset.range l)).image
      fun t => f t.1.1 t.1.2 t.2.1 t.2.2).bddAbove
    refine ⟨B, fun p hp q hq r hr s hs => hB (Finset.mem_coe.2 (Finset.mem_image.2
      ⟨((p, q), (r, s)), by simp [hp, hq, hr, hs], rfl⟩))⟩
  obtain ⟨B, hB⟩ := hb C l
  refine ⟨B / (2 * L) ^ 2, fun num h2 beta np sp an => ?_⟩
  obtain ⟨b, u, h1, hu, hs, hsum⟩ := odho_sums l L h2 omega ha alpha beta np sp an
  refine ⟨b, u, h1, hu, hs, fun p q r s hp hq hr hs' => ?_⟩
  rw [hsum p q r s hp hq hr hs', ← intervalIntegral.integral_ofReal]
  simp only [← intervalIntegral.integral_ofReal]
  have h := hC p q r s num h2
  have hn : (0 : ℝ) < (num : ℝ) - 1 := by
    have : (2 : ℝ) ≤ num := by exact_mod_cast h2
    linarith
  refine h.trans ?_
  have e : B / (2 * L) ^ 2 * (2 * L / ((num : ℝ) - 1)) ^ 2 = B / ((num : ℝ) - 1) ^ 2 := by field_simp
  rw [e]
  exact div_le_div_of_nonneg_right (hB p hp q hq r hr s hs') (by positivity)

/-- The limit of the two-body elements of `ODHO` in long boxes with fine grids, with the functions of the code. -/
theorem hoFunction_limit {omega : ℝ} (ho : 0 < omega) (alpha a : ℝ) (ha : a ≠ 0) (p q r s : ℕ) :
      Integrable (fun z : ℝ × ℝ =>
        hoFunction omega p z.1 * hoFunction omega q z.2 * (alpha / Real.sqrt ((z.1 - z.2) ^ 2 + a ^ 2)) *
          hoFunction omega r z.1 * hoFunction omega s z.2) (volume.prod volume) ∧
      ∀ ε > 0, ∃ L0, ∀ L ≥ L0, ∃ N, ∀ num ≥ N, ∀ (l : ℕ), p < l → q < l → r < l → s < l →
        ∀ (beta : ℝ) (np : Module) (sp an : Bool),
        ∃ b u, odho l L num omega a alpha beta np sp an = .ok b ∧ b.u = some u ∧
          ‖u.get [p, q, r, s] - ((∫ x, ∫ y, hoFunction omega p x * hoFunction omega q y *
            (alpha / Real.sqrt ((x - y) ^ 2 + a ^ 2)) * hoFunction omega r x * hoFunction omega s y : ℝ) : ℂ)‖ < ε := by
  have hint := integrand_integrable ho alpha ha p q r s
  refine ⟨?_, fun ε hε => ?_⟩
  · refine hint.re.congr (.of_forall fun z => ?_)
    exact Complex.ofReal_re _
  have ht := Metric.tendsto_atTop.1 (Trapezoid.box_tendsto hint) (ε / 2) (by linarith)
  obtain ⟨L0, hL0⟩ := ht
  refine ⟨max L0 1, fun L hL => ?_⟩
  have hL1 : 0 < L := lt_of_lt_of_le one_pos ((le_max_right _ _).trans hL)
  obtain ⟨C, hC⟩ := Trapezoid.second_order (contDiff_integrand (contDiff_hoFunction omega) alpha ha p q r s) L hL1.le
  obtain ⟨N, hN⟩ := exists_nat_gt (2 * |C| / ε)
  refine ⟨N + 2, fun num hnum l hp hq hr hs' beta np sp an => ?_⟩
  obtain ⟨b, u, h1, hu, hs, hsum⟩ := odho_sums l L (by omega : 2 ≤ num) omega ha alpha beta np sp an
  refine ⟨b, u, h1, hu, ?_⟩
  rw [hsum p q r s hp hq hr hs', ← integral_complex_ofReal]
  simp only [← integral_complex_ofReal]
  have e1 := hC num (by omega)
  have e2 := hL0 L ((le_max_left _ _).trans hL)
  rw [dist_eq_norm] at e2
  have hn : (N : ℝ) + 1 ≤ (num : ℝ) - 1 := by
    have : ((N + 2 : ℕ) : ℝ) ≤ num := by exact_mod_cast hnum
    push_cast at this
    linarith
  have hN0 : (0 : ℝ) ≤ N := Nat.cast_nonneg N
  have e3 : C / ((num : ℝ) - 1) ^ 2 < ε / 2 := by
    rw [div_lt_iff₀ (by nlinarith)]
    rw [div_lt_iff₀ hε] at hN
    have h1' : (1 : ℝ) ≤ (num : ℝ) - 1 := by linarith
    have : C ≤ |C| := le_abs_self C
    nlinarith [mul_pos hε (by linarith : (0 : ℝ) < (num : ℝ) - 1)]
  have e4 := lt_of_le_of_lt (norm_add_le_of_le e1 le_rfl) (add_lt_add_of_lt_of_lt e3 e2)
  rw [sub_add_sub_cancel, add_halves] at e4
  exact e4

/-- **C113** With a long enough box and, for each box, enough grid points, the two-body elements of an `ODHO`
object are as close as desired to the Coulomb integrals of the oscillator functions over the whole plane. -/
theorem C113_limit {omega : ℝ} (ho : 0 < omega) : ∃ ψ : ℕ → ℝ → ℝ,
    (∀ p x, lineHamiltonian (fun x => 1 / 2 * omega ^ 2 * x ^ 2) (ψ p) x = omega * (p + 1 / 2) * ψ p x) ∧
    (∀ p q, lineInner (ψ p) (ψ q) = if p = q then 1 else 0) ∧
    ∀ (alpha a : ℝ), a ≠ 0 → ∀ p q r s : ℕ,
      Integrable (fun z : ℝ × ℝ =>
        ψ p z.1 * ψ q z.2 * (alpha / Real.sqrt ((z.1 - z.2) ^ 2 + a ^ 2)) * ψ r z.1 * ψ s z.2)
        (volume.prod volume) ∧
      ∀ ε > 0, ∃ L0, ∀ L ≥ L0, ∃ N, ∀ num ≥ N, ∀ (l : ℕ), p < l → q < l → r < l → s < l →
        ∀ (beta : ℝ) (np : Module) (sp an : Bool),
        ∃ b u, odho l L num omega a alpha beta np sp an = .ok b ∧ b.u = some u ∧
          ‖u.get [p, q, r, s] - ((∫ x, ∫ y,
            ψ p x * ψ q y * (alpha / Real.sqrt ((x - y) ^ 2 + a ^ 2)) * ψ r x * ψ s y : ℝ) : ℂ)‖ < ε :=
  ⟨hoFunction omega, ho_eigen ho, ho_orthonormal ho, hoFunction_limit ho⟩

/-- Two-body elements of `ODHO` with four functions, `omega = 1`, `alpha = 1` and `a = 1/4`: in a long box with
a fine grid they are within a thousandth of the exact Coulomb integrals. -/
example : ∃ ψ : ℕ → ℝ → ℝ, (∀ p q, lineInner (ψ p) (ψ q) = if p = q then 1 else 0) ∧
    ∃ (L : ℝ) (num : ℕ) (b : BasisSet ℂ) (u : NDArray ℂ), odho 4 L num 1 (1 / 4) 1 0 = .ok b ∧ b.u = some u ∧
      ‖u.get [0, 1, 2, 3] - ((∫ x, ∫ y,
        ψ 0 x * ψ 1 y * (1 / Real.sqrt ((x - y) ^ 2 + (1 / 4) ^ 2)) * ψ 2 x * ψ 3 y : ℝ) : ℂ)‖ < 1 / 1000 := by
  obtain ⟨ψ, -, h2, h3⟩ := C113_limit one_pos
  refine ⟨ψ, h2, ?_⟩
  obtain ⟨L, hL⟩ := (h3 1 (1 / 4) (by norm_num) 0 1 2 3).2 (1 / 1000) (by norm_num)
  obtain ⟨N, hN⟩ := hL L le_rfl
  obtain ⟨b, u, h4, h5, h6⟩ := hN N le_rfl 4 (by norm_num) (by norm_num) (by norm_num) (by norm_num) 0 0 false false
  exact ⟨L, N, b, u, h4, h5, h6⟩

end QS.Props
