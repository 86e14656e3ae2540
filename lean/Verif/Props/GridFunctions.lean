import Verif.Lemmas.GridFunctions
import Verif.Props.GridSpectrum

/-!
# The functions and matrix elements of the one-dimensional quantum dots converge (C116)
-/

namespace QS.Props

open OneDim NDArray Spec BasisSet PyM Filter Topology Riemann GridLimit

theorem near_bd {L : ℝ} (hL : 0 < L) {θ : ℕ → ℂ} (hθ : ∀ num, ‖θ num‖ = 1) {ψ : ℝ → ℝ} (hψ : Continuous ψ) :
    ∃ C, 0 ≤ C ∧ ∀ num ≥ 2, ∀ i < num, ‖θ num * (ψ (-L + i * dx L num) : ℂ)‖ ≤ C := by
  obtain ⟨B, hB⟩ := (isCompact_Icc (a := -L) (b := L)).exists_bound_of_continuousOn hψ.continuousOn
  refine ⟨|B|, abs_nonneg _, fun num h2 i hi => ?_⟩
  rw [norm_mul, hθ, one_mul, Complex.norm_real]
  exact (hB _ (mem_grid hL h2 (by omega))).trans (le_abs_self B)

/-- One-body matrix elements. -/
theorem one_body_near {L : ℝ} (hL : 0 < L) {f g : ℕ → ℕ → ℂ} {θ η : ℕ → ℂ} (hθ : ∀ num, ‖θ num‖ = 1)
    (hη : ∀ num, ‖η num‖ = 1) {ψ φ W : ℝ → ℝ} (hψ : Continuous ψ) (hφ : Continuous φ) (hW : Continuous W)
    (hf : Near (fun num i => i < num) f fun num i => θ num * (ψ (-L + i * dx L num) : ℂ))
    (hg : Near (fun num i => i < num) g fun num i => η num * (φ (-L + i * dx L num) : ℂ)) {ε : ℝ} (hε : 0 < ε) :
    ∀ᶠ num in atTop, ‖trapezoid num (fun i => -L + i * dx L num) (fun i => (starRingEnd ℂ) (f num i)
        * (W (-L + i * dx L num) : ℂ) * g num i)
      - (starRingEnd ℂ) (θ num) * η num * ((∫ x in (-L)..L, ψ x * W x * φ x : ℝ) : ℂ)‖ ≤ ε := by
  obtain ⟨C, -, hC⟩ := near_bd hL hθ hψ
  obtain ⟨D, -, hD⟩ := near_bd hL hη hφ
  obtain ⟨B, -, hB⟩ := near_bd hL (θ := fun _ => 1) (by simp) hW
  have bC : Bd (fun num i => i < num) fun num i => θ num * (ψ (-L + i * dx L num) : ℂ) :=
    ⟨C, (eventually_ge_atTop 2).mono fun num h => hC num h⟩
  have bD : Bd (fun num i => i < num) fun num i => η num * (φ (-L + i * dx L num) : ℂ) :=
    ⟨D, (eventually_ge_atTop 2).mono fun num h => hD num h⟩
  have bB : Bd (fun num i => i < num) fun num i => (W (-L + i * dx L num) : ℂ) :=
    ⟨B, (eventually_ge_atTop 2).mono fun num h => by simpa using hB num h⟩
  have hn := (hf.conj.mul (Near.refl (S := fun num i => i < num) fun num i => (W (-L + i * dx L num) : ℂ)) bC.conj bB).mul
    hg (bC.conj.mul bB) bD
  have hc : Continuous fun x => ((ψ x * W x * φ x : ℝ) : ℂ) := by fun_prop
  filter_upwards [hn (ε / (4 * L)) (by positivity), Riemann.tendsto hL hc (by positivity : 0 < ε / 2),
    eventually_ge_atTop 2] with num h1 h2 h3
  have e1 := Riemann.norm_le hL h3 h1
  rw [Trapezoid.trapezoid_sub] at e1
  have e2 : (trapezoid num (fun i => -L + i * dx L num) fun i => (starRingEnd ℂ) (θ num * (ψ (-L + i * dx L num) : ℂ))
        * (W (-L + i * dx L num) : ℂ) * (η num * (φ (-L + i * dx L num) : ℂ)))
      = (starRingEnd ℂ) (θ num) * η num * trapezoid num (fun i => -L + i * dx L num) fun i =>
        ((ψ (-L + i * dx L num) * W (-L + i * dx L num) * φ (-L + i * dx L num) : ℝ) : ℂ) := by
    unfold trapezoid
    rw [Finset.mul_sum]
    refine Finset.sum_congr rfl fun i _ => ?_
    simp only [map_mul, Complex.conj_ofReal]
    push_cast
    ring
  rw [e2] at e1
  have e3 : ‖(starRingEnd ℂ) (θ num) * η num * trapezoid num (fun i => -L + i * dx L num) (fun i =>
        ((ψ (-L + i * dx L num) * W (-L + i * dx L num) * φ (-L + i * dx L num) : ℝ) : ℂ))
      - (starRingEnd ℂ) (θ num) * η num * ((∫ x in (-L)..L, ψ x * W x * φ x : ℝ) : ℂ)‖ ≤ ε / 2 := by
    rw [← mul_sub, norm_mul, norm_mul, RCLike.norm_conj, hθ, hη, one_mul, one_mul, ← intervalIntegral.integral_ofReal]
    exact h2
  have e4 := (norm_add_le _ _).trans (add_le_add e1 e3)
  rw [sub_add_sub_cancel] at e4
  refine e4.trans (le_of_eq ?_)
  field_simp
  ring

/-- Two-body matrix elements. -/
theorem two_body_near {L : ℝ} (hL : 0 < L) {f : ℕ → ℕ → ℕ → ℂ} {θ : ℕ → ℕ → ℂ} (hθ : ∀ num k, ‖θ num k‖ = 1)
    {ψ : ℕ → ℝ → ℝ} (hψ : ∀ k, Continuous (ψ k))
    (hf : ∀ k, Near (fun num i => i < num) (fun num i => f num k i) fun num i => θ num k * (ψ k (-L + i * dx L num) : ℂ))
    (p q r s : ℕ) (alpha : ℝ) {a : ℝ} (ha : a ≠ 0) {ε : ℝ} (hε : 0 < ε) :
    ∀ᶠ num in atTop, ‖coulombSum num (fun i => -L + i * dx L num) (f num) alpha a p q r s
      - (starRingEnd ℂ) (θ num p * θ num q) * (θ num r * θ num s) * ((∫ x in (-L)..L, ∫ y in (-L)..L,
        ψ p x * ψ q y * (alpha / Real.sqrt ((x - y) ^ 2 + a ^ 2)) * ψ r x * ψ s y : ℝ) : ℂ)‖ ≤ ε := by
  set S : ℕ → ℕ × ℕ → Prop := fun num i => i.1 < num ∧ i.2 < num with hS
  set K : ℝ → ℝ → ℝ := fun x y => alpha / Real.sqrt ((x - y) ^ 2 + a ^ 2) with hK
  have hKc : Continuous fun z : ℝ × ℝ => K z.1 z.2 := by
    refine continuous_const.div (by fun_prop) fun z => (Real.sqrt_pos.2 (by positivity)).ne'
  set g : ℕ → ℕ → ℝ := fun num i => -L + i * dx L num with hg
  have n1 : ∀ k, Near S (fun num i => f num k i.1) fun num i => θ num k * (ψ k (g num i.1) : ℂ) :=
    fun k ε hε => (hf k ε hε).mono fun num h i hi => h i.1 hi.1
  have n2 : ∀ k, Near S (fun num i => f num k i.2) fun num i => θ num k * (ψ k (g num i.2) : ℂ) :=
    fun k ε hε => (hf k ε hε).mono fun num h i hi => h i.2 hi.2
  have b1 : ∀ k, Bd S fun num i => θ num k * (ψ k (g num i.1) : ℂ) := fun k => by
    obtain ⟨C, -, hC⟩ := near_bd hL (θ := fun num => θ num k) (fun num => hθ num k) (hψ k)
    exact ⟨C, (eventually_ge_atTop 2).mono fun num h i hi => hC num h i.1 hi.1⟩
  have b2 : ∀ k, Bd S fun num i => θ num k * (ψ k (g num i.2) : ℂ) := fun k => by
    obtain ⟨C, -, hC⟩ := near_bd hL (θ := fun num => θ num k) (fun num => hθ num k) (hψ k)
    exact ⟨C, (eventually_ge_atTop 2).mono fun num h i hi => hC num h i.2 hi.2⟩
  have bK : Bd S fun num i => (K (g num i.1) (g num i.2) : ℂ) := by
    obtain ⟨B, hB⟩ := ((isCompact_Icc (a := -L) (b := L)).prod
      (isCompact_Icc (a := -L) (b := L))).exists_bound_of_continuousOn hKc.continuousOn
    refine ⟨B, (eventually_ge_atTop 2).mono fun num h i hi => ?_⟩
    rw [Complex.norm_real]
    exact hB (g num i.1, g num i.2) ⟨mem_grid hL h (by have := hi.1; omega), mem_grid hL h (by have := hi.2; omega)⟩
  have hn := ((((n1 p).conj.mul (n2 q).conj (b1 p).conj (b2 q).conj).mul (Near.refl (S := S) fun num i =>
    (K (g num i.1) (g num i.2) : ℂ)) ((b1 p).conj.mul (b2 q).conj) bK).mul (n1 r)
    (((b1 p).conj.mul (b2 q).conj).mul bK) (b1 r)).mul (n2 s)
    ((((b1 p).conj.mul (b2 q).conj).mul bK).mul (b1 r)) (b2 s)
  have hc : Continuous fun z : ℝ × ℝ => ((ψ p z.1 * ψ q z.2 * K z.1 z.2 * ψ r z.1 * ψ s z.2 : ℝ) : ℂ) := by
    have h1 := hψ p
    have h2 := hψ q
    have h3 := hψ r
    have h4 := hψ s
    fun_prop
  filter_upwards [hn (ε / (8 * L ^ 2)) (by positivity), Riemann.tendsto2 hL hc (by positivity : 0 < ε / 2),
    eventually_ge_atTop 2] with num h1 h2 h3
  set c := (starRingEnd ℂ) (θ num p * θ num q) * (θ num r * θ num s) with hcdef
  have hc1 : ‖c‖ = 1 := by
    rw [hcdef, norm_mul, RCLike.norm_conj, norm_mul, norm_mul]
    simp only [hθ, mul_one]
  have e1 : ‖coulombSum num (fun i => -L + i * dx L num) (f num) alpha a p q r s
      - trapezoid num (g num) (fun i => trapezoid num (g num) fun j =>
        (starRingEnd ℂ) (θ num p * (ψ p (g num i) : ℂ)) * (starRingEnd ℂ) (θ num q * (ψ q (g num j) : ℂ))
          * (K (g num i) (g num j) : ℂ) * (θ num r * (ψ r (g num i) : ℂ)) * (θ num s * (ψ s (g num j) : ℂ)))‖
      ≤ 2 * L * (2 * L * (ε / (8 * L ^ 2))) := by
    unfold coulombSum
    rw [← Trapezoid.trapezoid_sub]
    refine Riemann.norm_le hL h3 fun i hi => ?_
    rw [← Trapezoid.trapezoid_sub]
    exact Riemann.norm_le hL h3 fun j hj => h1 (i, j) ⟨hi, hj⟩
  have e2 : (trapezoid num (g num) fun i => trapezoid num (g num) fun j =>
        (starRingEnd ℂ) (θ num p * (ψ p (g num i) : ℂ)) * (starRingEnd ℂ) (θ num q * (ψ q (g num j) : ℂ))
          * (K (g num i) (g num j) : ℂ) * (θ num r * (ψ r (g num i) : ℂ)) * (θ num s * (ψ s (g num j) : ℂ)))
      = c * trapezoid num (g num) fun i => trapezoid num (g num) fun j =>
        ((ψ p (g num i) * ψ q (g num j) * K (g num i) (g num j) * ψ r (g num i) * ψ s (g num j) : ℝ) : ℂ) := by
    unfold trapezoid
    simp only [Finset.mul_sum, ← Finset.sum_add_distrib, Finset.sum_div]
    refine Finset.sum_congr rfl fun i _ => Finset.sum_congr rfl fun j _ => ?_
    rw [hcdef]
    simp only [map_mul, Complex.conj_ofReal]
    push_cast
    ring
  rw [e2] at e1
  have e3 : ‖c * trapezoid num (g num) (fun i => trapezoid num (g num) fun j =>
        ((ψ p (g num i) * ψ q (g num j) * K (g num i) (g num j) * ψ r (g num i) * ψ s (g num j) : ℝ) : ℂ))
      - c * ((∫ x in (-L)..L, ∫ y in (-L)..L, ψ p x * ψ q y * K x y * ψ r x * ψ s y : ℝ) : ℂ)‖ ≤ ε / 2 := by
    rw [← mul_sub, norm_mul, hc1, one_mul, ← intervalIntegral.integral_ofReal]
    simp only [← intervalIntegral.integral_ofReal]
    exact h2
  have e4 := (norm_add_le _ _).trans (add_le_add e1 e3)
  rw [sub_add_sub_cancel] at e4
  refine e4.trans (le_of_eq ?_)
  field_simp
  ring

/-- **C116** For a potential that is continuous on `[-L, L]` there are the energies `E` of the box in increasing order,
real orthonormal states `ψ` with these energies and, for every grid, a phase `θ` for every function, such that the
single-particle functions of every `ODQD` object tend to `θ ψ` uniformly on the grid, the elements of the dipole tend to
the integrals `∫ ψ_p (x + β x²) ψ_q` and the two-body elements to the double integrals with the shielded Coulomb
interaction, when the number of grid points grows. -/
theorem C116_converge {eigh : NDArray ℂ → Except PyErr (NDArray ℂ × NDArray ℂ)} (he : IsEigh eigh) {L : ℝ}
    (hL : 0 < L) {V : ℝ → ℝ} (hV : ContinuousOn V (Set.Icc (-L) L)) :
    ∃ (E : ℕ → ℝ) (ψ : ℕ → ℝ → ℝ) (θ : ℕ → ℕ → ℂ), StrictMono E ∧ (∀ e, BoxLevel V L e ↔ ∃ k, E k = e) ∧
      (∀ k, Continuous (ψ k) ∧ BoxState V L (E k) (ψ k)) ∧
      (∀ p q, ∫ x in (-L)..L, ψ p x * ψ q x = if p = q then 1 else 0) ∧ (∀ num k, ‖θ num k‖ = 1) ∧
      (∀ (k : ℕ) (ε : ℝ), 0 < ε → ∃ N : ℕ, ∀ num ≥ N, ∀ l, k < l → l ≤ num - 2 →
        ∀ (a alpha beta : ℝ) (hm : Bool) (np : Module) (sp an : Bool),
          ∃ b s, odqd eigh l L num a alpha beta V hm np sp an = .ok b ∧ b.spf = some s ∧ ∀ i < num,
            ‖s.get [k, i] - θ num k * (ψ k (-L + i * (2 * L / ((num : ℝ) - 1))) : ℂ)‖ ≤ ε) ∧
      (∀ (p q : ℕ) (beta ε : ℝ), 0 < ε → ∃ N : ℕ, ∀ num ≥ N, ∀ l, p < l → q < l → l ≤ num - 2 →
        ∀ (a alpha : ℝ) (hm : Bool) (np : Module) (sp an : Bool),
          ∃ b d, odqd eigh l L num a alpha beta V hm np sp an = .ok b ∧ b.dipole = some d ∧
            ‖d.get [0, p, q] - (starRingEnd ℂ) (θ num p) * θ num q
              * ((∫ x in (-L)..L, ψ p x * (x + beta * x ^ 2) * ψ q x : ℝ) : ℂ)‖ ≤ ε) ∧
      ∀ (p q r s : ℕ) (a alpha ε : ℝ), a ≠ 0 → 0 < ε → ∃ N : ℕ, ∀ num ≥ N, ∀ l, p < l → q < l → r < l → s < l →
        l ≤ num - 2 → ∀ (beta : ℝ) (hm : Bool) (np : Module) (sp an : Bool),
          ∃ b u, odqd eigh l L num a alpha beta V hm np sp an = .ok b ∧ b.u = some u ∧
            ‖u.get [p, q, r, s] - (starRingEnd ℂ) (θ num p * θ num q) * (θ num r * θ num s)
              * ((∫ x in (-L)..L, ∫ y in (-L)..L,
                ψ p x * ψ q y * (alpha / Real.sqrt ((x - y) ^ 2 + a ^ 2)) * ψ r x * ψ s y : ℝ) : ℂ)‖ ≤ ε := by
  have hst : ∀ num : ℕ, ∃ w f, 3 ≤ num → GridLimit.Fam V L num w f ∧
      ∀ l ≤ num - 2, ∀ (a alpha beta : ℝ) (hm : Bool) (np : Module) (sp an : Bool),
        ∃ b s h d u, odqd eigh l L num a alpha beta V hm np sp an = .ok b ∧ b.spf = some s ∧ b.h = some h ∧
          b.dipole = some d ∧ b.u = some u ∧ OdqdFacts l num L a alpha beta V s h d u ∧
          ∀ p < l, h.get [p, p] = (w p : ℂ) ∧ ∀ i < num, s.get [p, i] = f p i := by
    intro num
    by_cases h3 : 3 ≤ num
    · obtain ⟨w, f, h⟩ := odqd_states he hL V h3
      exact ⟨w, f, fun _ => h⟩
    · exact ⟨fun _ => 0, fun _ _ => 0, fun h => absurd h h3⟩
  choose w f hwf using hst
  have hfam : ∀ num ≥ 3, GridLimit.Fam V L num (w num) (f num) := fun num h3 => (hwf num h3).1
  obtain ⟨E, ψ, hE, hr, ht, hψ, hov⟩ := GridLimit.box_basis hL hV hfam
  have hov1 : ∀ k, Overlap L (fun x => (ψ k x : ℂ)) (fun x => (ψ k x : ℂ)) 1 := fun k => by
    have := hov k k
    rwa [if_pos rfl] at this
  have hnear := GridLimit.functions_near hL hV hfam ht hψ hov1
  set θ : ℕ → ℕ → ℂ := fun num k => phase (dx L num * ∑ j ∈ Finset.range (num - 1),
    (ψ k (-L + j * dx L num) : ℂ) * f num k j) with hθd
  have hθ : ∀ num k, ‖θ num k‖ = 1 := fun num k => norm_phase _
  refine ⟨E, ψ, θ, hE, hr, hψ, fun p q => ?_, hθ, fun k ε hε => ?_, fun p q beta ε hε => ?_,
    fun p q r s a alpha ε ha hε => ?_⟩
  · have := (hov p q).integral hL (Complex.continuous_ofReal.comp (hψ p).1).continuousOn
      (Complex.continuous_ofReal.comp (hψ q).1).continuousOn
    simp only [Complex.conj_ofReal, ← Complex.ofReal_mul, intervalIntegral.integral_ofReal] at this
    have h2 : ((if p = q then 1 else 0 : ℝ) : ℂ) = if p = q then 1 else 0 := by split <;> simp
    rw [← h2] at this
    exact_mod_cast this
  · obtain ⟨N, hN⟩ := eventually_atTop.1 (hnear k ε hε)
    refine ⟨max N 3, fun num hnum l hkl hl a alpha beta hm np sp an => ?_⟩
    obtain ⟨b, s, h, d, u, k1, k2, -, -, -, -, k6⟩ := (hwf num (by omega)).2 l hl a alpha beta hm np sp an
    refine ⟨b, s, k1, k2, fun i hi => ?_⟩
    rw [(k6 k hkl).2 i hi]
    exact hN num (by omega) i hi
  · obtain ⟨N, hN⟩ := eventually_atTop.1 (one_body_near hL (θ := fun num => θ num p) (η := fun num => θ num q)
      (fun num => hθ num p) (fun num => hθ num q) (hψ p).1 (hψ q).1 (W := fun x => x + beta * x ^ 2) (by fun_prop)
      (hnear p) (hnear q) hε)
    refine ⟨max N 3, fun num hnum l hp hq hl a alpha hm np sp an => ?_⟩
    obtain ⟨b, s, h, d, u, k1, -, -, k4, -, F, k6⟩ := (hwf num (by omega)).2 l hl a alpha beta hm np sp an
    refine ⟨b, d, k1, k4, ?_⟩
    rw [F.dipole p q hp hq, show (trapezoid num (fun i => -L + i * (2 * L / ((num : ℝ) - 1)))
      fun i => (starRingEnd ℂ) (s.get [p, i]) * (((-L + i * (2 * L / ((num : ℝ) - 1)))
        + beta * (-L + i * (2 * L / ((num : ℝ) - 1))) ^ 2 : ℝ) : ℂ) * s.get [q, i])
      = trapezoid num (fun i => -L + i * dx L num) fun i => (starRingEnd ℂ) (f num p i)
        * (((-L + i * dx L num) + beta * (-L + i * dx L num) ^ 2 : ℝ) : ℂ) * f num q i from by
      unfold trapezoid
      refine Finset.sum_congr rfl fun i hi => ?_
      have hi := Finset.mem_range.1 hi
      dsimp only
      rw [(k6 p hp).2 i (by omega), (k6 q hq).2 i (by omega), (k6 p hp).2 (i + 1) (by omega),
        (k6 q hq).2 (i + 1) (by omega)]
      rfl]
    exact hN num (by omega)
  · obtain ⟨N, hN⟩ := eventually_atTop.1 (two_body_near hL hθ (fun k => (hψ k).1) hnear p q r s alpha ha hε)
    refine ⟨max N 3, fun num hnum l hp hq hr hs hl beta hm np sp an => ?_⟩
    obtain ⟨b, t, h, d, u, k1, -, -, -, k5, F, k6⟩ := (hwf num (by omega)).2 l hl a alpha beta hm np sp an
    refine ⟨b, u, k1, k5, ?_⟩
    rw [F.coulomb p q r s hp hq hr hs, show coulombSum num (fun i => -L + i * (2 * L / ((num : ℝ) - 1)))
      (fun p i => t.get [p, i]) alpha a p q r s = coulombSum num (fun i => -L + i * dx L num) (f num) alpha a p q r s from by
      unfold coulombSum trapezoid
      refine Finset.sum_congr rfl fun i hi => ?_
      have hi := Finset.mem_range.1 hi
      dsimp only
      rw [(k6 p hp).2 i (by omega), (k6 r hr).2 i (by omega), (k6 p hp).2 (i + 1) (by omega),
        (k6 r hr).2 (i + 1) (by omega)]
      have hsum : ∀ g g' : ℕ → ℂ, (∀ j < num, g j = g' j) → (∑ j ∈ Finset.range (num - 1),
          ((-L + ((j + 1 : ℕ) : ℝ) * (2 * L / ((num : ℝ) - 1)) - (-L + j * (2 * L / ((num : ℝ) - 1))) : ℝ) : ℂ)
            * ((g j + g (j + 1)) / 2)) = ∑ j ∈ Finset.range (num - 1),
          ((-L + ((j + 1 : ℕ) : ℝ) * dx L num - (-L + j * dx L num) : ℝ) : ℂ) * ((g' j + g' (j + 1)) / 2) := by
        intro g g' hg
        refine Finset.sum_congr rfl fun j hj => ?_
        have hj := Finset.mem_range.1 hj
        rw [hg j (by omega), hg (j + 1) (by omega)]
        rfl
      have hA : ∀ i : ℕ, ∀ j < num, (starRingEnd ℂ) (f num p i) * (starRingEnd ℂ) (t.get [q, j])
          * ((alpha / Real.sqrt (((-L + i * (2 * L / ((num : ℝ) - 1))) - (-L + j * (2 * L / ((num : ℝ) - 1)))) ^ 2
            + a ^ 2) : ℝ) : ℂ) * f num r i * t.get [s, j]
          = (starRingEnd ℂ) (f num p i) * (starRingEnd ℂ) (f num q j)
          * ((alpha / Real.sqrt (((-L + i * dx L num) - (-L + j * dx L num)) ^ 2 + a ^ 2) : ℝ) : ℂ)
            * f num r i * f num s j := fun i j hj => by
        rw [(k6 q hq).2 j hj, (k6 s hs).2 j hj]
        rfl
      have h1 := hsum _ _ (hA i)
      have h2 := hsum _ _ (hA (i + 1))
      rw [h1, h2]
      rfl]
    exact hN num (by omega)

/-- **C116** What does not depend on the phases that `eigh` chooses: the permanent dipole moments and the direct and
exchange integrals tend to those of the states of the box. -/
theorem C116_phase_free {eigh : NDArray ℂ → Except PyErr (NDArray ℂ × NDArray ℂ)} (he : IsEigh eigh) {L : ℝ}
    (hL : 0 < L) {V : ℝ → ℝ} (hV : ContinuousOn V (Set.Icc (-L) L)) :
    ∃ (E : ℕ → ℝ) (ψ : ℕ → ℝ → ℝ), StrictMono E ∧ (∀ e, BoxLevel V L e ↔ ∃ k, E k = e) ∧
      (∀ k, Continuous (ψ k) ∧ BoxState V L (E k) (ψ k)) ∧
      (∀ p q, ∫ x in (-L)..L, ψ p x * ψ q x = if p = q then 1 else 0) ∧
      (∀ (p : ℕ) (beta ε : ℝ), 0 < ε → ∃ N : ℕ, ∀ num ≥ N, ∀ l, p < l → l ≤ num - 2 →
        ∀ (a alpha : ℝ) (hm : Bool) (np : Module) (sp an : Bool),
          ∃ b d, odqd eigh l L num a alpha beta V hm np sp an = .ok b ∧ b.dipole = some d ∧
            ‖d.get [0, p, p] - ((∫ x in (-L)..L, ψ p x * (x + beta * x ^ 2) * ψ p x : ℝ) : ℂ)‖ ≤ ε) ∧
      ∀ (p q : ℕ) (a alpha ε : ℝ), a ≠ 0 → 0 < ε → ∃ N : ℕ, ∀ num ≥ N, ∀ l, p < l → q < l →
        l ≤ num - 2 → ∀ (beta : ℝ) (hm : Bool) (np : Module) (sp an : Bool),
          ∃ b u, odqd eigh l L num a alpha beta V hm np sp an = .ok b ∧ b.u = some u ∧
            ‖u.get [p, q, p, q] - ((∫ x in (-L)..L, ∫ y in (-L)..L,
                ψ p x * ψ q y * (alpha / Real.sqrt ((x - y) ^ 2 + a ^ 2)) * ψ p x * ψ q y : ℝ) : ℂ)‖ ≤ ε ∧
            ‖u.get [p, q, q, p] - ((∫ x in (-L)..L, ∫ y in (-L)..L,
                ψ p x * ψ q y * (alpha / Real.sqrt ((x - y) ^ 2 + a ^ 2)) * ψ q x * ψ p y : ℝ) : ℂ)‖ ≤ ε := by
  obtain ⟨E, ψ, θ, h1, h2, h3, h4, hθ, -, hd, hu⟩ := C116_converge he hL hV
  have hone : ∀ z : ℂ, ‖z‖ = 1 → (starRingEnd ℂ) z * z = 1 := fun z hz => by
    rw [Complex.conj_mul', hz]
    norm_num
  refine ⟨E, ψ, h1, h2, h3, h4, fun p beta ε hε => ?_, fun p q a alpha ε ha hε => ?_⟩
  · obtain ⟨N, hN⟩ := hd p p beta ε hε
    refine ⟨N, fun num hn l hp hl a alpha hm np sp an => ?_⟩
    have := hN num hn l hp hp hl a alpha hm np sp an
    rwa [hone _ (hθ num p), one_mul] at this
  · obtain ⟨N, hN⟩ := hu p q p q a alpha ε ha hε
    obtain ⟨N', hN'⟩ := hu p q q p a alpha ε ha hε
    refine ⟨max N N', fun num hn l hp hq hl beta hm np sp an => ?_⟩
    obtain ⟨b, u, k1, k2, k3⟩ := hN num (by omega) l hp hq hp hq hl beta hm np sp an
    obtain ⟨b', u', g1, g2, g3⟩ := hN' num (by omega) l hp hq hq hp hl beta hm np sp an
    obtain rfl : b = b' := Except.ok.inj (k1.symm.trans g1)
    obtain rfl : u = u' := Option.some.inj (k2.symm.trans g2)
    have hm : ‖θ num p * θ num q‖ = 1 := by rw [norm_mul, hθ, hθ, one_mul]
    refine ⟨b, u, k1, k2, ?_, ?_⟩
    · rwa [hone _ hm, one_mul] at k3
    · rwa [mul_comm (θ num q) (θ num p), hone _ hm, one_mul] at g3

/-- Example: the repulsion of two particles in the ground state of a double well converges to that of the box. -/
example {eigh : NDArray ℂ → Except PyErr (NDArray ℂ × NDArray ℂ)} (he : IsEigh eigh) : ∃ (e : ℝ) (ψ : ℝ → ℝ),
    BoxState (fun x => (x ^ 2 - 1) ^ 2) 3 e ψ ∧ (∀ e', BoxLevel (fun x => (x ^ 2 - 1) ^ 2) 3 e' → e ≤ e') ∧
    ∀ ε > 0, ∃ N : ℕ, ∀ num ≥ N, 2 ≤ num - 2 → ∃ b u, odqd eigh 2 3 num 0.25 1 0 (fun x => (x ^ 2 - 1) ^ 2) false 0
      false false = .ok b ∧ b.u = some u ∧ ‖u.get [0, 0, 0, 0] - ((∫ x in (-3)..3, ∫ y in (-3)..3,
        ψ x * ψ y * (1 / Real.sqrt ((x - y) ^ 2 + 0.25 ^ 2)) * ψ x * ψ y : ℝ) : ℂ)‖ ≤ ε := by
  obtain ⟨E, ψ, h1, h2, h3, -, -, h6⟩ := C116_phase_free he (L := 3) (by norm_num) (V := fun x => (x ^ 2 - 1) ^ 2)
    (by fun_prop)
  refine ⟨E 0, ψ 0, (h3 0).2, fun e' he' => ?_, fun ε hε => ?_⟩
  · obtain ⟨k, rfl⟩ := (h2 e').1 he'
    exact h1.monotone (Nat.zero_le k)
  · obtain ⟨N, hN⟩ := h6 0 0 0.25 1 ε (by norm_num) hε
    refine ⟨N, fun num hn hl => ?_⟩
    obtain ⟨b, u, k1, k2, k3, -⟩ := hN num hn 2 (by norm_num) (by norm_num) hl 0 false 0 false false
    exact ⟨b, u, k1, k2, k3⟩

end QS.Props
