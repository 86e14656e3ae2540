import Verif.Lemmas.GridSpectrum
import Verif.Props.GridEnergies
import Verif.Model.Potentials
import Mathlib.Analysis.SpecialFunctions.Trigonometric.DerivHyp

/-!
# The energies of the one-dimensional quantum dots converge (C115)
-/

namespace QS.Props

open OneDim NDArray Spec BasisSet PyM Filter Topology

/-- The states of one grid, and all `ODQD` objects on it. -/
theorem odqd_states {eigh : NDArray ℂ → Except PyErr (NDArray ℂ × NDArray ℂ)} (he : IsEigh eigh) {L : ℝ} (hL : 0 < L)
    (V : ℝ → ℝ) {num : ℕ} (h3 : 3 ≤ num) : ∃ w f, GridLimit.Fam V L num w f ∧
      ∀ l ≤ num - 2, ∀ (a alpha beta : ℝ) (hm : Bool) (np : Module) (sp an : Bool),
        ∃ b s h d u, odqd eigh l L num a alpha beta V hm np sp an = .ok b ∧ b.spf = some s ∧ b.h = some h ∧
          b.dipole = some d ∧ b.u = some u ∧ OdqdFacts l num L a alpha beta V s h d u ∧
          ∀ p < l, h.get [p, p] = (w p : ℂ) ∧ ∀ i < num, s.get [p, i] = f p i := by
  obtain ⟨w, v, hwv, hE⟩ := he (num - 2) (gridMatrix V L num) rfl (gridMatrix_herm V L num)
  have hdx : 0 < GridLimit.dx L num := GridLimit.dx_pos hL (by omega)
  set dx := GridLimit.dx L num with hd
  have hs : (Real.sqrt dx : ℂ) ≠ 0 := by exact_mod_cast (Real.sqrt_pos.2 hdx).ne'
  have hss : (Real.sqrt dx : ℂ) * Real.sqrt dx = dx := by rw [← Complex.ofReal_mul, Real.mul_self_sqrt hdx.le]
  have hreal : ∀ p, w.get [p] = (((w.get [p]).re : ℝ) : ℂ) := fun p => Complex.ext rfl (hE.real _)
  set f : ℕ → ℕ → ℂ := fun p i => if 1 ≤ i ∧ i < num - 1 then v.get [i - 1, p] / (Real.sqrt dx : ℂ) else 0 with hf
  have hf0 : ∀ p, f p 0 = 0 := fun p => if_neg (by omega)
  have hf1 : ∀ p, f p (num - 1) = 0 := fun p => if_neg (by omega)
  have hfk : ∀ p k, k < num - 2 → f p (k + 1) = v.get [k, p] / (Real.sqrt dx : ℂ) := fun p k hk => by
    simp only [hf]
    rw [if_pos (by omega), Nat.add_sub_cancel]
  refine ⟨fun p => (w.get [p]).re, f, ⟨fun p _ => hf0 p, fun p _ => hf1 p, fun p hp i hi1 hi2 => ?_,
    fun p q hpq hq => hE.sorted p q hpq hq, fun p q hp hq => ?_, fun y E h0 h1 => ?_⟩,
    fun l hl a alpha beta hm np sp an => ?_⟩
  · obtain ⟨k, rfl⟩ : ∃ k, i = k + 1 := ⟨i - 1, by omega⟩
    have hk : k < num - 2 := by omega
    have := gridMatrix_apply V L hk (f p) (hf0 p) (hf1 p)
    refine this.symm.trans ?_
    rw [← hreal, hfk p k hk, mul_div_assoc', ← hE.eigen p k hp hk, Finset.sum_div]
    refine Finset.sum_congr rfl fun j hj => ?_
    rw [hfk p j (Finset.mem_range.1 hj), mul_div_assoc]
  · rw [← hE.orthonormal p q hp hq, Finset.mul_sum]
    refine Finset.sum_congr rfl fun k hk => ?_
    have hk := Finset.mem_range.1 hk
    rw [hfk p k hk, hfk q k hk, map_div₀, Complex.conj_ofReal, ← hss]
    field_simp
  · obtain ⟨p, hp, hr⟩ := FiniteDifference.residual (by omega : 0 < num - 2) hE (gridMatrix_herm V L num)
      (fun k => y (k + 1)) E
    refine ⟨p, hp, ?_⟩
    rw [hreal, ← Complex.ofReal_sub, Complex.norm_real, Real.norm_eq_abs] at hr
    refine hr.trans (le_of_eq (Finset.sum_congr rfl fun k hk => ?_))
    rw [gridMatrix_apply V L (Finset.mem_range.1 hk) y h0 h1]
    rfl
  · obtain ⟨b, s, h, d, u, k1, k2, k3, k4, k5, F⟩ := odqd_facts he hL h3 hl a alpha beta V hm np sp an
    obtain ⟨b', H, w', v', g1, hH, hw', -, hb, hh, -⟩ := odqd_ok' he L h3 hl a alpha beta V hm np sp an
    have : (w', v') = (w, v) := by
      rw [hH] at hw'
      exact Except.ok.inj (hw'.symm.trans hwv)
    obtain ⟨rfl, rfl⟩ := Prod.mk.inj this
    obtain rfl : b' = b := Except.ok.inj (g1.symm.trans k1)
    refine ⟨b', s, h, d, u, k1, k2, k3, k4, k5, F, fun p hp => ⟨?_, fun i hi => ?_⟩⟩
    · rw [k3] at hh
      cases hh
      rw [ofFn_get_of (by exact ⟨hp, hp, trivial⟩)]
      exact (if_pos rfl).trans (hreal p)
    · have hse := hb.spf_eq
      rw [k2] at hse
      cases hse
      have hdd : (L - -L) / ((num : ℝ) - 1) = dx := by rw [hd]; unfold GridLimit.dx; ring
      rw [hdd, odqdSpf_get dx v' hp hi]

/-- **C115** For a potential that is continuous on `[-L, L]` the energies of the Schrödinger equation with zero boundary
values form a strictly increasing sequence `E`, and the `k`-th diagonal element of `h` of every `ODQD` object with more
than `k` functions tends to `E k` when the number of grid points grows. -/
theorem C115_converge {eigh : NDArray ℂ → Except PyErr (NDArray ℂ × NDArray ℂ)} (he : IsEigh eigh) {L : ℝ}
    (hL : 0 < L) {V : ℝ → ℝ} (hV : ContinuousOn V (Set.Icc (-L) L)) : ∃ E : ℕ → ℝ, StrictMono E ∧
      (∀ e, BoxLevel V L e ↔ ∃ k, E k = e) ∧ ∀ (k : ℕ) (ε : ℝ), 0 < ε → ∃ N : ℕ, ∀ num ≥ N, ∀ l, k < l → l ≤ num - 2 →
        ∀ (a alpha beta : ℝ) (hm : Bool) (np : Module) (sp an : Bool),
          ∃ b h, odqd eigh l L num a alpha beta V hm np sp an = .ok b ∧ b.h = some h ∧ ‖h.get [k, k] - E k‖ ≤ ε := by
  have hst : ∀ num : ℕ, ∃ w f, 3 ≤ num → GridLimit.Fam V L num w f ∧
      ∀ l ≤ num - 2, ∀ (a alpha beta : ℝ) (hm : Bool) (np : Module) (sp an : Bool),
        ∃ b s h d u, odqd eigh l L num a alpha beta V hm np sp an = .ok b ∧ b.spf = some s ∧ b.h = some h ∧
          b.dipole = some d ∧ b.u = some u ∧ OdqdFacts l num L a alpha beta V s h d u ∧
          ∀ p < l, h.get [p, p] = (w p : ℂ) ∧ ∀ i < num, s.get [p, i] = f p i := by
    intro num
    by_cases h3 : 3 ≤ num
    · obtain ⟨w, f, h⟩ := odqd_states he hL V h3
      exact ⟨w, f, fun _ => h⟩
    · exact ⟨fun _ => 0, fun _ _ => 0, fun h => absurd h h3⟩
  choose w f hwf using hst
  obtain ⟨E, hm, hr, ht⟩ := GridLimit.levels_tendsto hL hV (w := w) (f := f) fun num h3 => (hwf num h3).1
  refine ⟨E, hm, fun e => (Set.ext_iff.1 hr e).symm, fun k ε hε => ?_⟩
  obtain ⟨N, hN⟩ := Metric.tendsto_atTop.1 (ht k) ε hε
  refine ⟨max N 3, fun num hnum l hkl hl a alpha beta hm np sp an => ?_⟩
  obtain ⟨b, s, h, d, u, k1, -, k3, -, -, -, k6⟩ := (hwf num (by omega)).2 l hl a alpha beta hm np sp an
  refine ⟨b, h, k1, k3, ?_⟩
  have := hN num (by omega)
  rw [Real.dist_eq] at this
  rw [(k6 k hkl).1, ← Complex.ofReal_sub, Complex.norm_real, Real.norm_eq_abs]
  exact this.le

/-- **C115** Whatever increasing sequence lists the energies of the box, the diagonal of `h` tends to it. -/
theorem C115_levels {eigh : NDArray ℂ → Except PyErr (NDArray ℂ × NDArray ℂ)} (he : IsEigh eigh) {L : ℝ}
    (hL : 0 < L) {V : ℝ → ℝ} (hV : ContinuousOn V (Set.Icc (-L) L)) {E : ℕ → ℝ} (hE : StrictMono E)
    (hall : ∀ e, BoxLevel V L e ↔ ∃ k, E k = e) (k : ℕ) {ε : ℝ} (hε : 0 < ε) : ∃ N : ℕ, ∀ num ≥ N, ∀ l, k < l →
      l ≤ num - 2 → ∀ (a alpha beta : ℝ) (hm : Bool) (np : Module) (sp an : Bool),
        ∃ b h, odqd eigh l L num a alpha beta V hm np sp an = .ok b ∧ b.h = some h ∧ ‖h.get [k, k] - E k‖ ≤ ε := by
  obtain ⟨E', hE', hall', h⟩ := C115_converge he hL hV
  have : E = E' := (StrictMono.range_inj hE hE').1 (Set.ext fun e => (hall e).symm.trans (hall' e))
  rw [this]
  exact h k ε hε

/-- The potentials of the package are continuous on `[-L, L]`, except the Gaussian with a hard wall inside the box and the
atomic potential without softening. -/
theorem potential_continuousOn (P : Potentials.Potential) (L : ℝ)
    (hwall : ∀ wt c dv xw, P = .gaussianHardWall wt c dv xw → xw < 0 ∨ L ≤ xw) (hat : ∀ Za c, P = .atomic Za c → 0 < c) :
    ContinuousOn P.call (Set.Icc (-L) L) := by
  have hg : ∀ wt c dv, Continuous (Potentials.gaussianCall wt c dv) := fun wt c dv => by
    unfold Potentials.gaussianCall
    simp only [div_eq_mul_inv]
    fun_prop
  cases P with
  | ho omega =>
    refine Continuous.continuousOn ?_
    show Continuous fun x => Potentials.hoCall omega x
    unfold Potentials.hoCall
    fun_prop
  | dw omega l =>
    refine Continuous.continuousOn ?_
    show Continuous fun x => Potentials.hoCall omega x + 0.5 * omega ^ 2 * (0.25 * l ^ 2 - l * |x|)
    unfold Potentials.hoCall
    fun_prop
  | dwSmooth a =>
    refine Continuous.continuousOn ?_
    show Continuous fun x => (1.0 / (2 * a ^ 2)) * (x + 0.5 * a) ^ 2 * (x - 0.5 * a) ^ 2
    fun_prop
  | symmetricDW a b c =>
    refine Continuous.continuousOn ?_
    show Continuous fun x => a * x ^ 6 + b * x ^ 4 + c * x ^ 2
    fun_prop
  | asymmetricDW a b c =>
    refine Continuous.continuousOn ?_
    show Continuous fun x => a * x ^ 4 + b * x ^ 3 + c * x ^ 2
    fun_prop
  | gaussian wt c dv => exact (hg wt c dv).continuousOn
  | gaussianHardWall wt c dv xw =>
    rcases hwall wt c dv xw rfl with h | h
    · refine ((hg wt c dv).add (continuous_const (y := (1e5 : ℝ)))).continuousOn.congr fun x _ => ?_
      show _ + (if |x| > xw then (1e5 : ℝ) else 0) = _
      rw [if_pos (h.trans_le (abs_nonneg x))]
      rfl
    · refine (hg wt c dv).continuousOn.congr fun x hx => ?_
      show _ + (if |x| > xw then (1e5 : ℝ) else 0) = _
      rw [if_neg (not_lt.2 ((abs_le.2 hx).trans h)), add_zero]
  | atomic Za c =>
    have hc := hat Za c rfl
    refine Continuous.continuousOn ?_
    show Continuous fun x => -Za / Real.sqrt (x ^ 2 + c)
    refine continuous_const.div (by fun_prop) fun x => (Real.sqrt_pos.2 (by positivity)).ne'

/-- **C115** With the potentials of the package. -/
theorem C115_potentials {eigh : NDArray ℂ → Except PyErr (NDArray ℂ × NDArray ℂ)} (he : IsEigh eigh) {L : ℝ}
    (hL : 0 < L) (P : Potentials.Potential)
    (hwall : ∀ wt c dv xw, P = .gaussianHardWall wt c dv xw → xw < 0 ∨ L ≤ xw) (hat : ∀ Za c, P = .atomic Za c → 0 < c) :
    ∃ E : ℕ → ℝ, StrictMono E ∧ (∀ e, BoxLevel P.call L e ↔ ∃ k, E k = e) ∧
      ∀ (k : ℕ) (ε : ℝ), 0 < ε → ∃ N : ℕ, ∀ num ≥ N, ∀ l, k < l → l ≤ num - 2 →
        ∀ (a alpha beta : ℝ) (hm : Bool) (np : Module) (sp an : Bool),
          ∃ b h, odqd eigh l L num a alpha beta P.call hm np sp an = .ok b ∧ b.h = some h ∧ ‖h.get [k, k] - E k‖ ≤ ε :=
  C115_converge he hL (potential_continuousOn P L hwall hat)

/-- The energies of a particle in an empty box. -/
theorem empty_box {L : ℝ} (hL : 0 < L) (e : ℝ) :
    BoxLevel (fun _ => 0) L e ↔ ∃ k : ℕ, ((k + 1) * Real.pi / (2 * L)) ^ 2 / 2 = e := by
  constructor
  · rintro ⟨ψ, hl, hr, hne, ψ', ψ'', hψ⟩
    have hq : ∀ x ∈ Set.Icc (-L) L, ψ'' x = -2 * e * ψ x := fun x hx => by linarith [(hψ x hx).2.2]
    have hsol : GridLimit.Solution (fun _ => 0) L e (fun x => (ψ x : ℂ)) (fun x => (ψ' x : ℂ)) := by
      refine ⟨by simp [hl], by simp [hr], fun x hx => (hψ x hx).1.ofReal_comp, fun x hx => ?_⟩
      refine (hψ x hx).2.1.ofReal_comp.congr_deriv ?_
      rw [hq x hx]
      push_cast
      ring
    have hzero : ∀ {F G : ℝ → ℂ}, F (-L) = 0 → (∀ x ∈ Set.Icc (-L) L, HasDerivWithinAt F (G x) (Set.Icc (-L) L) x) →
        (∀ x ∈ Set.Icc (-L) L, HasDerivWithinAt G (2 * (((0 : ℝ) : ℂ) - e) * F x) (Set.Icc (-L) L) x) →
        G (-L) = ψ' (-L) → ∀ x ∈ Set.Icc (-L) L, (ψ x : ℂ) = F x := by
      intro F G h0 h1 h2 h3 x hx
      have := GridLimit.solution_zero (V := fun _ => 0) (μ := e) continuousOn_const (F := fun x => (ψ x : ℂ) - F x)
        (G := fun x => (ψ' x : ℂ) - G x) (by simp [hl, h0]) (by simp [h3])
        (fun x hx => (hsol.deriv x hx).sub (h1 x hx))
        (fun x hx => ((hsol.eq x hx).sub (h2 x hx)).congr_deriv (by ring)) hx
      exact sub_eq_zero.1 this
    have hle : -L ≤ L := by linarith
    rcases lt_trichotomy e 0 with hneg | h0 | hpos
    · exfalso
      set c := Real.sqrt (-2 * e) with hc
      have hc0 : 0 < c := Real.sqrt_pos.2 (by linarith)
      have hc2 : c * c = -2 * e := Real.mul_self_sqrt (by linarith)
      have hlin : ∀ x : ℝ, HasDerivAt (fun x => c * (x + L)) c x := fun x => by
        simpa using ((hasDerivAt_id x).add_const L).const_mul c
      have hz := hzero (F := fun x => ((ψ' (-L) / c * Real.sinh (c * (x + L)) : ℝ) : ℂ))
        (G := fun x => ((ψ' (-L) * Real.cosh (c * (x + L)) : ℝ) : ℂ)) (by simp)
        (fun x _ => by
          refine ((((hlin x).sinh).const_mul (ψ' (-L) / c)).ofReal_comp.congr_deriv ?_).hasDerivWithinAt
          congr 1
          field_simp)
        (fun x _ => by
          refine ((((hlin x).cosh).const_mul (ψ' (-L))).ofReal_comp.congr_deriv ?_).hasDerivWithinAt
          rw [← Complex.ofReal_sub, ← Complex.ofReal_ofNat, ← Complex.ofReal_mul, ← Complex.ofReal_mul]
          congr 1
          rw [show 2 * (0 - e) = c * c by rw [hc2]; ring]
          field_simp) (by simp)
      have hL1 := hz L ⟨hle, le_rfl⟩
      rw [hr, Complex.ofReal_inj] at hL1
      have hs : Real.sinh (c * (L + L)) ≠ 0 := (Real.sinh_pos_iff.2 (by positivity)).ne'
      have hp : ψ' (-L) = 0 := by
        have := mul_eq_zero.1 hL1.symm
        rcases this with h | h
        · exact (div_eq_zero_iff.1 h).resolve_right hc0.ne'
        · exact absurd h hs
      obtain ⟨x, hx, hx'⟩ := hne
      apply hx'
      have := hz x hx
      rw [Complex.ofReal_inj, hp, zero_div, zero_mul] at this
      exact this
    · exfalso
      have hlin : ∀ x : ℝ, HasDerivAt (fun x => ψ' (-L) * (x + L)) (ψ' (-L)) x := fun x => by
        simpa using ((hasDerivAt_id x).add_const L).const_mul (ψ' (-L))
      have hz := hzero (F := fun x => ((ψ' (-L) * (x + L) : ℝ) : ℂ)) (G := fun _ => ((ψ' (-L) : ℝ) : ℂ)) (by simp)
        (fun x _ => (hlin x).ofReal_comp.hasDerivWithinAt)
        (fun x _ => by rw [h0]; simpa using hasDerivWithinAt_const x (Set.Icc (-L) L) ((ψ' (-L) : ℝ) : ℂ)) rfl
      have hL1 := hz L ⟨hle, le_rfl⟩
      rw [hr, Complex.ofReal_inj] at hL1
      have hp : ψ' (-L) = 0 := by
        rcases mul_eq_zero.1 hL1.symm with h | h
        · exact h
        · linarith
      obtain ⟨x, hx, hx'⟩ := hne
      apply hx'
      have := hz x hx
      rw [Complex.ofReal_inj, hp, zero_mul] at this
      exact this
    · set c := Real.sqrt (2 * e) with hc
      have hc0 : 0 < c := Real.sqrt_pos.2 (by linarith)
      have hc2 : c * c = 2 * e := Real.mul_self_sqrt (by linarith)
      have hlin : ∀ x : ℝ, HasDerivAt (fun x => c * (x + L)) c x := fun x => by
        simpa using ((hasDerivAt_id x).add_const L).const_mul c
      have hz := hzero (F := fun x => ((ψ' (-L) / c * Real.sin (c * (x + L)) : ℝ) : ℂ))
        (G := fun x => ((ψ' (-L) * Real.cos (c * (x + L)) : ℝ) : ℂ)) (by simp)
        (fun x _ => by
          refine ((((hlin x).sin).const_mul (ψ' (-L) / c)).ofReal_comp.congr_deriv ?_).hasDerivWithinAt
          congr 1
          field_simp)
        (fun x _ => by
          refine ((((hlin x).cos).const_mul (ψ' (-L))).ofReal_comp.congr_deriv ?_).hasDerivWithinAt
          rw [← Complex.ofReal_sub, ← Complex.ofReal_ofNat, ← Complex.ofReal_mul, ← Complex.ofReal_mul]
          congr 1
          rw [show 2 * (0 - e) = -(c * c) by rw [hc2]; ring]
          field_simp) (by simp)
      have hL1 := hz L ⟨hle, le_rfl⟩
      rw [hr, Complex.ofReal_inj] at hL1
      have hp : ψ' (-L) ≠ 0 := fun hp => by
        obtain ⟨x, hx, hx'⟩ := hne
        apply hx'
        have := hz x hx
        rw [Complex.ofReal_inj, hp, zero_div, zero_mul] at this
        exact this
      have hs : Real.sin (c * (L + L)) = 0 := (mul_eq_zero.1 hL1.symm).resolve_left (div_ne_zero hp hc0.ne')
      obtain ⟨n, hn⟩ := Real.sin_eq_zero_iff.1 hs
      have hn0 : 0 < n := by
        have h1 : 0 < (n : ℝ) * Real.pi := by rw [hn]; positivity
        have h2 : (0 : ℝ) < n := by
          by_contra hcon
          nlinarith [Real.pi_pos, not_lt.1 hcon]
        exact_mod_cast h2
      obtain ⟨k, hk⟩ : ∃ k : ℕ, n = k + 1 := ⟨(n - 1).toNat, by omega⟩
      refine ⟨k, ?_⟩
      have : ((k : ℝ) + 1) * Real.pi / (2 * L) = c := by
        rw [hk] at hn
        push_cast at hn
        rw [hn]
        field_simp
        ring
      rw [this, sq, hc2]
      ring
  · rintro ⟨k, rfl⟩
    set c := ((k : ℝ) + 1) * Real.pi / (2 * L) with hc
    have hc0 : 0 < c := by positivity
    have hcL : c * (2 * L) = ((k + 1 : ℕ) : ℝ) * Real.pi := by rw [hc]; push_cast; field_simp
    have hlin : ∀ x : ℝ, HasDerivAt (fun x => c * (x + L)) c x := fun x => by
      simpa using ((hasDerivAt_id x).add_const L).const_mul c
    refine ⟨fun x => Real.sin (c * (x + L)), by simp, ?_, ⟨-L + Real.pi / (2 * c), ⟨?_, ?_⟩, ?_⟩,
      fun x => Real.cos (c * (x + L)) * c, fun x => -Real.sin (c * (x + L)) * c * c,
      fun x _ => ⟨(hlin x).sin.hasDerivWithinAt, ((hlin x).cos.mul_const c).hasDerivWithinAt, by ring⟩⟩
    · show Real.sin (c * (L + L)) = 0
      rw [show c * (L + L) = ((k + 1 : ℕ) : ℝ) * Real.pi by rw [← hcL]; ring]
      exact Real.sin_nat_mul_pi _
    · linarith [div_pos Real.pi_pos (by linarith : 0 < 2 * c)]
    · have : Real.pi / (2 * c) ≤ 2 * L := by
        rw [div_le_iff₀ (by linarith)]
        have h1 : (1 : ℝ) ≤ ((k + 1 : ℕ) : ℝ) := by exact_mod_cast (by omega : 1 ≤ k + 1)
        nlinarith [Real.pi_pos]
      linarith
    · show Real.sin (c * (-L + Real.pi / (2 * c) + L)) ≠ 0
      rw [show c * (-L + Real.pi / (2 * c) + L) = Real.pi / 2 by field_simp; ring, Real.sin_pi_div_two]
      exact one_ne_zero

/-- **C115** Without a potential the `k`-th energy tends to `(k + 1)² π² / (8 L²)`. -/
theorem C115_empty_box {eigh : NDArray ℂ → Except PyErr (NDArray ℂ × NDArray ℂ)} (he : IsEigh eigh) {L : ℝ}
    (hL : 0 < L) (k : ℕ) {ε : ℝ} (hε : 0 < ε) : ∃ N : ℕ, ∀ num ≥ N, ∀ l, k < l → l ≤ num - 2 →
      ∀ (a alpha beta : ℝ) (hm : Bool) (np : Module) (sp an : Bool),
        ∃ b h, odqd eigh l L num a alpha beta (fun _ => 0) hm np sp an = .ok b ∧ b.h = some h ∧
          ‖h.get [k, k] - (((k + 1) ^ 2 * Real.pi ^ 2 / (8 * L ^ 2) : ℝ) : ℂ)‖ ≤ ε := by
  have := C115_levels he hL (V := fun _ => 0) continuousOn_const (E := fun k : ℕ => ((k + 1) * Real.pi / (2 * L)) ^ 2 / 2)
    (fun i j hij => by
      have h1 : (i : ℝ) < j := by exact_mod_cast hij
      have h2 : ((i : ℝ) + 1) * Real.pi / (2 * L) < ((j : ℝ) + 1) * Real.pi / (2 * L) := by
        refine div_lt_div_of_pos_right (mul_lt_mul_of_pos_right (by linarith) Real.pi_pos) (by linarith)
      have h3 : (0 : ℝ) ≤ ((i : ℝ) + 1) * Real.pi / (2 * L) := by positivity
      show _ / 2 < _ / 2
      have := pow_lt_pow_left₀ h2 h3 two_ne_zero
      linarith) (empty_box hL) k hε
  have e : ((k + 1) * Real.pi / (2 * L)) ^ 2 / 2 = (k + 1) ^ 2 * Real.pi ^ 2 / (8 * L ^ 2) := by
    field_simp
    ring
  simpa only [e] using this

/-- Example: the two lowest energies of `ODQD` with the double well `(x² - 1)²` in the box `[-3, 3]` converge to
different energies of the box. -/
example {eigh : NDArray ℂ → Except PyErr (NDArray ℂ × NDArray ℂ)} (he : IsEigh eigh) : ∃ e₀ e₁ : ℝ, e₀ < e₁ ∧
    BoxLevel (fun x => (x ^ 2 - 1) ^ 2) 3 e₀ ∧ BoxLevel (fun x => (x ^ 2 - 1) ^ 2) 3 e₁ ∧
    ∀ ε > 0, ∃ N : ℕ, ∀ num ≥ N, 2 ≤ num - 2 → ∃ b h, odqd eigh 2 3 num 1 1 0 (fun x => (x ^ 2 - 1) ^ 2) false 0
      false false = .ok b ∧ b.h = some h ∧ ‖h.get [1, 1] - e₁‖ ≤ ε := by
  obtain ⟨E, h1, h2, h3⟩ := C115_converge he (L := 3) (by norm_num) (V := fun x => (x ^ 2 - 1) ^ 2) (by fun_prop)
  refine ⟨E 0, E 1, h1 (by norm_num), (h2 _).2 ⟨0, rfl⟩, (h2 _).2 ⟨1, rfl⟩, fun ε hε => ?_⟩
  obtain ⟨N, hN⟩ := h3 1 ε hε
  exact ⟨N, fun num hn hl => hN num hn 2 (by norm_num) hl 1 1 0 false 0 false false⟩

end QS.Props
