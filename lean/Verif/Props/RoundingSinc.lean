import Verif.Lemmas.RoundingSinc
import Verif.Props.RoundingEnergies
import Verif.Lemmas.SincDvr
import Verif.Props.RoundingLine
import Verif.Props.SincIntegral
import Verif.Props.Levels

/-!
# Property C156: rounding errors of the elements of `ODSincDVR`
-/

namespace QS.Props

open Finset Spec SincDvr NDArray BasisSet PyM QS.Rounding

theorem sinc_small {u : ℝ} (hu : 0 ≤ u) {l : ℕ} (h2 : 2 ≤ l) (hun : 72 * l * u ≤ 1) : u ≤ 1 / 144 := by
  have hl : (2 : ℝ) ≤ l := by exact_mod_cast h2
  nlinarith

/-- Rounding errors of one element of `h`. -/
theorem sincH_entry {u L : ℝ} (hu : 0 ≤ u) (hL : 0 < L) {l : ℕ} (h2 : 2 ≤ l) (hun : 72 * l * u ≤ 1) {V : ℝ → ℝ} {W ν : ℝ}
    (hW : ∀ p < l, |V (TwoDim.linspace (-L) L l p)| ≤ W) {x Vf : ℕ → ℝ} (hx : FloatLinspace u (-L) L l x)
    (hV : ∀ p < l, |Vf p - V (TwoDim.linspace (-L) L l p)| ≤ ν) {H : NDArray ℂ} (hH : FloatSincH u l x Vf H) {p q : ℕ}
    (hp : p < l) (hq : q < l) : ‖H.get [p, q] - (sincH l L V).get [p, q]‖ ≤
      if p = q then 180 * l * u / spacing l L ^ 2 + u * W + 2 * ν
      else 106 * l * u / spacing l L ^ 2 * (1 / ((p : ℝ) - q) ^ 2) := by
  obtain ⟨d, k, D, z, hd, hk, hD, hz, hH⟩ := hH
  have hu1 := sinc_small hu h2 hun
  have hu2 : u ≤ 1 / 2 := by linarith
  have hl : (2 : ℝ) ≤ l := by exact_mod_cast h2
  have hr := spacing_float hu hL h2 hun hx hd
  have hf := kinetic_factor hu h2 hun
  have hs := spacing_pos h2 hL
  rw [show 2 * L / ((l : ℝ) - 1) = spacing l L from rfl] at hr
  rw [hH p hp q hq, sincH, ofFn_get_of (by exact ⟨hp, hq, trivial⟩)]
  simp only [List.getD_cons_zero, List.getD_cons_succ]
  set e := spacing l L
  by_cases hpq : p = q
  · subst hpq
    rw [if_pos rfl, if_pos rfl, if_pos rfl, ← Complex.ofReal_add, ← Complex.ofReal_sub, Complex.norm_real, Real.norm_eq_abs]
    have hkr := (kinetic_ratio hu hu2 hr hk).abs_sub
    have b1 := near_real.1 (hD p hp)
    have b2 := hV p hp
    have b3 := hW p hp
    set y := V (TwoDim.linspace (-L) L l p)
    set k0 := Real.pi ^ 2 / (6 * e ^ 2) with hk0
    have k0p : 0 < k0 := by have := Real.pi_pos; positivity
    have hkr' := hkr.trans (mul_le_mul_of_nonneg_right hf k0p.le)
    have hν : 0 ≤ ν := (abs_nonneg _).trans b2
    have b4 : |k + Vf p| ≤ k0 + 106 * l * u * k0 + W + ν := by
      rw [show k + Vf p = k0 + (k - k0) + y + (Vf p - y) by ring]
      exact (abs_add_le _ _).trans (add_le_add ((abs_add_le _ _).trans (add_le_add ((abs_add_le _ _).trans
        (add_le_add (abs_of_nonneg k0p.le).le hkr')) b3)) b2)
    have b5 := mul_le_mul_of_nonneg_left b4 hu
    have b6 : |D p - (k0 + y)| ≤ |D p - (k + Vf p)| + |k - k0| + |Vf p - y| := by
      rw [show D p - (k0 + y) = D p - (k + Vf p) + (k - k0) + (Vf p - y) by ring]
      exact (abs_add_le _ _).trans (add_le_add (abs_add_le _ _) le_rfl)
    have b7 : u * (k0 + 106 * l * u * k0) ≤ 2 * l * u * k0 := by
      have : 1 + 106 * l * u ≤ 2 * l := by linarith
      calc _ = (1 + 106 * l * u) * (u * k0) := by ring
        _ ≤ 2 * l * (u * k0) := mul_le_mul_of_nonneg_right this (by positivity)
        _ = _ := by ring
    have b8 : u * ν ≤ 1 * ν := mul_le_mul_of_nonneg_right (by linarith) hν
    have b9 : 108 * l * u * k0 ≤ 180 * l * u / e ^ 2 := by
      have hpi : Real.pi ^ 2 ≤ 10 := by nlinarith [Real.pi_lt_d2, Real.pi_pos]
      rw [hk0, le_div_iff₀ (by positivity)]
      have : 108 * l * u * (Real.pi ^ 2 / (6 * e ^ 2)) * e ^ 2 = 18 * (l * u) * Real.pi ^ 2 := by
        field_simp
        ring
      rw [this]
      have := mul_le_mul_of_nonneg_left hpi (by positivity : 0 ≤ 18 * (l * u))
      linarith
    linarith
  · rw [if_neg hpq, if_neg hpq, if_neg hpq, ← Complex.ofReal_sub, Complex.norm_real, Real.norm_eq_abs]
    have hne : ((p : ℤ) - q) ≠ 0 := by omega
    have hkr := (hop_ratio hu hu2 hr (by omega) (hz ((p : ℤ) - q).natAbs (by omega) (by omega))).abs_sub
    have hsq : ((((p : ℤ) - q).natAbs : ℤ) : ℝ) ^ 2 = ((p : ℝ) - q) ^ 2 := by
      rw [← Int.cast_pow, Int.natAbs_sq]
      push_cast
      ring
    rw [hsq] at hkr
    have hpq' : ((p : ℝ) - q) ≠ 0 := sub_ne_zero.2 (by exact_mod_cast hpq)
    have hsg : |(-1 : ℝ) ^ ((p : ℤ) - q)| = 1 := by rw [abs_zpow]; simp
    rw [div_eq_mul_one_div, ← mul_sub, abs_mul, hsg, one_mul]
    refine hkr.trans ((mul_le_mul_of_nonneg_right hf (by positivity)).trans (le_of_eq ?_))
    field_simp

/-- **C156** Rounding errors of the elements of `h`. -/
theorem C156_elements {u L : ℝ} (hu : 0 ≤ u) (hL : 0 < L) {l : ℕ} (h2 : 2 ≤ l) (hun : 72 * l * u ≤ 1) {V : ℝ → ℝ} {W ν : ℝ}
    (hW : ∀ p < l, |V (TwoDim.linspace (-L) L l p)| ≤ W) {x Vf : ℕ → ℝ} (hx : FloatLinspace u (-L) L l x)
    (hV : ∀ p < l, |Vf p - V (TwoDim.linspace (-L) L l p)| ≤ ν) {H : NDArray ℂ} (hH : FloatSincH u l x Vf H)
    (a alpha beta : ℝ) {repr : URepr} (hr : repr ≠ .unknown) (hm : Bool) (np : Module) (sp an : Bool) :
    ∃ b h, odSincDvr l L a alpha beta V repr hm np sp an = .ok b ∧ b.h = some h ∧ ∀ p < l, ∀ q < l,
      ‖H.get [p, q] - h.get [p, q]‖ ≤
        if p = q then 180 * l * u / (2 * L / ((l : ℝ) - 1)) ^ 2 + u * W + 2 * ν
        else 106 * l * u / (2 * L / ((l : ℝ) - 1)) ^ 2 * (1 / ((p : ℝ) - q) ^ 2) :=
  ⟨_, _, odSincDvr_ok h2 L a alpha beta V hr hm np sp an, rfl, fun _ hp _ hq => sincH_entry hu hL h2 hun hW hx hV hH hp hq⟩

/-- **C156** Rounding errors of the energies of one particle: eigenvalues of the stored matrix. -/
theorem C156_energies {u L : ℝ} (hu : 0 ≤ u) (hL : 0 < L) {l : ℕ} (h2 : 2 ≤ l) (hun : 72 * l * u ≤ 1) {V : ℝ → ℝ} {W ν : ℝ}
    (hW : ∀ p < l, |V (TwoDim.linspace (-L) L l p)| ≤ W) {x Vf : ℕ → ℝ} (hx : FloatLinspace u (-L) L l x)
    (hV : ∀ p < l, |Vf p - V (TwoDim.linspace (-L) L l p)| ≤ ν) {H : NDArray ℂ} (hH : FloatSincH u l x Vf H)
    (a alpha beta : ℝ) {repr : URepr} (hr : repr ≠ .unknown) (hm : Bool) (np : Module) (sp an : Bool) :
    ∃ b h, odSincDvr l L a alpha beta V repr hm np sp an = .ok b ∧ b.h = some h ∧
      ∀ w v w' v' : NDArray ℂ, EighOK l h w v → EighOK l H w' v' → ∀ k < l, |(w'.get [k]).re - (w.get [k]).re| ≤
        604 * l * u / (2 * L / ((l : ℝ) - 1)) ^ 2 + u * W + 2 * ν := by
  refine ⟨_, _, odSincDvr_ok h2 L a alpha beta V hr hm np sp an, rfl, fun w v w' v' F F' k hk =>
    F.near_of_form F' (fun f => ?_) hk⟩
  have hs := spacing_pos h2 hL
  have hW0 : 0 ≤ W := (abs_nonneg _).trans (hW 0 (by omega))
  have hν : 0 ≤ ν := (abs_nonneg _).trans (hV 0 (by omega))
  rw [show 2 * L / ((l : ℝ) - 1) = spacing l L from rfl]
  set e := spacing l L
  have hrow : ∀ p < l, ∑ q ∈ range l, (if p = q then 180 * l * u / e ^ 2 + u * W + 2 * ν
      else 106 * l * u / e ^ 2 * (1 / ((p : ℝ) - q) ^ 2)) ≤ 604 * l * u / e ^ 2 + u * W + 2 * ν := by
    intro p hp
    have h1 : ∀ q ∈ range l, (if p = q then 180 * l * u / e ^ 2 + u * W + 2 * ν
        else 106 * l * u / e ^ 2 * (1 / ((p : ℝ) - q) ^ 2)) = (if p = q then 180 * l * u / e ^ 2 + u * W + 2 * ν else 0) +
        106 * l * u / e ^ 2 * (if p = q then 0 else 1 / ((p : ℝ) - q) ^ 2) := fun q _ => by
      split_ifs <;> simp
    rw [sum_congr rfl h1, sum_add_distrib, ← mul_sum, sum_ite_eq, if_pos (mem_range.2 hp)]
    have := mul_le_mul_of_nonneg_left (hop_sum hp) (by positivity : 0 ≤ 106 * l * u / e ^ 2)
    have e1 : 604 * l * u / e ^ 2 = 180 * l * u / e ^ 2 + 106 * l * u / e ^ 2 * 4 := by ring
    linarith
  have hE := fun p (hp : p < l) q (hq : q < l) => sincH_entry hu hL h2 hun hW hx hV hH hp hq
  have key := schur_form (n := l) (e := fun i j => H.get [i, j] - (sincH l L V).get [i, j])
    (fun i hi => (sum_le_sum fun j hj => hE i hi j (mem_range.1 hj)).trans (hrow i hi))
    (fun j hj => (sum_le_sum fun i hi => hE i (mem_range.1 hi) j hj).trans ((le_of_eq (sum_congr rfl fun i _ => by
      rw [show ((i : ℝ) - j) ^ 2 = ((j : ℝ) - i) ^ 2 by ring]
      exact if_congr eq_comm rfl rfl)).trans (hrow j hj))) f
  refine le_trans (le_of_eq ?_) key
  rw [matForm, matForm, ← Complex.sub_re, ← sum_sub_distrib]
  congr 2
  refine sum_congr rfl fun i _ => ?_
  rw [← mul_sub, ← sum_sub_distrib]
  simp only [sub_mul]

/-- **C156** The computed matrix is exactly Hermitian, with real elements. -/
theorem C156_hermitian {u : ℝ} {l : ℕ} {x Vf : ℕ → ℝ} {H : NDArray ℂ} (hH : FloatSincH u l x Vf H) :
    ∀ p < l, ∀ q < l, H.get [q, p] = H.get [p, q] ∧ (H.get [p, q]).im = 0 := by
  obtain ⟨d, k, D, z, -, -, -, -, hH⟩ := hH
  intro p hp q hq
  rw [hH p hp q hq, hH q hq p hp]
  by_cases h : p = q
  · subst h; simp
  · rw [if_neg h, if_neg (Ne.symm h), ← neg_sub (p : ℤ) q, Int.natAbs_neg]
    refine ⟨?_, Complex.ofReal_im _⟩
    congr 2
    rw [zpow_neg, ← inv_zpow]
    norm_num

/-- **C156** Rounding errors of the interaction elements, in both representations. -/
theorem C156_interaction {u L : ℝ} (hu : 0 ≤ u) (hu2 : u ≤ 1 / 2) (hL : 0 ≤ L) {l : ℕ} (h2 : 2 ≤ l) {x : ℕ → ℝ}
    (hx : FloatLinspace u (-L) L l x) {alpha a : ℝ} (ha : a ≠ 0) {U : ℕ → ℕ → ℝ} (hU : FloatSincU u l x alpha a U)
    (beta : ℝ) (V : ℝ → ℝ) (hm : Bool) (np : Module) (sp an : Bool) :
    (∃ b v, odSincDvr l L a alpha beta V .two hm np sp an = .ok b ∧ b.u = some v ∧ ∀ p < l, ∀ q < l,
      ‖(U p q : ℂ) - v.get [p, q]‖ ≤ ((1 + u) ^ 7 * (1 + 6 * (L / |a|) * ((1 + u) ^ 4 - 1)) - 1) * (|alpha| / |a|)) ∧
    ∃ b v, odSincDvr l L a alpha beta V .four hm np sp an = .ok b ∧ b.u = some v ∧ ∀ p < l, ∀ q < l, ∀ r < l, ∀ s < l,
      ‖(if p = r ∧ q = s then (U p q : ℂ) else 0) - v.get [p, q, r, s]‖ ≤
        ((1 + u) ^ 7 * (1 + 6 * (L / |a|) * ((1 + u) ^ 4 - 1)) - 1) * (|alpha| / |a|) := by
  have key : ∀ p < l, ∀ q < l, ‖(U p q : ℂ) - pairU l L alpha a p q‖ ≤ (shieldFactor u L a - 1) * (|alpha| / |a|) :=
    fun p hp q hq => by
      rw [pairU, shieldedCoulomb, linspace_pt]
      exact (shield_close hu hu2 hL h2 hx ha hp hq (hU p hp q hq)).1
  refine ⟨⟨_, _, odSincDvr_ok h2 L a alpha beta V (by decide) hm np sp an, rfl, fun p hp q hq => ?_⟩,
    _, _, odSincDvr_ok h2 L a alpha beta V (by decide) hm np sp an, rfl, fun p hp q hq r hr s hs => ?_⟩
  · rw [sincU, if_pos rfl, ofFn_get_of (by exact ⟨hp, hq, trivial⟩)]
    exact key p hp q hq
  · rw [show sincU l L alpha a .complex128 .four = ofFn .complex128 [l, l, l, l] (fun i => if i.getD 0 0 = i.getD 2 0 ∧
        i.getD 1 0 = i.getD 3 0 then pairU l L alpha a (i.getD 0 0) (i.getD 1 0) else 0) from if_neg (by decide), ofFn_get_of (by exact ⟨hp, hq, hr, hs, trivial⟩)]
    simp only [List.getD_cons_zero, List.getD_cons_succ]
    split_ifs with h
    · exact key p hp q hq
    · rw [sub_zero, norm_zero]
      exact mul_nonneg (by linarith [one_le_shieldFactor (a := a) hu hL, show shieldFactor u L a =
        (1 + u) ^ 7 * (1 + 6 * (L / |a|) * ((1 + u) ^ 4 - 1)) from rfl]) (by positivity)

/-- `np.sinc` of a number whose quotient by a non-zero integer is close to one. -/
theorem npSinc_float {u : ℝ} (hu : 0 ≤ u) (hu2 : u ≤ 1 / 2) {c y z : ℝ} {k : ℤ} (hk : k ≠ 0) (hy : Ratio c (y / k) 1)
    (h : FloatNpSinc u y z) : |z| ≤ (1 + u) ^ 2 * ((c * (1 + u) ^ 4 - 1) * (c * (1 + u) ^ 4)) := by
  have hk' : (k : ℝ) ≠ 0 := by exact_mod_cast hk
  have hy0 : y ≠ 0 := fun h0 => by have := hy.pos; simp [h0] at this
  rw [FloatNpSinc, if_neg hy0] at h
  obtain ⟨p, t, s, h1, h2, h3, h4⟩ := h
  have g1 := ((Ratio.refl Real.pi_pos).near hu hu2 h1).mul hy
  have g2 : Near u ((p * (y / k) : ℝ) : ℂ) ((t / k : ℝ) : ℂ) := by
    rw [near_real] at h2 ⊢
    rw [← mul_div_assoc, ← sub_div, abs_div, abs_div, ← mul_div_assoc]
    exact div_le_div_of_nonneg_right h2 (abs_nonneg _)
  have g3 := g1.near hu hu2 g2
  rw [show 1 * (1 + u) ^ 2 * c * (1 + u) ^ 2 = c * (1 + u) ^ 4 by ring, mul_one] at g3
  set C := c * (1 + u) ^ 4
  have ht0 : t ≠ 0 := fun h0 => by have := g3.pos; simp [h0] at this
  have hka : 0 < |(k : ℝ)| := abs_pos.2 hk'
  have a1 : |Real.sin t| ≤ (C - 1) * Real.pi * |(k : ℝ)| := by
    have e1 : |Real.sin t| = |Real.sin (t - k * Real.pi)| := by
      rw [Real.sin_sub_int_mul_pi, abs_mul, abs_zpow]
      simp
    rw [e1]
    refine (Real.abs_sin_le_abs (x := t - k * Real.pi)).trans ?_
    have e2 : t - k * Real.pi = (t / k - Real.pi) * k := by field_simp
    rw [e2, abs_mul]
    exact mul_le_mul_of_nonneg_right g3.abs_sub hka.le
  have a2 : Real.pi * |(k : ℝ)| ≤ C * |t| := by
    have e3 : |t| = t / k * |(k : ℝ)| := by
      rw [← abs_of_pos g3.pos, ← abs_mul, div_mul_cancel₀ _ hk']
    rw [e3, ← mul_assoc]
    exact mul_le_mul_of_nonneg_right g3.ge hka.le
  have hC := g3.one_le
  have a3 : |Real.sin t| ≤ (C - 1) * C * |t| := by
    refine a1.trans ?_
    rw [mul_assoc, mul_assoc]
    exact mul_le_mul_of_nonneg_left a2 (by linarith)
  have a4 : |s| ≤ (1 + u) * |Real.sin t| := by
    have := abs_sub_abs_le_abs_sub s (Real.sin t)
    linarith [near_real.1 h3]
  have a5 : |z| ≤ (1 + u) * |s / t| := by
    have := abs_sub_abs_le_abs_sub z (s / t)
    linarith [near_real.1 h4]
  have a6 : |s / t| ≤ (1 + u) * ((C - 1) * C) := by
    rw [abs_div, div_le_iff₀ (abs_pos.2 ht0), mul_assoc]
    exact a4.trans (mul_le_mul_of_nonneg_left a3 (by linarith))
  calc |z| ≤ (1 + u) * ((1 + u) * ((C - 1) * C)) := a5.trans (mul_le_mul_of_nonneg_left a6 (by linarith))
    _ = _ := by ring

/-- The difference of two computed grid points. -/
theorem difference_ratio {u L : ℝ} (hu : 0 ≤ u) (hL : 0 < L) {l : ℕ} (h2 : 2 ≤ l) (hun : 72 * l * u ≤ 1) {x : ℕ → ℝ}
    (hx : FloatLinspace u (-L) L l x) {i p : ℕ} (hi : i < l) (hp : p < l) (hne : i ≠ p) {e : ℝ}
    (he : Near u (x i - x p : ℝ) e) : Ratio (1 + 32 * (l * u)) (e / ((i : ℤ) - p : ℤ)) (spacing l L) := by
  have hl : (2 : ℝ) ≤ l := by exact_mod_cast h2
  have hu1 := sinc_small hu h2 hun
  have hs := spacing_pos h2 hL
  have b1 := (linspace_within hu hL.le h2 hx hi).1
  have b2 := (linspace_within hu hL.le h2 hx hp).1
  have hLs : L = spacing l L * ((l : ℝ) - 1) / 2 := by
    rw [spacing, div_mul_cancel₀ _ (by linarith)]
    ring
  have h4 : (1 + u) ^ 4 - 1 ≤ 5 * u := by
    have : u ^ 2 ≤ u / 144 := by nlinarith
    have : u ^ 3 ≤ u / 144 := by nlinarith
    have : u ^ 4 ≤ u / 144 := by nlinarith
    nlinarith
  have hk1 : (1 : ℝ) ≤ |(((i : ℤ) - p : ℤ) : ℝ)| := by
    rw [← Int.cast_abs]
    exact_mod_cast Int.one_le_abs (show ((i : ℤ) - p) ≠ 0 by omega)
  have hpt : pt L l i - pt L l p = (((i : ℤ) - p : ℤ) : ℝ) * spacing l L := by
    rw [show spacing l L = GridLimit.dx L l from rfl]
    unfold pt
    push_cast
    ring
  set k : ℝ := (((i : ℤ) - p : ℤ) : ℝ)
  set d := spacing l L
  have hk0 : k ≠ 0 := fun h => by rw [h, abs_zero] at hk1; linarith
  have b3 : |x i - x p - k * d| ≤ 15 * ((l : ℝ) - 1) * u * d := by
    rw [← hpt, show x i - x p - (pt L l i - pt L l p) = (x i - pt L l i) - (x p - pt L l p) by ring]
    refine (abs_sub _ _).trans ((add_le_add b1 b2).trans ?_)
    have := mul_le_mul_of_nonneg_right h4 hL.le
    have e1 : 30 * u * L = 15 * ((l : ℝ) - 1) * u * d := by
      conv_lhs => rw [hLs]
      ring
    linarith
  have b4 := near_real.1 he
  have b5 : |x i - x p| ≤ |k| * d + 15 * ((l : ℝ) - 1) * u * d := by
    have := abs_sub_abs_le_abs_sub (x i - x p) (k * d)
    rw [abs_mul, abs_of_pos hs] at this
    linarith
  have b6 : |e - k * d| ≤ |e - (x i - x p)| + |x i - x p - k * d| := abs_sub_le _ _ _
  have b7 := mul_le_mul_of_nonneg_left b5 hu
  have b8 : |e - k * d| ≤ 16 * (l * u) * (|k| * d) := by
    have c1 : d ≤ |k| * d := by nlinarith
    have c2 : 15 * ((l : ℝ) - 1) * u * d * (1 + u) ≤ 15 * ((l : ℝ) - 1) * u * (|k| * d) * (1 + u) :=
      mul_le_mul_of_nonneg_right (mul_le_mul_of_nonneg_left c1 (mul_nonneg (by linarith) hu)) (by linarith)
    have c3 : 15 * ((l : ℝ) - 1) * (1 + u) + 1 ≤ 16 * l := by nlinarith
    have c4 := mul_le_mul_of_nonneg_right c3 (by positivity : 0 ≤ u * (|k| * d))
    nlinarith
  have b9 : |e / k - d| ≤ 16 * (l * u) * d := by
    rw [show e / k - d = (e - k * d) / k by field_simp, abs_div, div_le_iff₀ (by linarith)]
    linarith
  obtain ⟨c1, c2⟩ := abs_le.1 b9
  have ht : 0 ≤ l * u := by positivity
  have ht2 : l * u ≤ 1 / 72 := by linarith
  have hpos : 0 < e / k := by nlinarith
  refine ⟨by linarith, hpos, hs, by nlinarith, ?_⟩
  have h11 : 1 ≤ (1 + 32 * (l * u)) * (1 - 16 * (l * u)) := by nlinarith
  calc d ≤ (1 + 32 * (l * u)) * (1 - 16 * (l * u)) * d := by nlinarith
    _ = (1 + 32 * (l * u)) * ((1 - 16 * (l * u)) * d) := by ring
    _ ≤ _ := mul_le_mul_of_nonneg_left (by linarith) (by positivity)

/-- The factors of the functions. -/
theorem function_factor {u t : ℝ} (hu : 0 ≤ u) (h0 : 2 * u ≤ t) (h1 : 72 * t ≤ 1) :
    (1 + 36 * t) * (1 + u) ^ 6 - 1 ≤ 45 * t ∧
    (1 + u) ^ 2 * (((1 + 32 * t) * (1 + 36 * t) * (1 + u) ^ 2 * (1 + u) ^ 4 - 1) *
      ((1 + 32 * t) * (1 + 36 * t) * (1 + u) ^ 2 * (1 + u) ^ 4)) * ((1 + 36 * t) * (1 + u) ^ 6) ≤ 360 * t := by
  have ht : 0 ≤ t := by linarith
  have h6 : (1 + u) ^ 6 ≤ 1 + 13 / 4 * t := by
    have a : (1 + u) ^ 2 ≤ 1 + (2 + 1 / 100) * u := by nlinarith
    have b : (1 + u) ^ 4 ≤ 1 + (4 + 1 / 15) * u := by
      have := mul_le_mul a a (by positivity) (by positivity)
      nlinarith
    have := mul_le_mul a b (by positivity) (by positivity)
    nlinarith
  have h2 : (1 + u) ^ 2 ≤ 1 + 3 / 2 * t := by nlinarith
  have hA : (1 + 36 * t) * (1 + u) ^ 6 ≤ 1 + 45 * t := by
    have := mul_le_mul_of_nonneg_left h6 (by positivity : 0 ≤ 1 + 36 * t)
    nlinarith
  refine ⟨by linarith, ?_⟩
  set C := (1 + 32 * t) * (1 + 36 * t) * (1 + u) ^ 2 * (1 + u) ^ 4 with hC
  have hC1 : C ≤ 1 + 92 * t := by
    have e : C = (1 + 32 * t) * (1 + 36 * t) * (1 + u) ^ 6 := by rw [hC]; ring
    have := mul_le_mul_of_nonneg_left h6 (by positivity : 0 ≤ (1 + 32 * t) * (1 + 36 * t))
    rw [e]
    nlinarith [mul_nonneg ht ht]
  have hC0 : 1 ≤ C := by
    rw [hC]
    exact one_le_mul_of_one_le_of_one_le (one_le_mul_of_one_le_of_one_le (one_le_mul_of_one_le_of_one_le (by linarith)
      (by linarith)) (pow_ge hu 2)) (pow_ge hu 4)
  have e1 : (C - 1) * C ≤ 92 * t * (41 / 18) := mul_le_mul (by linarith) (by linarith) (by linarith) (by positivity)
  have e2 : (1 + u) ^ 2 * ((1 + 36 * t) * (1 + u) ^ 6) ≤ (49 / 48) * (13 / 8) :=
    mul_le_mul (by linarith) (by linarith) (by positivity) (by norm_num)
  calc _ = (C - 1) * C * ((1 + u) ^ 2 * ((1 + 36 * t) * (1 + u) ^ 6)) := by ring
    _ ≤ 92 * t * (41 / 18) * ((49 / 48) * (13 / 8)) := mul_le_mul e1 e2 (by positivity) (by positivity)
    _ ≤ _ := by linarith

theorem Ratio.sqrt {c x e : ℝ} (h : Ratio c x e) : Ratio c (Real.sqrt x) (Real.sqrt e) := by
  have hc := h.one_le
  have key : ∀ {a b : ℝ}, a ≤ c * b → Real.sqrt a ≤ c * Real.sqrt b := fun {a b} hab => by
    refine (Real.sqrt_le_sqrt hab).trans ?_
    rw [Real.sqrt_mul (by linarith)]
    exact mul_le_mul_of_nonneg_right (Real.sqrt_le_iff.2 ⟨by linarith, by nlinarith⟩) (Real.sqrt_nonneg _)
  exact ⟨hc, Real.sqrt_pos.2 h.pos, Real.sqrt_pos.2 h.pos', key h.le, key h.ge⟩

/-- **C156** Rounding errors of the functions on the grid. -/
theorem C156_functions {u L : ℝ} (hu : 0 ≤ u) (hL : 0 < L) {l : ℕ} (h2 : 2 ≤ l) (hun : 72 * l * u ≤ 1) {x : ℕ → ℝ}
    (hx : FloatLinspace u (-L) L l x) {F : NDArray ℂ} (hF : FloatSincSpf u l x F) (a alpha beta : ℝ) (V : ℝ → ℝ)
    {repr : URepr} (hr : repr ≠ .unknown) (hm : Bool) (np : Module) (sp an : Bool) :
    ∃ b f, odSincDvr l L a alpha beta V repr hm np sp an = .ok b ∧ b.spf = some f ∧ ∀ p < l, ∀ i < l,
      ‖F.get [p, i] - f.get [p, i]‖ ≤ 360 * l * u / Real.sqrt (2 * L / ((l : ℝ) - 1)) := by
  refine ⟨_, _, odSincDvr_ok h2 L a alpha beta V hr hm np sp an, rfl, fun p hp i hi => ?_⟩
  obtain ⟨d, r, n, hd, hr', hn, hF⟩ := hF
  obtain ⟨e, y, s, f, he, hy, hs, hf, hFf⟩ := hF p hp i hi
  have hl : (2 : ℝ) ≤ l := by exact_mod_cast h2
  have hu1 := sinc_small hu h2 hun
  have hu2 : u ≤ 1 / 2 := by linarith
  have hsp := spacing_pos h2 hL
  have hdr := spacing_float hu hL h2 hun hx hd
  rw [show 2 * L / ((l : ℝ) - 1) = spacing l L from rfl] at hdr ⊢
  have hnr := (hdr.sqrt.near hu hu2 hr').inv.near hu hu2 hn
  obtain ⟨f1, f2⟩ := function_factor hu (t := l * u) (by nlinarith) (by linarith)
  have hc : 1 + 36 * (l : ℝ) * u = 1 + 36 * (l * u) := by ring
  rw [hc] at hdr hnr
  have hq : 0 < 1 / Real.sqrt (spacing l L) := by have := Real.sqrt_pos.2 hsp; positivity
  rw [hFf, sincSpf, ofFn_get_of (by exact ⟨hp, hi, trivial⟩)]
  simp only [List.getD_cons_zero, List.getD_cons_succ]
  have hlin : (TwoDim.linspace (-L) L l i - TwoDim.linspace (-L) L l p) / spacing l L = (((i : ℤ) - p : ℤ) : ℝ) := by
    rw [div_eq_iff hsp.ne', TwoDim.linspace, TwoDim.linspace, spacing]
    push_cast
    ring
  rw [hlin, ← Complex.ofReal_sub, Complex.norm_real, Real.norm_eq_abs,
    show 360 * (l : ℝ) * u / Real.sqrt (spacing l L) = 360 * (l * u) * (1 / Real.sqrt (spacing l L)) by ring]
  set T := 1 / Real.sqrt (spacing l L)
  by_cases hip : i = p
  · subst hip
    have he0 : e = 0 := by
      have := near_real.1 he
      rw [sub_self, sub_zero, abs_zero, mul_zero] at this
      exact abs_nonpos_iff.1 this
    have hy0 : y = 0 := by
      have := near_real.1 hy
      rw [he0, zero_div, sub_zero, abs_zero, mul_zero] at this
      exact abs_nonpos_iff.1 this
    rw [FloatNpSinc, if_pos hy0] at hs
    rw [hs, mul_one] at hf
    have g := (hnr.near hu hu2 hf).abs_sub
    rw [sub_self, Int.cast_zero, npSinc, if_pos rfl, mul_one]
    refine g.trans (mul_le_mul_of_nonneg_right ?_ hq.le)
    have e1 : (1 + 36 * (l * u)) * (1 + u) ^ 2 * (1 + u) ^ 2 * (1 + u) ^ 2 = (1 + 36 * (l * u)) * (1 + u) ^ 6 := by ring
    rw [e1]
    have : 0 ≤ l * u := by positivity
    linarith
  · have hk : ((i : ℤ) - p) ≠ 0 := by omega
    have hk' : (((i : ℤ) - p : ℤ) : ℝ) ≠ 0 := by exact_mod_cast hk
    have g1 := (difference_ratio hu hL h2 hun hx hi hp hip he).div hdr
    rw [div_self hsp.ne'] at g1
    have g2 : Near u ((e / ((i : ℤ) - p : ℤ) / d : ℝ) : ℂ) ((y / ((i : ℤ) - p : ℤ) : ℝ) : ℂ) := by
      rw [near_real] at hy ⊢
      rw [div_right_comm, ← sub_div, abs_div, abs_div, ← mul_div_assoc]
      exact div_le_div_of_nonneg_right hy (abs_nonneg _)
    have g3 := npSinc_float hu hu2 hk (g1.near hu hu2 g2) hs
    have e0 : npSinc (((i : ℤ) - p : ℤ) : ℝ) = 0 := by
      rw [npSinc, if_neg hk', mul_comm Real.pi, Real.sin_int_mul_pi, zero_div]
    rw [e0, mul_zero, sub_zero]
    have a1 : |f| ≤ (1 + u) * |n * s| := by
      have := abs_sub_abs_le_abs_sub f (n * s)
      linarith [near_real.1 hf]
    have a2 : |n * s| ≤ (1 + 36 * (l * u)) * (1 + u) ^ 4 * T * ((1 + u) ^ 2 * (((1 + 32 * (l * u)) * (1 + 36 * (l * u)) *
        (1 + u) ^ 2 * (1 + u) ^ 4 - 1) * ((1 + 32 * (l * u)) * (1 + 36 * (l * u)) * (1 + u) ^ 2 * (1 + u) ^ 4))) := by
      rw [abs_mul, abs_of_pos hnr.pos]
      refine mul_le_mul (hnr.le.trans (le_of_eq (by ring))) g3 (abs_nonneg _) (by positivity)
    set G := (1 + u) ^ 2 * (((1 + 32 * (l * u)) * (1 + 36 * (l * u)) * (1 + u) ^ 2 * (1 + u) ^ 4 - 1) *
        ((1 + 32 * (l * u)) * (1 + 36 * (l * u)) * (1 + u) ^ 2 * (1 + u) ^ 4))
    have hG : 0 ≤ G := (abs_nonneg _).trans g3
    calc |f| ≤ (1 + u) * ((1 + 36 * (l * u)) * (1 + u) ^ 4 * T * G) := a1.trans (mul_le_mul_of_nonneg_left a2 (by linarith))
      _ = G * ((1 + 36 * (l * u)) * (1 + u) ^ 5) * T := by ring
      _ ≤ G * ((1 + 36 * (l * u)) * (1 + u) ^ 6) * T := by
        refine mul_le_mul_of_nonneg_right (mul_le_mul_of_nonneg_left (mul_le_mul_of_nonneg_left ?_ (by positivity)) hG) hq.le
        exact pow_le_pow_right₀ (by linarith) (by norm_num)
      _ ≤ _ := mul_le_mul_of_nonneg_right f2 hq.le

/-- **C156** Rounding errors of the dipole elements. -/
theorem C156_dipole {u L : ℝ} (hu : 0 ≤ u) (hL : 0 ≤ L) {l : ℕ} (h2 : 2 ≤ l) {x : ℕ → ℝ} (hx : FloatLinspace u (-L) L l x)
    {beta : ℝ} {g : ℕ → ℝ} (hg : FloatSincDipole u l x beta g) (a alpha : ℝ) (V : ℝ → ℝ) {repr : URepr}
    (hr : repr ≠ .unknown) (hm : Bool) (np : Module) (sp an : Bool) :
    ∃ b m, odSincDvr l L a alpha beta V repr hm np sp an = .ok b ∧ b.dipole = some m ∧ ∀ p < l, ∀ q < l,
      ‖(if p = q then (g p : ℂ) else 0) - m.get [0, p, q]‖ ≤
        ((1 + 3 * ((1 + u) ^ 4 - 1)) ^ 2 * (1 + u) ^ 3 - 1) * (L + |beta| * L ^ 2) := by
  refine ⟨_, _, odSincDvr_ok h2 L a alpha beta V hr hm np sp an, rfl, fun p hp q hq => ?_⟩
  rw [sincDip, ofFn_get_of (by exact ⟨Nat.one_pos, hp, hq, trivial⟩)]
  simp only [List.getD_cons_zero, List.getD_cons_succ]
  rw [linspace_pt]
  have h := (position_close hu hL h2 hx hp (hg p hp)).1
  split_ifs with hpq
  · exact h
  · rw [sub_zero, norm_zero]
    exact (norm_nonneg _).trans h

/-- **C156** The exact elements are possible results, so the relation is not empty. -/
theorem C156_exact {u : ℝ} (hu : 0 ≤ u) (L : ℝ) {l : ℕ} (h2 : 2 ≤ l) (V : ℝ → ℝ) :
    FloatSincH u l (TwoDim.linspace (-L) L l) (fun p => V (TwoDim.linspace (-L) L l p)) (sincH l L V) := by
  have hr : ∀ z : ℝ, Near u (z : ℂ) (z : ℂ) := fun z => near_real.2 (by rw [sub_self, abs_zero]; positivity)
  have hd : TwoDim.linspace (-L) L l 1 - TwoDim.linspace (-L) L l 0 = spacing l L := by
    simp only [TwoDim.linspace, spacing]
    push_cast
    ring
  refine ⟨spacing l L, Real.pi ^ 2 / (6 * spacing l L ^ 2), fun p => Real.pi ^ 2 / (6 * spacing l L ^ 2) +
    V (TwoDim.linspace (-L) L l p), fun j => 1 / (spacing l L ^ 2 * (j : ℝ) ^ 2), ?_,
    ⟨_, _, _, _, hr _, hr _, hr _, hr _, hr _⟩, fun p _ => hr _, fun j _ _ => ⟨_, _, _, hr _, hr _, hr _, ?_⟩,
    fun p hp q hq => ?_⟩
  · rw [FloatSpacing, hd]
    exact hr _
  · rw [Int.cast_natCast]
    exact hr _
  · rw [sincH, ofFn_get_of (by exact ⟨hp, hq, trivial⟩)]
    simp only [List.getD_cons_zero, List.getD_cons_succ]
    split_ifs with h
    · push_cast
      ring
    · have hsq : ((((p : ℤ) - q).natAbs : ℕ) : ℝ) ^ 2 = ((p : ℝ) - q) ^ 2 := by
        rw [← Int.cast_natCast, ← Int.cast_pow, Int.natAbs_sq]
        push_cast
        ring
      rw [hsq, mul_one_div]

/-- **C156** The exact functions are possible results. -/
theorem C156_exact_functions {u : ℝ} (hu : 0 ≤ u) (L : ℝ) (l : ℕ) :
    FloatSincSpf u l (TwoDim.linspace (-L) L l) (sincSpf l L) := by
  have hr : ∀ z : ℝ, Near u (z : ℂ) (z : ℂ) := fun z => near_real.2 (by rw [sub_self, abs_zero]; positivity)
  have hd : TwoDim.linspace (-L) L l 1 - TwoDim.linspace (-L) L l 0 = spacing l L := by
    simp only [TwoDim.linspace, spacing]
    push_cast
    ring
  refine ⟨spacing l L, _, _, by rw [FloatSpacing, hd]; exact hr _, hr _, hr _, fun p hp i hi =>
    ⟨_, _, npSinc ((TwoDim.linspace (-L) L l i - TwoDim.linspace (-L) L l p) / spacing l L), _, hr _, hr _, ?_, hr _, ?_⟩⟩
  · rw [FloatNpSinc, npSinc]
    split_ifs
    · rfl
    · exact ⟨_, _, _, hr _, hr _, hr _, hr _⟩
  · rw [sincSpf, ofFn_get_of (by exact ⟨hp, hi, trivial⟩)]
    simp only [List.getD_cons_zero, List.getD_cons_succ]

/-- **C156** Rounding errors of the energies of `N` electrons, with spin: `H` and `U` are the rounded elements. -/
theorem C156_electrons {u L : ℝ} (hu : 0 ≤ u) (hL : 0 < L) {l : ℕ} (h2 : 2 ≤ l) (hun : 72 * l * u ≤ 1) {V : ℝ → ℝ} {W ν : ℝ}
    (hW : ∀ p < l, |V (TwoDim.linspace (-L) L l p)| ≤ W) {x Vf : ℕ → ℝ} (hx : FloatLinspace u (-L) L l x)
    (hV : ∀ p < l, |Vf p - V (TwoDim.linspace (-L) L l p)| ≤ ν) {H U : NDArray ℂ} (hH : FloatSincH u l x Vf H)
    {alpha a : ℝ} (ha : a ≠ 0) {g : ℕ → ℕ → ℝ} (hg : FloatSincU u l x alpha a g)
    (hU : ∀ p < l, ∀ q < l, ∀ r < l, ∀ s < l, U.get [p, q, r, s] = if p = r ∧ q = s then (g p q : ℂ) else 0)
    (beta : ℝ) (hm : Bool) (np : Module) (sp an : Bool) :
    ∃ b h v, odSincDvr l L a alpha beta V .four hm np sp an = .ok b ∧ b.h = some h ∧ b.u = some v ∧
      ∀ (N D D' : ℕ) (E E' : ℕ → ℝ) (Ψ Ψ' : ℕ → Wave ℂ N (2 * l)), Spectrum (spinOne l H) (spinTwo l U) D E Ψ →
        Spectrum (spinOne l h) (spinTwo l v) D' E' Ψ' → D = D' ∧ ∀ k < D, |E k - E' k| ≤
          N * (2 * l : ℕ) * (180 * l * u / (2 * L / ((l : ℝ) - 1)) ^ 2 + u * W + 2 * ν) + N * (N - 1 : ℕ) / 2 * (2 * l : ℕ) ^ 2 *
            (((1 + u) ^ 7 * (1 + 6 * (L / |a|) * ((1 + u) ^ 4 - 1)) - 1) * (|alpha| / |a|)) := by
  obtain ⟨-, b, v, h1, h3, h4⟩ := C156_interaction hu (by linarith [sinc_small hu h2 hun]) hL.le h2 hx ha hg beta V hm np sp an
  obtain ⟨b', h, h1', h5, h6⟩ := C156_elements hu hL h2 hun hW hx hV hH a alpha beta (repr := .four) (by decide) hm np sp an
  obtain rfl : b = b' := by
    rw [h1] at h1'
    exact Except.ok.inj h1'
  have hs := spacing_pos h2 hL
  rw [show 2 * L / ((l : ℝ) - 1) = spacing l L from rfl] at h6 ⊢
  have hW0 : 0 ≤ W := (abs_nonneg _).trans (hW 0 (by omega))
  have hν : 0 ≤ ν := (abs_nonneg _).trans (hV 0 (by omega))
  have h0 : 0 ≤ 180 * l * u / spacing l L ^ 2 + u * W + 2 * ν := by positivity
  refine ⟨b, h, v, h1, h5, h3, fun N D D' E E' Ψ Ψ' S S' => C120_spin_perturbation S S' h0
    ((norm_nonneg _).trans (h4 0 (by omega) 0 (by omega) 0 (by omega) 0 (by omega))) (fun p hp q hq => ?_)
    (fun p hp q hq r hr s hs => ?_)⟩
  · refine (h6 p hp q hq).trans ?_
    split_ifs with hpq
    · exact le_rfl
    · have k1 : (1 : ℝ) ≤ ((p : ℝ) - q) ^ 2 := by
        have : (1 : ℤ) ≤ ((p : ℤ) - q) ^ 2 := by
          have : ((p : ℤ) - q) ≠ 0 := by omega
          have := sq_nonneg ((p : ℤ) - q)
          have : ((p : ℤ) - q) ^ 2 ≠ 0 := pow_ne_zero 2 ‹_›
          omega
        exact_mod_cast this
      have k2 : 1 / ((p : ℝ) - q) ^ 2 ≤ 1 := by
        rw [div_le_one (by linarith)]
        exact k1
      have k3 := mul_le_mul_of_nonneg_left k2 (by positivity : 0 ≤ 106 * l * u / spacing l L ^ 2)
      have k4 : 106 * l * u / spacing l L ^ 2 ≤ 180 * l * u / spacing l L ^ 2 := by
        apply div_le_div_of_nonneg_right _ (by positivity)
        have : 0 ≤ l * u := by positivity
        linarith
      have : 0 ≤ u * W := by positivity
      linarith
  · rw [hU p hp q hq r hr s hs]
    exact h4 p hp q hq r hr s hs

/-- **C156** The energies of one particle in `HOPotential(omega)`, whose values are rounded as well. -/
theorem C156_oscillator {u L : ℝ} (hu : 0 ≤ u) (hL : 0 < L) {l : ℕ} (h2 : 2 ≤ l) (hun : 72 * l * u ≤ 1) (omega : ℝ)
    {x Vf : ℕ → ℝ} (hx : FloatLinspace u (-L) L l x) (hV : ∀ p < l, FloatHO u omega (x p) (Vf p)) {H : NDArray ℂ}
    (hH : FloatSincH u l x Vf H) (a alpha beta : ℝ) {repr : URepr} (hr : repr ≠ .unknown) (hm : Bool) (np : Module)
    (sp an : Bool) :
    ∃ b h, odSincDvr l L a alpha beta (Potentials.hoCall omega) repr hm np sp an = .ok b ∧ b.h = some h ∧
      ∀ w v w' v' : NDArray ℂ, EighOK l h w v → EighOK l H w' v' → ∀ k < l, |(w'.get [k]).re - (w.get [k]).re| ≤
        604 * l * u / (2 * L / ((l : ℝ) - 1)) ^ 2 + 101 * u * omega ^ 2 * L ^ 2 := by
  have hu1 := sinc_small hu h2 hun
  have hW : ∀ p < l, |Potentials.hoCall omega (TwoDim.linspace (-L) L l p)| ≤ omega ^ 2 * L ^ 2 / 2 := fun p hp => by
    have h1 := (linspace_within hu hL.le h2 hx hp).2
    rw [linspace_pt]
    have h3 : pt L l p ^ 2 ≤ L ^ 2 := sq_le_sq' (abs_le.1 h1).1 (abs_le.1 h1).2
    have h4 := mul_le_mul_of_nonneg_left h3 (sq_nonneg omega)
    unfold Potentials.hoCall
    rw [abs_of_nonneg (by positivity)]
    linarith
  obtain ⟨b, h, h1, h3, h4⟩ := C156_energies hu hL h2 hun hW hx
    (fun p hp => oscillator_point hu (by linarith) hL h2 hx omega hp (hV p hp)) hH a alpha beta hr hm np sp an
  refine ⟨b, h, h1, h3, fun w v w' v' F F' k hk => (h4 w v w' v' F F' k hk).trans ?_⟩
  have : 0 ≤ u * omega ^ 2 * L ^ 2 := by positivity
  linarith

/-- Double precision, 201 points on `[-10, 10]`, the oscillator potential with values that are wrong by at most `10⁻¹³`:
the energies are right to `2 · 10⁻⁹`. -/
example {x Vf : ℕ → ℝ} (hx : FloatLinspace ((2 : ℝ) ^ (-53 : ℤ)) (-10) 10 201 x)
    (hV : ∀ p < 201, |Vf p - TwoDim.linspace (-10) 10 201 p ^ 2 / 2| ≤ 1 / 10 ^ 13) {H : NDArray ℂ}
    (hH : FloatSincH ((2 : ℝ) ^ (-53 : ℤ)) 201 x Vf H) :
    ∃ b h, odSincDvr 201 10 (1 / 4) 1 0 (fun x => x ^ 2 / 2) .two false 0 false false = .ok b ∧ b.h = some h ∧
      ∀ w v w' v' : NDArray ℂ, EighOK 201 h w v → EighOK 201 H w' v' → ∀ k < 201,
        |(w'.get [k]).re - (w.get [k]).re| ≤ 2 / 10 ^ 9 := by
  obtain ⟨b, h, h1, h2, h3⟩ := C156_energies (u := (2 : ℝ) ^ (-53 : ℤ)) (L := 10) (l := 201) (V := fun x => x ^ 2 / 2)
    (W := 50) (by positivity) (by norm_num) (by norm_num) (by norm_num) (fun p hp => by
      have : (p : ℝ) ≤ 200 := by exact_mod_cast Nat.le_of_lt_succ hp
      have h0 : (0 : ℝ) ≤ p := Nat.cast_nonneg p
      rw [abs_of_nonneg (by positivity)]
      unfold TwoDim.linspace
      push_cast
      nlinarith) hx hV hH (1 / 4) 1 0 (repr := .two) (by decide) false 0 false false
  refine ⟨b, h, h1, h2, fun w v w' v' F F' k hk => (h3 w v w' v' F F' k hk).trans ?_⟩
  norm_num

end QS.Props
