import Verif.Lemmas.GridFunctions
import Verif.Lemmas.Nodes
import Mathlib.Analysis.Calculus.Deriv.MeanValue
import Mathlib.Analysis.Calculus.Deriv.Slope
import Mathlib.Analysis.SpecialFunctions.ExpDeriv

/-!
# Comparison of energies through zeros
-/

namespace QS.Oscillation

open Filter Topology Spec Finset GridLimit

variable {V : ℝ → ℝ} {L e : ℝ}

/-- A solution with a double zero vanishes. -/
theorem double_zero (hV : ContinuousOn V (Set.Icc (-L) L)) {φ φ' : ℝ → ℝ}
    (h1 : ∀ x ∈ Set.Icc (-L) L, HasDerivWithinAt φ (φ' x) (Set.Icc (-L) L) x)
    (h2 : ∀ x ∈ Set.Icc (-L) L, HasDerivWithinAt φ' (2 * (V x - e) * φ x) (Set.Icc (-L) L) x) {z : ℝ}
    (hz : z ∈ Set.Icc (-L) L) (h0 : φ z = 0) (h0' : φ' z = 0) : ∀ x ∈ Set.Icc (-L) L, φ x = 0 := by
  obtain ⟨B, hB⟩ := (isCompact_Icc (a := -L) (b := L)).exists_bound_of_continuousOn hV
  set C := 1 + 2 * (|B| + |e|) with hC
  set g : ℝ → ℝ := fun x => φ x ^ 2 + φ' x ^ 2 with hg
  set g' : ℝ → ℝ := fun x => 2 * φ x * φ' x + 2 * φ' x * (2 * (V x - e) * φ x) with hg'
  have hgd : ∀ x ∈ Set.Icc (-L) L, HasDerivWithinAt g (g' x) (Set.Icc (-L) L) x := fun x hx =>
    (((h1 x hx).pow 2).add ((h2 x hx).pow 2)).congr_deriv (by simp only [hg']; push_cast; ring)
  have hgb : ∀ x ∈ Set.Icc (-L) L, |g' x| ≤ C * g x := by
    intro x hx
    have hv : |V x - e| ≤ |B| + |e| := by
      have := hB x hx
      rw [Real.norm_eq_abs] at this
      exact (abs_sub _ _).trans (by linarith [le_abs_self B])
    have e1 : g' x = 2 * (φ x * φ' x) * (1 + 2 * (V x - e)) := by simp only [hg']; ring
    have e2 : |1 + 2 * (V x - e)| ≤ C := by
      refine (abs_add_le _ _).trans ?_
      rw [abs_one, abs_mul, abs_two]
      linarith
    have e3 : |2 * (φ x * φ' x)| ≤ g x := by
      rw [abs_le]
      constructor <;> simp only [hg] <;> nlinarith [sq_nonneg (φ x + φ' x), sq_nonneg (φ x - φ' x)]
    rw [e1, abs_mul, mul_comm]
    exact mul_le_mul e2 e3 (abs_nonneg _) (by positivity)
  have hlin : ∀ c x : ℝ, HasDerivAt (fun x => Real.exp (c * x)) (Real.exp (c * x) * c) x := fun c x => by
    simpa using ((hasDerivAt_id x).const_mul c).exp
  have hint : interior (Set.Icc (-L) L) ⊆ Set.Icc (-L) L := interior_subset
  have hcont : ∀ c : ℝ, ContinuousOn (fun x => g x * Real.exp (c * x)) (Set.Icc (-L) L) := fun c =>
    ContinuousOn.mul (fun x hx => (hgd x hx).continuousWithinAt) (by fun_prop)
  have hd : ∀ c : ℝ, ∀ x ∈ interior (Set.Icc (-L) L), HasDerivWithinAt (fun x => g x * Real.exp (c * x))
      ((g' x + c * g x) * Real.exp (c * x)) (interior (Set.Icc (-L) L)) x := fun c x hx =>
    (((hgd x (hint hx)).mul (hlin c x).hasDerivWithinAt).congr_deriv (by ring)).mono hint
  have hm := monotoneOn_of_hasDerivWithinAt_nonneg (convex_Icc (-L) L) (hcont C) (hd C) fun x hx =>
    mul_nonneg (by linarith [(abs_le.1 (hgb x (hint hx))).1]) (Real.exp_pos _).le
  have ha := antitoneOn_of_hasDerivWithinAt_nonpos (convex_Icc (-L) L) (hcont (-C)) (hd (-C)) fun x hx =>
    mul_nonpos_of_nonpos_of_nonneg (by linarith [(abs_le.1 (hgb x (hint hx))).2]) (Real.exp_pos _).le
  have hgz : g z = 0 := by simp [hg, h0, h0']
  intro x hx
  have hgx : g x ≤ 0 := by
    rcases le_total x z with h | h
    · have := hm hx hz h
      simp only [hgz, zero_mul] at this
      by_contra hc
      exact absurd this (not_le.2 (mul_pos (not_le.1 hc) (Real.exp_pos _)))
    · have := ha hz hx h
      simp only [hgz, zero_mul] at this
      by_contra hc
      exact absurd this (not_le.2 (mul_pos (not_le.1 hc) (Real.exp_pos _)))
  have : φ x ^ 2 = 0 := le_antisymm (by simp only [hg] at hgx; nlinarith [sq_nonneg (φ' x)]) (sq_nonneg _)
  exact pow_eq_zero_iff two_ne_zero |>.1 this

/-- A continuous function that increases outside a finite set. -/
theorem le_off_finite (S : Finset ℝ) {W : ℝ → ℝ} : ∀ {a b : ℝ}, a ≤ b → ContinuousOn W (Set.Icc a b) →
    (∀ x ∈ Set.Ioo a b, x ∉ S → ∃ w, 0 ≤ w ∧ HasDerivAt W w x) → W a ≤ W b := by
  induction S using Finset.induction with
  | empty =>
    intro a b hab hc hd
    refine monotoneOn_of_deriv_nonneg (convex_Icc a b) hc ?_ ?_ ⟨le_rfl, hab⟩ ⟨hab, le_rfl⟩ hab
    · rw [interior_Icc]
      intro x hx
      obtain ⟨w, -, h⟩ := hd x hx (notMem_empty x)
      exact h.differentiableAt.differentiableWithinAt
    · rw [interior_Icc]
      intro x hx
      obtain ⟨w, h0, h⟩ := hd x hx (notMem_empty x)
      rwa [h.deriv]
  | insert z S hz ih =>
    intro a b hab hc hd
    by_cases hm : z ∈ Set.Ioo a b
    · have h1 := ih (a := a) (b := z) hm.1.le (hc.mono (Set.Icc_subset_Icc le_rfl hm.2.le)) fun x hx hS =>
        hd x ⟨hx.1, hx.2.trans hm.2⟩ (by simp [hx.2.ne, hS])
      have h2 := ih (a := z) (b := b) hm.2.le (hc.mono (Set.Icc_subset_Icc hm.1.le le_rfl)) fun x hx hS =>
        hd x ⟨hm.1.trans hx.1, hx.2⟩ (by simp [hx.1.ne', hS])
      exact h1.trans h2
    · refine ih hab hc fun x hx hS => hd x hx ?_
      have : x ≠ z := fun h => hm (h ▸ hx)
      simp [this, hS]

/-- `Ψ² φ' / φ` is continuous when `Ψ` vanishes at the zeros of `φ`. -/
theorem quotient_continuous {Ψ Ψ' φ φ' : ℝ → ℝ} {s : Set ℝ} (hΨ : ∀ x ∈ s, HasDerivWithinAt Ψ (Ψ' x) s x)
    (hφ : ∀ x ∈ s, HasDerivWithinAt φ (φ' x) s x) (hφ' : ContinuousOn φ' s)
    (hz : ∀ x ∈ s, φ x = 0 → Ψ x = 0 ∧ φ' x ≠ 0) : ContinuousOn (fun x => Ψ x ^ 2 * φ' x / φ x) s := by
  intro z hzs
  by_cases h0 : φ z = 0
  · obtain ⟨hΨz, hφz⟩ := hz z hzs h0
    rw [← continuousWithinAt_sdiff_self]
    have s1 := hasDerivWithinAt_iff_tendsto_slope.1 (hΨ z hzs)
    have s2 := hasDerivWithinAt_iff_tendsto_slope.1 (hφ z hzs)
    have s3 : Tendsto Ψ (𝓝[s \ {z}] z) (𝓝 0) := by
      have := ((hΨ z hzs).continuousWithinAt.mono Set.sdiff_subset : ContinuousWithinAt Ψ (s \ {z}) z).tendsto
      rwa [hΨz] at this
    have s4 : Tendsto φ' (𝓝[s \ {z}] z) (𝓝 (φ' z)) := ((hφ' z hzs).mono Set.sdiff_subset).tendsto
    have h := ((s1.mul s3).mul s4).div s2 hφz
    rw [mul_zero, zero_mul, zero_div] at h
    have hzero : Ψ z ^ 2 * φ' z / φ z = 0 := by rw [h0, div_zero]
    show Tendsto _ _ (𝓝 (Ψ z ^ 2 * φ' z / φ z))
    rw [hzero]
    refine h.congr' ?_
    filter_upwards [self_mem_nhdsWithin] with x hx
    have hxz : x - z ≠ 0 := sub_ne_zero.2 hx.2
    simp only [Pi.div_apply, slope_def_field, hΨz, h0, sub_zero]
    by_cases hφx : φ x = 0
    · simp [hφx]
    · field_simp
  · exact (((hΨ z hzs).continuousWithinAt.pow 2).mul (hφ' z hzs)).div (hφ z hzs).continuousWithinAt h0

/-- A solution with at most `k` zeros between the walls has an energy not above the `k`-th energy of the box. -/
theorem lower (hL : 0 < L) (hV : ContinuousOn V (Set.Icc (-L) L)) {φ φ' : ℝ → ℝ}
    (h1 : ∀ x ∈ Set.Icc (-L) L, HasDerivWithinAt φ (φ' x) (Set.Icc (-L) L) x)
    (h2 : ∀ x ∈ Set.Icc (-L) L, HasDerivWithinAt φ' (2 * (V x - e) * φ x) (Set.Icc (-L) L) x)
    (hne : ∃ x ∈ Set.Icc (-L) L, φ x ≠ 0) {Z : Finset ℝ} (hZ : ∀ x ∈ Set.Ioo (-L) L, φ x = 0 → x ∈ Z) {E : ℕ → ℝ}
    {ψ : ℕ → ℝ → ℝ} (hE : Monotone E) (hψ : ∀ k, BoxState V L (E k) (ψ k))
    (hov : ∀ p q, Overlap L (fun x => (ψ p x : ℂ)) (fun x => (ψ q x : ℂ)) (if p = q then 1 else 0)) {k : ℕ}
    (hk : Z.card ≤ k) : e ≤ E k := by
  classical
  by_contra hcon
  push Not at hcon
  have hsimple : ∀ x ∈ Set.Icc (-L) L, φ x = 0 → φ' x ≠ 0 := fun x hx h0 h0' => by
    obtain ⟨y, hy, hy'⟩ := hne
    exact hy' (double_zero hV h1 h2 hx h0 h0' y hy)
  have hst : ∀ j, ∃ ψ' : ℝ → ℝ, ∀ x ∈ Set.Icc (-L) L, HasDerivWithinAt (ψ j) (ψ' x) (Set.Icc (-L) L) x ∧
      HasDerivWithinAt ψ' (2 * (V x - E j) * ψ j x) (Set.Icc (-L) L) x := fun j => by
    obtain ⟨-, -, -, ψ', ψ'', h⟩ := hψ j
    refine ⟨ψ', fun x hx => ⟨(h x hx).1, (h x hx).2.1.congr_deriv ?_⟩⟩
    linarith [(h x hx).2.2]
  choose ψ' hψ' using hst
  have hP : ∀ i j, ∃ P : ℝ → ℝ, P (-L) = 0 ∧ P L = (if i = j then 1 else 0) ∧
      ∀ x ∈ Set.Icc (-L) L, HasDerivWithinAt P (ψ i x * ψ j x) (Set.Icc (-L) L) x := fun i j => by
    obtain ⟨P, p0, p1, pd⟩ := hov i j
    refine ⟨fun x => (P x).re, by simp [p0], by show (P L).re = _; rw [p1]; split <;> simp, fun x hx => ?_⟩
    have := Complex.reCLM.hasFDerivAt.comp_hasDerivWithinAt x (pd x hx)
    refine this.congr_deriv ?_
    simp
  choose P P0 P1 Pd using hP
  obtain ⟨c, ⟨j0, hj0, hcj⟩, hc⟩ := Nodes.exists_coeff (m := k + 1) (ι := Z) (by
    rw [Fintype.card_coe]
    omega) (fun z j => ψ j z)
  set R := range (k + 1) with hR
  set Ψ : ℝ → ℝ := fun x => ∑ j ∈ R, c j * ψ j x with hΨ
  set Ψ' : ℝ → ℝ := fun x => ∑ j ∈ R, c j * ψ' j x with hΨ'
  set S : ℝ → ℝ := fun x => ∑ j ∈ R, c j * (E j - e) * ψ j x with hS
  set A : ℝ → ℝ := fun x => ∑ i ∈ R, ∑ j ∈ R, c i * (c j * (E j - e)) * P i j x with hA
  have dΨ : ∀ x ∈ Set.Icc (-L) L, HasDerivWithinAt Ψ (Ψ' x) (Set.Icc (-L) L) x := fun x hx =>
    HasDerivWithinAt.fun_sum fun j _ => ((hψ' j x hx).1).const_mul (c j)
  have dΨ' : ∀ x ∈ Set.Icc (-L) L, HasDerivWithinAt Ψ' (2 * (V x - e) * Ψ x - 2 * S x) (Set.Icc (-L) L) x := fun x hx => by
    refine (HasDerivWithinAt.fun_sum fun j _ => ((hψ' j x hx).2).const_mul (c j)).congr_deriv ?_
    simp only [hΨ, hS]
    rw [mul_sum, mul_sum, ← sum_sub_distrib]
    exact sum_congr rfl fun j _ => by ring
  have dA : ∀ x ∈ Set.Icc (-L) L, HasDerivWithinAt A (Ψ x * S x) (Set.Icc (-L) L) x := fun x hx => by
    refine (HasDerivWithinAt.fun_sum fun i _ => HasDerivWithinAt.fun_sum fun j _ =>
      (Pd i j x hx).const_mul (c i * (c j * (E j - e)))).congr_deriv ?_
    simp only [hΨ, hS]
    rw [sum_mul_sum]
    exact sum_congr rfl fun i _ => sum_congr rfl fun j _ => by ring
  have hΨl : Ψ (-L) = 0 := sum_eq_zero fun j _ => by rw [(hψ j).1, mul_zero]
  have hΨr : Ψ L = 0 := sum_eq_zero fun j _ => by rw [(hψ j).2.1, mul_zero]
  have hΨz : ∀ x ∈ Set.Icc (-L) L, φ x = 0 → Ψ x = 0 := by
    intro x hx h0
    rcases eq_or_lt_of_le hx.1 with h | h
    · rw [← h, hΨl]
    rcases eq_or_lt_of_le hx.2 with h' | h'
    · rw [h', hΨr]
    exact hc ⟨x, hZ x ⟨h, h'⟩ h0⟩
  set W : ℝ → ℝ := fun x => Ψ x * Ψ' x + 2 * A x - Ψ x ^ 2 * φ' x / φ x with hW
  have cW : ContinuousOn W (Set.Icc (-L) L) := by
    refine ContinuousOn.sub (ContinuousOn.add (ContinuousOn.mul ?_ ?_) (ContinuousOn.mul continuousOn_const ?_))
      (quotient_continuous dΨ h1 (fun x hx => (h2 x hx).continuousWithinAt) fun x hx h0 => ⟨hΨz x hx h0, hsimple x hx h0⟩)
    · exact fun x hx => (dΨ x hx).continuousWithinAt
    · exact fun x hx => (dΨ' x hx).continuousWithinAt
    · exact fun x hx => (dA x hx).continuousWithinAt
  have hle := le_off_finite Z (W := W) (a := -L) (b := L) (by linarith) cW fun x hx hxZ => by
    have hφx : φ x ≠ 0 := fun h0 => hxZ (hZ x hx h0)
    have hI : x ∈ Set.Icc (-L) L := ⟨hx.1.le, hx.2.le⟩
    have hn : Set.Icc (-L) L ∈ 𝓝 x := Icc_mem_nhds hx.1 hx.2
    refine ⟨(Ψ' x - Ψ x * φ' x / φ x) ^ 2, sq_nonneg _, ?_⟩
    have k1 := (dΨ x hI).hasDerivAt hn
    have k2 := (dΨ' x hI).hasDerivAt hn
    have k3 := (dA x hI).hasDerivAt hn
    have k4 := (h1 x hI).hasDerivAt hn
    have k5 := (h2 x hI).hasDerivAt hn
    refine (((k1.mul k2).add (k3.const_mul 2)).sub (((k1.pow 2).mul k5).div k4 hφx)).congr_deriv ?_
    simp only [Pi.mul_apply, Pi.pow_apply]
    field_simp
    push_cast
    ring
  have hWl : W (-L) = 0 := by
    have : A (-L) = 0 := sum_eq_zero fun i _ => sum_eq_zero fun j _ => by rw [P0, mul_zero]
    simp only [hW]
    rw [this, hΨl]
    simp
  have hWr : W L = 2 * ∑ j ∈ R, c j ^ 2 * (E j - e) := by
    have : A L = ∑ j ∈ R, c j ^ 2 * (E j - e) := by
      simp only [hA]
      refine sum_congr rfl fun i hi => ?_
      rw [sum_eq_single i]
      · rw [P1, if_pos rfl]
        ring
      · intro j _ hji
        rw [P1, if_neg (Ne.symm hji), mul_zero]
      · exact fun h => absurd hi h
    simp only [hW]
    rw [this, hΨr]
    simp
  rw [hWl, hWr] at hle
  have hw : ∀ j ∈ R, E j - e < 0 := fun j hj => by
    have : E j ≤ E k := hE (by have := mem_range.1 hj; omega)
    linarith
  have : ∑ j ∈ R, c j ^ 2 * (E j - e) < 0 := by
    refine sum_neg' (fun j hj => mul_nonpos_of_nonneg_of_nonpos (sq_nonneg _) (hw j hj).le) ⟨j0, mem_range.2 hj0, ?_⟩
    exact mul_neg_of_pos_of_neg (by positivity) (hw j0 (mem_range.2 hj0))
  linarith

end QS.Oscillation
