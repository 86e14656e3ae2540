import Verif.Lemmas.Adiabatic
import Verif.Spec.Adiabatic
import Verif.Lemmas.Evolution
import Verif.Lemmas.ManyBodySpectrum
import Mathlib.Analysis.Calculus.ContDiff.Deriv
import Mathlib.Analysis.InnerProductSpace.Projection.Basic

/-! # Levels of `N` particles under slow changes (helper file) -/

namespace QS.Adiabatic

open Finset Function

/-! ## Operators that are diagonal in an orthonormal basis -/

section Diagonal

variable {V : Type*} [NormedAddCommGroup V] [InnerProductSpace ℂ V] [FiniteDimensional ℂ V] {D : ℕ}
  (B : OrthonormalBasis (Fin D) ℂ V)

/-- The operator with the eigenvectors `B i` and the eigenvalues `d i`. -/
noncomputable def diagOp (d : Fin D → ℂ) : V →L[ℂ] V :=
  LinearMap.toContinuousLinearMap (B.toBasis.constr ℂ fun i => d i • B i)

theorem diagOp_basis (d : Fin D → ℂ) (i : Fin D) : diagOp B d (B i) = d i • B i := by
  have := B.toBasis.constr_basis ℂ (fun i => d i • B i) i
  rwa [OrthonormalBasis.coe_toBasis] at this

omit [FiniteDimensional ℂ V] in
theorem clm_ext {A A' : V →L[ℂ] V} (h : ∀ i, A (B i) = A' (B i)) : A = A' := by
  have : (A : V →ₗ[ℂ] V) = A' := B.toBasis.ext fun i => by simpa using h i
  exact ContinuousLinearMap.coe_injective this

theorem diagOp_mul (d e : Fin D → ℂ) : diagOp B d * diagOp B e = diagOp B fun i => d i * e i :=
  clm_ext B fun i => by
    rw [mul_apply_eq_comp, diagOp_basis, map_smul, diagOp_basis, diagOp_basis, smul_smul, mul_comm]

theorem diagOp_one : diagOp B (fun _ => 1) = 1 := clm_ext B fun i => by
  rw [diagOp_basis, one_smul, one_apply_eq_self]

theorem diagOp_sub (d e : Fin D → ℂ) : diagOp B d - diagOp B e = diagOp B fun i => d i - e i :=
  clm_ext B fun i => by rw [sub_apply, diagOp_basis, diagOp_basis, diagOp_basis, sub_smul]

theorem diagOp_smul (c : ℂ) (d : Fin D → ℂ) : c • diagOp B d = diagOp B fun i => c * d i :=
  clm_ext B fun i => by rw [smul_apply, diagOp_basis, diagOp_basis, smul_smul]

theorem diagOp_zero : diagOp B (fun _ => 0) = 0 := clm_ext B fun i => by rw [diagOp_basis, zero_smul, zero_apply]

theorem diagOp_inner (d : Fin D → ℂ) (i : Fin D) (x : V) : inner ℂ (B i) (diagOp B d x) = d i * inner ℂ (B i) x := by
  conv_lhs => rw [← B.sum_repr' x]
  rw [map_sum, inner_sum, sum_eq_single i]
  · rw [map_smul, diagOp_basis, _root_.inner_smul_right, _root_.inner_smul_right, inner_self_eq_norm_sq_to_K, B.orthonormal.1 i]
    norm_num
    ring
  · intro j _ hj
    rw [map_smul, diagOp_basis, _root_.inner_smul_right, _root_.inner_smul_right, B.orthonormal.2 hj.symm, mul_zero, mul_zero]
  · intro h
    exact absurd (mem_univ i) h

theorem diagOp_norm {d : Fin D → ℂ} {c : ℝ} (hc : 0 ≤ c) (h : ∀ i, ‖d i‖ ≤ c) : ‖diagOp B d‖ ≤ c := by
  refine ContinuousLinearMap.opNorm_le_bound _ hc fun x => ?_
  refine le_of_sq_le_sq ?_ (by positivity)
  rw [← B.sum_sq_norm_inner_right, mul_pow, ← B.sum_sq_norm_inner_right x, mul_sum]
  refine sum_le_sum fun i _ => ?_
  rw [diagOp_inner, norm_mul, mul_pow]
  exact mul_le_mul_of_nonneg_right (pow_le_pow_left₀ (norm_nonneg _) (h i) 2) (sq_nonneg _)

/-- The projection on an eigenvector of a simple eigenvalue and the inverse on the complement. -/
theorem isolated_diag {H : V →L[ℂ] V} {E : Fin D → ℝ} {g : ℝ} (hg : 0 < g) (hH : ∀ i, H (B i) = (E i : ℂ) • B i) (k : Fin D)
    (gap : ∀ j, j ≠ k → g ≤ |E j - E k|) :
    Isolated H (diagOp B fun i => if i = k then 1 else 0)
      (diagOp B fun i => if i = k then 0 else ((E i - E k : ℝ) : ℂ)⁻¹) (E k) g := by
  have eH : H = diagOp B fun i => (E i : ℂ) := clm_ext B fun i => by rw [hH, diagOp_basis]
  have ne : ∀ i, i ≠ k → ((E i - E k : ℝ) : ℂ) ≠ 0 := fun i hi => by
    have := gap i hi
    rw [Ne, Complex.ofReal_eq_zero]
    intro h0
    rw [h0, abs_zero] at this
    linarith
  have e1 : (E k : ℂ) • (1 : V →L[ℂ] V) = diagOp B fun _ => (E k : ℂ) := by
    rw [← diagOp_one B, diagOp_smul]
    simp
  refine ⟨?_, ?_, ?_, ?_, ?_, ?_, ?_, ?_, ?_⟩
  · rw [eH, diagOp_mul, diagOp_smul]
    congr 1
    funext i
    split_ifs with h
    · rw [h]
    · simp
  · rw [eH, diagOp_mul, diagOp_smul]
    congr 1
    funext i
    split_ifs with h
    · rw [h]; ring
    · simp
  · rw [diagOp_mul]
    congr 1
    funext i
    split_ifs <;> simp
  · rw [diagOp_mul, ← diagOp_zero B]
    congr 1
    funext i
    split_ifs <;> simp
  · rw [diagOp_mul, ← diagOp_zero B]
    congr 1
    funext i
    split_ifs <;> simp
  · rw [eH, e1, diagOp_sub, diagOp_mul, ← diagOp_one B, diagOp_sub]
    congr 1
    funext i
    split_ifs with h
    · simp
    · rw [← Complex.ofReal_sub, inv_mul_cancel₀ (ne i h)]
      simp
  · rw [eH, e1, diagOp_sub, diagOp_mul, ← diagOp_one B, diagOp_sub]
    congr 1
    funext i
    split_ifs with h
    · simp
    · rw [← Complex.ofReal_sub, mul_inv_cancel₀ (ne i h)]
      simp
  · exact diagOp_norm B zero_le_one fun i => by split_ifs <;> simp
  · refine diagOp_norm B (inv_nonneg.2 hg.le) fun i => ?_
    split_ifs with h
    · simpa using hg.le
    · rw [norm_inv, Complex.norm_real, Real.norm_eq_abs]
      exact inv_anti₀ hg (gap i h)

theorem proj_apply (k : Fin D) (x : V) : diagOp B (fun i => if i = k then 1 else 0) x = (inner ℂ (B k) x : ℂ) • B k := by
  refine B.toBasis.ext_elem fun i => ?_
  rw [OrthonormalBasis.coe_toBasis_repr_apply, OrthonormalBasis.coe_toBasis_repr_apply, B.repr_apply_apply,
    B.repr_apply_apply, diagOp_inner, _root_.inner_smul_right, orthonormal_iff_ite.1 B.orthonormal]
  split_ifs with h
  · rw [h]; ring
  · simp

end Diagonal

/-- The norm of a Hermitian operator is bounded by its mean values. -/
theorem norm_of_form {V : Type*} [NormedAddCommGroup V] [InnerProductSpace ℂ V] {A : V →L[ℂ] V} {κ : ℝ} (hκ : 0 ≤ κ)
    (hA : ∀ x y, inner ℂ (A x) y = inner ℂ x (A y)) (h : ∀ x, ‖(inner ℂ x (A x) : ℂ)‖ ≤ κ * ‖x‖ ^ 2) : ‖A‖ ≤ κ := by
  have key : ∀ x y, 4 * (inner ℂ x (A y) : ℂ).re ≤ κ * (2 * ‖x‖ ^ 2 + 2 * ‖y‖ ^ 2) := fun x y => by
    have e : 4 * (inner ℂ x (A y) : ℂ).re = (inner ℂ (x + y) (A (x + y)) : ℂ).re - (inner ℂ (x - y) (A (x - y)) : ℂ).re := by
      have s1 : (inner ℂ y (A x) : ℂ).re = (inner ℂ x (A y) : ℂ).re := by
        rw [← hA, ← inner_conj_symm, Complex.conj_re]
      rw [map_add, map_sub, inner_add_left, inner_add_right, inner_add_right, inner_sub_left, inner_sub_right, inner_sub_right]
      simp only [Complex.add_re, Complex.sub_re]
      linarith
    have h1 := (Complex.abs_re_le_norm _).trans (h (x + y))
    have h2 := (Complex.abs_re_le_norm _).trans (h (x - y))
    have h3 := parallelogram_law_with_norm ℂ x y
    rw [e]
    nlinarith [abs_le.1 h1, abs_le.1 h2]
  refine ContinuousLinearMap.opNorm_le_bound _ hκ fun y => ?_
  by_cases h0 : ‖A y‖ = 0
  · rw [h0]; positivity
  have hp : 0 < ‖A y‖ := lt_of_le_of_ne (norm_nonneg _) (Ne.symm h0)
  have := key (((‖y‖ / ‖A y‖ : ℝ) : ℂ) • A y) y
  rw [_root_.inner_smul_left, inner_self_eq_norm_sq_to_K, norm_smul, Complex.norm_real, Real.norm_eq_abs,
    abs_of_nonneg (by positivity), div_mul_cancel₀ _ h0, Complex.conj_ofReal] at this
  have e2 : (((‖y‖ / ‖A y‖ : ℝ) : ℂ) * ((‖A y‖ : ℝ) : ℂ) ^ 2).re = ‖y‖ * ‖A y‖ := by
    rw [← Complex.ofReal_pow, ← Complex.ofReal_mul, Complex.ofReal_re]
    field_simp
  have e3 : 4 * (‖y‖ * ‖A y‖) ≤ κ * (2 * ‖y‖ ^ 2 + 2 * ‖y‖ ^ 2) := by
    rw [← e2]
    exact this
  by_cases hy : ‖y‖ = 0
  · rw [norm_eq_zero] at hy
    rw [hy]; simp
  · have hyp : 0 < ‖y‖ := lt_of_le_of_ne (norm_nonneg _) (Ne.symm hy)
    nlinarith

/-! ## Operators of `N` particles -/

variable {N L : ℕ}

/-- All elements. -/
abbrev Elements (L : ℕ) := (Fin L → Fin L → ℂ) × (Fin L → Fin L → Fin L → Fin L → ℂ)

/-- The Hamilton operator of the antisymmetric wave functions as a function of the elements. -/
noncomputable def hamL (N L : ℕ) : Elements L →ₗ[ℂ] (antiSpace N L →L[ℂ] antiSpace N L) where
  toFun z := LinearMap.toContinuousLinearMap (hamiltonMap z.1 z.2)
  map_add' z z' := by
    ext v x
    show hamiltonOp (z.1 + z'.1) (z.2 + z'.2) (fun x => v.1 x) x =
      hamiltonOp z.1 z.2 (fun x => v.1 x) x + hamiltonOp z'.1 z'.2 (fun x => v.1 x) x
    unfold hamiltonOp oneBodyOp twoBodyOp
    simp only [Pi.add_apply, add_mul, sum_add_distrib]
    ring
  map_smul' c z := by
    ext v x
    show hamiltonOp (c • z.1) (c • z.2) (fun x => v.1 x) x = c * hamiltonOp z.1 z.2 (fun x => v.1 x) x
    unfold hamiltonOp oneBodyOp twoBodyOp
    simp only [Pi.smul_apply, smul_eq_mul, mul_assoc, ← mul_sum]
    ring

theorem hamL_apply (z : Elements L) (v : antiSpace N L) (x) : (hamL N L z v).1 x = hamiltonOp z.1 z.2 (fun x => v.1 x) x := rfl

/-- The elements are Hermitian. -/
def HermEl (z : Elements L) : Prop := (∀ p q, star (z.1 p q) = z.1 q p) ∧ ∀ p q r s, star (z.2 p q r s) = z.2 r s p q

theorem hamL_symm {z : Elements L} (hz : HermEl z) (v w : antiSpace N L) :
    inner ℂ (hamL N L z v) w = inner ℂ v (hamL N L z w) := by
  rw [inner_waveInner, inner_waveInner]
  exact hamiltonOp_symm hz.1 hz.2 (fun x => v.1 x) (fun x => w.1 x)

theorem norm_sq_wave (v : antiSpace N L) : ‖v‖ ^ 2 = ∑ x, ‖v.1 x‖ ^ 2 := by
  rw [Submodule.coe_norm, EuclideanSpace.norm_sq_eq]

theorem form_le {h : Fin L → Fin L → ℂ} {u : Fin L → Fin L → Fin L → Fin L → ℂ} {ε δ : ℝ}
    (h1 : ∀ p q, ‖h p q‖ ≤ ε) (h2 : ∀ p q r s, ‖u p q r s‖ ≤ δ) (Φ : Wave ℂ N L) :
    ‖waveInner Φ (hamiltonOp h u Φ)‖ ≤ (N * L * ε + N * (N - 1 : ℕ) / 2 * L ^ 2 * δ) * ∑ x, ‖Φ x‖ ^ 2 := by
  have e : waveInner Φ (hamiltonOp h u Φ) = waveInner Φ (oneBodyOp h Φ) + 1 / 2 * waveInner Φ (twoBodyOp u Φ) := by
    unfold waveInner hamiltonOp
    rw [mul_sum, ← sum_add_distrib]
    exact sum_congr rfl fun x _ => by ring
  rw [e]
  refine (norm_add_le _ _).trans ?_
  have a1 := oneBody_form_le h1 Φ
  have a2 := twoBody_form_le h2 Φ
  rw [norm_mul, show ‖(1 / 2 : ℂ)‖ = 1 / 2 by norm_num]
  linarith

theorem hamL_norm {z : Elements L} (hz : HermEl z) {ε δ : ℝ} (hε : 0 ≤ ε) (hδ : 0 ≤ δ) (h1 : ∀ p q, ‖z.1 p q‖ ≤ ε)
    (h2 : ∀ p q r s, ‖z.2 p q r s‖ ≤ δ) : ‖hamL N L z‖ ≤ N * L * ε + N * (N - 1 : ℕ) / 2 * L ^ 2 * δ := by
  have h0 : 0 ≤ N * L * ε + N * (N - 1 : ℕ) / 2 * L ^ 2 * δ := by positivity
  generalize hκ : N * L * ε + N * (N - 1 : ℕ) / 2 * L ^ 2 * δ = κ at h0 ⊢
  refine norm_of_form (V := antiSpace N L) h0 (fun v w => hamL_symm hz v w) fun v => ?_
  rw [inner_waveInner, norm_sq_wave, ← hκ]
  exact form_le h1 h2 _

/-- An antisymmetric wave function as an element of the space. -/
noncomputable def toAnti (Ψ : Wave ℂ N L) (hΨ : Antisymmetric Ψ) : antiSpace N L := ⟨WithLp.toLp 2 Ψ, hΨ⟩

theorem toAnti_inner {Φ Ψ : Wave ℂ N L} (hΦ : Antisymmetric Φ) (hΨ : Antisymmetric Ψ) :
    inner ℂ (toAnti Φ hΦ) (toAnti Ψ hΨ) = waveInner Φ Ψ := by
  rw [inner_waveInner]
  rfl

/-- The states of a spectrum as a basis. -/
theorem spectrum_basis {h : Fin L → Fin L → ℂ} {u : Fin L → Fin L → Fin L → Fin L → ℂ} {D : ℕ} {E : ℕ → ℝ}
    {Ψ : ℕ → Wave ℂ N L} (S : Spectrum h u D E Ψ) :
    ∃ B : OrthonormalBasis (Fin D) ℂ (antiSpace N L), (∀ i : Fin D, B i = toAnti (Ψ i) (S.anti i i.2)) ∧
      ∀ i : Fin D, hamL N L (h, u) (B i) = (E i : ℂ) • B i := by
  have ho : Orthonormal ℂ fun i : Fin D => toAnti (Ψ i) (S.anti i i.2) := by
    rw [orthonormal_iff_ite]
    intro i j
    rw [toAnti_inner, S.orth i i.2 j j.2]
    by_cases hij : i = j
    · simp [hij]
    · rw [if_neg hij, if_neg fun h => hij (Fin.ext h)]
  have sp : ⊤ ≤ Submodule.span ℂ (Set.range fun i : Fin D => toAnti (Ψ i) (S.anti i i.2)) := fun v _ => by
    have e : v = ∑ i : Fin D, waveInner (Ψ i) (fun x => v.1 x) • toAnti (Ψ i) (S.anti i i.2) := by
      apply Subtype.ext
      ext x
      rw [S.complete (fun x => v.1 x) v.2 x, Finset.sum_range]
      simp [toAnti]
    rw [e]
    exact Submodule.sum_mem _ fun i _ => Submodule.smul_mem _ _ (Submodule.subset_span ⟨i, rfl⟩)
  refine ⟨OrthonormalBasis.mk ho sp, fun i => by rw [OrthonormalBasis.coe_mk], fun i => ?_⟩
  rw [OrthonormalBasis.coe_mk]
  apply Subtype.ext
  ext x
  rw [hamL_apply]
  exact congrFun (S.eigen i i.2) x

/-- A solution of the Schrödinger equation as a curve in the space of the antisymmetric wave functions. -/
theorem evolves_anti {h : ℝ → Fin L → Fin L → ℂ} {u : ℝ → Fin L → Fin L → Fin L → Fin L → ℂ} {Ψ : ℝ → Wave ℂ N L}
    (hΨ : Evolves h u Ψ) (ha : ∀ t, Antisymmetric (Ψ t)) (t : ℝ) :
    HasDerivAt (fun t => toAnti (Ψ t) (ha t)) (-Complex.I • hamL N L (h t, u t) (toAnti (Ψ t) (ha t))) t := by
  have h1 : HasDerivAt (fun t => (WithLp.toLp 2 (Ψ t) : EuclideanSpace ℂ (Fin N → Fin L)))
      (WithLp.toLp 2 fun x => -Complex.I * hamiltonOp (h t) (u t) (Ψ t) x) t :=
    ((EuclideanSpace.equiv (Fin N → Fin L) ℂ).symm.toContinuousLinearMap.restrictScalars ℝ).hasFDerivAt.comp_hasDerivAt t
      (hasDerivAt_pi.2 fun x => hΨ t x)
  have h2 := (((antiSpace N L).orthogonalProjectionOnto).restrictScalars ℝ).hasFDerivAt.comp_hasDerivAt t h1
  have e : ∀ v : antiSpace N L, (antiSpace N L).orthogonalProjectionOnto v.1 = v := fun v =>
    Submodule.orthogonalProjectionOnto_mem_subspace_eq_self v
  have e1 : (fun t => toAnti (Ψ t) (ha t)) = ⇑((antiSpace N L).orthogonalProjectionOnto.restrictScalars ℝ) ∘
      fun t => (WithLp.toLp 2 (Ψ t) : EuclideanSpace ℂ (Fin N → Fin L)) := by
    funext t
    exact (e (toAnti (Ψ t) (ha t))).symm
  rw [e1]
  refine h2.congr_deriv ?_
  exact e (-Complex.I • hamL N L (h t, u t) (toAnti (Ψ t) (ha t)))

/-! ## Levels -/

theorem elements_one (z z' : Elements L) (p q : Fin L) : ‖z.1 p q - z'.1 p q‖ ≤ ‖z - z'‖ :=
  (norm_le_pi_norm ((z - z').1 p) q).trans ((norm_le_pi_norm (z - z').1 p).trans (norm_fst_le (z - z')))

theorem elements_two (z z' : Elements L) (p q r s : Fin L) : ‖z.2 p q r s - z'.2 p q r s‖ ≤ ‖z - z'‖ :=
  (norm_le_pi_norm ((z - z').2 p q r) s).trans ((norm_le_pi_norm ((z - z').2 p q) r).trans
    ((norm_le_pi_norm ((z - z').2 p) q).trans ((norm_le_pi_norm (z - z').2 p).trans (norm_snd_le (z - z')))))

/-- The energies depend continuously on the elements. -/
theorem energy_continuous {z : ℝ → Elements L} {s : Set ℝ} (hz : ContinuousOn z s) {D : ℕ} {E : ℝ → ℕ → ℝ}
    {Φ : ℝ → ℕ → Wave ℂ N L} (S : ∀ t ∈ s, Spectrum (z t).1 (z t).2 D (E t) (Φ t)) {k : ℕ} (hk : k < D) :
    ContinuousOn (fun t => E t k) s := by
  intro t ht
  have h1 : Filter.Tendsto (fun x => ((N : ℝ) * L + N * (N - 1 : ℕ) / 2 * L ^ 2) * ‖z x - z t‖) (nhdsWithin t s) (nhds 0) := by
    have := (((hz t ht).sub_const (z t)).norm).const_mul ((N : ℝ) * L + N * (N - 1 : ℕ) / 2 * L ^ 2)
    simpa using this
  rw [ContinuousWithinAt, tendsto_iff_norm_sub_tendsto_zero]
  refine squeeze_zero' (Filter.Eventually.of_forall fun x => norm_nonneg _) ?_ h1
  filter_upwards [self_mem_nhdsWithin] with x hx
  have := (S x hx).near (S t ht) (elements_one (z x) (z t)) (elements_two (z x) (z t)) hk
  rw [Real.norm_eq_abs]
  refine this.trans (le_of_eq ?_)
  ring

theorem linear_deriv {V X : Type*} [NormedAddCommGroup V] [InnerProductSpace ℂ V] [NormedAddCommGroup X] [NormedSpace ℂ X]
    [FiniteDimensional ℂ X] (c : X →ₗ[ℂ] (V →L[ℂ] V)) {z : ℝ → X} {z₁ : X} {s : Set ℝ} {t : ℝ}
    (h : HasDerivWithinAt z z₁ s t) : HasDerivWithinAt (fun t => c (z t)) (c z₁) s t :=
  (ContinuousLinearMap.restrictScalars ℝ (LinearMap.toContinuousLinearMap c)).hasFDerivAt.comp_hasDerivWithinAt t h

theorem mean_proj {D : ℕ} (B : OrthonormalBasis (Fin D) ℂ (antiSpace N L)) (k : Fin D) {Φ Ψ : Wave ℂ N L}
    (hΦ : Antisymmetric Φ) (hΨ : Antisymmetric Ψ) (h : B k = toAnti Φ hΦ) : (inner ℂ (toAnti Ψ hΨ)
      (diagOp B (fun i => if i = k then 1 else 0) (toAnti Ψ hΨ)) : ℂ) = (population Φ Ψ : ℝ) := by
  rw [proj_apply, _root_.inner_smul_right, ← inner_conj_symm (toAnti Ψ hΨ), h, toAnti_inner, population,
    ← Complex.normSq_eq_norm_sq]
  exact Complex.mul_conj _

/-- The adiabatic theorem for the levels of `N` particles. -/
theorem level_adiabatic {z z₁ z₂ : ℝ → Elements L} {a b g κ₁ κ₂ : ℝ} (hab : a ≤ b) (hg : 0 < g)
    (herm : ∀ t ∈ Set.Icc a b, HermEl (z t)) (d1 : ∀ t ∈ Set.Icc a b, HasDerivWithinAt z (z₁ t) (Set.Icc a b) t)
    (d2 : ∀ t ∈ Set.Icc a b, HasDerivWithinAt z₁ (z₂ t) (Set.Icc a b) t)
    (hκ₁ : ∀ t ∈ Set.Icc a b, ‖hamL N L (z₁ t)‖ ≤ κ₁) (hκ₂ : ∀ t ∈ Set.Icc a b, ‖hamL N L (z₂ t)‖ ≤ κ₂)
    {D : ℕ} {E : ℝ → ℕ → ℝ} {Φ : ℝ → ℕ → Wave ℂ N L} {k : ℕ} (hk : k < D)
    (S : ∀ t ∈ Set.Icc a b, Spectrum (z t).1 (z t).2 D (E t) (Φ t))
    (gap : ∀ t ∈ Set.Icc a b, ∀ j < D, j ≠ k → g ≤ |E t j - E t k|) {Ψ : ℝ → Wave ℂ N L}
    (hΨ : Evolves (fun t => (z t).1) (fun t => (z t).2) Ψ) (ha : ∀ t, Antisymmetric (Ψ t))
    (hn : ∀ t, waveInner (Ψ t) (Ψ t) = 1) :
    |population (Φ b k) (Ψ b) - population (Φ a k) (Ψ a)| ≤
      4 * κ₁ / g ^ 2 + (b - a) * (2 * κ₂ / g ^ 2 + 20 * κ₁ ^ 2 / g ^ 3) := by
  have hB : ∀ t, ∃ B : OrthonormalBasis (Fin D) ℂ (antiSpace N L), ∀ ht : t ∈ Set.Icc a b,
      (∀ i : Fin D, B i = toAnti (Φ t i) ((S t ht).anti i i.2)) ∧ ∀ i : Fin D, hamL N L (z t) (B i) = (E t i : ℂ) • B i := by
    intro t
    by_cases ht : t ∈ Set.Icc a b
    · obtain ⟨B, h1, h2⟩ := spectrum_basis (S t ht)
      exact ⟨B, fun _ => ⟨h1, h2⟩⟩
    · obtain ⟨B, -⟩ := spectrum_basis (S a (Set.left_mem_Icc.2 hab))
      exact ⟨B, fun h => absurd h ht⟩
  choose B hB using hB
  have key := adiabatic (V := antiSpace N L) (H := fun t => hamL N L (z t)) (H₁ := fun t => hamL N L (z₁ t))
    (H₂ := fun t => hamL N L (z₂ t)) (E := fun t => E t k) (ψ := fun t => toAnti (Ψ t) (ha t)) (r := 1)
    (P := fun t => diagOp (B t) fun i => if i = ⟨k, hk⟩ then 1 else 0)
    (S := fun t => diagOp (B t) fun i => if i = ⟨k, hk⟩ then 0 else ((E t i - E t k : ℝ) : ℂ)⁻¹) hab hg
    (fun t ht => isolated_diag (B t) (E := fun i => E t i) hg (hB t ht).2 ⟨k, hk⟩ fun j hj =>
      gap t ht j j.2 fun h => hj (Fin.ext h))
    (fun t ht x y => by
      rw [proj_apply, proj_apply, _root_.inner_smul_left, _root_.inner_smul_right, inner_conj_symm, mul_comm])
    (fun t ht => ⟨B t ⟨k, hk⟩, by rw [diagOp_basis, if_pos rfl, one_smul], (B t).orthonormal.1 _⟩)
    (fun t ht => hamL_symm (herm t ht))
    (energy_continuous (fun t ht => (d1 t ht).continuousWithinAt) S hk)
    (fun t ht => linear_deriv (V := antiSpace N L) (X := Elements L) (hamL N L) (d1 t ht)) (fun t ht => linear_deriv (V := antiSpace N L) (X := Elements L) (hamL N L) (d2 t ht)) hκ₁ hκ₂
    (fun t _ => (evolves_anti hΨ ha t).hasDerivWithinAt)
    (fun t _ => by
      have h1 := toAnti_inner (ha t) (ha t)
      rw [hn, inner_self_eq_norm_sq_to_K] at h1
      have h2 : ‖toAnti (Ψ t) (ha t)‖ ^ 2 = 1 := Complex.ofReal_injective (by rw [Complex.ofReal_pow, Complex.ofReal_one]; exact h1)
      exact (pow_eq_one_iff_of_nonneg (norm_nonneg _) two_ne_zero).1 h2)
  rw [mean_proj (B b) ⟨k, hk⟩ ((S b (Set.right_mem_Icc.2 hab)).anti k hk) (ha b) ((hB b (Set.right_mem_Icc.2 hab)).1 _),
    mean_proj (B a) ⟨k, hk⟩ ((S a (Set.left_mem_Icc.2 hab)).anti k hk) (ha a) ((hB a (Set.left_mem_Icc.2 hab)).1 _), ← Complex.ofReal_sub, Complex.norm_real, one_pow, mul_one] at key
  exact key

/-- A simple level stays apart from the others while the elements change continuously. -/
theorem gap_exists {z : ℝ → Elements L} (hz : ContinuousOn z (Set.Icc 0 1)) (herm : ∀ s, HermEl (z s)) {k : ℕ}
    (simple : ∀ s ∈ Set.Icc (0 : ℝ) 1, SimpleLevel N (z s).1 (z s).2 k) :
    ∃ g > 0, ∀ s ∈ Set.Icc (0 : ℝ) 1, ∀ D E (Φ : ℕ → Wave ℂ N L), Spectrum (z s).1 (z s).2 D E Φ →
      ∀ j < D, j ≠ k → g ≤ |E j - E k| := by
  have ex : ∀ s, ∃ D, ∃ (E : ℕ → ℝ) (Φ : ℕ → Wave ℂ N L), Spectrum (z s).1 (z s).2 D E Φ := fun s =>
    Spectrum.exists (herm s).1 (herm s).2 N
  choose D E Φ S using ex
  have hD : ∀ s, D s = D 0 := fun s => (S s).count (S 0)
  have S' : ∀ s ∈ Set.Icc (0 : ℝ) 1, Spectrum (z s).1 (z s).2 (D 0) (E s) (Φ s) := fun s _ => by
    have := S s
    rwa [hD s] at this
  have hk : k < D 0 := (simple 0 (by simp) _ _ _ (S 0)).1
  have step : ∀ m ≤ D 0, ∃ g > 0, ∀ s ∈ Set.Icc (0 : ℝ) 1, ∀ j < m, j ≠ k → g ≤ |E s j - E s k| := by
    intro m
    induction m with
    | zero => exact fun _ => ⟨1, one_pos, fun _ _ j hj => absurd hj (Nat.not_lt_zero j)⟩
    | succ m ih =>
      intro hm
      obtain ⟨g, hg, h1⟩ := ih (by omega)
      by_cases hmk : m = k
      · refine ⟨g, hg, fun s hs j hj hjk => h1 s hs j (by omega) hjk⟩
      have hc : ContinuousOn (fun s => |E s m - E s k|) (Set.Icc 0 1) :=
        ((energy_continuous hz S' (by omega)).sub (energy_continuous hz S' hk)).abs
      obtain ⟨s₀, hs₀, hmin⟩ := isCompact_Icc.exists_isMinOn ⟨0, by simp⟩ hc
      have hp : 0 < |E s₀ m - E s₀ k| := abs_pos.2 (sub_ne_zero.2 ((simple s₀ hs₀ _ _ _ (S' s₀ hs₀)).2 m (by omega) hmk))
      refine ⟨min g _, lt_min hg hp, fun s hs j hj hjk => ?_⟩
      by_cases hjm : j = m
      · subst hjm
        exact (min_le_right _ _).trans (hmin hs)
      · exact (min_le_left _ _).trans (h1 s hs j (by omega) hjk)
  obtain ⟨g, hg, h1⟩ := step (D 0) le_rfl
  refine ⟨g, hg, fun s hs D' E' Φ' T j hj hjk => ?_⟩
  have hDD := T.count (S' s hs)
  rw [T.unique (S' s hs) hj, T.unique (S' s hs) (by omega)]
  exact h1 s hs j (by omega) hjk

theorem linear_bound {V X : Type*} [NormedAddCommGroup V] [InnerProductSpace ℂ V] [NormedAddCommGroup X] [NormedSpace ℂ X]
    [FiniteDimensional ℂ X] (c : X →ₗ[ℂ] (V →L[ℂ] V)) : ∃ M ≥ 0, ∀ x, ‖c x‖ ≤ M * ‖x‖ := by
  let C : X →L[ℂ] (V →L[ℂ] V) := LinearMap.toContinuousLinearMap c
  exact ⟨‖C‖, norm_nonneg C, fun x => C.le_opNorm x⟩

theorem linear_bounded {V X : Type*} [NormedAddCommGroup V] [InnerProductSpace ℂ V] [NormedAddCommGroup X] [NormedSpace ℂ X]
    [FiniteDimensional ℂ X] (c : X →ₗ[ℂ] (V →L[ℂ] V)) {z : ℝ → X} (hz : ContinuousOn z (Set.Icc 0 1)) :
    ∃ κ, ∀ s ∈ Set.Icc (0 : ℝ) 1, ‖c (z s)‖ ≤ κ := by
  obtain ⟨M, hM, h⟩ := linear_bound c
  obtain ⟨K, hK⟩ := isCompact_Icc.exists_bound_of_continuousOn hz
  exact ⟨M * K, fun s hs => (h _).trans (mul_le_mul_of_nonneg_left (hK s hs) hM)⟩

theorem hamL_real {r κ : ℝ} (hr : 0 ≤ r) {z : Elements L} (h : ‖hamL N L z‖ ≤ κ) : ‖hamL N L (r • z)‖ ≤ r * κ := by
  have e : hamL N L (r • z) = (r : ℂ) • hamL N L z := by
    rw [← map_smul]
    exact congrArg _ (Complex.coe_smul r z).symm
  have hκ : 0 ≤ κ := (ContinuousLinearMap.opNorm_nonneg _).trans h
  rw [e]
  refine ContinuousLinearMap.opNorm_le_bound _ (by positivity) fun v => ?_
  rw [smul_apply, norm_smul, Complex.norm_real, Real.norm_eq_abs, abs_of_nonneg hr, mul_assoc]
  exact mul_le_mul_of_nonneg_left (((hamL N L z).le_opNorm v).trans (mul_le_mul_of_nonneg_right h (norm_nonneg _))) hr

theorem scaled_deriv {X : Type*} [NormedAddCommGroup X] [NormedSpace ℝ X] {z : ℝ → X} {z₁ : X} {T t : ℝ} (hT : 0 < T)
    (h : HasDerivWithinAt z z₁ (Set.Icc 0 1) (t / T)) : HasDerivWithinAt (fun t => z (t / T)) (T⁻¹ • z₁) (Set.Icc 0 T) t := by
  have h1 : HasDerivWithinAt (fun t : ℝ => t / T) T⁻¹ (Set.Icc 0 T) t := by
    have := ((hasDerivAt_id t).div_const T).hasDerivWithinAt (s := Set.Icc 0 T)
    simpa using this
  refine h.scomp t h1 fun x hx => ?_
  exact ⟨div_nonneg hx.1 hT.le, (div_le_one hT).2 hx.2⟩

/-- Slow changes in the time `T`. -/
theorem level_scaled {z z₁ z₂ : ℝ → Elements L} {g κ₁ κ₂ : ℝ} (hg : 0 < g) (herm : ∀ s, HermEl (z s))
    (d1 : ∀ s ∈ Set.Icc (0 : ℝ) 1, HasDerivWithinAt z (z₁ s) (Set.Icc 0 1) s)
    (d2 : ∀ s ∈ Set.Icc (0 : ℝ) 1, HasDerivWithinAt z₁ (z₂ s) (Set.Icc 0 1) s)
    (hκ₁ : ∀ s ∈ Set.Icc (0 : ℝ) 1, ‖hamL N L (z₁ s)‖ ≤ κ₁) (hκ₂ : ∀ s ∈ Set.Icc (0 : ℝ) 1, ‖hamL N L (z₂ s)‖ ≤ κ₂) {k : ℕ}
    (gap : ∀ s ∈ Set.Icc (0 : ℝ) 1, ∀ D E (Φ : ℕ → Wave ℂ N L), Spectrum (z s).1 (z s).2 D E Φ →
      ∀ j < D, j ≠ k → g ≤ |E j - E k|) {T : ℝ} (hT : 0 < T) {Ψ : ℝ → Wave ℂ N L}
    (hΨ : Evolves (fun t => (z (t / T)).1) (fun t => (z (t / T)).2) Ψ) {Φ₀ Φ₁ : Wave ℂ N L}
    (hΦ₀ : LevelState (z 0).1 (z 0).2 k Φ₀) (hΦ₁ : LevelState (z 1).1 (z 1).2 k Φ₁) (ha : Antisymmetric (Ψ 0))
    (hn : waveInner (Ψ 0) (Ψ 0) = 1) :
    |population Φ₁ (Ψ T) - population Φ₀ (Ψ 0)| ≤ (4 * κ₁ / g ^ 2 + 2 * κ₂ / g ^ 2 + 20 * κ₁ ^ 2 / g ^ 3) / T := by
  obtain ⟨D, E₀, P₀, S₀, hk, rfl⟩ := hΦ₀
  obtain ⟨D', E₁, P₁, S₁, hk', rfl⟩ := hΦ₁
  obtain rfl : D' = D := S₁.count S₀
  have ex : ∀ s, ∃ (E : ℕ → ℝ) (Φ : ℕ → Wave ℂ N L), Spectrum (z s).1 (z s).2 D' E Φ ∧ (s = 0 → Φ = P₀) ∧ (s = 1 → Φ = P₁) := by
    intro s
    by_cases h0 : s = 0
    · exact ⟨E₀, P₀, by rw [h0]; exact S₀, fun _ => rfl, fun h => by rw [h0] at h; norm_num at h⟩
    by_cases h1 : s = 1
    · exact ⟨E₁, P₁, by rw [h1]; exact S₁, fun h => absurd h h0, fun _ => rfl⟩
    obtain ⟨D'', E, Φ, S⟩ := Spectrum.exists (N := N) (herm s).1 (herm s).2
    have := S.count S₁
    subst this
    exact ⟨E, Φ, S, fun h => absurd h h0, fun h => absurd h h1⟩
  choose E Φ S e0 e1 using ex
  have hh : HermitianElements (fun t => (z (t / T)).1) (fun t => (z (t / T)).2) :=
    ⟨fun t => (herm _).1, fun t => (herm _).2⟩
  have mem : ∀ t ∈ Set.Icc (0 : ℝ) T, t / T ∈ Set.Icc (0 : ℝ) 1 := fun t ht =>
    ⟨div_nonneg ht.1 hT.le, (div_le_one hT).2 ht.2⟩
  have key := level_adiabatic (N := N) (z := fun t => z (t / T)) (z₁ := fun t => T⁻¹ • z₁ (t / T))
    (z₂ := fun t => T⁻¹ • T⁻¹ • z₂ (t / T)) (κ₁ := T⁻¹ * κ₁) (κ₂ := T⁻¹ * (T⁻¹ * κ₂)) hT.le hg (fun t _ => herm _)
    (fun t ht => scaled_deriv hT (d1 _ (mem t ht)))
    (fun t ht => (scaled_deriv hT (d2 _ (mem t ht))).const_smul T⁻¹)
    (fun t ht => hamL_real (by positivity) (hκ₁ _ (mem t ht)))
    (fun t ht => hamL_real (by positivity) (hamL_real (by positivity) (hκ₂ _ (mem t ht))))
    (D := D') (E := fun t => E (t / T)) (Φ := fun t => Φ (t / T)) hk (fun t _ => S _)
    (fun t ht => gap _ (mem t ht) _ _ _ (S _)) hΨ (evolves_fermions hh hΨ ha)
    (fun t => by rw [evolves_inner hh hΨ hΨ t 0, hn])
  rw [e0 (0 / T) (by simp), e1 (T / T) (div_self hT.ne')] at key
  refine key.trans (le_of_eq ?_)
  field_simp
  ring

theorem level_limit {z : ℝ → Elements L} (hz : ContDiffOn ℝ 2 z (Set.Icc 0 1)) (herm : ∀ s, HermEl (z s)) {k : ℕ}
    (simple : ∀ s ∈ Set.Icc (0 : ℝ) 1, SimpleLevel N (z s).1 (z s).2 k) :
    ∃ C, ∀ T > 0, ∀ Ψ : ℝ → Wave ℂ N L, Evolves (fun t => (z (t / T)).1) (fun t => (z (t / T)).2) Ψ →
      ∀ Φ₀ Φ₁ : Wave ℂ N L, LevelState (z 0).1 (z 0).2 k Φ₀ → LevelState (z 1).1 (z 1).2 k Φ₁ → Antisymmetric (Ψ 0) →
        waveInner (Ψ 0) (Ψ 0) = 1 → |population Φ₁ (Ψ T) - population Φ₀ (Ψ 0)| ≤ C / T := by
  obtain ⟨g, hg, gap⟩ := gap_exists hz.continuousOn herm simple
  have hu : UniqueDiffOn ℝ (Set.Icc (0 : ℝ) 1) := uniqueDiffOn_Icc zero_lt_one
  have hz1 : ContDiffOn ℝ 1 (derivWithin z (Set.Icc 0 1)) (Set.Icc 0 1) := hz.derivWithin hu (by norm_num)
  obtain ⟨κ₁, hκ₁⟩ := linear_bounded (V := antiSpace N L) (hamL N L) hz1.continuousOn
  obtain ⟨κ₂, hκ₂⟩ := linear_bounded (V := antiSpace N L) (hamL N L) (hz1.continuousOn_derivWithin hu le_rfl)
  exact ⟨_, fun T hT Ψ hΨ Φ₀ Φ₁ h0 h1 ha hn => level_scaled hg herm
    (fun s hs => (hz.differentiableOn (by norm_num) s hs).hasDerivWithinAt)
    (fun s hs => (hz1.differentiableOn (by norm_num) s hs).hasDerivWithinAt) hκ₁ hκ₂ gap hT hΨ h0 h1 ha hn⟩

end QS.Adiabatic
