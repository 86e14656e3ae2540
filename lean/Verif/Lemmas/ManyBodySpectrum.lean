import Verif.Spec.Levels
import Verif.Lemmas.ManyBodyChange
import Mathlib.Analysis.InnerProductSpace.Spectrum
import Mathlib.Analysis.InnerProductSpace.PiL2

/-! # Energies of `N` particles: bounds, existence, perturbation (helper file) -/

namespace QS

open Finset Function

variable {N L : ℕ}

/-- Exchange of the value at `i` with a second variable. -/
def swapAt (i : Fin N) : ((Fin N → Fin L) × Fin L) ≃ ((Fin N → Fin L) × Fin L) where
  toFun z := (update z.1 i z.2, z.1 i)
  invFun z := (update z.1 i z.2, z.1 i)
  left_inv z := by simp
  right_inv z := by simp

theorem sum_swapAt {A : Type} [AddCommMonoid A] (i : Fin N) (g : (Fin N → Fin L) → Fin L → A) :
    ∑ x, ∑ y, g x y = ∑ x, ∑ y, g (update x i y) (x i) := by
  rw [← Fintype.sum_prod_type', ← Fintype.sum_prod_type' (f := fun x y => g (update x i y) (x i))]
  exact ((swapAt i).sum_comp (fun z => g z.1 z.2)).symm

theorem sum_update (i : Fin N) (g : (Fin N → Fin L) → ℝ) : ∑ x, ∑ y, g (update x i y) = L * ∑ x, g x := by
  rw [← sum_swapAt i (fun x _ => g x)]
  simp [mul_sum]

theorem waveInner_self (Φ : Wave ℂ N L) : waveInner Φ Φ = ((∑ x, ‖Φ x‖ ^ 2 : ℝ) : ℂ) := by
  unfold waveInner
  push_cast
  exact sum_congr rfl fun x _ => Complex.conj_mul' _

theorem oneBody_form_le {h : Fin L → Fin L → ℂ} {ε : ℝ} (hh : ∀ p q, ‖h p q‖ ≤ ε) (Φ : Wave ℂ N L) :
    ‖waveInner Φ (oneBodyOp h Φ)‖ ≤ N * L * ε * ∑ x, ‖Φ x‖ ^ 2 := by
  unfold waveInner oneBodyOp
  simp only [mul_sum]
  rw [sum_comm]
  have key : ∀ i : Fin N, ‖∑ x, ∑ y, star (Φ x) * (h (x i) y * Φ (update x i y))‖ ≤ L * ε * ∑ x, ‖Φ x‖ ^ 2 := fun i => by
    have h1 : ‖∑ x, ∑ y, star (Φ x) * (h (x i) y * Φ (update x i y))‖ ≤
        ∑ x, ∑ y, ε * ((‖Φ x‖ ^ 2 + ‖Φ (update x i y)‖ ^ 2) / 2) := by
      refine (norm_sum_le _ _).trans (sum_le_sum fun x _ => (norm_sum_le _ _).trans (sum_le_sum fun y _ => ?_))
      have h0 : 0 ≤ ε := (norm_nonneg _).trans (hh (x i) y)
      rw [norm_mul, norm_mul, norm_star]
      have h2 : ‖Φ x‖ * (‖h (x i) y‖ * ‖Φ (update x i y)‖) ≤ ε * (‖Φ x‖ * ‖Φ (update x i y)‖) := by
        nlinarith [mul_le_mul_of_nonneg_right (hh (x i) y) (mul_nonneg (norm_nonneg (Φ x)) (norm_nonneg (Φ (update x i y))))]
      refine h2.trans (mul_le_mul_of_nonneg_left ?_ h0)
      nlinarith [sq_nonneg (‖Φ x‖ - ‖Φ (update x i y)‖)]
    refine h1.trans (le_of_eq ?_)
    have h3 := sum_update i fun x => ‖Φ x‖ ^ 2
    simp only [← mul_sum, ← sum_div, sum_add_distrib] at *
    rw [h3]
    simp only [sum_const, card_univ, Fintype.card_fin, nsmul_eq_mul, ← mul_sum]
    ring
  refine (norm_sum_le _ _).trans ((sum_le_sum fun i _ => key i).trans (le_of_eq ?_))
  simp only [sum_const, card_univ, Fintype.card_fin, nsmul_eq_mul, ← mul_sum]
  ring

theorem twoBody_form_le {u : Fin L → Fin L → Fin L → Fin L → ℂ} {ε : ℝ} (hu : ∀ p q r s, ‖u p q r s‖ ≤ ε)
    (Φ : Wave ℂ N L) : ‖waveInner Φ (twoBodyOp u Φ)‖ ≤ N * (N - 1 : ℕ) * L ^ 2 * ε * ∑ x, ‖Φ x‖ ^ 2 := by
  have key : ∀ i j : Fin N, ‖∑ x, ∑ y, ∑ z, star (Φ x) * (u (x i) (x j) y z * Φ (update (update x i y) j z))‖ ≤
      L ^ 2 * ε * ∑ x, ‖Φ x‖ ^ 2 := fun i j => by
    have h1 : ‖∑ x, ∑ y, ∑ z, star (Φ x) * (u (x i) (x j) y z * Φ (update (update x i y) j z))‖ ≤
        ∑ x, ∑ y, ∑ z, ε * ((‖Φ x‖ ^ 2 + ‖Φ (update (update x i y) j z)‖ ^ 2) / 2) := by
      refine (norm_sum_le _ _).trans (sum_le_sum fun x _ => (norm_sum_le _ _).trans (sum_le_sum fun y _ =>
        (norm_sum_le _ _).trans (sum_le_sum fun z _ => ?_)))
      have h0 : 0 ≤ ε := (norm_nonneg _).trans (hu (x i) (x j) y z)
      rw [norm_mul, norm_mul, norm_star]
      have h2 : ‖Φ x‖ * (‖u (x i) (x j) y z‖ * ‖Φ (update (update x i y) j z)‖) ≤
          ε * (‖Φ x‖ * ‖Φ (update (update x i y) j z)‖) := by
        nlinarith [mul_le_mul_of_nonneg_right (hu (x i) (x j) y z)
          (mul_nonneg (norm_nonneg (Φ x)) (norm_nonneg (Φ (update (update x i y) j z))))]
      refine h2.trans (mul_le_mul_of_nonneg_left ?_ h0)
      nlinarith [sq_nonneg (‖Φ x‖ - ‖Φ (update (update x i y) j z)‖)]
    refine h1.trans (le_of_eq ?_)
    have h3 : ∑ x : Fin N → Fin L, ∑ y, ∑ z, ‖Φ (update (update x i y) j z)‖ ^ 2 = L * (L * ∑ x, ‖Φ x‖ ^ 2) := by
      rw [sum_update i fun x => ∑ z, ‖Φ (update x j z)‖ ^ 2, sum_update j fun x => ‖Φ x‖ ^ 2]
    simp only [← mul_sum, ← sum_div, sum_add_distrib] at *
    rw [h3]
    simp only [sum_const, card_univ, Fintype.card_fin, nsmul_eq_mul, ← mul_sum]
    ring
  unfold waveInner twoBodyOp
  simp only [mul_sum]
  rw [sum_comm]
  have h4 : ∀ i : Fin N, ‖∑ x, ∑ j ∈ univ.erase i, ∑ y, ∑ z, star (Φ x) * (u (x i) (x j) y z *
      Φ (update (update x i y) j z))‖ ≤ (N - 1 : ℕ) * (L ^ 2 * ε * ∑ x, ‖Φ x‖ ^ 2) := fun i => by
    rw [sum_comm]
    refine (norm_sum_le _ _).trans ((sum_le_sum fun j _ => key i j).trans (le_of_eq ?_))
    rw [sum_const, card_erase_of_mem (mem_univ _), card_univ, Fintype.card_fin, nsmul_eq_mul]
  refine (norm_sum_le _ _).trans ((sum_le_sum fun i _ => h4 i).trans (le_of_eq ?_))
  simp only [sum_const, card_univ, Fintype.card_fin, nsmul_eq_mul, ← mul_sum]
  ring

theorem hamiltonOp_sub (h h' : Fin L → Fin L → ℂ) (u u' : Fin L → Fin L → Fin L → Fin L → ℂ) (Φ : Wave ℂ N L) (x) :
    hamiltonOp (fun p q => h p q - h' p q) (fun p q r s => u p q r s - u' p q r s) Φ x =
      hamiltonOp h u Φ x - hamiltonOp h' u' Φ x := by
  unfold hamiltonOp oneBodyOp twoBodyOp
  simp only [sub_mul, sum_sub_distrib]
  ring

/-- The energies of two sets of elements. -/
theorem form_sub_le {h h' : Fin L → Fin L → ℂ} {u u' : Fin L → Fin L → Fin L → Fin L → ℂ} {ε δ : ℝ}
    (hh : ∀ p q, ‖h p q - h' p q‖ ≤ ε) (hu : ∀ p q r s, ‖u p q r s - u' p q r s‖ ≤ δ) (Φ : Wave ℂ N L) :
    ‖waveInner Φ (hamiltonOp h u Φ) - waveInner Φ (hamiltonOp h' u' Φ)‖ ≤
      (N * L * ε + N * (N - 1 : ℕ) / 2 * L ^ 2 * δ) * ∑ x, ‖Φ x‖ ^ 2 := by
  have e : waveInner Φ (hamiltonOp h u Φ) - waveInner Φ (hamiltonOp h' u' Φ) =
      waveInner Φ (oneBodyOp (fun p q => h p q - h' p q) Φ) +
        1 / 2 * waveInner Φ (twoBodyOp (fun p q r s => u p q r s - u' p q r s) Φ) := by
    unfold waveInner
    rw [← sum_sub_distrib, mul_sum, ← sum_add_distrib]
    refine sum_congr rfl fun x _ => ?_
    rw [← mul_sub, ← hamiltonOp_sub]
    unfold hamiltonOp
    ring
  rw [e]
  refine (norm_add_le _ _).trans ?_
  have h1 := oneBody_form_le hh Φ
  have h2 := twoBody_form_le hu Φ
  rw [norm_mul, show ‖(1 / 2 : ℂ)‖ = 1 / 2 by norm_num]
  linarith

theorem hamiltonOp_comb (h : Fin L → Fin L → ℂ) (u : Fin L → Fin L → Fin L → Fin L → ℂ) {ι : Type} (s : Finset ι)
    (c : ι → ℂ) (Ψ : ι → Wave ℂ N L) (x) :
    hamiltonOp h u (fun x => ∑ i ∈ s, c i * Ψ i x) x = ∑ i ∈ s, c i * hamiltonOp h u (Ψ i) x := by
  have one : oneBodyOp h (fun x => ∑ i ∈ s, c i * Ψ i x) x = ∑ i ∈ s, c i * oneBodyOp h (Ψ i) x := by
    unfold oneBodyOp
    simp only [mul_sum]
    rw [sum_comm' (t' := univ) (s' := fun _ => s) (by simp)]
    refine sum_congr rfl fun k _ => ?_
    rw [sum_comm]
    exact sum_congr rfl fun i _ => sum_congr rfl fun y _ => by ring
  have two : twoBodyOp u (fun x => ∑ i ∈ s, c i * Ψ i x) x = ∑ i ∈ s, c i * twoBodyOp u (Ψ i) x := by
    unfold twoBodyOp
    simp only [mul_sum]
    rw [sum_comm' (s := s) (t := fun _ => univ) (t' := univ) (s' := fun _ => s) (by simp)]
    refine sum_congr rfl fun k _ => ?_
    rw [sum_comm' (s := s) (t := fun _ => univ.erase k) (t' := univ.erase k) (s' := fun _ => s) (by simp [and_comm])]
    refine sum_congr rfl fun j _ => ?_
    rw [sum_comm' (s := s) (t := fun _ => univ) (t' := univ) (s' := fun _ => s) (by simp)]
    refine sum_congr rfl fun y _ => ?_
    rw [sum_comm]
    exact sum_congr rfl fun i _ => sum_congr rfl fun z _ => by ring
  unfold hamiltonOp
  rw [one, two, mul_sum, ← sum_add_distrib]
  exact sum_congr rfl fun i _ => by ring

theorem waveInner_comb {ι : Type} (s : Finset ι) (Φ : Wave ℂ N L) (c : ι → ℂ) (Ψ : ι → Wave ℂ N L) :
    waveInner Φ (fun x => ∑ i ∈ s, c i * Ψ i x) = ∑ i ∈ s, c i * waveInner Φ (Ψ i) := by
  unfold waveInner
  simp only [mul_sum]
  rw [sum_comm]
  exact sum_congr rfl fun i _ => sum_congr rfl fun x _ => by ring

theorem waveInner_star (Φ Ψ : Wave ℂ N L) : star (waveInner Φ Ψ) = waveInner Ψ Φ := by
  unfold waveInner
  rw [star_sum]
  exact sum_congr rfl fun x _ => by simp [mul_comm]

/-- Linear conditions on more coefficients than there are conditions. -/
theorem exists_coeff_complex {m n : ℕ} (hc : n < m) (A : ℕ → ℕ → ℂ) :
    ∃ c : ℕ → ℂ, (∃ j < m, c j ≠ 0) ∧ ∀ i < n, ∑ j ∈ range m, c j * A i j = 0 := by
  let T : (Fin m → ℂ) →ₗ[ℂ] (Fin n → ℂ) := LinearMap.pi fun i => ∑ j : Fin m, A i j • LinearMap.proj j
  have hker : T.ker ≠ ⊥ := LinearMap.ker_ne_bot_of_finrank_lt (by
    rw [Module.finrank_fintype_fun_eq_card, Module.finrank_fintype_fun_eq_card, Fintype.card_fin, Fintype.card_fin]
    exact hc)
  obtain ⟨x, hx, hne⟩ := Submodule.exists_mem_ne_zero_of_ne_bot hker
  obtain ⟨j, hj⟩ : ∃ j, x j ≠ 0 := by
    by_contra h
    push Not at h
    exact hne (funext h)
  refine ⟨fun j => if h : j < m then x ⟨j, h⟩ else 0, ⟨j, j.2, by simpa using hj⟩, fun i hi => ?_⟩
  have := congrFun (LinearMap.mem_ker.1 hx) ⟨i, hi⟩
  rw [Finset.sum_range]
  simp only [Fin.is_lt, dite_true, Fin.eta]
  simpa [T, mul_comm] using this

namespace Spectrum

variable {h h' : Fin L → Fin L → ℂ} {u u' : Fin L → Fin L → Fin L → Fin L → ℂ} {D D' : ℕ} {E E' : ℕ → ℝ}
  {Ψ Ψ' : ℕ → Wave ℂ N L}

/-- The square of the norm and the energy of a combination of states. -/
theorem comb (S : Spectrum h u D E Ψ) {m : ℕ} (hm : m ≤ D) (c : ℕ → ℂ) :
    waveInner (fun x => ∑ i ∈ range m, c i * Ψ i x) (fun x => ∑ i ∈ range m, c i * Ψ i x) =
      ((∑ i ∈ range m, ‖c i‖ ^ 2 : ℝ) : ℂ) ∧
    waveInner (fun x => ∑ i ∈ range m, c i * Ψ i x) (hamiltonOp h u fun x => ∑ i ∈ range m, c i * Ψ i x) =
      ((∑ i ∈ range m, E i * ‖c i‖ ^ 2 : ℝ) : ℂ) := by
  have hin : ∀ j < m, waveInner (fun x => ∑ i ∈ range m, c i * Ψ i x) (Ψ j) = star (c j) := fun j hj => by
    rw [← waveInner_star, waveInner_comb, sum_eq_single j]
    · rw [S.orth j (by omega) j (by omega), if_pos rfl, mul_one]
    · intro i hi hij
      rw [S.orth j (by omega) i (by have := mem_range.1 hi; omega), if_neg (Ne.symm hij), mul_zero]
    · intro hn
      exact absurd (mem_range.2 hj) hn
  constructor
  · rw [waveInner_comb]
    push_cast
    refine sum_congr rfl fun i hi => ?_
    rw [hin i (mem_range.1 hi)]
    exact Complex.mul_conj' _
  · have e : (hamiltonOp h u fun x => ∑ i ∈ range m, c i * Ψ i x) = fun x => ∑ i ∈ range m, (c i * E i) * Ψ i x := by
      funext x
      rw [hamiltonOp_comb]
      refine sum_congr rfl fun i hi => ?_
      rw [S.eigen i (by have := mem_range.1 hi; omega), mul_assoc]
    rw [e, waveInner_comb]
    push_cast
    refine sum_congr rfl fun i hi => ?_
    rw [hin i (mem_range.1 hi), mul_right_comm]
    have : c i * star (c i) = (‖c i‖ : ℂ) ^ 2 := Complex.mul_conj' _
    rw [this, mul_comm]

/-- An antisymmetric wave function in terms of the states. -/
theorem parseval (S : Spectrum h u D E Ψ) {Φ : Wave ℂ N L} (hΦ : Antisymmetric Φ) :
    waveInner Φ Φ = ((∑ i ∈ range D, ‖waveInner (Ψ i) Φ‖ ^ 2 : ℝ) : ℂ) ∧
      waveInner Φ (hamiltonOp h u Φ) = ((∑ i ∈ range D, E i * ‖waveInner (Ψ i) Φ‖ ^ 2 : ℝ) : ℂ) := by
  have := S.comb le_rfl fun i => waveInner (Ψ i) Φ
  rwa [← funext (S.complete Φ hΦ)] at this

/-- The number of states. -/
theorem count (S : Spectrum h u D E Ψ) (S' : Spectrum h' u' D' E' Ψ') : D = D' := by
  have h1 : ∀ {h h' : Fin L → Fin L → ℂ} {u u' : Fin L → Fin L → Fin L → Fin L → ℂ} {D D' : ℕ} {E E' : ℕ → ℝ}
      {Ψ Ψ' : ℕ → Wave ℂ N L}, Spectrum h u D E Ψ → Spectrum h' u' D' E' Ψ' →
      (D : ℝ) = ∑ i ∈ range D, ∑ j ∈ range D', ‖waveInner (Ψ' j) (Ψ i)‖ ^ 2 := by
    intro h h' u u' D D' E E' Ψ Ψ' S S'
    have h2 : ∀ i ∈ range D, ∑ j ∈ range D', ‖waveInner (Ψ' j) (Ψ i)‖ ^ 2 = 1 := fun i hi => by
      have := (S'.parseval (S.anti i (mem_range.1 hi))).1
      rw [S.orth i (mem_range.1 hi) i (mem_range.1 hi), if_pos rfl] at this
      exact_mod_cast this.symm
    rw [sum_congr rfl h2]
    simp
  have h3 := h1 S S'
  rw [sum_comm] at h3
  have h4 := h1 S' S
  have h5 : (D : ℝ) = D' := by
    rw [h3, h4]
    refine sum_congr rfl fun i _ => sum_congr rfl fun j _ => ?_
    rw [← waveInner_star, norm_star]
  exact_mod_cast h5

/-- Sums of antisymmetric functions. -/
theorem anti_comb {m : ℕ} (c : ℕ → ℂ) {Ψ : ℕ → Wave ℂ N L} (hΨ : ∀ i < m, Antisymmetric (Ψ i)) :
    Antisymmetric fun x => ∑ i ∈ range m, c i * Ψ i x := by
  intro σ x
  rw [mul_sum]
  refine sum_congr rfl fun i hi => ?_
  rw [hΨ i (mem_range.1 hi) σ x]
  ring

/-- The energies lie close to each other if the forms do. -/
theorem le_of_form (S : Spectrum h u D E Ψ) (S' : Spectrum h' u' D' E' Ψ') {c : ℝ}
    (hc : ∀ Φ : Wave ℂ N L, Antisymmetric Φ → (waveInner Φ (hamiltonOp h' u' Φ)).re ≤
      (waveInner Φ (hamiltonOp h u Φ)).re + c * (waveInner Φ Φ).re) {k : ℕ} (hk : k < D) : E' k ≤ E k + c := by
  have hD := S.count S'
  obtain ⟨a, ⟨j, hj, hne⟩, ha⟩ := exists_coeff_complex (m := k + 1) (n := k) (by omega)
    fun i j => waveInner (Ψ' i) (Ψ j)
  set Φ : Wave ℂ N L := fun x => ∑ i ∈ range (k + 1), a i * Ψ i x with hΦ
  have hanti : Antisymmetric Φ := anti_comb a fun i hi => S.anti i (by omega)
  have h1 := S.comb (m := k + 1) (by omega) a
  have h2 := S'.parseval hanti
  rw [← hΦ] at h1
  have h3 : ∀ i < k, waveInner (Ψ' i) Φ = 0 := fun i hi => by
    rw [hΦ, waveInner_comb]
    exact ha i hi
  have h4 := hc Φ hanti
  rw [h1.2, h2.2, h2.1, Complex.ofReal_re, Complex.ofReal_re, Complex.ofReal_re] at h4
  have h5 : ∑ i ∈ range (k + 1), E i * ‖a i‖ ^ 2 ≤ E k * ∑ i ∈ range (k + 1), ‖a i‖ ^ 2 := by
    rw [mul_sum]
    exact sum_le_sum fun i hi => mul_le_mul_of_nonneg_right
      (S.sorted i k (by have := mem_range.1 hi; omega) hk) (sq_nonneg _)
  have h6 : E' k * ∑ i ∈ range D', ‖waveInner (Ψ' i) Φ‖ ^ 2 ≤ ∑ i ∈ range D', E' i * ‖waveInner (Ψ' i) Φ‖ ^ 2 := by
    rw [mul_sum]
    refine sum_le_sum fun i hi => ?_
    by_cases hik : i < k
    · rw [h3 i hik]
      simp
    · exact mul_le_mul_of_nonneg_right (S'.sorted k i (by omega) (mem_range.1 hi)) (sq_nonneg _)
  have h7 : ∑ i ∈ range D', ‖waveInner (Ψ' i) Φ‖ ^ 2 = ∑ i ∈ range (k + 1), ‖a i‖ ^ 2 := by
    have := h2.1.symm.trans h1.1
    exact_mod_cast this
  have h8 : 0 < ∑ i ∈ range (k + 1), ‖a i‖ ^ 2 :=
    sum_pos' (fun i _ => sq_nonneg _) ⟨j, mem_range.2 hj, pow_pos (norm_pos_iff.2 hne) 2⟩
  rw [h7] at h6 h4
  refine le_of_mul_le_mul_right ?_ h8
  linarith

/-- Perturbed elements have perturbed energies. -/
theorem near (S : Spectrum h u D E Ψ) (S' : Spectrum h' u' D' E' Ψ') {ε δ : ℝ}
    (hh : ∀ p q, ‖h p q - h' p q‖ ≤ ε) (hu : ∀ p q r s, ‖u p q r s - u' p q r s‖ ≤ δ) {k : ℕ} (hk : k < D) :
    |E k - E' k| ≤ N * L * ε + N * (N - 1 : ℕ) / 2 * L ^ 2 * δ := by
  have key : ∀ Φ : Wave ℂ N L, |(waveInner Φ (hamiltonOp h u Φ)).re - (waveInner Φ (hamiltonOp h' u' Φ)).re| ≤
      (N * L * ε + N * (N - 1 : ℕ) / 2 * L ^ 2 * δ) * (waveInner Φ Φ).re := fun Φ => by
    rw [← Complex.sub_re, waveInner_self, Complex.ofReal_re]
    exact (Complex.abs_re_le_norm _).trans (form_sub_le hh hu Φ)
  have h1 := S.le_of_form S' (c := N * L * ε + N * (N - 1 : ℕ) / 2 * L ^ 2 * δ)
    (fun Φ _ => by linarith [(abs_le.1 (key Φ)).1]) hk
  have h2 := S'.le_of_form S (c := N * L * ε + N * (N - 1 : ℕ) / 2 * L ^ 2 * δ)
    (fun Φ _ => by linarith [(abs_le.1 (key Φ)).2]) (by rwa [← S.count S'] : k < D')
  exact abs_le.2 ⟨by linarith, by linarith⟩

/-- The energies are determined by the elements. -/
theorem unique (S : Spectrum h u D E Ψ) (S' : Spectrum h u D' E' Ψ') {k : ℕ} (hk : k < D) : E k = E' k := by
  have := S.near S' (ε := 0) (δ := 0) (fun p q => by simp) (fun p q r s => by simp) hk
  simp only [mul_zero, add_zero] at this
  linarith [abs_nonpos_iff.1 this]

end Spectrum

/-! ## Existence -/

theorem oneBodyOp_symm {h : Fin L → Fin L → ℂ} (hh : ∀ p q, star (h p q) = h q p) (Φ Ψ : Wave ℂ N L) :
    waveInner (oneBodyOp h Φ) Ψ = waveInner Φ (oneBodyOp h Ψ) := by
  unfold waveInner oneBodyOp
  simp only [star_sum, sum_mul, mul_sum]
  rw [sum_comm, sum_comm (s := univ (α := Fin N → Fin L))]
  refine sum_congr rfl fun i _ => ?_
  rw [sum_swapAt i]
  refine sum_congr rfl fun x _ => sum_congr rfl fun y _ => ?_
  rw [update_self, update_idem, update_eq_self, star_mul', hh]
  ring

theorem twoBodyOp_symm {u : Fin L → Fin L → Fin L → Fin L → ℂ} (hu : ∀ p q r s, star (u p q r s) = u r s p q)
    (Φ Ψ : Wave ℂ N L) : waveInner (twoBodyOp u Φ) Ψ = waveInner Φ (twoBodyOp u Ψ) := by
  unfold waveInner twoBodyOp
  simp only [star_sum, sum_mul, mul_sum]
  rw [sum_comm, sum_comm (s := univ (α := Fin N → Fin L))]
  refine sum_congr rfl fun i _ => ?_
  rw [sum_comm, sum_comm (s := univ (α := Fin N → Fin L))]
  refine sum_congr rfl fun j hj => ?_
  have hij : i ≠ j := (mem_erase.1 hj).1.symm
  rw [sum_swapAt i]
  have e : ∀ G : (Fin N → Fin L) → Fin L → Fin L → ℂ, ∑ x, ∑ y, ∑ z, G x y z = ∑ x, ∑ z, ∑ y, G x y z := fun G =>
    sum_congr rfl fun x _ => sum_comm
  rw [e, sum_swapAt j, e]
  refine sum_congr rfl fun x _ => sum_congr rfl fun y _ => sum_congr rfl fun z _ => ?_
  have h1 : update (update (update (update x j z) i y) i (update x j z i)) j (x j) = x := by
    rw [update_idem, update_eq_self, update_idem, update_eq_self]
  rw [h1, update_self, update_of_ne hij.symm, update_self, update_of_ne hij, star_mul', hu, update_comm hij]
  ring

theorem hamiltonOp_symm {h : Fin L → Fin L → ℂ} {u : Fin L → Fin L → Fin L → Fin L → ℂ}
    (hh : ∀ p q, star (h p q) = h q p) (hu : ∀ p q r s, star (u p q r s) = u r s p q) (Φ Ψ : Wave ℂ N L) :
    waveInner (hamiltonOp h u Φ) Ψ = waveInner Φ (hamiltonOp h u Ψ) := by
  have e1 : waveInner (hamiltonOp h u Φ) Ψ = waveInner (oneBodyOp h Φ) Ψ + 1 / 2 * waveInner (twoBodyOp u Φ) Ψ := by
    unfold waveInner hamiltonOp
    rw [mul_sum, ← sum_add_distrib]
    refine sum_congr rfl fun x _ => ?_
    rw [star_add, star_mul', show star (1 / 2 : ℂ) = 1 / 2 by simp]
    ring
  have e2 : waveInner Φ (hamiltonOp h u Ψ) = waveInner Φ (oneBodyOp h Ψ) + 1 / 2 * waveInner Φ (twoBodyOp u Ψ) := by
    unfold waveInner hamiltonOp
    rw [mul_sum, ← sum_add_distrib]
    exact sum_congr rfl fun x _ => by ring
  rw [e1, e2, oneBodyOp_symm hh, twoBodyOp_symm hu]

/-- The antisymmetric wave functions. -/
def antiSpace (N L : ℕ) : Submodule ℂ (EuclideanSpace ℂ (Fin N → Fin L)) where
  carrier := {v | Antisymmetric (K := ℂ) (N := N) (L := L) fun x => v x}
  add_mem' := fun {v w} hv hw σ x => by
    have h1 := hv σ x
    have h2 := hw σ x
    dsimp only at h1 h2
    simp only [PiLp.add_apply]
    rw [h1, h2]
    ring
  zero_mem' := fun σ x => by simp
  smul_mem' := fun c v hv σ x => by
    have h1 := hv σ x
    dsimp only at h1
    simp only [PiLp.smul_apply, smul_eq_mul]
    rw [h1]
    ring

theorem hamiltonOp_add (h : Fin L → Fin L → ℂ) (u : Fin L → Fin L → Fin L → Fin L → ℂ) (Φ Ψ : Wave ℂ N L) (x) :
    hamiltonOp h u (fun x => Φ x + Ψ x) x = hamiltonOp h u Φ x + hamiltonOp h u Ψ x := by
  unfold hamiltonOp oneBodyOp twoBodyOp
  simp only [mul_add, sum_add_distrib]
  ring

theorem hamiltonOp_smul (h : Fin L → Fin L → ℂ) (u : Fin L → Fin L → Fin L → Fin L → ℂ) (c : ℂ) (Ψ : Wave ℂ N L) (x) :
    hamiltonOp h u (fun x => c * Ψ x) x = c * hamiltonOp h u Ψ x := by
  have := hamiltonOp_comb h u {()} (fun _ => c) (fun _ => Ψ) x
  simpa using this

/-- The Hamilton operator on the antisymmetric wave functions. -/
noncomputable def hamiltonMap (h : Fin L → Fin L → ℂ) (u : Fin L → Fin L → Fin L → Fin L → ℂ) :
    antiSpace N L →ₗ[ℂ] antiSpace N L where
  toFun v := ⟨WithLp.toLp 2 (hamiltonOp h u fun x => v.1 x), hamiltonOp_antisymmetric h u v.2⟩
  map_add' v w := by
    apply Subtype.ext
    ext x
    exact hamiltonOp_add h u (fun x => v.1 x) (fun x => w.1 x) x
  map_smul' c v := by
    apply Subtype.ext
    ext x
    exact hamiltonOp_smul h u c (fun x => v.1 x) x

theorem inner_waveInner (v w : antiSpace N L) : inner ℂ v w = waveInner (fun x => v.1 x) (fun x => w.1 x) := by
  rw [Submodule.coe_inner, PiLp.inner_apply]
  unfold waveInner
  refine sum_congr rfl fun x _ => ?_
  rw [RCLike.inner_apply, mul_comm]
  rfl

/-- Hermitian elements have energies. -/
theorem Spectrum.exists {h : Fin L → Fin L → ℂ} {u : Fin L → Fin L → Fin L → Fin L → ℂ}
    (hh : ∀ p q, star (h p q) = h q p) (hu : ∀ p q r s, star (u p q r s) = u r s p q) (N : ℕ) :
    ∃ (D : ℕ) (E : ℕ → ℝ) (Ψ : ℕ → Wave ℂ N L), Spectrum h u D E Ψ := by
  have hT : LinearMap.IsSymmetric (𝕜 := ℂ) (E := antiSpace N L) (hamiltonMap (N := N) h u) := fun v w => by
    rw [inner_waveInner, inner_waveInner]
    exact hamiltonOp_symm hh hu (fun x => v.1 x) (fun x => w.1 x)
  obtain ⟨D, hD⟩ : ∃ D, Module.finrank ℂ (antiSpace N L) = D := ⟨_, rfl⟩
  set B := hT.eigenvectorBasis hD with hB
  have key : ∀ i : Fin D, hamiltonOp h u (fun x => (B i).1 x) = fun x => (hT.eigenvalues hD i : ℂ) * (B i).1 x := fun i => by
    have h1 := hT.apply_eigenvectorBasis hD i
    funext x
    have h2 := congrArg (fun v : antiSpace N L => v.1 x) h1
    exact h2
  set e : ∀ i < D, Fin D := fun i hi => Fin.rev ⟨i, hi⟩ with he
  refine ⟨D, fun i => if hi : i < D then hT.eigenvalues hD (e i hi) else 0,
    fun i => if hi : i < D then fun x => (B (e i hi)).1 x else fun _ => 0, ⟨fun i j hij hj => ?_, fun i hi => ?_,
      fun i hi => ?_, fun i hi j hj => ?_, fun Φ hΦ x => ?_⟩⟩
  · rw [dif_pos hj, dif_pos (by omega : i < D)]
    refine hT.eigenvalues_antitone hD ?_
    rw [he]
    dsimp only
    rw [Fin.rev_le_rev]
    exact hij
  · rw [dif_pos hi]
    exact (B (e i hi)).2
  · rw [dif_pos hi, dif_pos hi]
    exact key _
  · rw [dif_pos hi, dif_pos hj, ← inner_waveInner, orthonormal_iff_ite.1 B.orthonormal]
    refine if_congr ?_ rfl rfl
    rw [he]
    dsimp only
    rw [Fin.rev_inj, Fin.mk.injEq]
  · have h1 := B.sum_repr' ⟨WithLp.toLp 2 Φ, hΦ⟩
    have h2 := congrArg (fun v : antiSpace N L => v.1 x) h1
    dsimp only at h2
    rw [sum_range, ← Equiv.sum_comp Fin.revPerm]
    refine h2.symm.trans ?_
    rw [Submodule.coe_sum, WithLp.ofLp_sum, Finset.sum_apply]
    refine sum_congr rfl fun i _ => ?_
    rw [dif_pos (Fin.is_lt _), he]
    dsimp only
    rw [Fin.eta, Fin.revPerm_apply, Fin.rev_rev]
    show inner ℂ (B i) _ * (B i).1 x = _
    rw [inner_waveInner]

/-! ## Changes of basis -/

theorem prodOp_comb {M : ℕ} {ι : Type} (s : Finset ι) (A : Matrix (Fin L) (Fin M) ℂ) (c : ι → ℂ) (Ψ : ι → Wave ℂ N M) (x) :
    prodOp (fun _ => A) (fun x => ∑ i ∈ s, c i * Ψ i x) x = ∑ i ∈ s, c i * prodOp (fun _ => A) (Ψ i) x := by
  rw [prodOp_sum]
  exact sum_congr rfl fun i _ => by rw [prodOp_smul]

/-- The energies do not depend on the basis. -/
theorem Spectrum.transport {h : Fin L → Fin L → ℂ} {u : Fin L → Fin L → Fin L → Fin L → ℂ} {D : ℕ} {E : ℕ → ℝ}
    {Ψ : ℕ → Wave ℂ N L} (S : Spectrum h u D E Ψ) {C : Matrix (Fin L) (Fin L) ℂ} (hC : C.conjTranspose * C = 1) :
    Spectrum (fun p q => (C.conjTranspose * Matrix.of h * C) p q)
      (fun p q r s => ∑ a, ∑ b, ∑ c, ∑ d, C.conjTranspose p a * C.conjTranspose q b * u a b c d * C c r * C d s) D E
      (fun i => prodOp (fun _ => C.conjTranspose) (Ψ i)) := by
  have hC' : C * C.conjTranspose = 1 := mul_eq_one_comm.1 hC
  refine ⟨S.sorted, fun i hi => prodOp_antisymmetric _ (S.anti i hi), fun i hi => ?_, fun i hi j hj => ?_,
    fun Φ hΦ x => ?_⟩
  · rw [← hamiltonOp_sandwich hC, prodOp_inverse hC', S.eigen i hi, prodOp_smul]
  · rw [waveInner_prodOp, Matrix.conjTranspose_conjTranspose, prodOp_inverse hC', S.orth i hi j hj]
  · have h1 := S.complete (prodOp (fun _ => C) Φ) (prodOp_antisymmetric C hΦ)
    have h2 : Φ x = prodOp (fun _ => C.conjTranspose) (prodOp (fun _ => C) Φ) x := by rw [prodOp_inverse hC]
    rw [h2, funext h1, prodOp_comb]
    refine sum_congr rfl fun i _ => ?_
    rw [waveInner_prodOp, Matrix.conjTranspose_conjTranspose]

/-- A smaller basis has fewer and higher energies. -/
theorem Spectrum.truncate {M : ℕ} {h : Fin L → Fin L → ℂ} {u : Fin L → Fin L → Fin L → Fin L → ℂ} {D D' : ℕ}
    {E E' : ℕ → ℝ} {Ψ : ℕ → Wave ℂ N L} {Ψ' : ℕ → Wave ℂ N M} (S : Spectrum h u D E Ψ) {C : Matrix (Fin L) (Fin M) ℂ}
    (hC : C.conjTranspose * C = 1)
    (S' : Spectrum (fun p q => (C.conjTranspose * Matrix.of h * C) p q)
      (fun p q r s => ∑ a, ∑ b, ∑ c, ∑ d, C.conjTranspose p a * C.conjTranspose q b * u a b c d * C c r * C d s) D' E' Ψ') :
    D' ≤ D ∧ ∀ k < D', E k ≤ E' k := by
  have key : ∀ a : ℕ → ℂ, ∀ m ≤ D', ((∑ i ∈ range m, ‖a i‖ ^ 2 : ℝ) : ℂ) = ((∑ i ∈ range D,
        ‖∑ j ∈ range m, a j * waveInner (Ψ i) (prodOp (fun _ => C) (Ψ' j))‖ ^ 2 : ℝ) : ℂ) ∧
      ((∑ i ∈ range m, E' i * ‖a i‖ ^ 2 : ℝ) : ℂ) = ((∑ i ∈ range D,
        E i * ‖∑ j ∈ range m, a j * waveInner (Ψ i) (prodOp (fun _ => C) (Ψ' j))‖ ^ 2 : ℝ) : ℂ) := fun a m hm => by
    have h1 := S'.comb hm a
    have hanti : Antisymmetric fun x => ∑ i ∈ range m, a i * Ψ' i x := anti_comb a fun i hi => S'.anti i (by omega)
    have h2 := S.parseval (prodOp_antisymmetric C hanti)
    rw [waveInner_prodOp, prodOp_inverse hC, waveInner_prodOp, hamiltonOp_sandwich hC, h1.1, h1.2] at h2
    have h3 : ∀ i, waveInner (Ψ i) (prodOp (fun _ => C) fun x => ∑ i ∈ range m, a i * Ψ' i x) =
        ∑ j ∈ range m, a j * waveInner (Ψ i) (prodOp (fun _ => C) (Ψ' j)) := fun i => by
      rw [funext (prodOp_comb (range m) C a Ψ'), waveInner_comb]
    simp only [h3] at h2
    exact h2
  have hcount : D' ≤ D := by
    by_contra hcon
    push Not at hcon
    obtain ⟨a, ⟨j, hj, hne⟩, ha⟩ := exists_coeff_complex hcon
      fun i j => waveInner (Ψ i) (prodOp (fun _ => C) (Ψ' j))
    have h1 := Complex.ofReal_inj.1 (key a D' le_rfl).1
    have h2 : 0 < ∑ i ∈ range D', ‖a i‖ ^ 2 :=
      sum_pos' (fun i _ => sq_nonneg _) ⟨j, mem_range.2 hj, pow_pos (norm_pos_iff.2 hne) 2⟩
    have h3 : ∑ i ∈ range D', ‖a i‖ ^ 2 = 0 := by
      rw [h1]
      refine sum_eq_zero fun i hi => ?_
      rw [ha i (mem_range.1 hi)]
      simp
    linarith
  refine ⟨hcount, fun k hk => ?_⟩
  obtain ⟨a, ⟨j, hj, hne⟩, ha⟩ := exists_coeff_complex (m := k + 1) (n := k) (by omega)
    fun i j => waveInner (Ψ i) (prodOp (fun _ => C) (Ψ' j))
  obtain ⟨h1, h2⟩ := key a (k + 1) (by omega)
  have h1 := Complex.ofReal_inj.1 h1
  have h2 := Complex.ofReal_inj.1 h2
  have h5 : ∑ i ∈ range (k + 1), E' i * ‖a i‖ ^ 2 ≤ E' k * ∑ i ∈ range (k + 1), ‖a i‖ ^ 2 := by
    rw [mul_sum]
    exact sum_le_sum fun i hi => mul_le_mul_of_nonneg_right
      (S'.sorted i k (by have := mem_range.1 hi; omega) hk) (sq_nonneg _)
  have h6 : E k * ∑ i ∈ range D, ‖∑ j ∈ range (k + 1), a j * waveInner (Ψ i) (prodOp (fun _ => C) (Ψ' j))‖ ^ 2 ≤
      ∑ i ∈ range D, E i * ‖∑ j ∈ range (k + 1), a j * waveInner (Ψ i) (prodOp (fun _ => C) (Ψ' j))‖ ^ 2 := by
    rw [mul_sum]
    refine sum_le_sum fun i hi => ?_
    by_cases hik : i < k
    · rw [ha i hik]
      simp
    · exact mul_le_mul_of_nonneg_right (S.sorted k i (by omega) (mem_range.1 hi)) (sq_nonneg _)
  have h8 : 0 < ∑ i ∈ range (k + 1), ‖a i‖ ^ 2 :=
    sum_pos' (fun i _ => sq_nonneg _) ⟨j, mem_range.2 hj, pow_pos (norm_pos_iff.2 hne) 2⟩
  rw [← h1, ← h2] at h6
  exact le_of_mul_le_mul_right (h6.trans h5) h8

/-- The energy of every antisymmetric wave function lies between the lowest and the highest energy. -/
theorem Spectrum.bounds {h : Fin L → Fin L → ℂ} {u : Fin L → Fin L → Fin L → Fin L → ℂ} {D : ℕ} {E : ℕ → ℝ}
    {Ψ : ℕ → Wave ℂ N L} (S : Spectrum h u D E Ψ) {Φ : Wave ℂ N L} (hΦ : Antisymmetric Φ) :
    E 0 * (waveInner Φ Φ).re ≤ (waveInner Φ (hamiltonOp h u Φ)).re ∧
      (waveInner Φ (hamiltonOp h u Φ)).re ≤ E (D - 1) * (waveInner Φ Φ).re := by
  obtain ⟨h1, h2⟩ := S.parseval hΦ
  rw [h1, h2, Complex.ofReal_re, Complex.ofReal_re, mul_sum, mul_sum]
  exact ⟨sum_le_sum fun i hi => mul_le_mul_of_nonneg_right (S.sorted 0 i (Nat.zero_le _) (mem_range.1 hi)) (sq_nonneg _),
    sum_le_sum fun i hi => mul_le_mul_of_nonneg_right
      (S.sorted i (D - 1) (by have := mem_range.1 hi; omega) (by have := mem_range.1 hi; omega)) (sq_nonneg _)⟩

/-! ## Phases -/

/-- Elements that agree up to phases of the functions have the same energies. -/
theorem Spectrum.near_phase {h h' : Fin L → Fin L → ℂ} {u u' : Fin L → Fin L → Fin L → Fin L → ℂ} {D D' : ℕ}
    {E E' : ℕ → ℝ} {Ψ Ψ' : ℕ → Wave ℂ N L} (S : Spectrum h u D E Ψ) (S' : Spectrum h' u' D' E' Ψ') {θ : Fin L → ℂ}
    (hθ : ∀ p, ‖θ p‖ = 1) {ε δ : ℝ} (hh : ∀ p q, ‖h p q - star (θ p) * θ q * h' p q‖ ≤ ε)
    (hu : ∀ p q r s, ‖u p q r s - star (θ p * θ q) * (θ r * θ s) * u' p q r s‖ ≤ δ) {k : ℕ} (hk : k < D) :
    |E k - E' k| ≤ N * L * ε + N * (N - 1 : ℕ) / 2 * L ^ 2 * δ := by
  have hC : (Matrix.diagonal θ).conjTranspose * Matrix.diagonal θ = 1 := by
    rw [Matrix.diagonal_conjTranspose, Matrix.diagonal_mul_diagonal, ← Matrix.diagonal_one]
    congr 1
    funext p
    show star (θ p) * θ p = 1
    have : star (θ p) * θ p = (‖θ p‖ : ℂ) ^ 2 := Complex.conj_mul' _
    rw [this, hθ]
    norm_num
  have T := S'.transport hC
  refine S.near T (fun p q => ?_) (fun p q r s => ?_) hk
  · refine le_trans (le_of_eq ?_) (hh p q)
    rw [Matrix.diagonal_conjTranspose, Matrix.mul_diagonal, Matrix.diagonal_mul]
    congr 2
    simp only [Matrix.of_apply, Pi.star_apply]
    ring
  · refine le_trans (le_of_eq ?_) (hu p q r s)
    congr 2
    simp only [Matrix.diagonal_conjTranspose, Matrix.diagonal_apply, Pi.star_apply, ite_mul, mul_ite, zero_mul, mul_zero,
      sum_ite_eq, sum_ite_eq', mem_univ, if_true, star_mul']
    ring

end QS
