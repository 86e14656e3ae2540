import Verif.Lemmas.ManyBodySpectrum
import Verif.Lemmas.Positive

/-! # Lower bounds for the energies of `N` particles (helper file) -/

namespace QS

open Finset Function

variable {N L : ℕ}

theorem sum_update_complex (i : Fin N) (g : (Fin N → Fin L) → ℂ) : ∑ x, ∑ y, g (update x i y) = L * ∑ x, g x := by
  rw [← sum_swapAt i (fun x _ => g x)]
  simp [mul_sum]

/-- A one-body operator bounded from below by `m`. -/
theorem oneBody_form_ge {h : Fin L → Fin L → ℂ} {m : ℝ}
    (hh : ∀ v : Fin L → ℂ, m * ∑ p, ‖v p‖ ^ 2 ≤ (∑ p, ∑ q, star (v p) * h p q * v q).re) (Φ : Wave ℂ N L) :
    N * m * ∑ x, ‖Φ x‖ ^ 2 ≤ (waveInner Φ (oneBodyOp h Φ)).re := by
  have key : ∀ i : Fin N, m * ∑ x, ‖Φ x‖ ^ 2 ≤ (∑ x, ∑ y, star (Φ x) * (h (x i) y * Φ (update x i y))).re := fun i => by
    rcases Nat.eq_zero_or_pos L with rfl | hL
    · haveI : IsEmpty (Fin N → Fin 0) := ⟨fun x => (x i).elim0⟩
      simp
    have hL' : (0 : ℝ) < L := by exact_mod_cast hL
    have h1 := sum_update_complex i fun x => ∑ y, star (Φ x) * (h (x i) y * Φ (update x i y))
    have h2 := sum_update i fun x => ‖Φ x‖ ^ 2
    have h3 : m * ∑ x, ∑ y, ‖Φ (update x i y)‖ ^ 2 ≤ (∑ x, ∑ p, ∑ y, star (Φ (update x i p)) *
        (h (update x i p i) y * Φ (update (update x i p) i y))).re := by
      rw [Complex.re_sum, mul_sum]
      refine sum_le_sum fun x _ => ?_
      refine (hh fun p => Φ (update x i p)).trans (le_of_eq ?_)
      congr 1
      refine sum_congr rfl fun p _ => sum_congr rfl fun q _ => ?_
      rw [update_self, update_idem, mul_assoc]
    rw [h1, h2, ← Complex.ofReal_natCast, Complex.re_ofReal_mul] at h3
    refine le_of_mul_le_mul_left ?_ hL'
    linarith
  unfold waveInner oneBodyOp
  simp only [mul_sum]
  rw [sum_comm, Complex.re_sum]
  refine le_trans (le_of_eq ?_) (sum_le_sum fun i _ => key i)
  simp only [sum_const, card_univ, Fintype.card_fin, nsmul_eq_mul, ← mul_sum]
  ring

/-- A repulsive interaction. -/
theorem twoBody_form_nonneg {u : Fin L → Fin L → Fin L → Fin L → ℂ}
    (hu : ∀ v : Fin L → Fin L → ℂ, 0 ≤ (∑ p, ∑ q, ∑ r, ∑ s, star (v p q) * u p q r s * v r s).re) (Φ : Wave ℂ N L) :
    0 ≤ (waveInner Φ (twoBodyOp u Φ)).re := by
  have key : ∀ i j : Fin N, i ≠ j →
      0 ≤ (∑ x, ∑ y, ∑ z, star (Φ x) * (u (x i) (x j) y z * Φ (update (update x i y) j z))).re := fun i j hij => by
    rcases Nat.eq_zero_or_pos L with rfl | hL
    · haveI : IsEmpty (Fin N → Fin 0) := ⟨fun x => (x i).elim0⟩
      simp
    have hL' : (0 : ℝ) < L := by exact_mod_cast hL
    have h1 := sum_update_complex i fun x => ∑ q, ∑ y, ∑ z, star (Φ (update x j q)) *
      (u (update x j q i) (update x j q j) y z * Φ (update (update (update x j q) i y) j z))
    rw [sum_update_complex j fun x => ∑ y, ∑ z, star (Φ x) * (u (x i) (x j) y z * Φ (update (update x i y) j z))] at h1
    have h3 : 0 ≤ (∑ x : Fin N → Fin L, ∑ p, ∑ q, ∑ y, ∑ z, star (Φ (update (update x i p) j q)) *
        (u (update (update x i p) j q i) (update (update x i p) j q j) y z *
          Φ (update (update (update (update x i p) j q) i y) j z))).re := by
      rw [Complex.re_sum]
      refine sum_nonneg fun x _ => ?_
      refine (hu fun p q => Φ (update (update x i p) j q)).trans (le_of_eq ?_)
      congr 1
      refine sum_congr rfl fun p _ => sum_congr rfl fun q _ => sum_congr rfl fun y _ => sum_congr rfl fun z _ => ?_
      rw [update_self, update_of_ne hij, update_self, update_comm hij.symm, update_idem, update_idem, mul_assoc]
    rw [h1, ← Complex.ofReal_natCast, Complex.re_ofReal_mul, Complex.re_ofReal_mul] at h3
    exact nonneg_of_mul_nonneg_right (nonneg_of_mul_nonneg_right h3 hL') hL'
  unfold waveInner twoBodyOp
  simp only [mul_sum]
  rw [sum_comm, Complex.re_sum]
  refine sum_nonneg fun i _ => ?_
  rw [sum_comm, Complex.re_sum]
  exact sum_nonneg fun j hj => key i j (mem_erase.1 hj).1.symm

theorem waveInner_hamiltonOp (h : Fin L → Fin L → ℂ) (u : Fin L → Fin L → Fin L → Fin L → ℂ) (Φ Ψ : Wave ℂ N L) :
    waveInner Φ (hamiltonOp h u Ψ) = waveInner Φ (oneBodyOp h Ψ) + 1 / 2 * waveInner Φ (twoBodyOp u Ψ) := by
  unfold waveInner hamiltonOp
  rw [mul_sum, ← sum_add_distrib]
  exact sum_congr rfl fun x _ => by ring

/-- Larger elements have larger energies. -/
theorem Spectrum.mono {h h' : Fin L → Fin L → ℂ} {u u' : Fin L → Fin L → Fin L → Fin L → ℂ} {D D' : ℕ} {E E' : ℕ → ℝ}
    {Ψ Ψ' : ℕ → Wave ℂ N L} (S : Spectrum h u D E Ψ) (S' : Spectrum h' u' D' E' Ψ')
    (hh : ∀ v : Fin L → ℂ, 0 ≤ (∑ p, ∑ q, star (v p) * (h' p q - h p q) * v q).re)
    (hu : ∀ v : Fin L → Fin L → ℂ, 0 ≤ (∑ p, ∑ q, ∑ r, ∑ s, star (v p q) * (u' p q r s - u p q r s) * v r s).re) {k : ℕ}
    (hk : k < D) : E k ≤ E' k := by
  have := S'.le_of_form S (c := 0) (fun Φ _ => ?_) (by rwa [← S.count S'] : k < D')
  · simpa using this
  have h1 := oneBody_form_ge (m := 0) (h := fun p q => h' p q - h p q) (fun v => by rw [zero_mul]; exact hh v) Φ
  have h2 := twoBody_form_nonneg (u := fun p q r s => u' p q r s - u p q r s) hu Φ
  have h3 : waveInner Φ (hamiltonOp (fun p q => h' p q - h p q) (fun p q r s => u' p q r s - u p q r s) Φ) =
      waveInner Φ (hamiltonOp h' u' Φ) - waveInner Φ (hamiltonOp h u Φ) := by
    unfold waveInner
    rw [← sum_sub_distrib]
    exact sum_congr rfl fun x _ => by rw [hamiltonOp_sub, mul_sub]
  have h4 := congrArg Complex.re (waveInner_hamiltonOp (fun p q => h' p q - h p q)
    (fun p q r s => u' p q r s - u p q r s) Φ Φ)
  rw [h3, Complex.add_re, Complex.sub_re, show (1 / 2 : ℂ) = ((1 / 2 : ℝ) : ℂ) by norm_num, Complex.re_ofReal_mul] at h4
  linarith

/-- Every energy is at least `N` times the lower bound of the one-body part, if the interaction is repulsive. -/
theorem Spectrum.ge {h : Fin L → Fin L → ℂ} {u : Fin L → Fin L → Fin L → Fin L → ℂ} {D : ℕ} {E : ℕ → ℝ}
    {Ψ : ℕ → Wave ℂ N L} (S : Spectrum h u D E Ψ) {c : ℝ}
    (hc : ∀ Φ : Wave ℂ N L, Antisymmetric Φ → c * ∑ x, ‖Φ x‖ ^ 2 ≤ (waveInner Φ (oneBodyOp h Φ)).re)
    (hu : ∀ v : Fin L → Fin L → ℂ, 0 ≤ (∑ p, ∑ q, ∑ r, ∑ s, star (v p q) * u p q r s * v r s).re) {k : ℕ} (hk : k < D) :
    c ≤ E k := by
  have h1 := hc (Ψ k) (S.anti k hk)
  have h2 := twoBody_form_nonneg hu (Ψ k)
  have h3 : waveInner (Ψ k) (hamiltonOp h u (Ψ k)) = E k := by
    rw [S.eigen k hk]
    have := waveInner_comb {()} (Ψ k) (fun _ => (E k : ℂ)) (fun _ => Ψ k)
    simp only [sum_singleton] at this
    rw [this, S.orth k hk k hk, if_pos rfl, mul_one]
  have h4 := congrArg Complex.re (waveInner_hamiltonOp h u (Ψ k) (Ψ k))
  have h5 := waveInner_self (Ψ k)
  rw [S.orth k hk k hk, if_pos rfl] at h5
  have h6 : ∑ x, ‖Ψ k x‖ ^ 2 = 1 := by exact_mod_cast h5.symm
  rw [h6] at h1
  rw [h3, Complex.ofReal_re, Complex.add_re, show (1 / 2 : ℂ) = ((1 / 2 : ℝ) : ℂ) by norm_num, Complex.re_ofReal_mul] at h4
  linarith

/-- The lowest orbitals. -/
theorem aufbau_le {e : ℕ → ℝ} (he : ∀ p q, p ≤ q → q < L → e p ≤ e q) {x : Fin N → Fin L} (hx : Injective x) :
    ∑ i ∈ range N, e i ≤ ∑ i, e (x i) := by
  have hc : (univ.image x).card = N := by rw [card_image_of_injective _ hx, card_univ, Fintype.card_fin]
  have h1 : ∑ i, e (x i) = ∑ p ∈ univ.image x, e p := (sum_image (f := fun p : Fin L => e p) fun a _ b _ h => hx h).symm
  have h2 : ∑ p ∈ univ.image x, e p = ∑ i : Fin N, e ((univ.image x).orderEmbOfFin hc i) := by
    have h3 := Finset.map_orderEmbOfFin_univ (univ.image x) hc
    conv_lhs => rw [← h3]
    rw [sum_map]
    rfl
  rw [h1, h2, sum_range]
  refine sum_le_sum fun i _ => he _ _ ?_ (Fin.is_lt _)
  have h4 : ∀ n (hn : n < N), n ≤ ((univ.image x).orderEmbOfFin hc ⟨n, hn⟩).1 := by
    intro n
    induction n with
    | zero => intro _; exact Nat.zero_le _
    | succ n ih =>
      intro hn
      have h5 := ih (by omega)
      have h6 : (univ.image x).orderEmbOfFin hc ⟨n, by omega⟩ < (univ.image x).orderEmbOfFin hc ⟨n + 1, hn⟩ :=
        ((univ.image x).orderEmbOfFin hc).strictMono (by simp [Fin.lt_def])
      have h7 := Fin.lt_def.1 h6
      omega
  exact h4 i i.2

theorem oneBody_diag {h : Fin L → Fin L → ℂ} {e : ℕ → ℝ} (hh : ∀ p q, h p q = if p = q then (e p : ℂ) else 0)
    (Φ : Wave ℂ N L) : waveInner Φ (oneBodyOp h Φ) = ((∑ x, (∑ i, e (x i)) * ‖Φ x‖ ^ 2 : ℝ) : ℂ) := by
  unfold waveInner oneBodyOp
  push_cast
  refine sum_congr rfl fun x _ => ?_
  have h1 : ∀ i, ∑ y, h (x i) y * Φ (update x i y) = e (x i) * Φ x := fun i => by
    rw [sum_eq_single (x i)]
    · rw [hh, if_pos rfl, update_eq_self]
    · intro y _ hy
      rw [hh, if_neg (Ne.symm hy), zero_mul]
    · intro hn
      exact absurd (mem_univ _) hn
  rw [sum_congr rfl fun i _ => h1 i, ← sum_mul]
  have : star (Φ x) * Φ x = (‖Φ x‖ : ℂ) ^ 2 := Complex.conj_mul' _
  linear_combination (∑ i, (e (x i) : ℂ)) * this

end QS
