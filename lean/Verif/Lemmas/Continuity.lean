import Verif.Lemmas.SumRule
import Verif.Spec.Continuity

/-!
# Lemmas on densities and currents (C147)
-/

namespace QS

open Finset NDArray BasisSet Props QS.Adiabatic

variable {N L : ℕ}

theorem meanOne_prodOp {C : Matrix (Fin L) (Fin L) ℂ} (hC : C.conjTranspose * C = 1) (A : Fin L → Fin L → ℂ) (Ψ : Wave ℂ N L) :
    meanOne A (prodOp (fun _ => C) Ψ) = meanOne (fun p q => (C.conjTranspose * Matrix.of A * C) p q) Ψ := by
  unfold meanOne
  rw [waveInner_prodOp, oneBodyOp_sandwich hC]

/-- Back to the old functions. -/
theorem Evolves.back {h : ℝ → Fin L → Fin L → ℂ} {u : ℝ → Fin L → Fin L → Fin L → Fin L → ℂ} {Ψ : ℝ → Wave ℂ N L}
    {C : Matrix (Fin L) (Fin L) ℂ} (hC : C.conjTranspose * C = 1)
    (S : Evolves (fun t p q => (C.conjTranspose * Matrix.of (h t) * C) p q)
      (fun t p q r s => ∑ a, ∑ b, ∑ c, ∑ d, C.conjTranspose p a * C.conjTranspose q b * u t a b c d * C c r * C d s) Ψ) :
    Evolves h u fun t => prodOp (fun _ => C) (Ψ t) := by
  have hC' : C * C.conjTranspose = 1 := mul_eq_one_comm.1 hC
  intro t x
  have h1 := hamiltonOp_sandwich hC (h t) (u t) (Ψ t)
  have h2 := congrArg (prodOp fun _ => C) h1
  rw [prodOp_inverse hC'] at h2
  rw [h2]
  unfold prodOp
  rw [mul_sum]
  refine (HasDerivAt.fun_sum fun y _ => (S t y).const_mul _).congr_deriv ?_
  exact sum_congr rfl fun y _ => by ring

/-- The change of what is diagonal, with an interaction that is diagonal. -/
theorem Evolves.diagonal {h : ℝ → Fin L → Fin L → ℂ} {u : ℝ → Fin L → Fin L → Fin L → Fin L → ℂ} (hh : HermitianElements h u)
    {Ψ : ℝ → Wave ℂ N L} (hΨ : Evolves h u Ψ) {t : ℝ} (hu : ∀ p q r s, ¬(p = r ∧ q = s) → u t p q r s = 0) (δ : Fin L → ℂ) :
    HasDerivAt (fun t => meanOne (fun p q => if p = q then δ p else 0) (Ψ t))
      (meanOne (fun p q => Complex.I * ((δ q - δ p) * h t p q)) (Ψ t)) t := by
  set d : Fin L → Fin L → ℂ := fun p q => if p = q then δ p else 0 with hd
  have z2 : ∀ Φ : Wave ℂ N L, twoBodyOp (fun _ _ _ _ => 0) Φ = fun _ => 0 := fun Φ => by
    funext x
    unfold twoBodyOp
    simp
  have hz : ∀ Φ : Wave ℂ N L, hamiltonOp d (fun _ _ _ _ => 0) Φ = oneBodyOp d Φ := fun Φ => by
    funext x
    unfold hamiltonOp
    rw [z2, mul_zero, add_zero]
  have base := C127_ehrenfest (a := fun _ => d) (a' := fun _ _ => 0) (v := fun _ _ _ _ _ => 0) (v' := fun _ _ _ _ => 0) hΨ
    (t := t) hh (fun p q => hasDerivAt_const t _) fun p q r s => hasDerivAt_const t _
  have e1 : (fun t => meanEnergy d (fun _ _ _ _ => 0) (Ψ t)) = fun t => meanOne d (Ψ t) := by
    funext t
    unfold meanEnergy meanOne
    rw [hz]
  rw [e1] at base
  refine base.congr_deriv ?_
  have e2 : meanEnergy (fun _ _ => 0) (fun _ _ _ _ => 0) (Ψ t) = 0 := by
    unfold meanEnergy hamiltonOp oneBodyOp twoBodyOp waveInner
    simp
  rw [e2, zero_add, hz, hz, ← waveInner_sub_right, ← waveInner_smul]
  unfold meanOne
  refine congrArg (waveInner (Ψ t)) (funext fun x => ?_)
  have dl : ∀ (A : Fin L → ℂ) p, ∑ k, d p k * A k = δ p * A p := fun A p => by
    simp only [hd, ite_mul, zero_mul]
    rw [sum_ite_eq, if_pos (mem_univ _)]
  have dr : ∀ (A : Fin L → ℂ) q, ∑ k, A k * d k q = A q * δ q := fun A q => by
    simp only [hd, mul_ite, mul_zero]
    rw [sum_ite_eq', if_pos (mem_univ _)]
  have c1 : oneBodyOp d (oneBodyOp (h t) (Ψ t)) x - oneBodyOp (h t) (oneBodyOp d (Ψ t)) x =
      oneBodyOp (fun p q => (δ p - δ q) * h t p q) (Ψ t) x := by
    rw [oneBodyOp_comm]
    congr 1
    funext p q
    rw [dl (fun k => h t k q), dr (fun k => h t p k)]
    ring
  have c2 : oneBodyOp d (twoBodyOp (u t) (Ψ t)) x - twoBodyOp (u t) (oneBodyOp d (Ψ t)) x = 0 := by
    rw [oneBodyOp_twoBodyOp_comm]
    have : (fun p q r s : Fin L => ∑ k, (d p k * u t k q r s + d q k * u t p k r s) -
        ∑ k, (u t p q k s * d k r + u t p q r k * d k s)) = fun _ _ _ _ => 0 := by
      funext p q r s
      rw [sum_add_distrib, sum_add_distrib, dl (fun k => u t k q r s), dl (fun k => u t p k r s), dr (fun k => u t p q k s),
        dr (fun k => u t p q r k)]
      by_cases e : p = r ∧ q = s
      · rw [e.1, e.2]
        ring
      · rw [hu p q r s e]
        ring
    rw [this, z2]
  have e4 : oneBodyOp d (hamiltonOp (h t) (u t) (Ψ t)) x = oneBodyOp d (oneBodyOp (h t) (Ψ t)) x +
      1 / 2 * oneBodyOp d (twoBodyOp (u t) (Ψ t)) x := by
    unfold hamiltonOp
    rw [oneBodyOp_add_right, oneBodyOp_smul_right]
  have e5 : oneBodyOp (fun p q => Complex.I * ((δ q - δ p) * h t p q)) (Ψ t) x =
      -Complex.I * oneBodyOp (fun p q => (δ p - δ q) * h t p q) (Ψ t) x := by
    rw [← oneBodyOp_const_left]
    congr 1
    funext p q
    ring
  rw [e5, e4, ← c1]
  unfold hamiltonOp
  linear_combination (-Complex.I / 2) * c2

/-- A mean value in terms of the elements. -/
theorem meanOne_expand (Ψ : Wave ℂ N L) : ∃ γ : Fin L → Fin L → ℂ, ∀ A : Fin L → Fin L → ℂ,
    meanOne A Ψ = ∑ a, ∑ b, A a b * γ a b := by
  refine ⟨fun a b => ∑ x : Fin N → Fin L, ∑ i, if x i = a then star (Ψ x) * Ψ (Function.update x i b) else 0, fun A => ?_⟩
  unfold meanOne waveInner oneBodyOp
  simp only [mul_sum]
  symm
  refine ((sum_congr rfl fun a _ => sum_comm).trans sum_comm).trans (sum_congr rfl fun x _ => ?_)
  refine ((sum_congr rfl fun a _ => sum_comm).trans sum_comm).trans (sum_congr rfl fun i _ => ?_)
  rw [sum_eq_single (x i)]
  · exact sum_congr rfl fun b _ => by rw [if_pos rfl]; ring
  · intro a _ ha
    exact sum_eq_zero fun b _ => by rw [if_neg fun e => ha e.symm, mul_zero]
  · exact fun e => absurd (mem_univ _) e

/-- Sums with the density matrix are mean values. -/
theorem densityMatrix_sum {l : ℕ} (Ψ : Wave ℂ N (2 * l)) (A : ℕ → ℕ → ℂ) :
    ∑ p ∈ range l, ∑ q ∈ range l, (densityMatrix l Ψ).get [q, p] * A p q =
      meanOne (fun a b : Fin (2 * l) => if a.1 % 2 = b.1 % 2 then A (a.1 / 2) (b.1 / 2) else 0) Ψ := by
  obtain ⟨γ, hγ⟩ := meanOne_expand Ψ
  rw [hγ]
  have e : ∀ p ∈ range l, ∀ q ∈ range l, (densityMatrix l Ψ).get [q, p] * A p q = ∑ a : Fin (2 * l), ∑ b : Fin (2 * l),
      if a.1 % 2 = b.1 % 2 ∧ a.1 / 2 = p ∧ b.1 / 2 = q then A p q * γ a b else 0 := fun p hp q hq => by
    unfold densityMatrix
    rw [ofFn_get_of (by exact ⟨mem_range.1 hq, mem_range.1 hp, trivial⟩), hγ, sum_mul]
    refine sum_congr rfl fun a _ => ?_
    rw [sum_mul]
    refine sum_congr rfl fun b _ => ?_
    simp only [List.getD_cons_zero, List.getD_cons_succ]
    split_ifs
    · ring
    · ring
  rw [sum_congr rfl fun p hp => sum_congr rfl fun q hq => e p hp q hq]
  refine ((sum_congr rfl fun p _ => sum_comm).trans sum_comm).trans (sum_congr rfl fun a _ => ?_)
  refine ((sum_congr rfl fun p _ => sum_comm).trans sum_comm).trans (sum_congr rfl fun b _ => ?_)
  rw [sum_eq_single (a.1 / 2), sum_eq_single (b.1 / 2)]
  · by_cases h : a.1 % 2 = b.1 % 2
    · rw [if_pos ⟨h, rfl, rfl⟩, if_pos h]
    · rw [if_neg fun e => h e.1, if_neg h, zero_mul]
  · exact fun q _ hq => if_neg fun e => hq e.2.2.symm
  · exact fun e => absurd (mem_range.2 (by omega)) e
  · exact fun p _ hp => sum_eq_zero fun q _ => if_neg fun e => hp e.2.1.symm
  · exact fun e => absurd (mem_range.2 (by omega)) e

/-- The operator that moves an electron from the point `j` to the point `i` without its spin. -/
noncomputable def hop (l i j : ℕ) (a b : Fin (2 * l)) : ℂ := if a.1 % 2 = b.1 % 2 ∧ a.1 / 2 = i ∧ b.1 / 2 = j then 1 else 0

theorem hop_star {l : ℕ} (i j : ℕ) (Ψ : Wave ℂ N (2 * l)) : star (meanOne (hop l i j) Ψ) = meanOne (hop l j i) Ψ := by
  unfold meanOne
  rw [waveInner_star]
  refine oneBodyOp_adjoint (fun a b => ?_) Ψ Ψ
  unfold hop
  by_cases e : a.1 % 2 = b.1 % 2 ∧ a.1 / 2 = i ∧ b.1 / 2 = j
  · rw [if_pos e, if_pos ⟨e.1.symm, e.2.2, e.2.1⟩, star_one]
  · rw [if_neg e, if_neg fun h => e ⟨h.1.symm, h.2.2, h.2.1⟩, star_zero]

/-- Products of the values of the functions at two points. -/
theorem hop_values {l : ℕ} {C : NDArray ℂ} (Ψ : Wave ℂ N (2 * l))
    (iso : (Matrix.of (spinMat l l C)).conjTranspose * Matrix.of (spinMat l l C) = 1) {i j : ℕ} (hi : i < l) (hj : j < l) :
    ∑ p ∈ range l, ∑ q ∈ range l, (densityMatrix l Ψ).get [q, p] * (star (C.get [i, p]) * C.get [j, q]) =
      meanOne (hop l i j) (prodOp (fun _ => Matrix.of (spinMat l l C)) Ψ) := by
  rw [densityMatrix_sum, meanOne_prodOp iso]
  refine congrArg (meanOne · Ψ) (funext fun a => funext fun b => ?_)
  rw [Matrix.mul_apply]
  simp only [Matrix.mul_apply, Matrix.conjTranspose_apply, Matrix.of_apply]
  have e1 : ∀ c : Fin (2 * l), (∑ k : Fin (2 * l), star (spinMat l l C k a) * hop l i j k c) =
      if c.1 % 2 = a.1 % 2 ∧ c.1 / 2 = j then star (C.get [i, a.1 / 2]) else 0 := fun c => by
    have h2 : 2 * i + a.1 % 2 < 2 * l := by omega
    rw [sum_eq_single (⟨2 * i + a.1 % 2, h2⟩ : Fin (2 * l))]
    · unfold spinMat hop
      simp only
      rw [if_pos (by omega : (2 * i + a.1 % 2) % 2 = a.1 % 2), show (2 * i + a.1 % 2) / 2 = i by omega]
      by_cases e : c.1 % 2 = a.1 % 2 ∧ c.1 / 2 = j
      · rw [if_pos e, if_pos ⟨by omega, rfl, e.2⟩, mul_one]
      · rw [if_neg e, if_neg fun h => e ⟨by omega, h.2.2⟩, mul_zero]
    · intro k _ hk
      unfold spinMat hop
      by_cases e : k.1 % 2 = a.1 % 2
      · rw [if_neg (c := k.1 % 2 = c.1 % 2 ∧ k.1 / 2 = i ∧ c.1 / 2 = j) fun h => hk (Fin.ext (by simp only; omega)), mul_zero]
      · rw [if_neg e, star_zero, zero_mul]
    · exact fun e => absurd (mem_univ _) e
  rw [sum_congr rfl fun c _ => by rw [e1 c]]
  have h3 : 2 * j + a.1 % 2 < 2 * l := by omega
  rw [sum_eq_single (⟨2 * j + a.1 % 2, h3⟩ : Fin (2 * l))]
  · simp only
    rw [if_pos (by omega : (2 * j + a.1 % 2) % 2 = a.1 % 2 ∧ (2 * j + a.1 % 2) / 2 = j)]
    unfold spinMat
    simp only
    rw [show (2 * j + a.1 % 2) % 2 = a.1 % 2 by omega, show (2 * j + a.1 % 2) / 2 = j by omega, mul_ite, mul_zero]
  · intro c _ hc
    rw [if_neg fun h => hc (Fin.ext (by simp only; omega)), zero_mul]
  · exact fun e => absurd (mem_univ _) e

/-- Summation by parts. -/
theorem sum_by_parts (δ j : ℕ → ℂ) (m : ℕ) :
    ∑ i ∈ range m, δ i * (j i - j (i + 1)) = ∑ i ∈ range m, (δ (i + 1) - δ i) * j (i + 1) + δ 0 * j 0 - δ m * j m := by
  induction m with
  | zero => simp
  | succ m ih =>
    rw [sum_range_succ, ih, sum_range_succ]
    ring

end QS
