import Verif.Props.Levels
import Verif.Props.GridEnergies
import Verif.Lemmas.ManyBodyPositive
import Verif.Lemmas.Weyl
import Verif.Lemmas.SincDvr
import Verif.Lemmas.OscillatorLevels
import Verif.Spec.Levels
import Verif.Spec.PotentialOrder

/-!
# Lemmas on the dependence of the energies on the potential (C145)
-/

namespace QS

open Finset NDArray BasisSet

/-! ## Spin orbitals of changed functions -/

theorem sum_parity (n s : ℕ) (hs : s < 2) (g : ℕ → ℂ) :
    ∑ a : Fin (2 * n), (if a.1 % 2 = s then g (a.1 / 2) else 0) = ∑ a ∈ range n, g a := by
  rw [← Finset.sum_range (f := fun a => if a % 2 = s then g (a / 2) else 0)]
  induction n with
  | zero => simp
  | succ n ih =>
    rw [show 2 * (n + 1) = 2 * n + 1 + 1 by ring, sum_range_succ, sum_range_succ, ih, sum_range_succ,
      show 2 * n % 2 = 0 by omega, show 2 * n / 2 = n by omega, show (2 * n + 1) % 2 = 1 by omega,
      show (2 * n + 1) / 2 = n by omega]
    interval_cases s <;> simp

theorem spin_isometry {l n : ℕ} {C : NDArray ℂ}
    (uni : ∀ p < n, ∀ q < n, ∑ a ∈ range l, star (C.get [a, p]) * C.get [a, q] = kd p q) :
    (Matrix.of (spinMat l n C)).conjTranspose * Matrix.of (spinMat l n C) = 1 := by
  ext p q
  rw [Matrix.mul_apply, Matrix.one_apply]
  simp only [Matrix.conjTranspose_apply, Matrix.of_apply, spinMat]
  by_cases h : p.1 % 2 = q.1 % 2
  · rw [sum_congr rfl (g := fun a : Fin (2 * l) => if a.1 % 2 = q.1 % 2 then
        (fun a => star (C.get [a, p.1 / 2]) * C.get [a, q.1 / 2]) (a.1 / 2) else 0) fun a _ => by
        rw [h]; split_ifs <;> simp,
      sum_parity l (q.1 % 2) (by omega) fun a => star (C.get [a, p.1 / 2]) * C.get [a, q.1 / 2],
      uni _ (by omega) _ (by omega), kd]
    exact if_congr ⟨fun e => Fin.ext (by omega), fun e => by rw [e]⟩ rfl rfl
  · rw [sum_eq_zero fun a _ => ?_, if_neg fun e => h (by rw [e])]
    split_ifs with h1 h2
    · exact absurd (h1.symm.trans h2) h
    all_goals simp

theorem spin_one_changed {l n : ℕ} {C H H' : NDArray ℂ} (hC : C.shape = [l, n]) (h : IsOneBody C C.conj.T l n H H') :
    (fun p q => ((Matrix.of (spinMat l n C)).conjTranspose * Matrix.of (spinOne l H) * Matrix.of (spinMat l n C)) p q) =
      spinOne n H' := by
  funext p q
  rw [Matrix.mul_apply]
  simp only [Matrix.mul_apply, Matrix.conjTranspose_apply, Matrix.of_apply, spinMat, spinOne]
  rw [sum_congr rfl (g := fun b : Fin (2 * l) => if b.1 % 2 = q.1 % 2 then (fun b => if p.1 % 2 = q.1 % 2 then
      ∑ a ∈ range l, star (C.get [a, p.1 / 2]) * H.get [a, b] * C.get [b, q.1 / 2] else 0) (b.1 / 2) else 0) fun b _ => ?_,
    sum_parity l (q.1 % 2) (by omega) fun b => if p.1 % 2 = q.1 % 2 then
      ∑ a ∈ range l, star (C.get [a, p.1 / 2]) * H.get [a, b] * C.get [b, q.1 / 2] else 0]
  · split_ifs with hpq
    · rw [h.2 _ (by omega) _ (by omega), sum_comm]
      exact sum_congr rfl fun a _ => sum_congr rfl fun b _ => by rw [conjT_get2 C hC]
    · simp
  · by_cases hb : b.1 % 2 = q.1 % 2
    · rw [if_pos hb, if_pos hb, sum_congr rfl (g := fun a : Fin (2 * l) => if a.1 % 2 = p.1 % 2 then
        (fun a => if p.1 % 2 = q.1 % 2 then star (C.get [a, p.1 / 2]) * H.get [a, b.1 / 2] else 0) (a.1 / 2) else 0)
        fun a _ => ?_, sum_parity l (p.1 % 2) (by omega) fun a => if p.1 % 2 = q.1 % 2 then
          star (C.get [a, p.1 / 2]) * H.get [a, b.1 / 2] else 0]
      · dsimp only
        split_ifs
        · rw [sum_mul]
        · simp
      · rw [hb]
        dsimp only
        by_cases ha : a.1 % 2 = p.1 % 2
        · rw [if_pos ha, if_pos ha, ha]
          split_ifs <;> simp
        · rw [if_neg ha, if_neg ha, star_zero, zero_mul]
    · rw [if_neg hb, if_neg hb, mul_zero]

theorem spin_two_changed {l n : ℕ} {C U U' : NDArray ℂ} (hC : C.shape = [l, n]) (h : IsTwoBody C C.conj.T l n U U') :
    (fun p q r s => ∑ a, ∑ b, ∑ c, ∑ d, (Matrix.of (spinMat l n C)).conjTranspose p a *
      (Matrix.of (spinMat l n C)).conjTranspose q b * spinTwo l U a b c d * Matrix.of (spinMat l n C) c r *
      Matrix.of (spinMat l n C) d s) = spinTwo n U' := by
  funext p q r s
  simp only [Matrix.conjTranspose_apply, Matrix.of_apply]
  have key : ∀ a b c d : Fin (2 * l), star (spinMat l n C a p) * star (spinMat l n C b q) * spinTwo l U a b c d *
      spinMat l n C c r * spinMat l n C d s = if a.1 % 2 = p.1 % 2 then (if b.1 % 2 = q.1 % 2 then (if c.1 % 2 = r.1 % 2 then
        (if d.1 % 2 = s.1 % 2 then (if p.1 % 2 = r.1 % 2 ∧ q.1 % 2 = s.1 % 2 then star (C.get [a.1 / 2, p.1 / 2]) *
          star (C.get [b.1 / 2, q.1 / 2]) * U.get [a.1 / 2, b.1 / 2, c.1 / 2, d.1 / 2] * C.get [c.1 / 2, r.1 / 2] *
          C.get [d.1 / 2, s.1 / 2] else 0) else 0) else 0) else 0) else 0 := fun a b c d => by
    unfold spinMat spinTwo
    by_cases h1 : a.1 % 2 = p.1 % 2
    · by_cases h2 : b.1 % 2 = q.1 % 2
      · by_cases h3 : c.1 % 2 = r.1 % 2
        · by_cases h4 : d.1 % 2 = s.1 % 2
          · simp only [h1, h2, h3, h4, if_true]
            split_ifs <;> simp
          · simp [h4]
        · simp [h3]
      · simp [h2]
    · simp [h1]
  have eq : ∀ (t : ℕ), t < 2 → ∀ (g : ℕ → ℂ), ∑ a : Fin (2 * l), (if a.1 % 2 = t then g (a.1 / 2) else 0) =
      ∑ a ∈ range l, g a := fun t ht g => sum_parity l t ht g
  have p2 : ∀ x : ℕ, x % 2 < 2 := fun x => Nat.mod_lt _ two_pos
  simp only [key]
  have z : ∀ (c : Prop) [Decidable c] (f : Fin (2 * l) → ℂ), (∑ b, if c then f b else 0) = if c then ∑ b, f b else 0 :=
    fun c _ f => by split_ifs <;> simp
  simp only [z]
  rw [eq _ (p2 _) fun a => ∑ b : Fin (2 * l), if b.1 % 2 = q.1 % 2 then (∑ c : Fin (2 * l), if c.1 % 2 = r.1 % 2 then
        (∑ d : Fin (2 * l), if d.1 % 2 = s.1 % 2 then (if p.1 % 2 = r.1 % 2 ∧ q.1 % 2 = s.1 % 2 then star (C.get [a, p.1 / 2]) *
          star (C.get [b.1 / 2, q.1 / 2]) * U.get [a, b.1 / 2, c.1 / 2, d.1 / 2] * C.get [c.1 / 2, r.1 / 2] *
          C.get [d.1 / 2, s.1 / 2] else 0) else 0) else 0) else 0]
  rw [sum_congr rfl fun a _ => eq _ (p2 _) fun b => ∑ c : Fin (2 * l), if c.1 % 2 = r.1 % 2 then
        (∑ d : Fin (2 * l), if d.1 % 2 = s.1 % 2 then (if p.1 % 2 = r.1 % 2 ∧ q.1 % 2 = s.1 % 2 then star (C.get [a, p.1 / 2]) *
          star (C.get [b, q.1 / 2]) * U.get [a, b, c.1 / 2, d.1 / 2] * C.get [c.1 / 2, r.1 / 2] *
          C.get [d.1 / 2, s.1 / 2] else 0) else 0) else 0]
  rw [sum_congr rfl fun a _ => sum_congr rfl fun b _ => eq _ (p2 _) fun c =>
        ∑ d : Fin (2 * l), if d.1 % 2 = s.1 % 2 then (if p.1 % 2 = r.1 % 2 ∧ q.1 % 2 = s.1 % 2 then star (C.get [a, p.1 / 2]) *
          star (C.get [b, q.1 / 2]) * U.get [a, b, c, d.1 / 2] * C.get [c, r.1 / 2] *
          C.get [d.1 / 2, s.1 / 2] else 0) else 0]
  rw [sum_congr rfl fun a _ => sum_congr rfl fun b _ => sum_congr rfl fun c _ => eq _ (p2 _) fun d =>
        if p.1 % 2 = r.1 % 2 ∧ q.1 % 2 = s.1 % 2 then star (C.get [a, p.1 / 2]) *
          star (C.get [b, q.1 / 2]) * U.get [a, b, c, d] * C.get [c, r.1 / 2] *
          C.get [d, s.1 / 2] else 0]
  unfold spinTwo
  split_ifs with hs
  · rw [h.2 _ (by omega) _ (by omega) _ (by omega) _ (by omega)]
    exact sum_congr rfl fun a _ => sum_congr rfl fun b _ => sum_congr rfl fun c _ => sum_congr rfl fun d _ => by
      rw [conjT_get2 C hC, conjT_get2 C hC]
  · simp

/-- Fewer orthonormal functions: the energies of electrons move up. -/
theorem ElectronEnergies.truncate {l n N : ℕ} {C H U H' U' : NDArray ℂ} {E E' : ℕ → ℝ} (hC : C.shape = [l, n])
    (uni : ∀ p < n, ∀ q < n, ∑ a ∈ range l, star (C.get [a, p]) * C.get [a, q] = kd p q)
    (hh : IsOneBody C C.conj.T l n H H') (hu : IsTwoBody C C.conj.T l n U U') (S : ElectronEnergies l H U N E)
    (S' : ElectronEnergies n H' U' N E') : ∀ k < (2 * n).choose N, E k ≤ E' k := by
  obtain ⟨Ψ, S⟩ := S
  obtain ⟨Ψ', S'⟩ := S'
  rw [← spin_one_changed hC hh, ← spin_two_changed hC hu] at S'
  exact (S.truncate (spin_isometry uni) S').2

/-- As many orthonormal functions: the energies of electrons stay. -/
theorem ElectronEnergies.transport {l N : ℕ} {C H U H' U' : NDArray ℂ} {E E' : ℕ → ℝ} (hC : C.shape = [l, l])
    (uni : ∀ p < l, ∀ q < l, ∑ a ∈ range l, star (C.get [a, p]) * C.get [a, q] = kd p q)
    (hh : IsOneBody C C.conj.T l l H H') (hu : IsTwoBody C C.conj.T l l U U') (S : ElectronEnergies l H U N E)
    (S' : ElectronEnergies l H' U' N E') : ∀ k < (2 * l).choose N, E' k = E k := by
  obtain ⟨Ψ, S⟩ := S
  obtain ⟨Ψ', S'⟩ := S'
  rw [← spin_one_changed hC hh, ← spin_two_changed hC hu] at S'
  exact fun k hk => S'.unique (S.transport (spin_isometry uni)) hk

/-! ## Larger one-body parts -/

/-- If `h'` is at most `h + c`, the energies of `N` particles rise by at most `N c`. -/
theorem Spectrum.le_of_one {N L : ℕ} {h h' : Fin L → Fin L → ℂ} {u : Fin L → Fin L → Fin L → Fin L → ℂ} {D D' : ℕ}
    {E E' : ℕ → ℝ} {Ψ Ψ' : ℕ → Wave ℂ N L} (S : Spectrum h u D E Ψ) (S' : Spectrum h' u D' E' Ψ') {c : ℝ}
    (hh : ∀ v : Fin L → ℂ, -c * ∑ p, ‖v p‖ ^ 2 ≤ (∑ p, ∑ q, star (v p) * (h p q - h' p q) * v q).re) {k : ℕ}
    (hk : k < D) : E' k ≤ E k + N * c := by
  refine S.le_of_form S' (fun Φ _ => ?_) hk
  have h1 := oneBody_form_ge (m := -c) (h := fun p q => h p q - h' p q) hh Φ
  have h3 : waveInner Φ (hamiltonOp (fun p q => h p q - h' p q) (fun p q r s => u p q r s - u p q r s) Φ) =
      waveInner Φ (hamiltonOp h u Φ) - waveInner Φ (hamiltonOp h' u Φ) := by
    unfold waveInner
    rw [← sum_sub_distrib]
    exact sum_congr rfl fun x _ => by rw [hamiltonOp_sub, mul_sub]
  have h4 := congrArg Complex.re (waveInner_hamiltonOp (fun p q => h p q - h' p q)
    (fun p q r s => u p q r s - u p q r s) Φ Φ)
  have h5 : waveInner Φ (twoBodyOp (fun p q r s => u p q r s - u p q r s) Φ) = 0 := by
    unfold waveInner twoBodyOp
    simp
  have h6 : (waveInner Φ Φ).re = ∑ x, ‖Φ x‖ ^ 2 := by
    rw [waveInner_self, Complex.ofReal_re]
  rw [h3, h5, mul_zero, add_zero, Complex.sub_re] at h4
  rw [h6]
  linarith

/-- A change of the diagonal. -/
theorem diagonal_form {L : ℕ} {h h' : Fin L → Fin L → ℂ} {d : Fin L → ℝ} {c : ℝ}
    (e : ∀ p q, h p q - h' p q = if p = q then (d p : ℂ) else 0) (hd : ∀ p, -c ≤ d p) (v : Fin L → ℂ) :
    -c * ∑ p, ‖v p‖ ^ 2 ≤ (∑ p, ∑ q, star (v p) * (h p q - h' p q) * v q).re := by
  have : ∑ p, ∑ q, star (v p) * (h p q - h' p q) * v q = ((∑ p, d p * ‖v p‖ ^ 2 : ℝ) : ℂ) := by
    push_cast
    refine sum_congr rfl fun p _ => ?_
    simp only [e]
    rw [sum_congr rfl (g := fun q => if p = q then (d p : ℂ) * (star (v p) * v q) else 0) fun q _ => by
      split_ifs <;> ring, sum_ite_eq, if_pos (mem_univ _)]
    rw [← Complex.conj_mul']
    rfl
  rw [this, Complex.ofReal_re, mul_sum]
  exact sum_le_sum fun p _ => mul_le_mul_of_nonneg_right (hd p) (sq_nonneg _)

/-- Electrons in an external potential that changes only the diagonal elements. -/
theorem ElectronEnergies.le_of_diagonal {l N : ℕ} {H H' U : NDArray ℂ} {E E' : ℕ → ℝ} (S : ElectronEnergies l H U N E)
    (S' : ElectronEnergies l H' U N E') {d : ℕ → ℝ} {c : ℝ}
    (e : ∀ p < l, ∀ q < l, H.get [p, q] - H'.get [p, q] = if p = q then (d p : ℂ) else 0) (hd : ∀ p < l, -c ≤ d p) :
    ∀ k < (2 * l).choose N, E' k ≤ E k + N * c := fun k hk => by
  obtain ⟨Ψ, S⟩ := S
  obtain ⟨Ψ', S'⟩ := S'
  refine S.le_of_one S' (diagonal_form (d := fun p => d (p.1 / 2)) (fun p q => ?_) fun p => hd _ (by omega)) hk
  unfold spinOne
  split_ifs with h1 h2 h2
  · rw [e _ (by omega) _ (by omega), if_pos (by rw [h2])]
  · rw [e _ (by omega) _ (by omega), if_neg fun h => h2 (Fin.ext (by omega))]
  · exact absurd (by rw [h2]) h1
  · simp

end QS
