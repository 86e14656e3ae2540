import Verif.Lemmas.History

set_option linter.unusedSimpArgs false

/-! # How the operations treat `spf` and its dual (helper file) -/

namespace QS

open Finset NDArray PyM

variable {K : Type} [PyScalar K]

namespace BasisSet

/-- What reading `bra_spf` gives is the conjugate of `spf`. -/
def DualOK (b : BasisSet K) : Prop := b.bra = b.spf.map NDArray.conj

theorem DualOK.congr {b b' : BasisSet K} (h : DualOK b) (h1 : b'.spf = b.spf)
    (h2 : b'.braSpf = b.braSpf) : DualOK b' := by
  unfold DualOK bra at *
  rw [h1, h2]; exact h

theorem DualOK.cached {b b' : BasisSet K} (h : DualOK b) (h1 : b'.spf = b.spf)
    (h2 : b'.braSpf = b.bra) : DualOK b' := by
  unfold DualOK at *
  rw [h] at h2
  unfold bra
  rw [h1, h2]
  cases b.spf <;> rfl

theorem tensordot_conj {C x y : NDArray K} {m n : ℕ} (hC : C.shape = [m, n])
    (h : tensordot C x 0 0 = .ok y) : tensordot C.conj.T x.conj 1 0 = .ok y.conj := by
  obtain ⟨k, h1, h2, -⟩ := tensordot_inv h
  have hk : m = k := by simpa [hC] using h1
  subst hk
  rw [tensordot_eq h1 h2] at h
  obtain rfl := Except.ok.inj h
  rw [tensordot_eq (n := m) (by simp [hC]) (by simpa using h2)]
  congr 1
  apply ext'
  · simp
  · simp [hC]
  · intro i hi
    have hi' : InRange (n :: x.shape.eraseIdx 0) i := by simpa [hC] using hi
    rw [ofFn_get_of (by simpa using hi), conj_get, ofFn_get_of (by simpa [hC] using hi')]
    obtain ⟨p, j, rfl, hp, hj⟩ := inRange_cons_iff.1 hi'
    simp only [ndim, T_shape, conj_shape, hC, List.reverse_cons, List.reverse_nil, List.nil_append,
      List.cons_append, List.length_cons, List.length_nil, Nat.reduceAdd, Nat.reduceSub,
      List.take_succ_cons, List.take_zero, List.drop_succ_cons, List.drop_zero,
      List.insertIdx_succ_cons, List.insertIdx_zero, star_sum, star_mul', conj_get]
    apply sum_congr rfl
    intro t _
    rw [conjT_get2 C hC]

theorem changeBasisSpf_dual {b b' : BasisSet K} {C : NDArray K} {m n : ℕ} {r : Unit} (hd : DualOK b)
    (hC : C.shape = [m, n]) (h : (changeBasisSpf C C.conj.T).run b = (.ok r, b')) : DualOK b' := by
  unfold changeBasisSpf at h
  step e h
  rw [getBra_run] at e
  simp only [Prod.mk.injEq, Except.ok.injEq] at e
  obtain ⟨rfl, rfl⟩ := e
  step_get h
  rw [run_bind_eq_ok] at h
  obtain ⟨y, _, e, h⟩ := h
  rw [run_liftM_eq_ok] at e
  obtain ⟨hy, rfl⟩ := e
  rw [run_bind_eq_ok] at h
  obtain ⟨y', _, e, h⟩ := h
  rw [run_liftM_eq_ok] at e
  obtain ⟨hy', rfl⟩ := e
  step e1 h
  obtain ⟨-, rfl⟩ := setBra_inv e1
  step_get h
  rw [run_bind_eq_ok] at h
  obtain ⟨x, _, e, h⟩ := h
  rw [run_liftM_eq_ok] at e
  obtain ⟨hx, rfl⟩ := e
  rw [run_bind_eq_ok] at h
  obtain ⟨x', _, e, h⟩ := h
  rw [run_liftM_eq_ok] at e
  obtain ⟨hx', rfl⟩ := e
  obtain ⟨-, rfl⟩ := setSpf_inv h
  have hs : b.spf = some x := by
    rcases hs : b.spf with _ | z
    · simp [orErr, hs] at hx
    · simpa [orErr, hs] using hx
  have hb : b.bra = some x.conj := by rw [hd, hs]; rfl
  have hyx : y = x.conj := by
    rw [hb] at hy; simpa [orErr] using hy.symm
  subst hyx
  rcases hn : b.np with _ | np
  · simp [transformSpf, needNp, hn, bind, Except.bind] at hx'
  · simp only [transformSpf, transformBraSpf, needNp, hn, bind, Except.bind] at hx' hy'
    rw [tensordot_conj hC hx'] at hy'
    obtain rfl := Except.ok.inj hy'
    rfl

theorem changeBasis_dual {b b' : BasisSet K} {C : NDArray K} {Ct : Option (NDArray K)} {m n : ℕ}
    {r : Unit} (hd : DualOK b) (hC : C.shape = [m, n]) (hCt : Ct = none ∨ Ct = some C.conj.T)
    (h : (changeBasis C Ct).run b = (.ok r, b')) : DualOK b' := by
  have hct : Ct.getD C.conj.T = C.conj.T := by rcases hCt with rfl | rfl <;> rfl
  unfold changeBasis at h
  rw [hct] at h
  step_lift h
  step e h
  rw [run_modify_eq_ok] at e
  subst e
  step e1 h
  obtain ⟨h', s', hh, hs, rfl⟩ := changeBasisOneBody_inv' e1
  step e2 h
  obtain ⟨u', tb', hu, htb, rfl⟩ := changeBasisTwoBody_inv' e2
  step_get h
  have key : ∃ b₁ : BasisSet K, b₁.spf = b.spf ∧ b₁.braSpf = b.braSpf ∧
      (do
        let self ← PyM.get
        if self.spf.isSome then changeBasisSpf C C.conj.T :
        PyM (BasisSet K) Unit).run b₁ = (.ok r, b') := by
    split_ifs at h with hdip
    · step e3 h
      obtain ⟨x, hx, rfl⟩ := changeBasisDipole_inv e3
      refine ⟨_, ?_, ?_, h⟩ <;> rfl
    · refine ⟨_, ?_, ?_, h⟩ <;> rfl
  clear h
  obtain ⟨b₁, k1, k2, h⟩ := key
  have hd1 : DualOK b₁ := hd.congr k1 k2
  step_get h
  split_ifs at h
  · exact changeBasisSpf_dual hd1 hC h
  · rw [run_pure_eq_ok] at h
    obtain ⟨-, rfl⟩ := h
    exact hd1

theorem casted_dual {b : BasisSet K} (hd : DualOK b) : DualOK (casted b) := by
  unfold DualOK at *
  unfold casted
  rw [hd]
  cases b.spf <;> rfl

theorem addSpinSpf_conj {np : Option Module} {x y : NDArray K} (h : addSpinSpf np x = .ok y) :
    addSpinSpf np x.conj = .ok y.conj := by
  unfold addSpinSpf at *
  rcases hx : x.shape with _ | ⟨d, sh⟩
  · simp [hx] at h
  · rcases np with _ | np
    · simp [hx, needNp, bind, Except.bind] at h
    · simp only [hx, needNp, bind, Except.bind, conj_shape, conj_dtype] at h ⊢
      obtain rfl := Except.ok.inj h
      congr 1
      refine ext' rfl (by simp) ?_
      intro i hi
      have hi' : InRange (d * 2 :: sh) i := hi
      rw [ofFn_get_of hi', conj_get, ofFn_get_of hi']
      rcases i with _ | ⟨k, j⟩
      · simp
      · simp

theorem doubleSpf_dual {b b' : BasisSet K} {r : Unit} (hd : DualOK b)
    (h : (doubleSpf).run b = (.ok r, b')) : DualOK b' := by
  unfold doubleSpf at h
  step_get h
  split at h
  · rw [run_pure_eq_ok] at h
    obtain ⟨-, rfl⟩ := h
    exact hd
  · rename_i x hs
    rw [run_bind_eq_ok] at h
    obtain ⟨x', _, e, h⟩ := h
    rw [run_liftM_eq_ok] at e
    obtain ⟨hx', rfl⟩ := e
    step e h
    obtain ⟨hx, rfl⟩ := setSpf_inv e
    step_get h
    split at h
    · rename_i hb
      rw [run_pure_eq_ok] at h
      obtain ⟨-, rfl⟩ := h
      have hb : b.braSpf = none := hb
      unfold DualOK bra
      simp [hb]
    · rename_i y hb
      have hb : b.braSpf = some y := hb
      rw [run_bind_eq_ok] at h
      obtain ⟨y', _, e, h⟩ := h
      rw [run_liftM_eq_ok] at e
      obtain ⟨hy', rfl⟩ := e
      obtain ⟨hy, rfl⟩ := setBra_inv h
      have : y = x.conj := by
        unfold DualOK bra at hd
        rw [hb, hs] at hd
        simpa using hd
      subst this
      have e2 := addSpinSpf_conj hx'
      have : addSpinSpf b.np x.conj = .ok y' := hy'
      rw [e2] at this
      obtain rfl := Except.ok.inj this
      rfl

theorem setupSpin_keep {b b' : BasisSet K} {ov : NDArray K} {a c : List K} {r : Unit}
    (h : (setupSpin ov a c).run b = (.ok r, b')) : b'.spf = b.spf ∧ b'.braSpf = b.braSpf := by
  obtain ⟨_, _, _, _, _, sx, sy, sz, s2, tb, hx, hy, hz, h2, ht, rfl⟩ := setupSpin_inv h
  exact ⟨rfl, rfl⟩

theorem toGeneral_dual {b b' : BasisSet K} {a c : List K} {anti r : Bool} (hd : DualOK b)
    (h : (changeToGeneralBase a c anti).run b = (.ok r, b')) : DualOK b' := by
  unfold changeToGeneralBase at h
  step_get h
  cases hsp : b.includesSpin with
  | true =>
    simp only [hsp, if_true, run_pure_eq_ok] at h
    obtain ⟨-, rfl⟩ := h
    exact hd
  | false =>
  simp only [hsp, Bool.false_eq_true, if_false] at h
  step e h
  rw [run_modify_eq_ok] at e; subst e
  step e h
  rw [run_modify_eq_ok] at e; subst e
  step_get h
  step_lift h
  step_lift h
  step e h
  obtain ⟨h', -, hh, rfl⟩ := setH_inv e
  step_get h
  step_lift h
  step e h
  obtain ⟨s', -, hs, rfl⟩ := setS_inv e
  step_get h
  step_lift h
  step e h
  obtain ⟨u', -, hu, rfl⟩ := setU_inv e
  step_get h
  have key : ∃ b₁ : BasisSet K, b₁.spf = b.spf ∧ b₁.braSpf = b.braSpf ∧
      (do
        if anti then antiSymmetrizeTwoBody
        doubleDipole
        doubleSpf
        castToComplex
        return true : PyM (BasisSet K) Bool).run b₁ = (.ok r, b') := by
    split at h
    · step e1 h
      exact ⟨_, (setupSpin_keep e1).1, (setupSpin_keep e1).2, h⟩
    · refine ⟨_, ?_, ?_, h⟩ <;> rfl
  clear h
  obtain ⟨b₁, k1, k2, h⟩ := key
  have key : ∃ b₂ : BasisSet K, b₂.spf = b.spf ∧ b₂.braSpf = b.braSpf ∧
      (do
        doubleDipole
        doubleSpf
        castToComplex
        return true : PyM (BasisSet K) Bool).run b₂ = (.ok r, b') := by
    split_ifs at h
    · step e1 h
      rcases antiSymmetrizeTwoBody_inv e1 with ⟨-, e2⟩ | ⟨-, u, tb, q1, q2, q3, rfl⟩
      · subst e2; exact ⟨_, k1, k2, h⟩
      · refine ⟨_, ?_, ?_, h⟩
        exacts [k1, k2]
    · exact ⟨b₁, k1, k2, h⟩
  clear h k1 k2
  obtain ⟨b₂, k1, k2, h⟩ := key
  have hd2 : DualOK b₂ := hd.congr k1 k2
  step e1 h
  obtain ⟨d, -, rfl⟩ := doubleDipole_inv e1
  step e2 h
  have hd3 := doubleSpf_dual (hd2.congr (b' := { b₂ with dipole := d }) rfl rfl) e2
  step e3 h
  obtain rfl := castToComplex_inv e3
  rw [run_pure_eq_ok] at h
  obtain ⟨-, rfl⟩ := h
  exact casted_dual hd3

end BasisSet

end QS
