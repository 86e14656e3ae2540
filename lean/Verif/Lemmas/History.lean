import Verif.Lemmas.SpinOps
import Verif.Spec.History

/-! # What a successful method call leaves behind (helper file, no property theorems) -/

set_option linter.unusedSimpArgs false

namespace QS

variable {K : Type} [PyScalar K]

namespace BasisSet
open NDArray PyM

theorem axesOk_iff {x : NDArray K} {l : ℕ} : axesOk x l = true ↔ AxesAre l x := by
  simp only [axesOk, AxesAre, List.all_eq_true, beq_iff_eq]
  exact ⟨fun h d hd => (h d hd).symm, fun h d hd => (h d hd).symm⟩

section setters
variable {b b' : BasisSet K} {o : Option (NDArray K)} {r : Unit}

theorem setH_inv (h : (setH o).run b = (.ok r, b')) :
    ∃ x, o = some x ∧ AxesAre b.l x ∧ b' = { b with h := some x } := by
  rcases o with _ | x
  · simp [setH, PyM.run_bind, orErr] at h
  · by_cases hx : axesOk x b.l = true
    · rw [setH_run hx] at h
      exact ⟨x, rfl, axesOk_iff.1 hx, by simpa using h.symm⟩
    · simp [setH, PyM.run_bind, orErr, hx] at h
theorem setS_inv (h : (setS o).run b = (.ok r, b')) :
    ∃ x, o = some x ∧ AxesAre b.l x ∧ b' = { b with s := some x } := by
  rcases o with _ | x
  · simp [setS, PyM.run_bind, orErr] at h
  · by_cases hx : axesOk x b.l = true
    · rw [setS_run hx] at h
      exact ⟨x, rfl, axesOk_iff.1 hx, by simpa using h.symm⟩
    · simp [setS, PyM.run_bind, orErr, hx] at h
theorem setU_inv (h : (setU o).run b = (.ok r, b')) :
    ∃ x, o = some x ∧ AxesAre b.l x ∧ b' = { b with u := some x } := by
  rcases o with _ | x
  · simp [setU, PyM.run_bind, orErr] at h
  · by_cases hx : axesOk x b.l = true
    · rw [setU_run hx] at h
      exact ⟨x, rfl, axesOk_iff.1 hx, by simpa using h.symm⟩
    · simp [setU, PyM.run_bind, orErr, hx] at h
theorem setSpinX_inv (h : (setSpinX o).run b = (.ok r, b')) :
    ∃ x, o = some x ∧ AxesAre b.l x ∧ b.includesSpin = true ∧ b' = { b with spinX := some x } := by
  cases hs : b.includesSpin
  · simp [setSpinX, PyM.run_bind, orErr, hs] at h
  · rcases o with _ | x
    · simp [setSpinX, PyM.run_bind, orErr, hs] at h
    · by_cases hx : axesOk x b.l = true
      · rw [setSpinX_run hx hs] at h
        exact ⟨x, rfl, axesOk_iff.1 hx, rfl, by simpa [hs] using h.symm⟩
      · simp [setSpinX, PyM.run_bind, orErr, hx, hs] at h
theorem setSpinY_inv (h : (setSpinY o).run b = (.ok r, b')) :
    ∃ x, o = some x ∧ AxesAre b.l x ∧ b.includesSpin = true ∧ b' = { b with spinY := some x } := by
  cases hs : b.includesSpin
  · simp [setSpinY, PyM.run_bind, orErr, hs] at h
  · rcases o with _ | x
    · simp [setSpinY, PyM.run_bind, orErr, hs] at h
    · by_cases hx : axesOk x b.l = true
      · rw [setSpinY_run hx hs] at h
        exact ⟨x, rfl, axesOk_iff.1 hx, rfl, by simpa [hs] using h.symm⟩
      · simp [setSpinY, PyM.run_bind, orErr, hx, hs] at h
theorem setSpinZ_inv (h : (setSpinZ o).run b = (.ok r, b')) :
    ∃ x, o = some x ∧ AxesAre b.l x ∧ b.includesSpin = true ∧ b' = { b with spinZ := some x } := by
  cases hs : b.includesSpin
  · simp [setSpinZ, PyM.run_bind, orErr, hs] at h
  · rcases o with _ | x
    · simp [setSpinZ, PyM.run_bind, orErr, hs] at h
    · by_cases hx : axesOk x b.l = true
      · rw [setSpinZ_run hx hs] at h
        exact ⟨x, rfl, axesOk_iff.1 hx, rfl, by simpa [hs] using h.symm⟩
      · simp [setSpinZ, PyM.run_bind, orErr, hx, hs] at h
theorem setSpin2_inv (h : (setSpin2 o).run b = (.ok r, b')) :
    ∃ x, o = some x ∧ AxesAre b.l x ∧ b.includesSpin = true ∧ b' = { b with spin2 := some x } := by
  cases hs : b.includesSpin
  · simp [setSpin2, PyM.run_bind, orErr, hs] at h
  · rcases o with _ | x
    · simp [setSpin2, PyM.run_bind, orErr, hs] at h
    · by_cases hx : axesOk x b.l = true
      · rw [setSpin2_run hx hs] at h
        exact ⟨x, rfl, axesOk_iff.1 hx, rfl, by simpa [hs] using h.symm⟩
      · simp [setSpin2, PyM.run_bind, orErr, hx, hs] at h
theorem setSpin2tb_inv (h : (setSpin2tb o).run b = (.ok r, b')) :
    ∃ x, o = some x ∧ AxesAre b.l x ∧ b.includesSpin = true ∧
      b' = { b with spin2tb := some x } := by
  cases hs : b.includesSpin
  · simp [setSpin2tb, PyM.run_bind, orErr, hs] at h
  · rcases o with _ | x
    · simp [setSpin2tb, PyM.run_bind, orErr, hs] at h
    · by_cases hx : axesOk x b.l = true
      · rw [setSpin2tb_run hx hs] at h
        exact ⟨x, rfl, axesOk_iff.1 hx, rfl, by simpa [hs] using h.symm⟩
      · simp [setSpin2tb, PyM.run_bind, orErr, hx, hs] at h

theorem checkDipole_bad {arr : NDArray K} {d l : ℕ} {sh : List ℕ} (h : arr.shape = d :: sh)
    (hsh : ¬ ∀ n ∈ sh, n = l) {i : ℕ} {is : List ℕ} (hi : i < d) :
    checkDipole arr l (i :: is) = .error .assertion := by
  simp only [checkDipole, item_ok h hi, bind, Except.bind]
  rw [if_neg]
  rw [axesOk_iff, AxesAre]
  exact hsh

/-- All outcomes of assigning an array to `dipole_moment`. -/
theorem setDipole_cases (b : BasisSet K) (x : NDArray K) :
    (DipoleAxes b.dim b.l x ∧ (setDipole (some x)).run b = (.ok (), { b with dipole := some x })) ∨
    (x.shape = [] ∧ (setDipole (some x)).run b = (.error .type, b)) ∨
    (x.shape ≠ [] ∧ ¬ DipoleAxes b.dim b.l x ∧
      (setDipole (some x)).run b = (.error .assertion, b)) := by
  rcases hx : x.shape with _ | ⟨d, sh⟩
  · right; left
    simp [setDipole, PyM.run_bind, orErr, len, hx]
  · by_cases hd : d = b.dim
    · subst hd
      by_cases h0 : 0 < b.dim
      · by_cases hsh : ∀ n ∈ sh, n = b.l
        · left
          exact ⟨⟨sh, hx, fun _ => hsh⟩, setDipole_run hx hsh⟩
        · right; right
          refine ⟨by simp, ?_, ?_⟩
          · rintro ⟨sh', e, hh⟩
            rw [hx] at e
            obtain ⟨-, rfl⟩ := List.cons.inj e
            exact hsh (hh h0)
          · simp only [setDipole, PyM.run_bind, orErr, run_get, run_liftM, len, hx,
              beq_self_eq_true, run_assert_true]
            obtain ⟨k, hk⟩ : ∃ k, b.dim = k + 1 := ⟨b.dim - 1, by omega⟩
            rw [show List.range b.dim = 0 :: (List.range k).map Nat.succ by
              rw [hk, List.range_succ_eq_map], checkDipole_bad hx hsh h0]
      · left
        refine ⟨⟨sh, hx, fun h => absurd h h0⟩, ?_⟩
        have h0' : b.dim = 0 := by omega
        simp only [setDipole, PyM.run_bind, orErr, run_get, run_liftM, len, hx,
          beq_self_eq_true, run_assert_true, h0', List.range_zero, checkDipole, run_modify]
    · right; right
      refine ⟨by simp, ?_, ?_⟩
      · rintro ⟨sh', e, -⟩
        rw [hx] at e
        exact hd (List.cons.inj e).1
      · have : (d == b.dim) = false := by simpa using hd
        simp [setDipole, PyM.run_bind, orErr, len, hx, this]

theorem setDipole_inv (h : (setDipole o).run b = (.ok r, b')) :
    ∃ x, o = some x ∧ DipoleAxes b.dim b.l x ∧ b' = { b with dipole := some x } := by
  rcases o with _ | x
  · simp [setDipole, PyM.run_bind, orErr] at h
  · rcases setDipole_cases b x with ⟨h1, h2⟩ | ⟨_, h2⟩ | ⟨_, _, h2⟩
    · rw [h2] at h
      exact ⟨x, rfl, h1, by simpa using h.symm⟩
    · rw [h2] at h; simp at h
    · rw [h2] at h; simp at h

theorem spfOk_cases (x : NDArray K) (l dim : ℕ) :
    (SpfAxes dim l x ∧ spfOk x l dim = .ok true) ∨ (x.shape = [] ∧ spfOk x l dim = .error .index) ∨
    (x.shape ≠ [] ∧ ¬ SpfAxes dim l x ∧ spfOk x l dim = .ok false) := by
  rcases hx : x.shape with _ | ⟨d, sh⟩
  · right; left; simp [spfOk, hx]
  · by_cases h : d = l ∧ sh.length = dim
    · left
      exact ⟨⟨sh, by rw [hx, h.1], h.2⟩, by simp [spfOk, hx, h]⟩
    · right; right
      refine ⟨by simp, ?_, ?_⟩
      · rintro ⟨g, e, hg⟩
        rw [hx] at e
        obtain ⟨rfl, rfl⟩ := List.cons.inj e
        exact h ⟨rfl, hg⟩
      · simp only [spfOk, hx, Except.ok.injEq, Bool.and_eq_false_iff, beq_eq_false_iff_ne]
        by_cases hd : d = l
        · exact .inr fun h' => h ⟨hd, h'⟩
        · exact .inl hd

theorem setSpf_cases (b : BasisSet K) (x : NDArray K) :
    (SpfAxes b.dim b.l x ∧ (setSpf (some x)).run b = (.ok (), { b with spf := some x })) ∨
    (x.shape = [] ∧ (setSpf (some x)).run b = (.error .index, b)) ∨
    (x.shape ≠ [] ∧ ¬ SpfAxes b.dim b.l x ∧ (setSpf (some x)).run b = (.error .assertion, b)) := by
  rcases spfOk_cases x b.l b.dim with ⟨h1, h2⟩ | ⟨h1, h2⟩ | ⟨h0, h1, h2⟩
  · left; exact ⟨h1, by simp [setSpf, PyM.run_bind, h2]⟩
  · right; left; exact ⟨h1, by simp [setSpf, PyM.run_bind, h2]⟩
  · right; right; exact ⟨h0, h1, by simp [setSpf, PyM.run_bind, h2]⟩

theorem setBra_cases (b : BasisSet K) (x : NDArray K) :
    (SpfAxes b.dim b.l x ∧ (setBra (some x)).run b = (.ok (), { b with braSpf := some x })) ∨
    (x.shape = [] ∧ (setBra (some x)).run b = (.error .index, b)) ∨
    (x.shape ≠ [] ∧ ¬ SpfAxes b.dim b.l x ∧ (setBra (some x)).run b = (.error .assertion, b)) := by
  rcases spfOk_cases x b.l b.dim with ⟨h1, h2⟩ | ⟨h1, h2⟩ | ⟨h0, h1, h2⟩
  · left; exact ⟨h1, by simp [setBra, PyM.run_bind, h2]⟩
  · right; left; exact ⟨h1, by simp [setBra, PyM.run_bind, h2]⟩
  · right; right; exact ⟨h0, h1, by simp [setBra, PyM.run_bind, h2]⟩

theorem setSpf_inv (h : (setSpf o).run b = (.ok r, b')) :
    (∀ x, o = some x → SpfAxes b.dim b.l x) ∧ b' = { b with spf := o } := by
  rcases o with _ | x
  · simp only [setSpf, PyM.run_bind, run_get, run_modify, Prod.mk.injEq, true_and] at h
    exact ⟨by simp, h.symm⟩
  · rcases setSpf_cases b x with ⟨h1, h2⟩ | ⟨_, h2⟩ | ⟨_, _, h2⟩
    · rw [h2] at h
      refine ⟨?_, by simpa using h.symm⟩
      rintro y ⟨⟩; exact h1
    · rw [h2] at h; simp at h
    · rw [h2] at h; simp at h

theorem setBra_inv (h : (setBra o).run b = (.ok r, b')) :
    (∀ x, o = some x → SpfAxes b.dim b.l x) ∧ b' = { b with braSpf := o } := by
  rcases o with _ | x
  · simp only [setBra, PyM.run_bind, run_get, run_modify, Prod.mk.injEq, true_and] at h
    exact ⟨by simp, h.symm⟩
  · rcases setBra_cases b x with ⟨h1, h2⟩ | ⟨_, h2⟩ | ⟨_, _, h2⟩
    · rw [h2] at h
      refine ⟨?_, by simpa using h.symm⟩
      rintro y ⟨⟩; exact h1
    · rw [h2] at h; simp at h
    · rw [h2] at h; simp at h

end setters

section change
variable {b b' : BasisSet K} {C Ct : NDArray K} {r : Unit}

theorem run_liftM_eq_ok {α : Type} {σ : Type} {x : Except PyErr α} {s s' : σ} {a : α} :
    (liftM x : PyM σ α).run s = (.ok a, s') ↔ x = .ok a ∧ s = s' := by
  rw [run_liftM]; simp
theorem run_get_eq_ok {σ : Type} {s s' a : σ} :
    (PyM.get : PyM σ σ).run s = (.ok a, s') ↔ s = a ∧ s = s' := by
  rw [run_get]; simp
theorem run_pure_eq_ok {α σ : Type} {s s' : σ} {a a' : α} :
    (pure a : PyM σ α).run s = (.ok a', s') ↔ a = a' ∧ s = s' := by
  rw [run_pure]; simp
theorem run_modify_eq_ok {σ : Type} {s s' : σ} {f : σ → σ} {a : Unit} :
    (modify f : PyM σ Unit).run s = (.ok a, s') ↔ f s = s' := by
  rw [run_modify]; simp

/-- Split a successful sequence. -/
macro "step" e:ident h:ident : tactic =>
  `(tactic| (rw [run_bind_eq_ok] at $h:ident; obtain ⟨_, _, $e:ident, $h:ident⟩ := $h))
macro "step_get" h:ident : tactic =>
  `(tactic| (rw [run_bind_eq_ok] at $h:ident; obtain ⟨_, _, e, $h:ident⟩ := $h;
             rw [run_get_eq_ok] at e; obtain ⟨e1, e2⟩ := e; subst e1; subst e2))
macro "step_lift" h:ident : tactic =>
  `(tactic| (rw [run_bind_eq_ok] at $h:ident; obtain ⟨_, _, e, $h:ident⟩ := $h;
             rw [run_liftM_eq_ok] at e; obtain ⟨_, e2⟩ := e; subst e2))

theorem changeBasisOneBody_inv' (h : (changeBasisOneBody C Ct).run b = (.ok r, b')) :
    ∃ x y, AxesAre b.l x ∧ (∀ z, y = some z → AxesAre b.l z) ∧
      b' = { b with h := some x, s := y } := by
  unfold changeBasisOneBody at h
  step_get h
  step_lift h
  step e h
  obtain ⟨x, hx, hxa, rfl⟩ := setH_inv e
  step_get h
  split at h
  · rename_i hs
    step_get h
    rw [run_liftM_eq_ok] at h
    obtain ⟨-, rfl⟩ := h
    refine ⟨x, none, hxa, by simp, ?_⟩
    simp_all
  · step_lift h
    step e' h
    obtain ⟨y, hy, hya, rfl⟩ := setS_inv e'
    step_get h
    rw [run_liftM_eq_ok] at h
    obtain ⟨-, rfl⟩ := h
    exact ⟨x, some y, hxa, by rintro z ⟨⟩; exact hya, rfl⟩

theorem changeBasisTwoBody_inv' (h : (changeBasisTwoBody C Ct).run b = (.ok r, b')) :
    ∃ x y, AxesAre b.l x ∧ (∀ z, y = some z → AxesAre b.l z ∧ b.includesSpin = true) ∧
      b' = { b with u := some x, spin2tb := y } := by
  unfold changeBasisTwoBody at h
  step_get h
  step_lift h
  step e h
  obtain ⟨x, hx, hxa, rfl⟩ := setU_inv e
  step_get h
  split at h
  · rename_i hs
    rw [run_pure_eq_ok] at h
    obtain ⟨-, rfl⟩ := h
    refine ⟨x, none, hxa, by simp, ?_⟩
    simp_all
  · step_lift h
    obtain ⟨y, hy, hya, hsp, rfl⟩ := setSpin2tb_inv h
    exact ⟨x, some y, hxa, by rintro z ⟨⟩; exact ⟨hya, hsp⟩, rfl⟩

theorem changeBasisDipole_inv (h : (changeBasisDipole C Ct).run b = (.ok r, b')) :
    ∃ x, DipoleAxes b.dim b.l x ∧ b' = { b with dipole := some x } := by
  unfold changeBasisDipole at h
  step_get h
  step_lift h
  step_lift h
  step_lift h
  step_lift h
  step_lift h
  obtain ⟨x, -, hx, rfl⟩ := setDipole_inv h
  exact ⟨x, hx, rfl⟩

theorem changeBasisSpf_inv (h : (changeBasisSpf C Ct).run b = (.ok r, b')) :
    ∃ x y, SpfAxes b.dim b.l x ∧ SpfAxes b.dim b.l y ∧
      b' = { b with spf := some x, braSpf := some y } := by
  unfold changeBasisSpf at h
  step e h
  rw [getBra_run] at e
  simp only [Prod.mk.injEq, Except.ok.injEq] at e
  obtain ⟨rfl, rfl⟩ := e
  step_get h
  step_lift h
  step_lift h
  step e h
  obtain ⟨hy, rfl⟩ := setBra_inv e
  step_get h
  step_lift h
  step_lift h
  obtain ⟨hx, rfl⟩ := setSpf_inv h
  exact ⟨_, _, hx _ rfl, hy _ rfl, rfl⟩

/-- What a successful `change_basis` leaves behind, for every basis set. -/
theorem changeBasis_axes {Ct : Option (NDArray K)} (h : (changeBasis C Ct).run b = (.ok r, b')) :
    ∃ n, C.shape[1]? = some n ∧ ∃ h' s' u' tb' d' spf' bra', b' = { b with
        l := n, h := some h', s := s', u := some u', spin2tb := tb', dipole := d', spf := spf'
        braSpf := bra' } ∧
      AxesAre n h' ∧ (∀ z, s' = some z → AxesAre n z) ∧ AxesAre n u' ∧
      (∀ z, tb' = some z → AxesAre n z ∧ b.includesSpin = true) ∧
      (∀ z, d' = some z → DipoleAxes b.dim n z) ∧
      (∀ z, spf' = some z → SpfAxes b.dim n z) ∧
      (b.spf = none → spf' = none ∧ bra' = b.braSpf) ∧
      (b.spf ≠ none → spf' ≠ none ∧ ∀ z, bra' = some z → SpfAxes b.dim n z) := by
  unfold changeBasis at h
  rw [run_bind_eq_ok] at h
  obtain ⟨n, _, e, h⟩ := h
  rw [run_liftM_eq_ok] at e
  obtain ⟨hn, rfl⟩ := e
  have hn' : C.shape[1]? = some n := by
    unfold shapeAt at hn
    split at hn <;> simp_all
  refine ⟨n, hn', ?_⟩
  step e h
  rw [run_modify_eq_ok] at e
  subst e
  step e1 h
  obtain ⟨h', s', hh, hs, rfl⟩ := changeBasisOneBody_inv' e1
  step e2 h
  obtain ⟨u', tb', hu, htb, rfl⟩ := changeBasisTwoBody_inv' e2
  step_get h
  have hd : ∃ d', (∀ z, d' = some z → DipoleAxes b.dim n z) ∧
      (do
        let self ← PyM.get
        if self.spf.isSome then changeBasisSpf C (Ct.getD C.conj.T) :
        PyM (BasisSet K) Unit).run { b with
        l := n, h := some h', s := s', u := some u', spin2tb := tb', dipole := d' } = (.ok r, b') := by
    split_ifs at h with hdip
    · step e3 h
      obtain ⟨x, hx, rfl⟩ := changeBasisDipole_inv e3
      exact ⟨some x, by rintro z ⟨⟩; exact hx, h⟩
    · have : b.dipole = none := by simpa using hdip
      refine ⟨none, by simp, ?_⟩
      rw [← h, ← this]
  obtain ⟨d', hd', h⟩ := hd
  step_get h
  split_ifs at h with hspf
  · obtain ⟨x, y, hx, hy, rfl⟩ := changeBasisSpf_inv h
    refine ⟨h', s', u', tb', d', some x, some y, rfl, hh, hs, hu, htb, hd', ?_, ?_, ?_⟩
    · rintro z ⟨⟩; exact hx
    · intro e; simp [e] at hspf
    · intro _; exact ⟨by simp, by rintro z ⟨⟩; exact hy⟩
  · rw [run_pure_eq_ok] at h
    obtain ⟨-, rfl⟩ := h
    have : b.spf = none := by simpa using hspf
    refine ⟨h', s', u', tb', d', none, b.braSpf, by simp [this], hh, hs, hu, htb, hd', by simp,
      fun _ => ⟨rfl, rfl⟩, fun e => absurd this e⟩

end change

section general
variable {b b' : BasisSet K} {r : Unit}

theorem run_assert_eq_ok {σ : Type} {s s' : σ} {c : Bool} {a : Unit} :
    (PyM.assert c : PyM σ Unit).run s = (.ok a, s') ↔ c = true ∧ s = s' := by
  rw [run_assert]; cases c <;> simp

theorem setSigma_inv {x y z : NDArray K} (h : (setSigma x y z).run b = (.ok r, b')) :
    b' = { b with sigmaX := some x, sigmaY := some y, sigmaZ := some z } := by
  unfold setSigma at h
  step_get h
  step e h
  rw [run_assert_eq_ok] at e
  obtain ⟨-, rfl⟩ := e
  simp only [PyM.run_bind, run_modify, Prod.mk.injEq, true_and] at h
  exact h.symm

theorem setupSpin_inv {ov : NDArray K} {a c : List K}
    (h : (setupSpin ov a c).run b = (.ok r, b')) :
    ∃ a' c' gx gy gz sx sy sz s2 tb, AxesAre b.l sx ∧ AxesAre b.l sy ∧ AxesAre b.l sz ∧
      AxesAre b.l s2 ∧ AxesAre b.l tb ∧ b' = { b with
        a := a', b := c', sigmaX := gx, sigmaY := gy, sigmaZ := gz, spinX := some sx
        spinY := some sy, spinZ := some sz, spin2 := some s2, spin2tb := some tb } := by
  unfold setupSpin at h
  step_get h
  step_lift h
  step e h
  rw [run_modify_eq_ok] at e; subst e
  step e h
  rw [run_modify_eq_ok] at e; subst e
  step_lift h
  step e h
  rw [run_assert_eq_ok] at e; obtain ⟨-, rfl⟩ := e
  step_lift h
  step e h
  rw [run_assert_eq_ok] at e; obtain ⟨-, rfl⟩ := e
  step_lift h
  step e h
  rw [run_assert_eq_ok] at e; obtain ⟨-, rfl⟩ := e
  rw [run_bind_eq_ok] at h
  obtain ⟨⟨x, y, z⟩, _, e, h⟩ := h
  rw [run_liftM_eq_ok] at e; obtain ⟨-, rfl⟩ := e
  step e h
  obtain rfl := setSigma_inv e
  step e1 h
  obtain ⟨sx, -, hx, -, rfl⟩ := setSpinX_inv e1
  step e1 h
  obtain ⟨sy, -, hy, -, rfl⟩ := setSpinY_inv e1
  step e1 h
  obtain ⟨sz, -, hz, -, rfl⟩ := setSpinZ_inv e1
  step_get h
  step_lift h
  step_lift h
  step_lift h
  step_lift h
  rw [run_bind_eq_ok] at h
  obtain ⟨⟨s2, tb⟩, _, e, h⟩ := h
  rw [run_liftM_eq_ok] at e; obtain ⟨-, rfl⟩ := e
  step e1 h
  obtain ⟨s2, -, h2, -, rfl⟩ := setSpin2_inv e1
  obtain ⟨tb, -, htb, -, rfl⟩ := setSpin2tb_inv h
  exact ⟨_, _, _, _, _, sx, sy, sz, s2, tb, hx, hy, hz, h2, htb, rfl⟩

theorem antiSymmetrizeTwoBody_inv (h : (antiSymmetrizeTwoBody).run b = (.ok r, b')) :
    (b.antiSym = true ∧ b' = b) ∨ (b.antiSym = false ∧ ∃ u tb, AxesAre b.l u ∧
      (∀ z, tb = some z → AxesAre b.l z) ∧ (b.spin2tb = none → tb = none) ∧
      b' = { b with u := some u, spin2tb := tb, antiSym := true }) := by
  unfold antiSymmetrizeTwoBody at h
  step_get h
  cases hf : b.antiSym with
  | true =>
    left
    simp only [hf, Bool.not_true, Bool.false_eq_true, if_false, run_pure_eq_ok] at h
    exact ⟨rfl, h.2.symm⟩
  | false =>
    right
    simp only [hf, Bool.not_false, if_true] at h
    step_lift h
    step e h
    obtain ⟨u, -, hu, rfl⟩ := setU_inv e
    step_get h
    split at h
    · rename_i hs
      rw [run_modify_eq_ok] at h
      refine ⟨rfl, u, none, hu, by simp, by simp, ?_⟩
      rw [← h]; simp_all
    · rename_i hs
      step_lift h
      step e1 h
      obtain ⟨t, -, ht, -, rfl⟩ := setSpin2tb_inv e1
      rw [run_modify_eq_ok] at h
      refine ⟨rfl, u, some t, hu, by rintro z ⟨⟩; exact ht, ?_, h.symm⟩
      intro e
      simp_all

theorem doubleDipole_inv (h : (doubleDipole).run b = (.ok r, b')) :
    ∃ d, (∀ z, d = some z → DipoleAxes b.dim b.l z) ∧ b' = { b with dipole := d } := by
  unfold doubleDipole at h
  step_get h
  split at h
  · rename_i hs
    rw [run_pure_eq_ok] at h
    exact ⟨none, by simp, by rw [← h.2, ← hs]⟩
  · step_lift h
    step_lift h
    step_lift h
    obtain ⟨x, -, hx, rfl⟩ := setDipole_inv h
    exact ⟨some x, by rintro z ⟨⟩; exact hx, rfl⟩

theorem doubleSpf_inv (h : (doubleSpf).run b = (.ok r, b')) :
    (b.spf = none ∧ b' = b) ∨ (b.spf ≠ none ∧ ∃ x y, SpfAxes b.dim b.l x ∧
      (∀ z, y = some z → SpfAxes b.dim b.l z) ∧ b' = { b with spf := some x, braSpf := y }) := by
  unfold doubleSpf at h
  step_get h
  split at h
  · rename_i hs
    rw [run_pure_eq_ok] at h
    exact .inl ⟨hs, h.2.symm⟩
  · rename_i hs
    right
    refine ⟨by simp [hs], ?_⟩
    step_lift h
    step e h
    obtain ⟨hx, rfl⟩ := setSpf_inv e
    step_get h
    split at h
    · rename_i hb
      rw [run_pure_eq_ok] at h
      refine ⟨_, none, hx _ rfl, by simp, ?_⟩
      rw [← h.2]; simp_all
    · step_lift h
      obtain ⟨hy, rfl⟩ := setBra_inv h
      exact ⟨_, _, hx _ rfl, hy, rfl⟩

theorem castToComplex_inv (h : (castToComplex).run b = (.ok r, b')) : b' = casted b := by
  unfold castToComplex at h
  rw [run_bind_eq_ok] at h
  obtain ⟨_, _, e, h⟩ := h
  rw [getBra_run] at e
  simp only [Prod.mk.injEq, Except.ok.injEq] at e
  obtain ⟨rfl, rfl⟩ := e
  step_get h
  split at h
  · step_lift h
    rw [run_modify_eq_ok] at h
    exact h.symm
  · rw [run_modify_eq_ok] at h
    exact h.symm

theorem changeModule_inv {np : Option Module} (h : (changeModule np).run b = (.ok r, b')) :
    b' = { b with np := np } ∨ b' = { b with np := np, braSpf := b.bra } := by
  unfold changeModule at h
  step_get h
  split at h
  · rw [run_modify_eq_ok] at h
    exact .inl h.symm
  · right
    unfold changeModuleBase at h
    step e h
    rw [run_modify_eq_ok] at e; subst e
    rw [run_bind_eq_ok] at h
    obtain ⟨_, _, e, h⟩ := h
    rw [getBra_run] at e
    simp only [Prod.mk.injEq, Except.ok.injEq] at e
    obtain ⟨rfl, rfl⟩ := e
    step_get h
    split at h
    · rw [run_liftM_eq_ok] at h; exact h.2.symm
    · rw [run_pure_eq_ok] at h; exact h.2.symm

/-- What a successful doubling leaves behind before the cast, for every spatial basis set. -/
theorem changeToGeneralBase_axes {a c : List K} {anti r : Bool} (hsp : b.includesSpin = false)
    (hno : NoSpinOps b) (htb : b.spin2tb = none)
    (h : (changeToGeneralBase a c anti).run b = (.ok r, b')) :
    ∃ b₀ : BasisSet K, b' = casted b₀ ∧ b₀.l = 2 * b.l ∧ b₀.dim = b.dim ∧ b₀.includesSpin = true ∧
      CoreMatch b₀ ∧ SpinMatch b₀ ∧
      (b.spf = none → b₀.spf = none ∧ b₀.braSpf = b.braSpf) ∧
      (b.spf ≠ none → b₀.spf ≠ none ∧ BraMatch b₀) := by
  unfold changeToGeneralBase at h
  step_get h
  simp only [hsp, Bool.false_eq_true, if_false] at h
  step e h
  rw [run_modify_eq_ok] at e; subst e
  step e h
  rw [run_modify_eq_ok] at e; subst e
  step_get h
  step_lift h
  step_lift h
  step e h
  obtain ⟨h', -, hh, rfl⟩ := setH_inv e
  step_get h
  step_lift h
  step e h
  obtain ⟨s', -, hs, rfl⟩ := setS_inv e
  step_get h
  step_lift h
  step e h
  obtain ⟨u', -, hu, rfl⟩ := setU_inv e
  step_get h
  -- the spin operators
  have key : ∃ b₁ : BasisSet K, b₁.l = 2 * b.l ∧ b₁.dim = b.dim ∧ b₁.includesSpin = true ∧
      b₁.spf = b.spf ∧ b₁.braSpf = b.braSpf ∧ SpinMatch b₁ ∧
      (∀ x, b₁.h = some x → AxesAre (2 * b.l) x) ∧ (∀ x, b₁.s = some x → AxesAre (2 * b.l) x) ∧
      (∀ x, b₁.u = some x → AxesAre (2 * b.l) x) ∧
      (∀ x, b₁.spin2tb = some x → AxesAre (2 * b.l) x) ∧
      (do
        if anti then antiSymmetrizeTwoBody
        doubleDipole
        doubleSpf
        castToComplex
        return true : PyM (BasisSet K) Bool).run b₁ = (.ok r, b') := by
    split at h
    · step e1 h
      obtain ⟨_, _, _, _, _, sx, sy, sz, s2, tb, hx, hy, hz, h2, ht, rfl⟩ := setupSpin_inv e1
      refine ⟨_, ?_, ?_, ?_, ?_, ?_, ⟨?_, ?_, ?_, ?_⟩, ?_, ?_, ?_, ?_, h⟩
      iterate 5 rfl
      · rintro x ⟨⟩; exact hx
      · rintro x ⟨⟩; exact hy
      · rintro x ⟨⟩; exact hz
      · rintro x ⟨⟩; exact h2
      · rintro x ⟨⟩; exact hh
      · rintro x ⟨⟩; exact hs
      · rintro x ⟨⟩; exact hu
      · rintro x ⟨⟩; exact ht
    · refine ⟨_, ?_, ?_, ?_, ?_, ?_, ?_, ?_, ?_, ?_, ?_, h⟩
      iterate 5 rfl
      · constructor <;> intro m hm <;> simp_all [hno.x, hno.y, hno.z, hno.two]
      · rintro x ⟨⟩; exact hh
      · rintro x ⟨⟩; exact hs
      · rintro x ⟨⟩; exact hu
      · intro x hx; simp [htb] at hx
  clear h
  obtain ⟨b₁, k1, k2, k3, k4, k5, k6, k7, k8, k9, k10, h⟩ := key
  have key : ∃ b₂ : BasisSet K, b₂.l = 2 * b.l ∧ b₂.dim = b.dim ∧ b₂.includesSpin = true ∧
      b₂.spf = b.spf ∧ b₂.braSpf = b.braSpf ∧ SpinMatch b₂ ∧
      (∀ x, b₂.h = some x → AxesAre (2 * b.l) x) ∧ (∀ x, b₂.s = some x → AxesAre (2 * b.l) x) ∧
      (∀ x, b₂.u = some x → AxesAre (2 * b.l) x) ∧
      (∀ x, b₂.spin2tb = some x → AxesAre (2 * b.l) x) ∧
      (do
        doubleDipole
        doubleSpf
        castToComplex
        return true : PyM (BasisSet K) Bool).run b₂ = (.ok r, b') := by
    split_ifs at h
    · step e1 h
      rcases antiSymmetrizeTwoBody_inv e1 with ⟨-, e2⟩ | ⟨-, u, tb, q1, q2, q3, rfl⟩
      · subst e2
        exact ⟨_, k1, k2, k3, k4, k5, k6, k7, k8, k9, k10, h⟩
      · rw [k1] at q1 q2
        refine ⟨_, ?_, ?_, ?_, ?_, ?_, ⟨?_, ?_, ?_, ?_⟩, ?_, ?_, ?_, ?_, h⟩
        exacts [k1, k2, k3, k4, k5, fun m hm => by simpa using k6.x m hm,
          fun m hm => by simpa using k6.y m hm, fun m hm => by simpa using k6.z m hm,
          fun m hm => by simpa using k6.two m hm, k7, k8, by rintro x ⟨⟩; exact q1, q2]
    · exact ⟨b₁, k1, k2, k3, k4, k5, k6, k7, k8, k9, k10, h⟩
  clear h k1 k2 k3 k4 k5 k6 k7 k8 k9 k10
  obtain ⟨b₂, k1, k2, k3, k4, k5, k6, k7, k8, k9, k10, h⟩ := key
  step e1 h
  obtain ⟨d, hd, rfl⟩ := doubleDipole_inv e1
  step e2 h
  rw [k1, k2] at hd
  rcases doubleSpf_inv e2 with ⟨hf, rfl⟩ | ⟨hf, x, y, hx, hy, rfl⟩
  · step e3 h
    obtain rfl := castToComplex_inv e3
    rw [run_pure_eq_ok] at h
    obtain ⟨-, rfl⟩ := h
    have hf' : b.spf = none := by rw [← k4]; exact hf
    refine ⟨_, rfl, k1, k2, k3, ⟨?_, ?_, ?_, ?_, ?_, ?_⟩, ⟨?_, ?_, ?_, ?_⟩, ?_, ?_⟩
    · intro x hx; simpa [k1] using k7 x hx
    · intro x hx; simpa [k1] using k8 x hx
    · intro x hx; simpa [k1] using k9 x hx
    · intro x hx; simpa [k1] using k10 x hx
    · intro x hx; simpa [k1, k2] using hd x hx
    · intro x hx
      have : b₂.spf = none := hf
      simp [this] at hx
    · exact k6.x
    · exact k6.y
    · exact k6.z
    · exact k6.two
    · intro _; exact ⟨hf, k5⟩
    · intro hne; exact absurd hf' hne
  · step e3 h
    obtain rfl := castToComplex_inv e3
    rw [run_pure_eq_ok] at h
    obtain ⟨-, rfl⟩ := h
    refine ⟨_, rfl, k1, k2, k3, ⟨?_, ?_, ?_, ?_, ?_, ?_⟩, ⟨?_, ?_, ?_, ?_⟩, ?_, ?_⟩
    · intro x hx; simpa [k1] using k7 x hx
    · intro x hx; simpa [k1] using k8 x hx
    · intro x hx; simpa [k1] using k9 x hx
    · intro x hx; simpa [k1] using k10 x hx
    · intro x hx; simpa [k1, k2] using hd x hx
    · rintro z ⟨⟩; exact hx
    · exact k6.x
    · exact k6.y
    · exact k6.z
    · exact k6.two
    · intro hne; exact absurd (k4.trans hne) hf
    · intro _; exact ⟨by simp, hy⟩

end general

end BasisSet

end QS
