import Verif.Lemmas.Symmetry
import Verif.Spec.Demo

/-!
# Properties C01–C07: changes of basis

Each theorem is followed by a concrete case that meets its hypotheses.
-/

namespace QS.Props

open Finset NDArray BasisSet PyM Demo

variable {K : Type} [PyScalar K]

/-! ## C01 -/

/-- **C01** `transform_one_body_elements(h, C, C_tilde)` at every `(p,q)`, for all rectangular
matrices; incompatible inner lengths raise `ValueError`. -/
theorem C01_one_body (np : Module) {h C Ct : NDArray K} {m k k' l l' n : ℕ}
    (hh : h.shape = [k, l]) (hC : C.shape = [l', n]) (hCt : Ct.shape = [m, k']) :
    (l = l' → k = k' → ∃ r, transformOneBody (some np) (some h) C (some Ct) = .ok r ∧
      r.shape = [m, n] ∧ ∀ p < m, ∀ q < n, r.get [p, q] =
        ∑ a ∈ range k, ∑ b ∈ range l, Ct.get [p, a] * h.get [a, b] * C.get [b, q]) ∧
    (¬ (l = l' ∧ k = k') →
      transformOneBody (some np) (some h) C (some Ct) = .error .value) := by
  constructor
  · rintro rfl rfl
    exact ⟨_, transformOneBody_eq hh hC hCt, rfl, fun p hp q hq => oneBodyArr_get hp hq⟩
  · intro hne
    simp only [transformOneBody, needNp, orErr, Option.getD, bind, Except.bind]
    by_cases hl : l = l'
    · subst hl
      rw [dot_two hh hC]
      simp only
      rw [dot_two_error hCt (matMul_shape ..) (fun e => hne ⟨rfl, e.symm⟩)]
    · rw [dot_two_error hh hC hl]

/-- **C01** Leaving out `C_tilde` uses the conjugate transpose of `C`. -/
theorem C01_default (np : Module) {h C : NDArray K} {l n : ℕ}
    (hh : h.shape = [l, l]) (hC : C.shape = [l, n]) :
    ∃ r, transformOneBody (some np) (some h) C none = .ok r ∧
      r.shape = [n, n] ∧ ∀ p < n, ∀ q < n, r.get [p, q] =
        ∑ a ∈ range l, ∑ b ∈ range l, star (C.get [a, p]) * h.get [a, b] * C.get [b, q] := by
  refine ⟨_, transformOneBody_none.trans (transformOneBody_eq hh hC (conjT_shape hC)), rfl,
    fun p hp q hq => ?_⟩
  rw [oneBodyArr_get hp hq]
  simp only [conjT_get2 C hC]

example : ∃ r, transformOneBody (some 0) (some Demo.h) C23 none = .ok r ∧ r.shape = [3, 3] ∧
    r.get [0, 2] = g 15 (-17) :=
  ⟨_, transformOneBody_none.trans (transformOneBody_eq (l := 2) rfl rfl rfl), rfl, by decide +kernel⟩
example : transformOneBody (some 0) (some Demo.h) (eye 3) (some C22) = .error .value :=
  (C01_one_body (k := 2) (k' := 2) (l := 2) (l' := 3) (m := 2) (n := 3) 0 rfl rfl rfl).2
    (by decide)

/-! ## C02 -/

/-- **C02** `transform_two_body_elements(u, C, C_tilde)` at every `(p,q,r,s)`; incompatible lengths
raise `ValueError`. -/
theorem C02_two_body (np : Module) {u C Ct : NDArray K} {l l' l'' m n : ℕ}
    (hu : u.shape = [l, l, l, l]) (hC : C.shape = [l', n]) (hCt : Ct.shape = [m, l'']) :
    (l = l' → l = l'' → ∃ r, transformTwoBody (some np) (some u) C (some Ct) = .ok r ∧
      r.shape = [m, m, n, n] ∧ ∀ p < m, ∀ q < m, ∀ t < n, ∀ s < n, r.get [p, q, t, s] =
        ∑ a ∈ range l, ∑ b ∈ range l, ∑ c ∈ range l, ∑ d ∈ range l,
          Ct.get [p, a] * Ct.get [q, b] * u.get [a, b, c, d] * C.get [c, t] * C.get [d, s]) ∧
    (¬ (l = l' ∧ l = l'') →
      transformTwoBody (some np) (some u) C (some Ct) = .error .value) := by
  constructor
  · rintro rfl rfl
    exact ⟨_, transformTwoBody_eq hu hC hCt, rfl,
      fun p hp q hq r hr s hs => twoBodyArr_get hp hq hr hs⟩
  · intro hne
    simp only [transformTwoBody, needNp, orErr, Option.getD, bind, Except.bind]
    by_cases hl : l = l'
    · subst hl
      obtain ⟨u₁, e₁, d₁, s₁, g₁⟩ := tensordot_ok (a := u) (b := C) (i := 3) (j := 0) (n := l)
        (by simp [hu]) (by simp [hC])
      rw [e₁]; simp only
      simp only [hu, hC, List.eraseIdx, List.cons_append, List.nil_append] at s₁
      obtain ⟨u₂, e₂, d₂, s₂, g₂⟩ := tensordot_ok (a := u₁) (b := C) (i := 2) (j := 0) (n := l)
        (by simp [s₁]) (by simp [hC])
      rw [e₂]; simp only
      simp only [s₁, hC, List.eraseIdx, List.cons_append, List.nil_append] at s₂
      obtain ⟨u₂', e₂', d₂', s₂', g₂'⟩ := transpose_0132 s₂
      rw [e₂']; simp only
      have : tensordot u₂' Ct 1 1 = .error .value := by
        simp only [tensordot, s₂', hCt]
        simpa using hne
      rw [this]
    · have : tensordot u C 3 0 = .error .value := by
        simp only [tensordot, hu, hC]
        simpa using hl
      rw [this]

/-- **C02** Leaving out `C_tilde` uses the conjugate transpose of `C`. -/
theorem C02_default (np : Module) {u C : NDArray K} {l n : ℕ}
    (hu : u.shape = [l, l, l, l]) (hC : C.shape = [l, n]) :
    ∃ r, transformTwoBody (some np) (some u) C none = .ok r ∧
      r.shape = [n, n, n, n] ∧ ∀ p < n, ∀ q < n, ∀ t < n, ∀ s < n, r.get [p, q, t, s] =
        ∑ a ∈ range l, ∑ b ∈ range l, ∑ c ∈ range l, ∑ d ∈ range l,
          star (C.get [a, p]) * star (C.get [b, q]) * u.get [a, b, c, d] *
            C.get [c, t] * C.get [d, s] := by
  refine ⟨_, transformTwoBody_none.trans (transformTwoBody_eq hu hC (conjT_shape hC)), rfl,
    fun p hp q hq r hr s hs => ?_⟩
  rw [twoBodyArr_get hp hq hr hs]
  simp only [conjT_get2 C hC]

example : ∃ r, transformTwoBody (some 0) (some Demo.u) C22 (some C22inv) = .ok r ∧
    r.get [0, 1, 1, 0] = g 6 (-5) :=
  ⟨_, transformTwoBody_eq (l := 2) rfl rfl rfl, by decide +kernel⟩

/-! ## C03 -/

/-- **C03** A `change_basis(C, C_tilde)` that succeeds leaves every stored quantity transformed and
the rest unchanged; and the result is again well formed. -/
theorem C03_change_basis {b b' : BasisSet K} {C : NDArray K} {Ct : Option (NDArray K)} {l : ℕ}
    (hb : WellFormed b l) (h : (changeBasis C Ct).run b = (.ok (), b')) :
    ∃ n, C.shape = [l, n] ∧ BasisChanged b b' C (Ct.getD C.conj.T) l n ∧ WellFormed b' n := by
  obtain ⟨n, hC, hCt, _, rfl⟩ := changeBasis_inv hb h
  exact ⟨n, hC, changed_isChanged hb, changed_wellFormed hb⟩

/-- **C03** It does succeed whenever the coefficient matrices match the basis set. -/
theorem C03_succeeds {b : BasisSet K} {C Ct : NDArray K} {l n : ℕ} (hb : WellFormed b l)
    (hsp : SpinShaped b l) (hC : C.shape = [l, n]) (hCt : Ct.shape = [n, l]) :
    ∃ b', (changeBasis C (some Ct)).run b = (.ok (), b') :=
  ⟨_, changeBasis_run hb hsp hC hCt⟩

/-- **C03** ... and so it does when `C_tilde` is left out. -/
theorem C03_succeeds_default {b : BasisSet K} {C : NDArray K} {l n : ℕ} (hb : WellFormed b l)
    (hsp : SpinShaped b l) (hC : C.shape = [l, n]) :
    ∃ b', (changeBasis C none).run b = (.ok (), b') :=
  ⟨_, changeBasis_run hb hsp hC (conjT_shape hC)⟩

example : ∃ b', (changeBasis C23 none).run basis = (.ok (), b') ∧ b'.l = 3 ∧ b'.bra.isSome :=
  ⟨_, changeBasis_run (l := 2) (n := 3) basis_wf (basis_noSpin.spinShaped 2) rfl rfl, rfl, rfl⟩

/-! ## C04 -/

/-- **C04** Two successful basis changes leave exactly the object that one basis change with the
product matrices leaves (all attributes, including `l`, `h`, `s`, `u`, dipole moments, `spf`,
`bra_spf`, and even dtypes). -/
theorem C04_composition {b b₁ b₂ : BasisSet K} {C₁ D₁ C₂ D₂ : NDArray K} {l : ℕ}
    (hb : WellFormed b l) (hsp : SpinShaped b l)
    (h₁ : (changeBasis C₁ (some D₁)).run b = (.ok (), b₁))
    (h₂ : (changeBasis C₂ (some D₂)).run b₁ = (.ok (), b₂)) :
    ∃ P Q, dot C₁ C₂ = .ok P ∧ dot D₂ D₁ = .ok Q ∧
      (changeBasis P (some Q)).run b = (.ok (), b₂) := by
  obtain ⟨n₁, hC₁, hD₁, _, rfl⟩ := changeBasis_inv hb h₁
  obtain ⟨n₂, hC₂, hD₂, _, rfl⟩ := changeBasis_inv (changed_wellFormed hb) h₂
  simp only [Option.getD] at hD₁ hD₂ ⊢
  exact ⟨_, _, dot_two hC₁ hC₂, dot_two hD₂ hD₁,
    (changeBasis_run hb hsp rfl rfl).trans (by rw [changed_changed])⟩

/-- **C04** Both calls do succeed on every set without one-body spin matrices, for all composable
rectangular matrices (for spin-doubled sets see C73). -/
theorem C04_succeeds {b : BasisSet K} {C₁ D₁ C₂ D₂ : NDArray K} {l n₁ n₂ : ℕ}
    (hb : WellFormed b l) (hsp : NoSpinOps b) (hC₁ : C₁.shape = [l, n₁]) (hD₁ : D₁.shape = [n₁, l])
    (hC₂ : C₂.shape = [n₁, n₂]) (hD₂ : D₂.shape = [n₂, n₁]) :
    ∃ b₁ b₂, (changeBasis C₁ (some D₁)).run b = (.ok (), b₁) ∧
      (changeBasis C₂ (some D₂)).run b₁ = (.ok (), b₂) := by
  refine ⟨_, _, changeBasis_run hb (hsp.spinShaped l) hC₁ hD₁,
    changeBasis_run (changed_wellFormed hb) (NoSpinOps.spinShaped ?_ n₁) hC₂ hD₂⟩
  exact ⟨hsp.x, hsp.y, hsp.z, hsp.two⟩

example : ∃ b₁ b₂, (changeBasis C23 (some C23.conj.T)).run basis = (.ok (), b₁) ∧
      (changeBasis C23.conj.T (some C23)).run b₁ = (.ok (), b₂) :=
  C04_succeeds (l := 2) (n₁ := 3) (n₂ := 2) basis_wf basis_noSpin rfl rfl rfl rfl

/-! ## C05 -/

/-- **C05** If `C C_tilde = 1`, `change_basis(C, C_tilde)` followed by `change_basis(C_tilde, C)`
restores `l`, `h`, `s`, `u`, dipole moments, `spf` and `bra_spf`.  (`C_tilde C = 1` is not even needed;
with it `C` is square.) -/
theorem C05_undo {b : BasisSet K} {C Ct : NDArray K} {l n : ℕ} (hb : WellFormed b l)
    (hsp : SpinShaped b l) (hsq : n = l ∨ NoSpinOps b)
    (hC : C.shape = [l, n]) (hCt : Ct.shape = [n, l])
    (hinv : ∀ p < l, ∀ q < l,
      ∑ t ∈ range n, C.get [p, t] * Ct.get [t, q] = if p = q then 1 else 0) :
    ∃ b₁ b₂, (changeBasis C (some Ct)).run b = (.ok (), b₁) ∧
      (changeBasis Ct (some C)).run b₁ = (.ok (), b₂) ∧ SameElements b b₂ := by
  have hsp₁ : SpinShaped (changed b C Ct l n) n := by
    rcases hsq with rfl | hns
    · exact ⟨hsp.x, hsp.y, hsp.z, hsp.two⟩
    · exact NoSpinOps.spinShaped (b := changed b C Ct l n) ⟨hns.x, hns.y, hns.z, hns.two⟩ n
  refine ⟨_, _, changeBasis_run hb hsp hC hCt,
    changeBasis_run (changed_wellFormed hb) hsp₁ hCt hC, ?_⟩
  rw [changed_changed]
  have hid : IsId (matMul C Ct l n l) l :=
    ⟨rfl, fun p hp q hq => by rw [matMul_get hp hq]; exact hinv p hp q hq⟩
  exact changed_id hb hid hid

/-- **C05** Changing with the identity changes no element. -/
theorem C05_identity {b : BasisSet K} {l : ℕ} (hb : WellFormed b l) (hsp : SpinShaped b l) :
    ∃ b', (changeBasis (eye l) none).run b = (.ok (), b') ∧ SameElements b b' := by
  have hid : IsId (eye (K := K) l) l := ⟨rfl, fun p hp q _ => eye_get l p q hp⟩
  have hid' : IsId (eye (K := K) l).conj.T l := ⟨rfl, fun p hp q hq => by
    rw [conjT_get2 (eye l) (eye_shape l), eye_get l q p hq]
    by_cases h : p = q
    · simp [h]
    · simp [h, Ne.symm h]⟩
  exact ⟨_, changeBasis_run hb hsp rfl rfl, changed_id hb hid hid'⟩

example : ∃ b₁ b₂, (changeBasis C22 (some C22inv)).run basis = (.ok (), b₁) ∧
      (changeBasis C22inv (some C22)).run b₁ = (.ok (), b₂) ∧ SameElements basis b₂ :=
  C05_undo basis_wf (basis_noSpin.spinShaped 2) (.inl rfl) rfl rfl (by decide +kernel)

/-! ## C06 -/

/-- A sequence of basis changes with the default dual. -/
def changeBases (Cs : List (NDArray K)) : PyM (BasisSet K) Unit :=
  match Cs with
  | [] => pure ()
  | C :: Cs => do
    changeBasis C none
    changeBases Cs

theorem C06_step {b b' : BasisSet K} {C : NDArray K} {l : ℕ} (hb : WellFormed b l)
    (h : (changeBasis C none).run b = (.ok (), b')) :
    ∃ n, WellFormed b' n ∧ b'.dim = b.dim ∧
      (OnSome (HermMat l) b.h → OnSome (HermMat n) b'.h) ∧
      (OnSome (HermMat l) b.s → OnSome (HermMat n) b'.s) ∧
      (OnSome (HermDip b.dim l) b.dipole → OnSome (HermDip b.dim n) b'.dipole) ∧
      (OnSome (HermU l) b.u → OnSome (HermU n) b'.u) ∧
      (OnSome (ExchU l) b.u → OnSome (ExchU n) b'.u) ∧
      (OnSome (AntiKet l) b.u → OnSome (AntiKet n) b'.u) ∧
      (OnSome (AntiBra l) b.u → OnSome (AntiBra n) b'.u) := by
  obtain ⟨n, hC, hCt, _, rfl⟩ := changeBasis_inv hb h
  refine ⟨n, changed_wellFormed hb, rfl, ?_⟩
  simp only [OnSome, changed, Option.map_eq_some_iff, Option.getD]
  refine ⟨?_, ?_, ?_, ?_, ?_, ?_, ?_⟩ <;> rintro hx y ⟨x, e, rfl⟩
  · exact oneBodyArr_herm hC (hx x e)
  · exact oneBodyArr_herm hC (hx x e)
  · exact dipoleArr_herm hC (hx x e)
  · exact twoBodyArr_herm hC (hx x e)
  · exact twoBodyArr_exch (hx x e)
  · exact twoBodyArr_antiKet (hx x e)
  · exact twoBodyArr_antiBra (hx x e)

/-- **C06** Every symmetry of the elements survives every successful sequence of basis changes with
rectangular matrices. -/
theorem C06_symmetries (Cs : List (NDArray K)) {b b' : BasisSet K} {l : ℕ} (hb : WellFormed b l)
    (h : (changeBases Cs).run b = (.ok (), b')) :
    (OnSome (HermMat b.l) b.h → OnSome (HermMat b'.l) b'.h) ∧
    (OnSome (HermMat b.l) b.s → OnSome (HermMat b'.l) b'.s) ∧
    (OnSome (HermDip b.dim b.l) b.dipole → OnSome (HermDip b'.dim b'.l) b'.dipole) ∧
    (OnSome (HermU b.l) b.u → OnSome (HermU b'.l) b'.u) ∧
    (OnSome (ExchU b.l) b.u → OnSome (ExchU b'.l) b'.u) ∧
    (OnSome (AntiKet b.l) b.u → OnSome (AntiKet b'.l) b'.u) ∧
    (OnSome (AntiBra b.l) b.u → OnSome (AntiBra b'.l) b'.u) := by
  induction Cs generalizing b l with
  | nil =>
    simp only [changeBases, run_pure, Prod.mk.injEq, true_and] at h
    subst h
    exact ⟨id, id, id, id, id, id, id⟩
  | cons C Cs ih =>
    simp only [changeBases] at h
    obtain ⟨_, b₁, h₁, h₂⟩ := run_bind_eq_ok.1 h
    obtain ⟨n, hb₁, hdim, i1, i2, i3, i4, i5, i6, i7⟩ := C06_step hb h₁
    obtain ⟨j1, j2, j3, j4, j5, j6, j7⟩ := ih hb₁ h₂
    rw [hb₁.l_eq] at j1 j2 j3 j4 j5 j6 j7
    rw [hdim] at j3
    rw [hb.l_eq]
    exact ⟨j1 ∘ i1, j2 ∘ i2, j3 ∘ i3, j4 ∘ i4, j5 ∘ i5, j6 ∘ i6, j7 ∘ i7⟩

/-- **C06** Such sequences do succeed on every set without one-body spin matrices, for all
composable shapes. -/
theorem C06_succeeds (Cs : List (NDArray K)) (ns : List ℕ) {b : BasisSet K} {l : ℕ}
    (hb : WellFormed b l) (hsp : NoSpinOps b)
    (hsh : Cs.map (·.shape) = (List.zip (l :: ns) ns).map fun p => [p.1, p.2]) :
    ∃ b', (changeBases Cs).run b = (.ok (), b') := by
  induction Cs generalizing b l ns with
  | nil => exact ⟨b, rfl⟩
  | cons C Cs ih =>
    cases ns with
    | nil => simp at hsh
    | cons n ns =>
      simp only [List.zip_cons_cons, List.map_cons, List.cons.injEq] at hsh
      have hrun := changeBasis_run (C := C) (n := n) hb (hsp.spinShaped l) hsh.1 (conjT_shape hsh.1)
      obtain ⟨b', hb'⟩ := ih ns (changed_wellFormed (n := n) (C := C) (Ct := C.conj.T) hb)
        ⟨hsp.x, hsp.y, hsp.z, hsp.two⟩ hsh.2
      exact ⟨b', by
        simp only [changeBases]
        rw [run_bind_ok (show (changeBasis C none).run b = _ from hrun)]
        exact hb'⟩

example : ∃ b', (changeBases [C23, C23.conj.T]).run basis = (.ok (), b') ∧
    OnSome (HermMat b'.l) b'.h ∧ OnSome (ExchU b'.l) b'.u := by
  obtain ⟨b', h⟩ := C06_succeeds [C23, C23.conj.T] [3, 2] basis_wf basis_noSpin rfl
  have := C06_symmetries _ basis_wf h
  refine ⟨b', h, this.1 ?_, this.2.2.2.2.1 ?_⟩
  · rintro x ⟨⟩; unfold HermMat; decide +kernel
  · rintro x ⟨⟩; unfold ExchU; decide +kernel

/-! ## C07 -/

/-- **C07** The preview calls never change the basis set (whether or not they raise). -/
theorem C07_pure (b : BasisSet K) (C : NDArray K) :
    ((getTransformedH C).run b).2 = b ∧ ((getTransformedU C).run b).2 = b := ⟨rfl, rfl⟩

/-- **C07** Whatever `change_basis(C)` stores in `h` and `u` is what the previews return. -/
theorem C07_preview {b b' : BasisSet K} {C : NDArray K} {l : ℕ} (hb : WellFormed b l)
    (h : (changeBasis C none).run b = (.ok (), b')) :
    ∃ x y, (getTransformedH C).run b = (.ok x, b) ∧ (getTransformedU C).run b = (.ok y, b) ∧
      b'.h = some x ∧ b'.u = some y := by
  obtain ⟨n, hC, hCt, _, rfl⟩ := changeBasis_inv hb h
  obtain ⟨x, hx, hxs⟩ := hb.h
  obtain ⟨u, hu, hus⟩ := hb.u
  obtain ⟨np, hnp⟩ := hb.np
  refine ⟨oneBodyArr x C C.conj.T n l l n, twoBodyArr u C C.conj.T l n n, ?_, ?_, ?_, ?_⟩
  · simp only [getTransformedH, PyM.run_bind, run_get, run_liftM, hnp, hx]
    rw [transformOneBody_none, transformOneBody_eq hxs hC (conjT_shape hC)]
  · simp only [getTransformedU, PyM.run_bind, run_get, run_liftM]
    rw [show b.transformTwoBodyOf b.u C none = b.transformTwoBodyOf b.u C (some C.conj.T) by
      unfold transformTwoBodyOf; cases b.cls <;> rfl]
    rw [hu, transformTwoBodyOf_eq hnp hu (by simp [ndim, hus]) hus hC (conjT_shape hC)]
  · simp [changed, hx]
  · simp [changed, hu]

example : ∃ b' x y, (changeBasis C23 none).run basis = (.ok (), b') ∧
    (getTransformedH C23).run basis = (.ok x, basis) ∧
    (getTransformedU C23).run basis = (.ok y, basis) ∧ b'.h = some x ∧ b'.u = some y := by
  obtain ⟨b', h⟩ := C03_succeeds_default (C := C23) (n := 3) basis_wf (basis_noSpin.spinShaped 2) rfl
  obtain ⟨x, y, h'⟩ := C07_preview basis_wf h
  exact ⟨b', x, y, h, h'⟩

end QS.Props
