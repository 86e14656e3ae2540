import Verif.Lemmas.RefSpin
import Verif.Spec.Demo

/-!
# Properties C12–C21: spin doubling

Each theorem is followed by a concrete case that meets its hypotheses.
-/

namespace QS.Props

open Finset NDArray BasisSet PyM Demo

variable {K : Type} [PyScalar K]

/-! ## C12 -/

/-- **C12** `add_spin_one_body(h)`, for all rectangular matrices. -/
theorem C12_one_body (np : Module) {h : NDArray K} {m n : ℕ} (hh : h.shape = [m, n]) :
    ∃ r, addSpinOneBody (some np) (some h) = .ok r ∧ r.shape = [2 * m, 2 * n] ∧
      ∀ p < m, ∀ q < n, ∀ a < 2, ∀ b < 2,
        r.get [2 * p + a, 2 * q + b] = if a = b then h.get [p, q] else 0 :=
  ⟨_, addSpinOneBody_eq hh, dbl1_isDoubled h m n⟩

example : ∃ r, addSpinOneBody (some 0) (some Demo.C23) = .ok r ∧ r.shape = [4, 6] ∧
    r.get [3, 1] = g 3 0 ∧ r.get [3, 0] = 0 :=
  ⟨_, addSpinOneBody_eq (m := 2) (n := 3) rfl, rfl, by decide +kernel, by decide +kernel⟩

/-! ## C13 -/

/-- **C13** `add_spin_two_body(u)`, for all sizes, for `BasisSet` and for `ODSincDVR`. -/
theorem C13_two_body (c : Cls) (np : Module) {u : NDArray K} {l : ℕ} (hu : u.shape = [l, l, l, l]) :
    ∃ r, addSpinTwoBody c (some np) (some u) = .ok r ∧ r.shape = [2 * l, 2 * l, 2 * l, 2 * l] ∧
      ∀ p < l, ∀ q < l, ∀ r' < l, ∀ s < l, ∀ a < 2, ∀ b < 2, ∀ c < 2, ∀ d < 2,
        r.get [2 * p + a, 2 * q + b, 2 * r' + c, 2 * s + d] =
          if a = c ∧ b = d then u.get [p, q, r', s] else 0 :=
  ⟨_, addSpinTwoBody_eq hu, dbl2_isDoubled u l⟩

example : ∃ r, addSpinTwoBody .plain (some 0) (some Demo.u) = .ok r ∧
    r.get [1, 2, 3, 2] = Demo.u.get [0, 1, 1, 1] ∧ r.get [1, 2, 2, 3] = 0 :=
  ⟨_, addSpinTwoBody_eq (l := 2) rfl, by decide +kernel, by decide +kernel⟩

/-! ## C14 -/

/-- **C14** `anti_symmetrize_u(u)` and its sign changes. -/
theorem C14_antisymmetrize (c : Cls) {u : NDArray K} {l : ℕ} (hu : u.shape = [l, l, l, l]) :
    ∃ r, antiSymmetrizeU c (some u) = .ok r ∧ r.shape = [l, l, l, l] ∧
      (∀ p < l, ∀ q < l, ∀ t < l, ∀ s < l,
        r.get [p, q, t, s] = u.get [p, q, t, s] - u.get [p, q, s, t]) ∧
      AntiKet l r ∧ (ExchU l u → AntiBra l r) := by
  refine ⟨_, antiSymmetrizeU_eq hu, rfl, (asym_isAnti u l).2, ?_, ?_⟩
  · intro p hp q hq r hr s hs
    rw [asym_get hp hq hr hs, asym_get hp hq hs hr]; ring
  · intro hx p hp q hq r hr s hs
    rw [asym_get hp hq hr hs, asym_get hq hp hr hs, hx p hp q hq r hr s hs,
      hx p hp q hq s hs r hr]; ring

example : ExchU 2 Demo.u := by unfold ExchU; decide +kernel
example : ∃ r, antiSymmetrizeU .plain (some Demo.u) = .ok r ∧ r.get [0, 1, 0, 1] ≠ 0 :=
  ⟨_, antiSymmetrizeU_eq (l := 2) rfl, by decide +kernel⟩

/-! ## C15 -/

/-- `n` calls of a method, one after the other. -/
def callN {σ α : Type} (m : PyM σ α) : ℕ → PyM σ Unit
  | 0 => pure ()
  | n + 1 => do
    let _ ← m
    callN m n

/-- Calls that leave the object as it is can be repeated. -/
theorem callN_fixed {σ α : Type} {m : PyM σ α} {s : σ} {a : α} (h : m.run s = (.ok a, s)) (n : ℕ) :
    (callN m n).run s = (.ok (), s) := by
  induction n with
  | zero => rfl
  | succ n ih => rw [callN, PyM.run_bind, h]; exact ih

/-- **C15** Any positive number of calls of `anti_symmetrize_two_body_elements` leaves the elements
`u[pqrs] - u[pqsr]` of the original ones (once), the flag true, and the rest unchanged. -/
theorem C15_once {b : BasisSet K} {l : ℕ} (hb : WellFormed b l) (hanti : b.antiSym = false) (n : ℕ) :
    ∃ b', (callN antiSymmetrizeTwoBody (n + 1)).run b = (.ok (), b') ∧
      OptRel (IsAntiSymmetrised l) b.u b'.u ∧
      OptRel (IsAntiSymmetrised l) b.spin2tb b'.spin2tb ∧
      b'.antiSym = true ∧
      b' = { b with u := b'.u, spin2tb := b'.spin2tb, antiSym := true } := by
  obtain ⟨u, hu, hus⟩ := hb.u
  have run := antiSymmetrizeTwoBody_run hb.l_eq hu hus hb.tb
  refine ⟨antiSymmed b l, ?_, ?_, ?_, ?_, ?_⟩
  · rw [callN, PyM.run_bind, run]
    refine callN_fixed (a := ()) ?_ n
    simp [antiSymmetrizeTwoBody, PyM.run_bind, antiSymmed, hanti]
  · simp only [antiSymmed, hanti, Bool.false_eq_true, if_false, hu]
    exact asym_isAnti u l
  · simp only [antiSymmed, hanti, Bool.false_eq_true, if_false]
    rcases b.spin2tb with _ | x
    · trivial
    · exact asym_isAnti x l
  · simp [antiSymmed, hanti]
  · simp [antiSymmed, hanti]

/-- **C15** On elements flagged as anti-symmetrised nothing happens, however often it is called, for
every basis set; and every successful call sets the flag. -/
theorem C15_flagged {b : BasisSet K} :
    (b.antiSym = true → ∀ n, (callN antiSymmetrizeTwoBody n).run b = (.ok (), b)) ∧
    (∀ b', antiSymmetrizeTwoBody.run b = (.ok (), b') → b'.antiSym = true) := by
  constructor
  · intro h n
    exact callN_fixed (a := ()) (by simp [antiSymmetrizeTwoBody, PyM.run_bind, h]) n
  · intro b' h
    cases hf : b.antiSym with
    | true =>
      simp only [antiSymmetrizeTwoBody, PyM.run_bind, run_get, hf, Bool.not_true,
        Bool.false_eq_true, if_false, run_pure, Prod.mk.injEq, true_and] at h
      rw [← h, hf]
    | false =>
      simp only [antiSymmetrizeTwoBody, PyM.run_bind, run_get, hf, Bool.not_false, if_true,
        run_liftM] at h
      split at h <;> [skip; simp at h]
      split at h <;> [skip; simp at h]
      split at h
      · simp only [PyM.run_bind, run_pure, run_modify, Prod.mk.injEq, true_and] at h
        rw [← h]
      · simp only [PyM.run_bind, run_liftM] at h
        split at h <;> [skip; simp at h]
        split at h <;> [skip; simp at h]
        simp only [run_modify, Prod.mk.injEq, true_and] at h
        rw [← h]

example : ∃ b', (callN antiSymmetrizeTwoBody 3).run basis = (.ok (), b') ∧
    b'.u.map (·.get [0, 1, 0, 1]) = some (Demo.u.get [0, 1, 0, 1] - Demo.u.get [0, 1, 1, 0]) := by
  obtain ⟨b', h, hu, _⟩ := C15_once (b := basis) (l := 2) basis_wf rfl 2
  refine ⟨b', h, ?_⟩
  rcases hb' : b'.u with _ | x
  · rw [hb'] at hu; exact hu.elim
  · rw [hb'] at hu
    exact congrArg some (hu.2 0 (by decide) 1 (by decide) 0 (by decide) 1 (by decide))

/-! ## C16 -/

/-- **C16** Every successful `change_to_general_orbital_basis` of a spatial basis set leaves the
spin-doubled basis set, which is well formed with `2l` functions. -/
theorem C16_general {b b' : BasisSet K} {l : ℕ} {a₀ a₁ b₀ b₁ : K} {r anti : Bool}
    (hb : WellFormed b l) (hsp : b.includesSpin = false)
    (h : (changeToGeneralBase [a₀, a₁] [b₀, b₁] anti).run b = (.ok r, b')) :
    r = true ∧ GeneralOf b b' l anti ∧ WellFormed b' (2 * l) ∧ SpinShaped b' (2 * l) := by
  obtain ⟨ov, hs, rfl, rfl⟩ := changeToGeneralBase_inv hb hsp h
  exact ⟨rfl, general_isGeneral _ _ _ _ _ hb hs, general_wellFormed _ _ _ _ _ hb⟩

/-- **C16** It succeeds for every orthonormal spin basis, if there is an overlap matrix. -/
theorem C16_succeeds {b : BasisSet K} {l : ℕ} {a₀ a₁ b₀ b₁ : K} (anti : Bool) (hb : WellFormed b l)
    (hsp : b.includesSpin = false) (hs : b.s.isSome) (ho : OrthoSpin a₀ a₁ b₀ b₁) :
    ∃ b', (changeToGeneralBase [a₀, a₁] [b₀, b₁] anti).run b = (.ok true, b') := by
  obtain ⟨ov, hs⟩ := Option.isSome_iff_exists.1 hs
  obtain ⟨h1, h2, h3⟩ := small_of_ortho ho
  exact ⟨_, changeToGeneralBase_run hb hsp hs h1 h2 h3⟩

/-- **C16** A pair of spinors that is visibly not orthonormal is rejected with `AssertionError`. -/
theorem C16_rejects {b : BasisSet K} {l : ℕ} {a₀ a₁ b₀ b₁ : K} (anti : Bool) (hb : WellFormed b l)
    (hsp : b.includesSpin = false) (hs : b.s.isSome)
    (h : PyScalar.small (spinor a₀ a₁ a₀ a₁ - 1) = false ∨
      PyScalar.small (spinor b₀ b₁ b₀ b₁ - 1) = false ∨
      PyScalar.small (spinor a₀ a₁ b₀ b₁) = false) :
    ((changeToGeneralBase [a₀, a₁] [b₀, b₁] anti).run b).1 = .error .assertion := by
  obtain ⟨ov, hs⟩ := Option.isSome_iff_exists.1 hs
  refine changeToGeneralBase_rejects hb hsp hs ?_
  rintro ⟨h1, h2, h3⟩
  rw [ip_eq] at h1 h2 h3
  simp [h1, h2, h3] at h

/-- **C16** The override in `ODSincDVR` (no spin basis argument) does the same while `u` has four
indices. -/
theorem C16_sinc {b b' : BasisSet K} {l : ℕ} {r anti : Bool}
    (hb : WellFormed b l) (hsp : b.includesSpin = false)
    (h : (changeToGeneralSinc anti).run b = (.ok r, b')) :
    r = true ∧ GeneralOf b b' l anti ∧ WellFormed b' (2 * l) ∧ SpinShaped b' (2 * l) := by
  obtain ⟨u, hu, hus⟩ := hb.u
  have : b.uRepr ≠ .two := by simp [uRepr, hu, ndim, hus]
  simp only [changeToGeneralSinc, PyM.run_bind, run_get, this, decide_false, Bool.and_false,
    Bool.false_eq_true, if_false, run_pure] at h
  exact C16_general hb hsp h

/-- A spin basis that is not the standard one. -/
theorem ortho_345 : OrthoSpin (⟨3 / 5, 0⟩ : GaussQ) ⟨0, 4 / 5⟩ ⟨4 / 5, 0⟩ ⟨0, -3 / 5⟩ := by
  constructor <;> decide +kernel

example : ∃ b', (changeToGeneralBase [(⟨3 / 5, 0⟩ : GaussQ), ⟨0, 4 / 5⟩] [⟨4 / 5, 0⟩, ⟨0, -3 / 5⟩]
    true).run basis = (.ok true, b') ∧ b'.l = 4 := by
  obtain ⟨b', h⟩ := C16_succeeds true basis_wf rfl rfl ortho_345
  exact ⟨b', h, (C16_general basis_wf rfl h).2.1.size⟩
example : PyScalar.small (spinor (g 1 0) (g 0 0) (g 1 0) (g 1 0)) = false := by decide +kernel

/-! ## C17 -/

/-- **C17** On a basis set that already includes spin nothing happens, for any arguments, whatever
the class and however often it is called. -/
theorem C17_no_second_doubling {b : BasisSet K} (hsp : b.includesSpin = true) (a c : List K)
    (anti : Bool) (n : ℕ) :
    (changeToGeneralBase a c anti).run b = (.ok false, b) ∧
    (callN (changeToGeneralBase a c anti) n).run b = (.ok (), b) ∧
    (b.u.isSome → (callN (changeToGeneralSinc anti) n).run b = (.ok (), b)) := by
  have h : (changeToGeneralBase a c anti).run b = (.ok false, b) := by
    simp [changeToGeneralBase, PyM.run_bind, hsp]
  refine ⟨h, callN_fixed h n, fun hu => ?_⟩
  obtain ⟨u, hu⟩ := Option.isSome_iff_exists.1 hu
  refine callN_fixed (a := false) ?_ n
  have h' : (changeToGeneralBase [1, 0] [0, 1] anti).run b = (.ok false, b) := by
    simp [changeToGeneralBase, PyM.run_bind, hsp]
  simp only [changeToGeneralSinc, PyM.run_bind, run_get]
  split_ifs with hc
  · simp only [PyM.run_bind, setURepr, run_get, hu, orErr]
    split_ifs
    · simpa using h'
    · exact h'
  · simpa using h'

/-- **C17** After one successful call — on a basis set with or without spin — every further call, with whatever
arguments and however often, changes nothing. -/
theorem C17_after_doubling {b b' : BasisSet K} {l : ℕ} {a₀ a₁ b₀ b₁ : K} {r anti : Bool}
    (hb : b.includesSpin = true ∨ WellFormed b l)
    (h : (changeToGeneralBase [a₀, a₁] [b₀, b₁] anti).run b = (.ok r, b')) (a c : List K) (anti' : Bool) (n : ℕ) :
    (callN (changeToGeneralBase a c anti') n).run b' = (.ok (), b') := by
  cases hsp : b.includesSpin with
  | true =>
    rw [(C17_no_second_doubling hsp _ _ anti 0).1] at h
    cases h
    exact (C17_no_second_doubling hsp a c anti' n).2.1
  | false =>
    rcases hb with hb | hb
    · rw [hb] at hsp; cases hsp
    · exact (C17_no_second_doubling (C16_general hb hsp h).2.1.spin a c anti' n).2.1

example : ∃ b', (changeToGeneralBase [1, 0] [0, 1] false).run basis = (.ok true, b') ∧
    (callN (changeToGeneralBase [1, 0] [0, 1] true) 5).run b' = (.ok (), b') := by
  obtain ⟨b', h⟩ := C16_succeeds (a₀ := 1) (a₁ := 0) (b₀ := 0) (b₁ := 1) false basis_wf rfl rfl
    (by constructor <;> decide +kernel)
  exact ⟨b', h, (C17_no_second_doubling (C16_general basis_wf rfl h).2.1.spin _ _ _ 5).2.1⟩

/-! ## C18 -/

/-- **C18** The matrices returned by `setup_pauli_matrices` satisfy the Pauli algebra for every
orthonormal pair of column vectors. -/
theorem C18_algebra (np : Module) {a b : NDArray K} (ha : a.shape = [2, 1]) (hb : b.shape = [2, 1])
    (h : OrthoSpin (a.get [0, 0]) (a.get [1, 0]) (b.get [0, 0]) (b.get [1, 0])) :
    ∃ x y z, setupPauli (some np) a b = .ok (x, y, z) ∧ PauliAlgebra x y z := by
  have key : ∀ m : NDArray K, pauliArr m a b =
      pauliOf (a.get [0, 0]) (a.get [1, 0]) (b.get [0, 0]) (b.get [1, 0]) m := by
    intro m
    have : ∀ x y : NDArray K, bk x m y =
        bk (column [x.get [0, 0], x.get [1, 0]]) m (column [y.get [0, 0], y.get [1, 0]]) := by
      intro x y
      simp only [bk, sum_two, (column_get _ _).1, (column_get _ _).2]
    simp only [pauliArr, pauliOf]
    rw [this a a, this a b, this b a, this b b]
  refine ⟨_, _, _, setupPauli_eq ha hb, ⟨rfl, rfl, rfl⟩, ?_, ?_, ?_, ?_⟩
  all_goals simp only [key]
  · exact ⟨fun p hp q hq => sigma_herm (.inl rfl) hp hq,
      fun p hp q hq => sigma_herm (.inr (.inl rfl)) hp hq,
      fun p hp q hq => sigma_herm (.inr (.inr rfl)) hp hq⟩
  · exact fun p hp q hq => ⟨sigma_xx h hp hq, sigma_yy h hp hq, sigma_zz h hp hq⟩
  · exact fun p hp q hq => ⟨sigma_xy h hp hq, sigma_yz h hp hq, sigma_zx h hp hq⟩
  · exact ⟨sigma_trace (.inl rfl) h, sigma_trace (.inr (.inl rfl)) h,
      sigma_trace (.inr (.inr rfl)) h⟩

/-- **C18** For `a = (1,0)`, `b = (0,1)` they are the standard Pauli matrices. -/
theorem C18_standard (np : Module) {a b : NDArray K} (ha : a.shape = [2, 1]) (hb : b.shape = [2, 1])
    (ha₀ : a.get [0, 0] = 1) (ha₁ : a.get [1, 0] = 0) (hb₀ : b.get [0, 0] = 0)
    (hb₁ : b.get [1, 0] = 1) :
    ∃ x y z, setupPauli (some np) a b = .ok (x, y, z) ∧
      (x.get [0, 0] = 0 ∧ x.get [0, 1] = 1 ∧ x.get [1, 0] = 1 ∧ x.get [1, 1] = 0) ∧
      (y.get [0, 0] = 0 ∧ y.get [0, 1] = -PyScalar.I ∧ y.get [1, 0] = PyScalar.I ∧
        y.get [1, 1] = 0) ∧
      (z.get [0, 0] = 1 ∧ z.get [0, 1] = 0 ∧ z.get [1, 0] = 0 ∧ z.get [1, 1] = -1) := by
  refine ⟨_, _, _, setupPauli_eq ha hb, ?_⟩
  simp only [pauliArr, (lit22_get _ _ _ _).1, (lit22_get _ _ _ _).2.1, (lit22_get _ _ _ _).2.2.1,
    (lit22_get _ _ _ _).2.2.2, bk, sum_two, ha₀, ha₁, hb₀, hb₁, sigmaXMat, sigmaYMat, sigmaZMat]
  simp

example : ∃ a b : NDArray GaussQ, a.shape = [2, 1] ∧ b.shape = [2, 1] ∧
    OrthoSpin (a.get [0, 0]) (a.get [1, 0]) (b.get [0, 0]) (b.get [1, 0]) ∧ a.get [1, 0] ≠ 0 :=
  ⟨mat .complex128 [[⟨3 / 5, 0⟩], [⟨0, 4 / 5⟩]], mat .complex128 [[⟨4 / 5, 0⟩], [⟨0, -3 / 5⟩]],
    rfl, rfl, by constructor <;> decide +kernel, by decide +kernel⟩

/-! ## C19 -/

/-- **C19** In an orthonormal spatial basis the installed spin matrices satisfy the angular momentum
algebra, `spin_2` is `3/4` and `spin_2_tb` is the sum over directions (anti-symmetrised on
request). -/
theorem C19_angular_momentum {b b' : BasisSet K} {l : ℕ} {a₀ a₁ b₀ b₁ : K} {r anti : Bool}
    {s : NDArray K} (hb : WellFormed b l) (hsp : b.includesSpin = false)
    (h : (changeToGeneralBase [a₀, a₁] [b₀, b₁] anti).run b = (.ok r, b'))
    (ho : OrthoSpin a₀ a₁ b₀ b₁) (hs : b.s = some s)
    (hov : ∀ p < l, ∀ q < l, s.get [p, q] = kd p q) :
    ∃ x y z s2 tb, b'.spinX = some x ∧ b'.spinY = some y ∧ b'.spinZ = some z ∧
      b'.spin2 = some s2 ∧ b'.spin2tb = some tb ∧
      AngularMomentum (2 * l) x y z ∧
      (s2.shape = [2 * l, 2 * l] ∧ ∀ p < 2 * l, ∀ q < 2 * l, s2.get [p, q] = 3 / 4 * kd p q) ∧
      (tb.shape = [2 * l, 2 * l, 2 * l, 2 * l] ∧
        ∀ p < 2 * l, ∀ q < 2 * l, ∀ t < 2 * l, ∀ u < 2 * l, tb.get [p, q, t, u] =
          if anti = true ∧ b.antiSym = false
          then spinTensor x y z p q t u - spinTensor x y z p q u t
          else spinTensor x y z p q t u) := by
  obtain ⟨ov, hs', rfl, rfl⟩ := changeToGeneralBase_inv hb hsp h
  obtain rfl : ov = s := by rw [hs] at hs'; exact (Option.some.inj hs').symm
  obtain ⟨ex, ey, ez, e2⟩ := general_spin (b := b) (l := l) (ov := ov) a₀ a₁ b₀ b₁ anti
  have herm : ∀ m : NDArray K, IsSigma m → HermMat (2 * l)
      (spinArr ov (pauliOf a₀ a₁ b₀ b₁ m) l) := by
    intro m hm p hp q hq
    rw [spin_entry hov hp hq, spin_entry hov hq hp]
    by_cases hpq : p / 2 = q / 2
    · rw [if_pos hpq, if_pos hpq.symm, sigma_herm hm (by omega) (by omega), star_mul']
      simp
    · rw [if_neg hpq, if_neg (Ne.symm hpq), star_zero]
  have htb : ∃ tb, (general b l ov a₀ a₁ b₀ b₁ anti).spin2tb = some tb ∧
      tb.shape = [2 * l, 2 * l, 2 * l, 2 * l] ∧
        ∀ p < 2 * l, ∀ q < 2 * l, ∀ t < 2 * l, ∀ u < 2 * l, tb.get [p, q, t, u] =
          if anti = true ∧ b.antiSym = false
          then spinTensor (spinArr ov (pauliOf a₀ a₁ b₀ b₁ sigmaXMat) l)
              (spinArr ov (pauliOf a₀ a₁ b₀ b₁ sigmaYMat) l)
              (spinArr ov (pauliOf a₀ a₁ b₀ b₁ sigmaZMat) l) p q t u -
            spinTensor (spinArr ov (pauliOf a₀ a₁ b₀ b₁ sigmaXMat) l)
              (spinArr ov (pauliOf a₀ a₁ b₀ b₁ sigmaYMat) l)
              (spinArr ov (pauliOf a₀ a₁ b₀ b₁ sigmaZMat) l) p q u t
          else spinTensor (spinArr ov (pauliOf a₀ a₁ b₀ b₁ sigmaXMat) l)
              (spinArr ov (pauliOf a₀ a₁ b₀ b₁ sigmaYMat) l)
              (spinArr ov (pauliOf a₀ a₁ b₀ b₁ sigmaZMat) l) p q t u := by
    cases anti with
    | false =>
      refine ⟨_, (general_spin2tb a₀ a₁ b₀ b₁).1, rfl, fun p hp q hq t ht u hu => ?_⟩
      rw [if_neg (by simp), toComplex_get, spin2tbArr_get hp hq ht hu]
      rfl
    | true =>
      cases ha : b.antiSym with
      | false =>
        refine ⟨_, (general_spin2tb a₀ a₁ b₀ b₁).2 ha, rfl, fun p hp q hq t ht u hu => ?_⟩
        rw [if_pos (by simp), toComplex_get, asym_get hp hq ht hu, spin2tbArr_get hp hq ht hu,
          spin2tbArr_get hp hq hu ht]
        rfl
      | true =>
        have : (general b l ov a₀ a₁ b₀ b₁ true).spin2tb =
            (general b l ov a₀ a₁ b₀ b₁ false).spin2tb := by
          simp [general, antiSymmed, withSpin, ha, casted]
        refine ⟨_, this.trans (general_spin2tb a₀ a₁ b₀ b₁).1, rfl, fun p hp q hq t ht u hu => ?_⟩
        rw [if_neg (by simp), toComplex_get, spin2tbArr_get hp hq ht hu]
        rfl
  obtain ⟨tb, htb, htbs, htbg⟩ := htb
  refine ⟨_, _, _, _, tb, ex, ey, ez, e2, htb, ⟨⟨rfl, rfl, rfl⟩, ⟨herm _ (.inl rfl),
    herm _ (.inr (.inl rfl)), herm _ (.inr (.inr rfl))⟩, ?_⟩, ⟨rfl, ?_⟩, htbs, htbg⟩
  · intro p hp q hq
    exact ⟨spin_comm hov (fun p hp q hq => sigma_xy ho hp hq) (fun p hp q hq => sigma_yx ho hp hq)
        hp hq,
      spin_comm hov (fun p hp q hq => sigma_yz ho hp hq) (fun p hp q hq => sigma_zy ho hp hq) hp hq,
      spin_comm hov (fun p hp q hq => sigma_zx ho hp hq) (fun p hp q hq => sigma_xz ho hp hq) hp hq⟩
  · intro p hp q hq
    have hs3 : ∑ k ∈ range l, mulAt l ov ov (p / 2) k * ov.get [k, q / 2] = kd (p / 2) (q / 2) := by
      rw [sum_eq_single (p / 2)]
      · rw [mulAt_id hov (by omega) (by omega), hov _ (by omega) _ (by omega)]; simp [kd]
      · intro t ht hne
        rw [mulAt_id hov (by omega) (mem_range.1 ht)]; simp [kd, Ne.symm hne]
      · intro hn; exact absurd (mem_range.2 (by omega)) hn
    rw [toComplex_get, spin2Arr_get hp hq, sandwich_spin hp hq, sandwich_spin hp hq,
      sandwich_spin hp hq, hs3, sigma_xx ho (by omega) (by omega), sigma_yy ho (by omega) (by omega),
      sigma_zz ho (by omega) (by omega), kd_split]
    ring

example : Demo.basis.s = some Demo.s ∧ (∀ p < 2, ∀ q < 2, Demo.s.get [p, q] = kd p q) :=
  ⟨rfl, by decide +kernel⟩
example : ∃ b', (changeToGeneralBase [(⟨3 / 5, 0⟩ : GaussQ), ⟨0, 4 / 5⟩] [⟨4 / 5, 0⟩, ⟨0, -3 / 5⟩]
    true).run basis = (.ok true, b') ∧ OrthoSpin (⟨3 / 5, 0⟩ : GaussQ) ⟨0, 4 / 5⟩ ⟨4 / 5, 0⟩
    ⟨0, -3 / 5⟩ := by
  obtain ⟨b', h⟩ := C16_succeeds true basis_wf rfl rfl ortho_345
  exact ⟨b', h, ortho_345⟩

/-! ## C20 -/

/-- **C20** What `spin_2` holds for every overlap matrix: `3/4 · s³ ⊗ 1`. -/
theorem C20_actual {b b' : BasisSet K} {l : ℕ} {a₀ a₁ b₀ b₁ : K} {r anti : Bool} {s : NDArray K}
    (hb : WellFormed b l) (hsp : b.includesSpin = false)
    (h : (changeToGeneralBase [a₀, a₁] [b₀, b₁] anti).run b = (.ok r, b'))
    (ho : OrthoSpin a₀ a₁ b₀ b₁) (hs : b.s = some s) :
    ∃ s2, b'.spin2 = some s2 ∧ ∀ p < l, ∀ q < l, ∀ a < 2, ∀ c < 2,
      s2.get [2 * p + a, 2 * q + c] =
        3 / 4 * (∑ k ∈ range l, mulAt l s s p k * s.get [k, q]) * kd a c := by
  obtain ⟨ov, hs', rfl, rfl⟩ := changeToGeneralBase_inv hb hsp h
  obtain rfl : ov = s := by rw [hs] at hs'; exact (Option.some.inj hs').symm
  obtain ⟨ex, ey, ez, e2⟩ := general_spin (b := b) (l := l) (ov := ov) a₀ a₁ b₀ b₁ anti
  refine ⟨_, e2, fun p hp q hq a ha c hc => ?_⟩
  have h1 : 2 * p + a < 2 * l := by omega
  have h2 : 2 * q + c < 2 * l := by omega
  rw [toComplex_get, spin2Arr_get h1 h2, sandwich_spin h1 h2, sandwich_spin h1 h2,
    sandwich_spin h1 h2, idx_div ha, idx_div hc, idx_mod ha, idx_mod hc, sigma_xx ho ha hc,
    sigma_yy ho ha hc, sigma_zz ho ha hc]
  ring

/-- **C20** (restricted) If the overlap matrix squares to the identity, `spin_2` is
`3/4 · s ⊗ 1`.  Missing: all other overlap matrices, for which the claim is false
(`C20_false`). -/
theorem C20_partial {b b' : BasisSet K} {l : ℕ} {a₀ a₁ b₀ b₁ : K} {r anti : Bool} {s : NDArray K}
    (hb : WellFormed b l) (hsp : b.includesSpin = false)
    (h : (changeToGeneralBase [a₀, a₁] [b₀, b₁] anti).run b = (.ok r, b'))
    (ho : OrthoSpin a₀ a₁ b₀ b₁) (hs : b.s = some s)
    (hss : ∀ p < l, ∀ q < l, mulAt l s s p q = kd p q) :
    ∃ s2, b'.spin2 = some s2 ∧ ∀ p < l, ∀ q < l, ∀ a < 2, ∀ c < 2,
      s2.get [2 * p + a, 2 * q + c] = 3 / 4 * s.get [p, q] * kd a c := by
  obtain ⟨s2, e, he⟩ := C20_actual hb hsp h ho hs
  refine ⟨s2, e, fun p hp q hq a ha c hc => ?_⟩
  rw [he p hp q hq a ha c hc]
  congr 2
  rw [sum_eq_single p]
  · rw [hss p hp p hp]; simp [kd]
  · intro t ht hne
    rw [hss p hp t (mem_range.1 ht)]; simp [kd, Ne.symm hne]
  · intro hn; exact absurd (mem_range.2 hp) hn

/-- A Hermitian invertible overlap matrix that is not the identity. -/
def sDiag : NDArray GaussQ := mat .float64 [[g 2 0, g 0 0], [g 0 0, g 1 0]]
/-- The demo basis set with that overlap. -/
def basisDiag : BasisSet GaussQ := { basis with s := some sDiag }

theorem basisDiag_wf : WellFormed basisDiag 2 :=
  { basis_wf with s := by rintro x ⟨⟩; rfl }

/-- **C20** The claim is false: with the Hermitian, invertible overlap `diag(2, 1)` the change to a
general orbital basis succeeds and `spin_2[0,0]` is not `3/4 · s[0,0]`. -/
theorem C20_false : ∃ (b b' : BasisSet GaussQ) (s si s2 : NDArray GaussQ),
    WellFormed b 2 ∧ b.s = some s ∧ HermMat 2 s ∧ (∀ p < 2, ∀ q < 2, mulAt 2 s si p q = kd p q) ∧
    (changeToGeneralBase [1, 0] [0, 1] false).run b = (.ok true, b') ∧ b'.spin2 = some s2 ∧
    s2.get [0, 0] ≠ 3 / 4 * s.get [0, 0] := by
  have ho : OrthoSpin (1 : GaussQ) 0 0 1 := by constructor <;> decide +kernel
  obtain ⟨b', h⟩ := C16_succeeds false basisDiag_wf rfl rfl ho
  obtain ⟨s2, e, he⟩ := C20_actual basisDiag_wf rfl h ho rfl
  refine ⟨basisDiag, b', sDiag, mat .float64 [[⟨1 / 2, 0⟩, g 0 0], [g 0 0, g 1 0]], s2,
    basisDiag_wf, rfl, by unfold HermMat; decide +kernel, by decide +kernel, h, e, ?_⟩
  have := he 0 (by decide) 0 (by decide) 0 (by decide) 0 (by decide)
  simp only [Nat.mul_zero, Nat.add_zero] at this
  rw [this]
  decide +kernel

/-- The hypothesis of `C20_partial` has a case other than the identity. -/
example : ∀ p < 2, ∀ q < 2, mulAt 2 (mat .float64 [[g 0 0, g 1 0], [g 1 0, g 0 0]])
    (mat .float64 [[g 0 0, g 1 0], [g 1 0, g 0 0]]) p q = kd p q := by decide +kernel

/-! ## C21 -/

/-- **C21** `⟨S²⟩` of the reference determinant of `n` electrons from the stored elements is `0` for
even and `3/4` for odd `n`, whether or not the elements are anti-symmetrised. -/
theorem C21_total_spin {b b' : BasisSet K} {l : ℕ} {a₀ a₁ b₀ b₁ : K} {r anti : Bool}
    {s : NDArray K} (hb : WellFormed b l) (hsp : b.includesSpin = false) (hna : b.antiSym = false)
    (h : (changeToGeneralBase [a₀, a₁] [b₀, b₁] anti).run b = (.ok r, b'))
    (ho : OrthoSpin a₀ a₁ b₀ b₁) (hs : b.s = some s)
    (hov : ∀ p < l, ∀ q < l, s.get [p, q] = kd p q) {n : ℕ} (hn : n ≤ b'.l) :
    ∃ s2 tb, b'.spin2 = some s2 ∧ b'.spin2tb = some tb ∧
      (if anti = true then refSpinSquaredAnti n s2 tb else refSpinSquared n s2 tb) =
        if n % 2 = 0 then 0 else 3 / 4 := by
  have hl : b'.l = 2 * l := (C16_general hb hsp h).2.1.size
  obtain ⟨x, y, z, s2, tb, hx, hy, hz, h2, htb, -, hs2, htbg⟩ :=
    C19_angular_momentum hb hsp h ho hs hov
  obtain ⟨ov, hs', rfl, rfl⟩ := changeToGeneralBase_inv hb hsp h
  obtain rfl : ov = s := by rw [hs] at hs'; exact (Option.some.inj hs').symm
  obtain ⟨ex, ey, ez, -⟩ := general_spin (b := b) (l := l) (ov := ov) a₀ a₁ b₀ b₁ anti
  rw [ex] at hx; rw [ey] at hy; rw [ez] at hz
  obtain rfl := (Option.some.inj hx).symm
  obtain rfl := (Option.some.inj hy).symm
  obtain rfl := (Option.some.inj hz).symm
  rw [hl] at hn
  refine ⟨s2, tb, h2, htb, ?_⟩
  have one : ∑ i ∈ range n, s2.get [i, i] = 3 / 4 * n := by
    rw [sum_congr rfl fun i hi => hs2.2 i (by have := mem_range.1 hi; omega) i
      (by have := mem_range.1 hi; omega)]
    simp [kd]; ring
  have two : ∑ i ∈ range n, ∑ j ∈ range n,
      (spinTensor (spinArr ov (pauliOf a₀ a₁ b₀ b₁ sigmaXMat) l).toComplex
        (spinArr ov (pauliOf a₀ a₁ b₀ b₁ sigmaYMat) l).toComplex
        (spinArr ov (pauliOf a₀ a₁ b₀ b₁ sigmaZMat) l).toComplex i j i j -
      spinTensor (spinArr ov (pauliOf a₀ a₁ b₀ b₁ sigmaXMat) l).toComplex
        (spinArr ov (pauliOf a₀ a₁ b₀ b₁ sigmaYMat) l).toComplex
        (spinArr ov (pauliOf a₀ a₁ b₀ b₁ sigmaZMat) l).toComplex i j j i) =
      -(3 * ((n / 2 : ℕ) : K)) / 2 := by
    have ex := spin_direct_exch (m := sigmaXMat) (.inl rfl) ho hov hn
    have ey := spin_direct_exch (m := sigmaYMat) (.inr (.inl rfl)) ho hov hn
    have ez := spin_direct_exch (m := sigmaZMat) (.inr (.inr rfl)) ho hov hn
    have : -(3 * ((n / 2 : ℕ) : K)) / 2 = -((n / 2 : ℕ) : K) / 2 + -((n / 2 : ℕ) : K) / 2 +
        -((n / 2 : ℕ) : K) / 2 := by ring
    rw [this]
    nth_rewrite 1 [← ex]
    nth_rewrite 1 [← ey]
    rw [← ez, ← sum_add_distrib, ← sum_add_distrib]
    refine sum_congr rfl fun i _ => ?_
    rw [← sum_add_distrib, ← sum_add_distrib]
    refine sum_congr rfl fun j _ => ?_
    simp only [spinTensor, toComplex_get]
    ring
  have tot : (3 / 4 * n + -(3 * ((n / 2 : ℕ) : K)) / 2 : K) = if n % 2 = 0 then 0 else 3 / 4 := by
    rcases Nat.even_or_odd' n with ⟨k, rfl | rfl⟩
    · rw [if_pos (by omega), show 2 * k / 2 = k by omega]; push_cast; ring
    · rw [if_neg (by omega), show (2 * k + 1) / 2 = k by omega]; push_cast; ring
  have hlt : ∀ i ∈ range n, i < 2 * l := fun i hi => lt_of_lt_of_le (mem_range.1 hi) hn
  cases anti with
  | false =>
    simp only [Bool.false_eq_true, if_false, refSpinSquared, one]
    rw [← tot, ← two]
    congr 1
    refine sum_congr rfl fun i hi => sum_congr rfl fun j hj => ?_
    rw [htbg.2 i (hlt i hi) j (hlt j hj) i (hlt i hi) j (hlt j hj),
      htbg.2 i (hlt i hi) j (hlt j hj) j (hlt j hj) i (hlt i hi), if_neg (by simp), if_neg (by simp)]
  | true =>
    simp only [if_true, refSpinSquaredAnti, one]
    rw [← tot, ← two]
    congr 1
    refine sum_congr rfl fun i hi => sum_congr rfl fun j hj => ?_
    rw [htbg.2 i (hlt i hi) j (hlt j hj) i (hlt i hi) j (hlt j hj), if_pos ⟨rfl, hna⟩]

example : ∃ b' s2 tb, (changeToGeneralBase [(⟨3 / 5, 0⟩ : GaussQ), ⟨0, 4 / 5⟩]
    [⟨4 / 5, 0⟩, ⟨0, -3 / 5⟩] false).run basis = (.ok true, b') ∧ b'.spin2 = some s2 ∧
    b'.spin2tb = some tb ∧ refSpinSquared 3 s2 tb = 3 / 4 := by
  obtain ⟨b', h⟩ := C16_succeeds false basis_wf rfl rfl ortho_345
  have hl := (C16_general basis_wf rfl h).2.1.size
  obtain ⟨s2, tb, h1, h2, h3⟩ := C21_total_spin basis_wf rfl rfl h ortho_345 rfl
    (by decide +kernel) (n := 3) (by rw [hl]; decide)
  exact ⟨b', s2, tb, h, h1, h2, by simpa using h3⟩

end QS.Props
