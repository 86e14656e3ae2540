import Verif.Lemmas.MemoryCopy
import Verif.Lemmas.World
import Verif.Lemmas.General
import Verif.Spec.Demo

/-!
# Property C141: which arrays are shared

The methods of a basis set on array objects (`Verif/Model/Memory.lean`) against those on array
values (`Verif/Model/BasisSet.lean`).
-/

namespace QS.Props

open PyM HBasis

variable {K : Type} [PyScalar K]

/-! ## Histories -/

/-- What a program may do with a basis set and its arrays: make an array, write into an array it
has a reference to, or call a method of the basis set (the caller catches exceptions). -/
inductive Act (K : Type) [PyScalar K]
  | make (x : NDArray K)
  | poke (i : ℕ) (x : NDArray K)
  | setH (r : Option ℕ) | setU (r : Option ℕ) | setS (r : Option ℕ) | setDipole (r : Option ℕ)
  | setSpinX (r : Option ℕ) | setSpinY (r : Option ℕ) | setSpinZ (r : Option ℕ)
  | setSpin2 (r : Option ℕ) | setSpin2tb (r : Option ℕ)
  | setSpf (r : Option ℕ) | setBra (r : Option ℕ)
  | getBra
  | changeModule (same : Bool) (np : Option Module)
  | castToComplex
  | changeBasis (C : NDArray K) (Ct : Option (NDArray K))
  | antiSymmetrize
  | changeToGeneral (a b : List K) (anti : Bool)
  | copy (same : Bool)

/-- The program of an action. -/
def Act.prog : Act K → PyM (HState K) Unit
  | .make x => modify fun st => st.push x
  | .poke i x => modify (HBasis.poke i x)
  | .setH r => HBasis.setH r
  | .setU r => HBasis.setU r
  | .setS r => HBasis.setS r
  | .setDipole r => HBasis.setDipole r
  | .setSpinX r => HBasis.setSpinX r
  | .setSpinY r => HBasis.setSpinY r
  | .setSpinZ r => HBasis.setSpinZ r
  | .setSpin2 r => HBasis.setSpin2 r
  | .setSpin2tb r => HBasis.setSpin2tb r
  | .setSpf r => HBasis.setSpf r
  | .setBra r => HBasis.setBra r
  | .getBra => do let _ ← HBasis.getBra
  | .changeModule same np => HBasis.changeModule same np
  | .castToComplex => HBasis.castToComplex
  | .changeBasis C Ct => HBasis.changeBasis C Ct
  | .antiSymmetrize => HBasis.antiSymmetrizeTwoBody
  | .changeToGeneral a b anti => do let _ ← HBasis.changeToGeneralBase a b anti
  | .copy same => do let _ ← HBasis.copyBasis same

/-- The state an action leaves. -/
def Act.run (a : Act K) (st : HState K) : HState K := (a.prog.run st).2

/-- References are to arrays that exist; real dtypes hold real numbers. -/
def Act.Legal (st : HState K) : Act K → Prop
  | .make _ => True
  | .poke i x => i < st.mem.length ∧ RealTyped x
  | .setH r | .setU r | .setS r | .setDipole r | .setSpinX r | .setSpinY r | .setSpinZ r
  | .setSpin2 r | .setSpin2tb r | .setBra r => ∀ i, r = some i → i < st.mem.length
  | .setSpf r => ∀ i, r = some i → ∃ x, st.mem[i]? = some x ∧ RealTyped x
  | .changeBasis C _ => RealTyped C
  | _ => True

/-- The same call on array values. -/
def Act.value (m : Mem K) : Act K → PyM (BasisSet K) Unit
  | .make _ => pure ()
  | .poke _ _ => pure ()
  | .setH r => BasisSet.setH (m.val r)
  | .setU r => BasisSet.setU (m.val r)
  | .setS r => BasisSet.setS (m.val r)
  | .setDipole r => BasisSet.setDipole (m.val r)
  | .setSpinX r => BasisSet.setSpinX (m.val r)
  | .setSpinY r => BasisSet.setSpinY (m.val r)
  | .setSpinZ r => BasisSet.setSpinZ (m.val r)
  | .setSpin2 r => BasisSet.setSpin2 (m.val r)
  | .setSpin2tb r => BasisSet.setSpin2tb (m.val r)
  | .setSpf r => BasisSet.setSpf (m.val r)
  | .setBra r => BasisSet.setBra (m.val r)
  | .getBra => do let _ ← BasisSet.getBra
  | .changeModule _ np => BasisSet.changeModule np
  | .castToComplex => BasisSet.castToComplex
  | .changeBasis C Ct => BasisSet.changeBasis C Ct
  | .antiSymmetrize => BasisSet.antiSymmetrizeTwoBody
  | .changeToGeneral a b anti => do let _ ← BasisSet.changeToGeneralBase a b anti
  | .copy _ => do let _ ← BasisSet.copyBasis

/-- The array an action writes into, if it is a write of the caller. -/
def Act.target : Act K → Option ℕ
  | .poke i _ => some i
  | _ => none

theorem act_of_sim {st : HState K} {Φ : Unit → Unit → HState K → Prop}
    {p : PyM (BasisSet K) Unit} {q : PyM (HState K) Unit} (h : Sim st Φ p q) (ok : st.Ok) :
    (q.run st).2.Ok ∧ st.mem <+: (q.run st).2.mem ∧ (q.run st).2.view = (p.run st.view).2 ∧
      (q.run st).1 = (p.run st.view).1 := by
  obtain ⟨s, hp, oks, ⟨a, b, ra, rb, -⟩ | ⟨e, ra, rb⟩⟩ := h ok
  · rw [ra, rb]
    exact ⟨oks, hp, rfl, rfl⟩
  · rw [ra, rb]
    exact ⟨oks, hp, rfl, rfl⟩

theorem act_of_bind {α β : Type} {st : HState K} {Φ : α → β → HState K → Prop}
    {p : PyM (BasisSet K) α} {q : PyM (HState K) β} (h : Sim st Φ p q) (ok : st.Ok) :
    ((do let _ ← q : PyM (HState K) Unit).run st).2.Ok ∧
      st.mem <+: ((do let _ ← q : PyM (HState K) Unit).run st).2.mem ∧
      ((do let _ ← q : PyM (HState K) Unit).run st).2.view =
        ((do let _ ← p : PyM (BasisSet K) Unit).run st.view).2 ∧
      ((do let _ ← q : PyM (HState K) Unit).run st).1 =
        ((do let _ ← p : PyM (BasisSet K) Unit).run st.view).1 := by
  refine act_of_sim (Φ := fun _ _ _ => True) ?_ ok
  exact sim_bind h fun _ _ _ _ _ _ _ => sim_pure trivial

theorem val_cases {m : Mem K} {r : Option ℕ} (h : ∀ i, r = some i → i < m.length) :
    r = none ∨ ∃ i x, r = some i ∧ m.val (some i) = some x := by
  cases r with
  | none => exact .inl rfl
  | some i => exact .inr ⟨i, _, rfl, List.getElem?_eq_getElem (h i rfl)⟩

theorem act_sim {st : HState K} (ok : st.Ok) (a : Act K) (hl : a.Legal st) (hp : a.target = none) :
    (a.run st).Ok ∧ st.mem <+: (a.run st).mem ∧
      (a.run st).view = ((a.value st.mem).run st.view).2 ∧
      (a.prog.run st).1 = ((a.value st.mem).run st.view).1 := by
  cases a with
  | make x => exact ⟨ok.push x, List.prefix_append _ _, ok.view_push x, rfl⟩
  | poke i x => cases hp
  | setH r =>
    rcases val_cases hl with rfl | ⟨i, x, rfl, hx⟩
    · exact ⟨ok, List.prefix_rfl, rfl, rfl⟩
    · show _ ∧ _ ∧ _ = ((BasisSet.setH (st.mem.val (some i))).run st.view).2 ∧
        _ = ((BasisSet.setH (st.mem.val (some i))).run st.view).1
      rw [hx]
      exact act_of_sim (sim_setH hx) ok
  | setU r =>
    rcases val_cases hl with rfl | ⟨i, x, rfl, hx⟩
    · exact ⟨ok, List.prefix_rfl, rfl, rfl⟩
    · show _ ∧ _ ∧ _ = ((BasisSet.setU (st.mem.val (some i))).run st.view).2 ∧
        _ = ((BasisSet.setU (st.mem.val (some i))).run st.view).1
      rw [hx]
      exact act_of_sim (sim_setU hx) ok
  | setS r =>
    rcases val_cases hl with rfl | ⟨i, x, rfl, hx⟩
    · exact ⟨ok, List.prefix_rfl, rfl, rfl⟩
    · show _ ∧ _ ∧ _ = ((BasisSet.setS (st.mem.val (some i))).run st.view).2 ∧
        _ = ((BasisSet.setS (st.mem.val (some i))).run st.view).1
      rw [hx]
      exact act_of_sim (sim_setS hx) ok
  | setDipole r =>
    rcases val_cases hl with rfl | ⟨i, x, rfl, hx⟩
    · exact ⟨ok, List.prefix_rfl, rfl, rfl⟩
    · show _ ∧ _ ∧ _ = ((BasisSet.setDipole (st.mem.val (some i))).run st.view).2 ∧
        _ = ((BasisSet.setDipole (st.mem.val (some i))).run st.view).1
      rw [hx]
      exact act_of_sim (sim_setDipole hx) ok
  | setSpinX r =>
    rcases val_cases hl with rfl | ⟨i, x, rfl, hx⟩
    · refine act_of_sim (Φ := fun _ _ _ => True) ?_ ok
      exact sim_get_l (sim_self (sim_assert fun _ => sim_fetch sim_raise))
    · show _ ∧ _ ∧ _ = ((BasisSet.setSpinX (st.mem.val (some i))).run st.view).2 ∧
        _ = ((BasisSet.setSpinX (st.mem.val (some i))).run st.view).1
      rw [hx]
      exact act_of_sim (sim_setSpinX hx) ok
  | setSpinY r =>
    rcases val_cases hl with rfl | ⟨i, x, rfl, hx⟩
    · refine act_of_sim (Φ := fun _ _ _ => True) ?_ ok
      exact sim_get_l (sim_self (sim_assert fun _ => sim_fetch sim_raise))
    · show _ ∧ _ ∧ _ = ((BasisSet.setSpinY (st.mem.val (some i))).run st.view).2 ∧
        _ = ((BasisSet.setSpinY (st.mem.val (some i))).run st.view).1
      rw [hx]
      exact act_of_sim (sim_setSpinY hx) ok
  | setSpinZ r =>
    rcases val_cases hl with rfl | ⟨i, x, rfl, hx⟩
    · refine act_of_sim (Φ := fun _ _ _ => True) ?_ ok
      exact sim_get_l (sim_self (sim_assert fun _ => sim_fetch sim_raise))
    · show _ ∧ _ ∧ _ = ((BasisSet.setSpinZ (st.mem.val (some i))).run st.view).2 ∧
        _ = ((BasisSet.setSpinZ (st.mem.val (some i))).run st.view).1
      rw [hx]
      exact act_of_sim (sim_setSpinZ hx) ok
  | setSpin2 r =>
    rcases val_cases hl with rfl | ⟨i, x, rfl, hx⟩
    · refine act_of_sim (Φ := fun _ _ _ => True) ?_ ok
      exact sim_get_l (sim_self (sim_assert fun _ => sim_fetch sim_raise))
    · show _ ∧ _ ∧ _ = ((BasisSet.setSpin2 (st.mem.val (some i))).run st.view).2 ∧
        _ = ((BasisSet.setSpin2 (st.mem.val (some i))).run st.view).1
      rw [hx]
      exact act_of_sim (sim_setSpin2 hx) ok
  | setSpin2tb r =>
    rcases val_cases hl with rfl | ⟨i, x, rfl, hx⟩
    · refine act_of_sim (Φ := fun _ _ _ => True) ?_ ok
      exact sim_get_l (sim_self (sim_assert fun _ => sim_fetch sim_raise))
    · show _ ∧ _ ∧ _ = ((BasisSet.setSpin2tb (st.mem.val (some i))).run st.view).2 ∧
        _ = ((BasisSet.setSpin2tb (st.mem.val (some i))).run st.view).1
      rw [hx]
      exact act_of_sim (sim_setSpin2tb hx) ok
  | setSpf r =>
    cases r with
    | none =>
      refine ⟨⟨fun i hi => ok.bound i ?_, by rintro y ⟨⟩⟩, List.prefix_rfl, rfl, rfl⟩
      have key : ∀ t ∈ HBasis.slots { st.obj with spf := none }, t ∈ st.obj.slots ∨ t = none := by
        simp [HBasis.slots]
      rcases key _ hi with h | h
      · exact h
      · cases h
    | some i =>
      obtain ⟨x, hx, hr⟩ := hl i rfl
      have hx' : st.mem.val (some i) = some x := hx
      show _ ∧ _ ∧ _ = ((BasisSet.setSpf (st.mem.val (some i))).run st.view).2 ∧
        _ = ((BasisSet.setSpf (st.mem.val (some i))).run st.view).1
      rw [hx']
      exact act_of_sim (sim_setSpf hx' hr) ok
  | setBra r =>
    rcases val_cases hl with rfl | ⟨i, x, rfl, hx⟩
    · refine act_of_sim (Φ := fun _ _ _ => True) (p := BasisSet.setBra none) ?_ ok
      refine sim_get_l (sim_self (sim_fetch (sim_assign (fun _ => rfl)
        (put_ok (r := none) ?_ rfl (by rintro i ⟨⟩)) trivial)))
      simp [HBasis.slots]
    · show _ ∧ _ ∧ _ = ((BasisSet.setBra (st.mem.val (some i))).run st.view).2 ∧
        _ = ((BasisSet.setBra (st.mem.val (some i))).run st.view).1
      rw [hx]
      exact act_of_sim (sim_setBra hx) ok
  | getBra => exact act_of_bind sim_getBra ok
  | changeModule same np => exact act_of_sim sim_changeModule ok
  | castToComplex => exact act_of_sim sim_castToComplex ok
  | changeBasis C Ct => exact act_of_sim (sim_changeBasis hl Ct) ok
  | antiSymmetrize => exact act_of_sim sim_antiSymmetrizeTwoBody ok
  | changeToGeneral a b anti => exact act_of_bind sim_changeToGeneralBase ok
  | copy same => exact act_of_bind sim_copyBasis ok


/-- The state after a sequence of actions. -/
def runAll : List (Act K) → HState K → HState K
  | [], st => st
  | a :: as, st => runAll as (a.run st)

/-- Every action of the sequence is legal when its turn comes. -/
def LegalAll : HState K → List (Act K) → Prop
  | _, [] => True
  | st, a :: as => a.Legal st ∧ LegalAll (a.run st) as

theorem poke_ok {st : HState K} (ok : st.Ok) {i : ℕ} {x : NDArray K} (hr : RealTyped x) :
    (HBasis.poke i x st).Ok := by
  refine ⟨fun j hj => ?_, fun y hy => ?_⟩
  · show j < (st.mem.set i x).length
    rw [List.length_set]
    exact ok.bound j hj
  · have hy' : Mem.val (st.mem.set i x) st.obj.spf = some y := hy
    cases e : st.obj.spf with
    | none => rw [e] at hy'; cases hy'
    | some k =>
      rw [e] at hy'
      have hy₂ : (st.mem.set i x)[k]? = some y := hy'
      rw [List.getElem?_set] at hy₂
      split at hy₂
      · split at hy₂
        · cases hy₂
          exact hr
        · cases hy₂
      · exact ok.real y (by rw [e]; exact hy₂)

/-- **C141** One call of a method of a basis set returns or raises as the model with array values
says, what is seen of the object afterwards is what that model says, and no array object that existed
before has changed. -/
theorem C141_call {st : HState K} (ok : st.Ok) (a : Act K) (hl : a.Legal st)
    (hp : a.target = none) :
    (a.prog.run st).1 = ((a.value st.mem).run st.view).1 ∧
      (a.run st).view = ((a.value st.mem).run st.view).2 ∧
      ∀ i, i < st.mem.length → (a.run st).mem[i]? = st.mem[i]? := by
  obtain ⟨-, h, hv, hr⟩ := act_sim ok a hl hp
  refine ⟨hr, hv, fun i hi => ?_⟩
  obtain ⟨t, ht⟩ := h
  rw [← ht, List.getElem?_append_left hi]

/-- **C141** After any sequence of method calls, new arrays and writes by the caller, an array that
existed at the start has its old contents, unless the caller wrote into it. -/
theorem C141_history : ∀ (as : List (Act K)) {st : HState K}, st.Ok → LegalAll st as →
    (runAll as st).Ok ∧ st.mem.length ≤ (runAll as st).mem.length ∧
      ∀ i, i < st.mem.length → (∀ a ∈ as, a.target ≠ some i) →
        (runAll as st).mem[i]? = st.mem[i]? := by
  intro as
  induction as with
  | nil => exact fun ok _ => ⟨ok, le_rfl, fun _ _ _ => rfl⟩
  | cons a as ih =>
    intro st ok hl
    have step : (a.run st).Ok ∧ st.mem.length ≤ (a.run st).mem.length ∧
        ∀ i, i < st.mem.length → a.target ≠ some i → (a.run st).mem[i]? = st.mem[i]? := by
      by_cases hp : a.target = none
      · obtain ⟨h₁, h₂, -⟩ := act_sim ok a hl.1 hp
        exact ⟨h₁, h₂.length_le, fun i hi _ => (C141_call ok a hl.1 hp).2.2 i hi⟩
      · cases a with
        | poke j x =>
          refine ⟨poke_ok ok hl.1.2, ?_, fun i hi hne => ?_⟩
          · show _ ≤ (st.mem.set j x).length
            rw [List.length_set]
          · show (st.mem.set j x)[i]? = _
            rw [List.getElem?_set_ne]
            rintro rfl
            exact hne rfl
        | _ => exact absurd rfl hp
    obtain ⟨h₁, h₂, h₃⟩ := ih step.1 hl.2
    refine ⟨h₁, step.2.1.trans h₂, fun i hi hne => ?_⟩
    show (runAll as (a.run st)).mem[i]? = _
    rw [h₃ i (hi.trans_le step.2.1) fun b hb => hne b (List.mem_cons_of_mem _ hb),
      step.2.2 i hi (hne a (List.mem_cons_self ..))]

/-! ## What is new and what is shared -/

theorem val_poke {st : HState K} {r : Option ℕ} {i : ℕ} {x : NDArray K} (h : r ≠ some i) :
    (HBasis.poke i x st).mem.val r = st.mem.val r := by
  cases r with
  | none => rfl
  | some j =>
    show (st.mem.set i x)[j]? = st.mem[j]?
    rw [List.getElem?_set_ne]
    rintro rfl
    exact h rfl

theorem val_poke_self {st : HState K} {i : ℕ} {x : NDArray K} (h : i < st.mem.length) :
    (HBasis.poke i x st).mem.val (some i) = some x := by
  show (st.mem.set i x)[i]? = _
  rw [List.getElem?_set_self h]

/-- **C141** After `change_basis` has returned, the arrays that were there before are no longer
those of the basis: whatever is written into one of them, `h`, `u`, `s`, the dipole moments, the
single-particle functions, their duals and the two-body part of S² stay as they are. -/
theorem C141_change_basis {st t : HState K} {C : NDArray K} {Ct : Option (NDArray K)}
    (ok : st.Ok) (hC : RealTyped C) (run : (HBasis.changeBasis C Ct).run st = (.ok (), t))
    {i : ℕ} (hi : i < st.mem.length) (x : NDArray K) :
    let t' := HBasis.poke i x t
    t'.view.h = t.view.h ∧ t'.view.u = t.view.u ∧ t'.view.s = t.view.s ∧
      t'.view.dipole = t.view.dipole ∧ t'.view.spf = t.view.spf ∧
      (st.obj.spf.isSome → t'.view.braSpf = t.view.braSpf) ∧
      t'.view.spin2tb = t.view.spin2tb := by
  obtain ⟨s, -, -, ⟨_, _, -, rb, l, -, c⟩ | ⟨e, -, rb⟩⟩ := sim_changeBasis hC Ct ok
  · have rb' := rb.symm.trans run
    cases rb'
    have ne : ∀ {r r' : Option ℕ}, Renewed st.mem.length r r' → r' ≠ some i := fun h hr => by
      have := h.2 i hr
      omega
    have ne' : ∀ {r : Option ℕ}, (∃ k, r = some k ∧ st.mem.length ≤ k) → r ≠ some i := by
      rintro r ⟨k, rfl, hk⟩ h
      cases h
      omega
    exact ⟨val_poke (ne' c.h), val_poke (ne' c.u), val_poke (ne c.s), val_poke (ne c.dipole),
      val_poke (ne c.spf), fun h => val_poke (ne' (c.braSpf h)), val_poke (ne c.spin2tb)⟩
  · cases rb.symm.trans run

/-- **C141** … but the spin matrices and the grid are still the same array objects: a write into
one of them is seen by the basis. -/
theorem C141_change_basis_keeps {st t : HState K} {C : NDArray K} {Ct : Option (NDArray K)}
    (ok : st.Ok) (hC : RealTyped C) (run : (HBasis.changeBasis C Ct).run st = (.ok (), t)) :
    t.obj.spinX = st.obj.spinX ∧ t.obj.spinY = st.obj.spinY ∧ t.obj.spinZ = st.obj.spinZ ∧
      t.obj.spin2 = st.obj.spin2 ∧ t.obj.sigmaX = st.obj.sigmaX ∧ t.obj.sigmaY = st.obj.sigmaY ∧
      t.obj.sigmaZ = st.obj.sigmaZ ∧ t.obj.grid = st.obj.grid := by
  obtain ⟨s, -, -, ⟨_, _, -, rb, l, -, c⟩ | ⟨e, -, rb⟩⟩ := sim_changeBasis hC Ct ok
  · have rb' := rb.symm.trans run
    cases rb'
    rw [c.rest]
    exact ⟨rfl, rfl, rfl, rfl, rfl, rfl, rfl, rfl⟩
  · cases rb.symm.trans run

/-- **C141** After the spin doubling has been carried out, all eleven arrays (elements, overlap,
dipole moments, single-particle functions and duals, spin operators) are new objects. -/
theorem C141_general {st t : HState K} {a b : List K} {anti : Bool} (ok : st.Ok)
    (run : (HBasis.changeToGeneralBase a b anti).run st = (.ok true, t))
    {i : ℕ} (hi : i < st.mem.length) (x : NDArray K) :
    let t' := HBasis.poke i x t
    t'.view.h = t.view.h ∧ t'.view.s = t.view.s ∧ t'.view.u = t.view.u ∧
      t'.view.spf = t.view.spf ∧ t'.view.braSpf = t.view.braSpf ∧
      t'.view.dipole = t.view.dipole ∧ t'.view.spinX = t.view.spinX ∧
      t'.view.spinY = t.view.spinY ∧ t'.view.spinZ = t.view.spinZ ∧
      t'.view.spin2 = t.view.spin2 ∧ t'.view.spin2tb = t.view.spin2tb := by
  obtain ⟨s, -, -, ⟨r, r', -, rb, e, -, c⟩ | ⟨e, -, rb⟩⟩ :=
    sim_changeToGeneralBase (a := a) (b := b) (anti := anti) ok
  · have rb' := rb.symm.trans run
    cases rb'
    have key : ∀ r ∈ t.obj.eleven, (HBasis.poke i x t).mem.val r = t.mem.val r := by
      intro r hr
      refine val_poke ?_
      rintro rfl
      have := c e i hr
      omega
    simp only [HBasis.eleven, List.forall_mem_cons] at key
    obtain ⟨k1, k2, k3, k4, k5, k6, k7, k8, k9, k10, k11, -⟩ := key
    exact ⟨k1, k2, k3, k4, k5, k6, k7, k8, k9, k10, k11⟩
  · cases rb.symm.trans run

/-- **C141** A basis set that includes spin already is not touched at all. -/
theorem C141_general_twice {st t : HState K} {a b : List K} {anti : Bool} (ok : st.Ok)
    (run : (HBasis.changeToGeneralBase a b anti).run st = (.ok false, t)) :
    st.obj.includesSpin = true ∧ t = st := by
  obtain ⟨s, -, -, ⟨r, r', -, rb, e, c, -⟩ | ⟨e, -, rb⟩⟩ :=
    sim_changeToGeneralBase (a := a) (b := b) (anti := anti) ok
  · have rb' := rb.symm.trans run
    cases rb'
    exact c e
  · cases rb.symm.trans run

/-- **C141** `copy_basis` returns an object that shows the same values, and shares no array with
the original or with anything else that existed: no write into an array of the copy is seen in the
original (nor in an array the caller holds), and no write into any other array is seen in the
copy. -/
theorem C141_copy {st t : HState K} {same : Bool} {c : HBasis K} (ok : st.Ok)
    (run : (HBasis.copyBasis same).run st = (.ok c, t)) :
    (∃ b, BasisSet.copyBasis.run st.view = (.ok b, t.view) ∧ c.view t.mem = b) ∧
      (∀ i x, some i ∈ c.slots → (HBasis.poke i x t).view = t.view ∧
        ∀ j, j < st.mem.length → (HBasis.poke i x t).mem[j]? = st.mem[j]?) ∧
      ∀ i x, some i ∉ c.slots → c.view (HBasis.poke i x t).mem = c.view t.mem := by
  obtain ⟨s, hp, -, ⟨b, c', ra, rb, hv, hc⟩ | ⟨e, -, rb⟩⟩ := sim_copyBasis (same := same) ok
  · have rb' := rb.symm.trans run
    cases rb'
    have pv : ∀ (o : HBasis K) (i : ℕ) (x : NDArray K), some i ∉ o.slots →
        o.view (HBasis.poke i x t).mem = o.view t.mem := by
      intro o i x h
      have key : ∀ r ∈ o.slots, (HBasis.poke i x t).mem.val r = t.mem.val r := fun r hr =>
        val_poke (by rintro rfl; exact h hr)
      simp only [HBasis.slots, List.forall_mem_cons] at key
      simp only [HBasis.view, key]
    refine ⟨⟨b, ra, hv.symm⟩, fun i x hi => ⟨?_, fun j hj => ?_⟩, fun i x hi => pv _ i x hi⟩
    · refine pv t.obj i x fun h => ?_
      exact hc.own i h hi
    · have hne : i ≠ j := by
        have := (hc.fresh i hi).1
        omega
      show (t.mem.set i x)[j]? = _
      rw [List.getElem?_set_ne hne]
      obtain ⟨ext, he⟩ := hp
      rw [← he, List.getElem?_append_left hj]
  · cases rb.symm.trans run

/-- **C141** The setter keeps the caller's array: what the caller writes into it later is what the
basis shows (and is not checked again). -/
theorem C141_setter {st t : HState K} {i : ℕ} (hi : i < st.mem.length)
    (run : (HBasis.setH (some i)).run st = (.ok (), t)) (x : NDArray K) :
    t.mem = st.mem ∧ t.obj.h = some i ∧ (HBasis.poke i x t).view.h = some x := by
  have hx : st.mem.val (some i) = some st.mem[i] := List.getElem?_eq_getElem hi
  have key : (HBasis.setH (some i)).run st =
      (if BasisSet.axesOk st.mem[i] st.obj.l then (.ok (), st.put fun o => { o with h := some i })
        else (.error .assertion, st)) := by
    unfold HBasis.setH
    refine run_self_bind.trans ?_
    show ((liftM (orErr .attribute (st.mem.val (some i))) : PyM (HState K) _) >>= _).run st = _
    rw [hx]
    show (PyM.assert _ >>= _).run st = _
    cases BasisSet.axesOk st.mem[i] st.obj.l <;> rfl
  rw [key] at run
  split at run
  · cases run
    exact ⟨rfl, rfl, val_poke_self hi⟩
  · cases run

/-- **C141** `change_module` to the module the arrays belong to keeps every array that is there. -/
theorem C141_same_module {st t : HState K} {np : Option Module} (ok : st.Ok)
    (run : (HBasis.changeModule true np).run st = (.ok (), t)) :
    t.obj = { st.obj with np := np, braSpf := t.obj.braSpf } ∧
      (st.obj.braSpf.isSome → t.obj.braSpf = st.obj.braSpf) := by
  obtain ⟨s, -, -, ⟨_, _, -, rb, h⟩ | ⟨e, -, rb⟩⟩ := sim_changeModule (same := true) (np := np) ok
  · have rb' := rb.symm.trans run
    cases rb'
    rcases h with ⟨s, b, ⟨-, hb, -⟩, h₁, -⟩ | ⟨-, h⟩
    · have := h₁ rfl
      rw [this]
      exact ⟨rfl, hb⟩
    · rw [h]
      exact ⟨rfl, fun _ => rfl⟩
  · cases rb.symm.trans run

/-- **C141** The dual functions of real single-particle functions are the same array: a write into
`spf` changes `bra_spf` too.  For complex ones the dual is an array of its own. -/
theorem C141_bra {st t : HState K} {r : Option ℕ} {i : ℕ} {x : NDArray K} (ok : st.Ok)
    (hb : st.obj.braSpf = none) (hs : st.obj.spf = some i) (hx : st.mem[i]? = some x)
    (run : HBasis.getBra.run st = (.ok r, t)) :
    (x.dtype ≠ .complex128 → r = some i ∧ t.mem = st.mem ∧
      ∀ y, (HBasis.poke i y t).view.spf = some y ∧ (HBasis.poke i y t).view.braSpf = some y) ∧
    (x.dtype = .complex128 → ∀ y, (HBasis.poke i y t).view.spf = some y ∧
      (HBasis.poke i y t).view.braSpf = some x.conj) := by
  have hx' : st.mem.val (some i) = some x := hx
  have hi : i < st.mem.length := val_lt hx'
  have key : HBasis.getBra.run st =
      (conjRef i x >>= fun c => assign (fun self => { self with braSpf := some c }) >>=
        fun _ => (pure (some c) : PyM (HState K) (Option ℕ))).run st := by
    unfold HBasis.getBra
    refine run_self_bind.trans ?_
    show (match st.obj.braSpf, st.obj.spf, st.mem.val st.obj.spf with
      | none, some r, some x => conjRef r x >>= fun c =>
          assign (fun self => { self with braSpf := some c }) >>= fun _ => pure (some c)
      | bra, _, _ => (pure bra : PyM (HState K) (Option ℕ))).run st = _
    rw [hb, hs, hx']
  rw [key] at run
  unfold conjRef at run
  constructor
  · intro hd
    rw [if_neg hd] at run
    cases run
    refine ⟨rfl, rfl, fun y => ⟨?_, val_poke_self hi⟩⟩
    show (HBasis.poke i y st).mem.val st.obj.spf = some y
    rw [hs]
    exact val_poke_self hi
  · intro hd y
    rw [if_pos hd] at run
    cases run
    have hl : i < (st.push x.conj).mem.length := by
      simp only [HState.push, List.length_append]
      omega
    refine ⟨?_, ?_⟩
    · show (HBasis.poke i y (st.push x.conj)).mem.val st.obj.spf = some y
      rw [hs]
      exact val_poke_self hl
    · show (HBasis.poke i y (st.push x.conj)).mem.val (some st.mem.length) = _
      rw [val_poke (by simp; omega)]
      exact Mem.val_push _ _

/-- **C141** The anti-symmetrised elements are a new array (in `ODSincDVR` see
`C141_antisymmetrise_sinc`). -/
theorem C141_antisymmetrise {st t : HState K} (ok : st.Ok) (ha : st.obj.antiSym = false)
    (hc : st.obj.cls = .plain) (run : HBasis.antiSymmetrizeTwoBody.run st = (.ok (), t))
    {i : ℕ} (hi : i < st.mem.length) (x : NDArray K) :
    (HBasis.poke i x t).view.u = t.view.u ∧
      (HBasis.poke i x t).view.spin2tb = t.view.spin2tb := by
  obtain ⟨s, -, -, ⟨_, _, -, rb, h⟩ | ⟨e, -, rb⟩⟩ := sim_antiSymmetrizeTwoBody ok
  · have rb' := rb.symm.trans run
    cases rb'
    obtain ⟨k, hk, hle⟩ := h.u ha hc
    refine ⟨val_poke ?_, val_poke fun hr => ?_⟩
    · show t.obj.u ≠ some i
      rw [hk]
      rintro ⟨⟩
      omega
    · have := (h.spin2tb ha hc).2 i hr
      omega
  · cases rb.symm.trans run

/-- **C141** `ODSincDVR` with two-dimensional `u`: "anti-symmetrisation" hands out the same array
object again. -/
theorem C141_antisymmetrise_sinc {st : HState K} {i : ℕ} {x : NDArray K}
    (hc : st.obj.cls = .sincDVR) (hx : st.mem[i]? = some x) (hd : x.ndim = 2) :
    (HBasis.antiSymmetrizeU (some i)).run st = (.ok (some i), st) := by
  have hx' : st.mem.val (some i) = some x := hx
  unfold HBasis.antiSymmetrizeU
  refine run_self_bind.trans ?_
  show ((liftM (BasisSet.antiSymmetrizeU st.obj.cls (st.mem.val (some i))) :
    PyM (HState K) (NDArray K)) >>= _).run st = _
  rw [hc, hx']
  have : BasisSet.antiSymmetrizeU Cls.sincDVR (some x) =
      if x.ndim = 2 then .ok x else BasisSet.antiSymmetrizeUBase (some x) := rfl
  rw [this, if_pos hd]
  show ((if x.ndim = 2 then pure (some i) else new x >>= fun c => pure (some c) :
    PyM (HState K) (Option ℕ))).run st = _
  rw [if_pos hd]
  rfl

/-! ## A concrete case -/

/-- The arrays of `Demo.basis` as objects, and one array of the caller. -/
def demoState : HState GaussQ where
  mem := [Demo.h, Demo.u, Demo.s, Demo.dip, Demo.spf, Demo.C22]
  obj := { cls := .plain, np := some 0, l := 2, dim := 1, grid := none, h := some 0, u := some 1,
           s := some 2, dipole := some 3, sigmaX := none, sigmaY := none, sigmaZ := none,
           spinX := none, spinY := none, spinZ := none, spin2 := none, spin2tb := none,
           spf := some 4, braSpf := none, nre := 0, includesSpin := false, antiSym := false,
           a := none, b := none, extraModule := false }

theorem demoState_ok : demoState.Ok where
  bound i hi := by
    simp [demoState, HBasis.slots] at hi
    show i < 6
    omega
  real x hx := by
    have : x = Demo.spf := by
      have h : some Demo.spf = some x := hx
      exact (Option.some.inj h).symm
    rw [this]
    exact fun h => absurd rfl h

theorem demoState_view : demoState.view = Demo.basis := rfl

/-- A call on array values that returns is one on array objects that returns. -/
theorem run_of_view {α β : Type} {st : HState K} {Φ : α → β → HState K → Prop}
    {p : PyM (BasisSet K) α} {q : PyM (HState K) β} {a : α} {v : BasisSet K}
    (h : Sim st Φ p q) (ok : st.Ok) (e : p.run st.view = (.ok a, v)) :
    ∃ b t, q.run st = (.ok b, t) ∧ Φ a b t := by
  obtain ⟨t, -, -, ⟨a', b, ra, rb, hΦ⟩ | ⟨_, ra, -⟩⟩ := h ok
  · cases e.symm.trans ra
    exact ⟨b, t, rb, hΦ⟩
  · cases e.symm.trans ra

/-- `change_basis` of the example returns; overwriting the old `h` (the caller may still have it)
is not seen in the basis. -/
example : ∃ t, (HBasis.changeBasis Demo.C22 (some Demo.C22inv)).run demoState = (.ok (), t) ∧
    ∀ x, (HBasis.poke 0 x t).view.h = t.view.h := by
  obtain ⟨_, t, run, -⟩ := run_of_view (sim_changeBasis (st := demoState) (C := Demo.C22)
    (fun h => absurd rfl h) (some Demo.C22inv)) demoState_ok
    (BasisSet.changeBasis_run Demo.basis_wf (Demo.basis_noSpin.spinShaped 2) rfl rfl)
  exact ⟨t, run, fun x =>
    (C141_change_basis demoState_ok (fun h => absurd rfl h) run (i := 0) (by decide) x).1⟩

/-- The spin doubling of the example returns, and the old `u` is no longer that of the basis. -/
example : ∃ t, (HBasis.changeToGeneralBase [1, 0] [0, 1] true).run demoState = (.ok true, t) ∧
    ∀ x, (HBasis.poke 1 x t).view.u = t.view.u := by
  obtain ⟨r, t, run, e, -⟩ := run_of_view (sim_changeToGeneralBase (st := demoState)
    (a := [1, 0]) (b := [0, 1]) (anti := true)) demoState_ok
    (BasisSet.changeToGeneralBase_run Demo.basis_wf rfl rfl (by decide +kernel)
      (by decide +kernel) (by decide +kernel))
  subst e
  exact ⟨t, run, fun x => (C141_general demoState_ok run (i := 1) (by decide) x).2.2.1⟩

/-- The copy of the example returns, and a write into one of its arrays is not seen in the
original. -/
example : ∃ c t, (HBasis.copyBasis true).run demoState = (.ok c, t) ∧
    ∀ i x, some i ∈ c.slots → (HBasis.poke i x t).view = t.view := by
  obtain ⟨c, t, run, -⟩ := run_of_view (sim_copyBasis (st := demoState) (same := true)) demoState_ok
    (copyBasis_run Demo.basis_wf rfl)
  exact ⟨c, t, run, fun i x hi => ((C141_copy demoState_ok run).2.1 i x hi).1⟩

/-- `basis.h = a` for an array `a` of the caller, who then writes into `a`. -/
example : ((HBasis.setH (some 5)).run demoState).1 = .ok () ∧
    (HBasis.poke 5 Demo.s ((HBasis.setH (some 5)).run demoState).2).view.h = some Demo.s :=
  ⟨rfl, rfl⟩

/-- The same with a matrix of real functions: `bra_spf` is `spf`. -/
def realState : HState GaussQ :=
  { demoState with
    mem := demoState.mem ++ [Demo.s]
    obj := { demoState.obj with spf := some 6 } }

example : (HBasis.getBra.run realState).1 = .ok (some 6) ∧
    (HBasis.poke 6 Demo.h (HBasis.getBra.run realState).2).view.braSpf = some Demo.h :=
  ⟨rfl, rfl⟩

/-- … and complex functions: a new array. -/
example : (HBasis.getBra.run demoState).1 = .ok (some 6) ∧
    (HBasis.poke 4 Demo.s (HBasis.getBra.run demoState).2).view.spf = some Demo.s ∧
    (HBasis.poke 4 Demo.s (HBasis.getBra.run demoState).2).view.braSpf = some Demo.spf.conj :=
  ⟨rfl, rfl, rfl⟩

/-- The caller's array (number 5) after a history that does not write into it. -/
def demoActs : List (Act GaussQ) :=
  [.poke 0 Demo.C22inv, .setH (some 5), .changeBasis Demo.C22 none,
    .changeToGeneral [1, 0] [0, 1] true, .copy true]

example : (runAll demoActs demoState).mem[5]? = some Demo.C22 :=
  (C141_history demoActs demoState_ok
    ⟨⟨by decide, fun h => absurd rfl h⟩, by rintro i ⟨⟩; decide, fun h => absurd rfl h, trivial,
      trivial, trivial⟩).2.2 5 (by decide) (by simp [demoActs, Act.target])

end QS.Props
