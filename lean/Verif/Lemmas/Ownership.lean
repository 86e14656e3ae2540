import Verif.Lemmas.TimeEvolution
import Verif.Spec.Independence

set_option linter.unusedSimpArgs false

/-! # What operations on a system can touch (helper file) -/

namespace QS

open Finset NDArray PyM

variable {K T : Type} [PyScalar K]

namespace World

/-- There are at least `Ns`, `Nb`, `No` objects, and system `s` owns basis set `b` and operators `A`. -/
structure Inv (Ns Nb No s b : ℕ) (A : ℕ → Prop) (w : World K T) : Prop where
  ls : Ns ≤ w.systems.length
  lb : Nb ≤ w.bases.length
  lo : No ≤ w.ops.length
  owns : Owns w s b A

/-- The first `Ns`, `Nb`, `No` objects are the same, except for those of system `s`. -/
structure Same (Ns Nb No s b : ℕ) (A : ℕ → Prop) (w w' : World K T) : Prop where
  sys : ∀ i < Ns, i ≠ s → w'.systems[i]? = w.systems[i]?
  bas : ∀ i < Nb, i ≠ b → w'.bases[i]? = w.bases[i]?
  ops : ∀ i < No, ¬ A i → w'.ops[i]? = w.ops[i]?

variable {Ns Nb No s b : ℕ} {A : ℕ → Prop} {w w' w'' : World K T}

theorem Same.refl (w : World K T) : Same Ns Nb No s b A w w :=
  ⟨fun _ _ _ => rfl, fun _ _ _ => rfl, fun _ _ _ => rfl⟩

theorem Same.trans (h : Same Ns Nb No s b A w w') (h' : Same Ns Nb No s b A w' w'') :
    Same Ns Nb No s b A w w'' :=
  ⟨fun i hi hn => (h'.sys i hi hn).trans (h.sys i hi hn),
   fun i hi hn => (h'.bas i hi hn).trans (h.bas i hi hn),
   fun i hi hn => (h'.ops i hi hn).trans (h.ops i hi hn)⟩

/-- A call only touches the objects of system `s` and new ones. -/
def Within {α : Type} (Ns Nb No s b : ℕ) (A : ℕ → Prop) (m : PyM (World K T) α) : Prop :=
  ∀ w, Inv Ns Nb No s b A w → Inv Ns Nb No s b A (m.run w).2 ∧ Same Ns Nb No s b A w (m.run w).2

section rules
variable {α β : Type}

theorem within_of_state {m : PyM (World K T) α} (h : ∀ w, (m.run w).2 = w) :
    Within Ns Nb No s b A m := fun w hw => by rw [h w]; exact ⟨hw, Same.refl w⟩

theorem within_pure (a : α) : Within Ns Nb No s b A (pure a : PyM (World K T) α) :=
  within_of_state fun _ => rfl
theorem within_raise (e : PyErr) : Within Ns Nb No s b A (raise e : PyM (World K T) α) :=
  within_of_state fun _ => rfl
theorem within_lift (x : Except PyErr α) : Within Ns Nb No s b A (liftM x : PyM (World K T) α) :=
  within_of_state fun _ => rfl
theorem within_assert (c : Bool) : Within Ns Nb No s b A (PyM.assert c : PyM (World K T) Unit) :=
  within_of_state fun _ => by rw [run_assert]
theorem within_getSys (i : ℕ) : Within Ns Nb No s b A (getSys i : PyM (World K T) Sys) :=
  within_of_state fun w => by
    simp only [getSys, PyM.run_bind, run_get]; rfl
theorem within_getBasis (i : ℕ) :
    Within Ns Nb No s b A (getBasis i : PyM (World K T) (BasisSet K)) :=
  within_of_state fun w => by
    simp only [getBasis, PyM.run_bind, run_get]; rfl
theorem within_getOp (i : ℕ) : Within Ns Nb No s b A (getOp i : PyM (World K T) (TEOp K T)) :=
  within_of_state fun w => by
    simp only [getOp, PyM.run_bind, run_get]; rfl

theorem within_bind {m : PyM (World K T) α} {f : α → PyM (World K T) β}
    (h : Within Ns Nb No s b A m) (hf : ∀ a, Within Ns Nb No s b A (f a)) :
    Within Ns Nb No s b A (m >>= f) := by
  intro w hw
  obtain ⟨h1, h2⟩ := h w hw
  rw [PyM.run_bind]
  rcases hr : m.run w with ⟨_ | a, w'⟩
  · rw [hr] at h1 h2; exact ⟨h1, h2⟩
  · rw [hr] at h1 h2
    obtain ⟨h3, h4⟩ := hf a w' h1
    exact ⟨h3, h2.trans h4⟩

theorem within_getSys_bind {f : Sys → PyM (World K T) β}
    (hf : ∀ x : Sys, x.basis = b → (∀ o, x.op = some o → A o) → Within Ns Nb No s b A (f x)) :
    Within Ns Nb No s b A (getSys s >>= f) := by
  intro w hw
  obtain ⟨x, hx, hb, ho⟩ := hw.owns.sys
  rw [run_bind_ok (getSys_run hx)]
  exact hf x hb ho w hw

theorem within_getOp_bind {f : TEOp K T → PyM (World K T) β} {o : ℕ} (hA : A o)
    (hf : ∀ y : TEOp K T, (∀ s', y.system = some s' → s' = s) → Within Ns Nb No s b A (f y)) :
    Within Ns Nb No s b A (getOp o >>= f) := by
  intro w hw
  obtain ⟨y, hy, hs⟩ := hw.owns.ops o hA
  rw [run_bind_ok (getOp_run hy)]
  exact hf y hs w hw

theorem within_setSys {x : Sys} (hb : x.basis = b) (ho : ∀ o, x.op = some o → A o) :
    Within Ns Nb No s b A (setSys s x : PyM (World K T) Unit) := by
  intro w hw
  rw [setSys_run]
  obtain ⟨z, hz, -, -⟩ := hw.owns.sys
  refine ⟨⟨by simpa using hw.ls, hw.lb, hw.lo, ⟨x, get_set hz x, hb, ho⟩, hw.owns.basis,
    hw.owns.ops⟩, ⟨fun i _ hn => get_set_ne hn _, fun _ _ _ => rfl, fun _ _ _ => rfl⟩⟩

theorem within_setSys_new {i : ℕ} {x : Sys} (hs : s < Ns) (h : Ns ≤ i) :
    Within Ns Nb No s b A (setSys i x : PyM (World K T) Unit) := by
  intro w hw
  rw [setSys_run]
  obtain ⟨z, hz, hb, ho⟩ := hw.owns.sys
  refine ⟨⟨by simpa using hw.ls, hw.lb, hw.lo, ⟨z, ?_, hb, ho⟩, hw.owns.basis,
    hw.owns.ops⟩, ⟨fun j hj _ => get_set_ne (by omega) _, fun _ _ _ => rfl, fun _ _ _ => rfl⟩⟩
  rw [get_set_ne (by omega), hz]

theorem within_setOp {o : ℕ} {y : TEOp K T} (hA : A o) (hs : ∀ s', y.system = some s' → s' = s) :
    Within Ns Nb No s b A (setOp o y) := by
  intro w hw
  rw [setOp_run]
  refine ⟨⟨hw.ls, hw.lb, by simpa using hw.lo, hw.owns.sys, hw.owns.basis, ?_⟩,
    ⟨fun _ _ _ => rfl, fun _ _ _ => rfl, fun i _ hn => get_set_ne (fun e : i = o => hn (e.symm ▸ hA)) _⟩⟩
  intro o' ho'
  obtain ⟨z, hz, hzs⟩ := hw.owns.ops o' ho'
  by_cases e : o' = o
  · subst e; exact ⟨y, get_set hz y, hs⟩
  · exact ⟨z, by show (w.ops.set o y)[o']? = _; rw [get_set_ne e, hz], hzs⟩

theorem within_setOp_new {o : ℕ} {y : TEOp K T} (hA : ∀ o, A o → o < No) (h : No ≤ o) :
    Within Ns Nb No s b A (setOp o y) := by
  intro w hw
  rw [setOp_run]
  refine ⟨⟨hw.ls, hw.lb, by simpa using hw.lo, hw.owns.sys, hw.owns.basis, ?_⟩,
    ⟨fun _ _ _ => rfl, fun _ _ _ => rfl, fun i hi _ => get_set_ne (by omega) _⟩⟩
  intro o' ho'
  obtain ⟨z, hz, hzs⟩ := hw.owns.ops o' ho'
  have := hA o' ho'
  exact ⟨z, by show (w.ops.set o y)[o']? = _; rw [get_set_ne (by omega), hz], hzs⟩

theorem within_onBasis (m : PyM (BasisSet K) α) :
    Within Ns Nb No s b A (onBasis b m : PyM (World K T) α) := by
  intro w hw
  obtain ⟨y, hy⟩ := hw.owns.basis
  rw [onBasis_run hy]
  exact ⟨⟨hw.ls, by simpa using hw.lb, hw.lo, hw.owns.sys, ⟨_, get_set hy _⟩, hw.owns.ops⟩,
    ⟨fun _ _ _ => rfl, fun i _ hn => get_set_ne hn _, fun _ _ _ => rfl⟩⟩

theorem within_onBasis_new {r : ℕ} (hb : b < Nb) (h : Nb ≤ r) (m : PyM (BasisSet K) α) :
    Within Ns Nb No s b A (onBasis r m : PyM (World K T) α) := by
  intro w hw
  rcases hr : w.bases[r]? with _ | y
  · simp only [PyM.run, onBasis, hr]
    exact ⟨hw, Same.refl w⟩
  · rw [onBasis_run hr]
    obtain ⟨z, hz⟩ := hw.owns.basis
    refine ⟨⟨hw.ls, by simpa using hw.lb, hw.lo, hw.owns.sys, ⟨z, ?_⟩, hw.owns.ops⟩,
      ⟨fun _ _ _ => rfl, fun i _ hn => get_set_ne (by omega) _, fun _ _ _ => rfl⟩⟩
    show (w.bases.set r _)[b]? = _
    rw [get_set_ne (by omega), hz]

/-- Adding objects at the end. -/
theorem within_grow {m : PyM (World K T) α}
    (h : ∀ w, ∃ bs ss os, (m.run w).2 =
      { bases := w.bases ++ bs, systems := w.systems ++ ss, ops := w.ops ++ os }) :
    Within Ns Nb No s b A m := by
  intro w hw
  obtain ⟨bs, ss, os, e⟩ := h w
  rw [e]
  refine ⟨⟨?_, ?_, ?_, ?_, ?_, ?_⟩, ⟨?_, ?_, ?_⟩⟩
  · have := hw.ls; simp; omega
  · have := hw.lb; simp; omega
  · have := hw.lo; simp; omega
  · obtain ⟨x, hx, h1, h2⟩ := hw.owns.sys
    exact ⟨x, get_append hx _, h1, h2⟩
  · obtain ⟨x, hx⟩ := hw.owns.basis
    exact ⟨x, get_append hx _⟩
  · intro o ho
    obtain ⟨y, hy, hs⟩ := hw.owns.ops o ho
    exact ⟨y, get_append hy _, hs⟩
  · intro i hi _
    exact List.getElem?_append_left (lt_of_lt_of_le hi hw.ls)
  · intro i hi _
    exact List.getElem?_append_left (lt_of_lt_of_le hi hw.lb)
  · intro i hi _
    exact List.getElem?_append_left (lt_of_lt_of_le hi hw.lo)

theorem within_newBasis_bind {c : BasisSet K} {f : ℕ → PyM (World K T) β}
    (hf : ∀ r, Nb ≤ r → Within Ns Nb No s b A (f r)) :
    Within Ns Nb No s b A (newBasis c >>= f) := by
  intro w hw
  have h1 : (newBasis c).run w = (.ok w.bases.length, { w with bases := w.bases ++ [c] }) := rfl
  obtain ⟨h2, h3⟩ := within_grow (m := newBasis c)
    (fun w => ⟨[c], [], [], by
      show ({ w with bases := w.bases ++ [c] } : World K T) = _
      simp⟩) w hw
  rw [h1] at h2 h3
  rw [run_bind_ok h1]
  obtain ⟨h4, h5⟩ := hf w.bases.length hw.lb _ h2
  exact ⟨h4, h3.trans h5⟩

theorem within_initSystem_bind {k : SysKind} {n r : ℕ} {f : ℕ → PyM (World K T) β}
    (hf : ∀ i, Ns ≤ i → Within Ns Nb No s b A (f i)) :
    Within Ns Nb No s b A (initSystem k n r >>= f) := by
  intro w hw
  rcases hr : w.bases[r]? with _ | y
  · have : (initSystem k n r).run w = (.error .name, w) := by
      simp [initSystem, getBasis, PyM.run_bind, hr, orErr]
    rw [run_bind_error this]
    exact ⟨hw, Same.refl w⟩
  · by_cases h : n ≤ y.l
    · have e := initSystem_run (w := w) (k := k) (n := n) hr
      rw [if_pos h] at e
      rw [run_bind_ok e]
      obtain ⟨h2, h3⟩ := within_grow (m := (modify fun w : World K T =>
          { w with systems := w.systems ++ [newSys k r n y.l y.np] }))
        (fun w => ⟨[], [newSys k r n y.l y.np], [], by simp⟩) w hw
      obtain ⟨h4, h5⟩ := hf w.systems.length hw.ls _ h2
      exact ⟨h4, h3.trans h5⟩
    · have e := initSystem_run (w := w) (k := k) (n := n) hr
      rw [if_neg h] at e
      rw [run_bind_error e]
      exact ⟨hw, Same.refl w⟩

end rules

/-! ### the operations -/

theorem within_setSystemSize (n l : ℕ) :
    Within Ns Nb No s b A (setSystemSize s n l : PyM (World K T) Unit) :=
  within_bind (within_assert _) fun _ => within_getSys_bind fun x hx ho => within_setSys hx ho

theorem within_changeModule (np : Option Module) :
    Within Ns Nb No s b A (World.changeModule s np : PyM (World K T) Unit) :=
  within_getSys_bind fun x hx ho => within_bind (within_setSys hx ho) fun _ => by
    rw [hx]; exact within_onBasis _

theorem within_changeBasis (C : NDArray K) (Ct : Option (NDArray K)) :
    Within Ns Nb No s b A (World.changeBasis s C Ct : PyM (World K T) Unit) :=
  within_getSys_bind fun x hx ho => within_bind (by rw [hx]; exact within_onBasis _) fun _ =>
    within_bind (within_getBasis _) fun _ => within_setSystemSize _ _

theorem within_density (rho : NDArray K) (C Ct : Option (NDArray K)) :
    Within Ns Nb No s b A (World.computeParticleDensity s rho C Ct : PyM (World K T) (NDArray K)) :=
  within_getSys_bind fun x hx ho => by rw [hx]; exact within_onBasis _

theorem within_h (i : ℕ) :
    Within Ns Nb No s b A (World.h i : PyM (World K T) (Option (NDArray K))) :=
  within_bind (within_getSys _) fun _ => within_bind (within_getBasis _) fun _ => within_pure _
theorem within_u (i : ℕ) :
    Within Ns Nb No s b A (World.u i : PyM (World K T) (Option (NDArray K))) :=
  within_bind (within_getSys _) fun _ => within_bind (within_getBasis _) fun _ => within_pure _
theorem within_dipole (i : ℕ) :
    Within Ns Nb No s b A (World.dipole i : PyM (World K T) (Option (NDArray K))) :=
  within_bind (within_getSys _) fun _ => within_bind (within_getBasis _) fun _ => within_pure _

theorem within_opHT {o : ℕ} (hA : A o) (t : T) :
    Within Ns Nb No s b A (opHT o t : PyM (World K T) (Option (NDArray K))) := by
  intro w hw
  obtain ⟨y, hy, hys⟩ := hw.owns.ops o hA
  rcases hs : y.system with _ | s'
  · rw [opHT_unbound hy hs]
    exact ⟨hw, Same.refl w⟩
  · obtain rfl := hys s' hs
    obtain ⟨x, hx, hb, -⟩ := hw.owns.sys
    obtain ⟨c, hc⟩ := hw.owns.basis
    rw [opHT_run hx (by rw [hb]; exact hc) hy hs]
    exact within_setOp hA (fun s'' h'' => by
      rw [evalHT_system] at h''; exact hys s'' h'') w hw

theorem within_opUT {o : ℕ} (t : T) :
    Within Ns Nb No s b A (opUT o t : PyM (World K T) (Option (NDArray K))) := by
  refine within_bind (within_getOp _) fun y => within_bind (within_lift _) fun s' => ?_
  split
  · exact within_bind (within_lift _) fun _ => within_bind (within_u _) fun _ =>
      within_bind (within_lift _) fun _ => within_bind (within_lift _) fun _ => within_pure _
  · exact within_u _

theorem within_hT (t : T) :
    Within Ns Nb No s b A (World.hT s t : PyM (World K T) (Option (NDArray K))) := by
  refine within_getSys_bind fun x hx ho => ?_
  split
  · exact within_h _
  · rename_i o e
    exact within_opHT (ho o e) t

theorem within_uT (t : T) :
    Within Ns Nb No s b A (World.uT s t : PyM (World K T) (Option (NDArray K))) := by
  refine within_getSys_bind fun x hx ho => ?_
  split
  · exact within_u _
  · exact within_opUT t

theorem within_setOperator {o : Option ℕ} (hA : ∀ o', o = some o' → A o') :
    Within Ns Nb No s b A (setTimeEvolutionOperator s o : PyM (World K T) Unit) := by
  refine within_getSys_bind fun x hx ho => within_bind (within_setSys hx hA) fun _ => ?_
  split
  · exact within_pure _
  · rename_i o
    exact within_getOp_bind (hA o rfl) fun y hy =>
      within_setOp (hA o rfl) (fun s' e => (Option.some.inj e).symm)

theorem within_referenceEnergy (i : ℕ) :
    Within Ns Nb No s b A (referenceEnergy i : PyM (World K T) (NDArray K)) := by
  refine within_bind (within_getSys _) fun x => within_bind (within_h _) fun _ =>
    within_bind (within_u _) fun _ => ?_
  split <;> exact within_lift _

theorem within_transformOneBody (i : ℕ) (x C : NDArray K) (Ct : Option (NDArray K)) :
    Within Ns Nb No s b A (World.transformOneBody i x C Ct : PyM (World K T) (NDArray K)) :=
  within_bind (within_getSys _) fun _ => within_lift _

theorem within_transformTwoBody (i : ℕ) (x C : NDArray K) (Ct : Option (NDArray K)) :
    Within Ns Nb No s b A (World.transformTwoBody i x C Ct : PyM (World K T) (NDArray K)) := by
  refine within_bind (within_getSys _) fun _ => within_bind (within_getBasis _) fun _ => ?_
  split <;> exact within_lift _

theorem within_basis (op : Op K) :
    Within Ns Nb No s b A (do
      let x ← World.getSys s
      World.onBasis x.basis op.run : PyM (World K T) Unit) :=
  within_getSys_bind fun x hx ho => by rw [hx]; exact within_onBasis _

theorem within_generalInit_bind {n r : ℕ} {a c : List K} {anti : Bool} {β : Type}
    {f : ℕ → PyM (World K T) β} (hb : b < Nb) (hr : Nb ≤ r)
    (hf : ∀ i, Ns ≤ i → Within Ns Nb No s b A (f i)) :
    Within Ns Nb No s b A (generalInit n r a c anti >>= f) := by
  unfold generalInit
  rw [bind_assoc]
  refine within_bind (within_getBasis _) fun x => ?_
  cases hx : x.includesSpin <;> cases anti <;>
    simp only [Bool.not_true, Bool.not_false, Bool.false_eq_true, if_true, if_false, bind_assoc,
      pure_bind]
  · exact within_bind (within_onBasis_new hb hr _) fun _ => within_initSystem_bind hf
  · exact within_bind (within_onBasis_new hb hr _) fun _ =>
      within_bind (within_onBasis_new hb hr _) fun _ => within_initSystem_bind hf
  · exact within_initSystem_bind hf
  · exact within_bind (within_onBasis_new hb hr _) fun _ => within_initSystem_bind hf

theorem rename_ge {base r : ℕ} {rs : List ℕ} (h : r ∈ rs) : base ≤ rename base rs r := by
  simp [rename, h]

theorem within_deepcopyOp_bind {o : ℕ} {β : Type} {f : ℕ → PyM (World K T) β}
    (hf : ∀ i, No ≤ i → Within Ns Nb No s b A (f i)) :
    Within Ns Nb No s b A (deepcopyOp o >>= f) := by
  intro w hw
  rcases hy : w.ops[o]? with _ | y
  · have e : (deepcopyOp o).run w = (.error .name, w) := by
      simp [deepcopyOp, PyM.run_bind, getOp, hy, orErr]
    rw [run_bind_error e]
    exact ⟨hw, Same.refl w⟩
  · obtain ⟨ss, hss⟩ : ∃ ss, ss = w.reachFromOp y := ⟨_, rfl⟩
    by_cases hm : w.holdsModule ss = true
    · have e : (deepcopyOp o).run w = (.error .type, w) := by
        simp only [deepcopyOp, PyM.run_bind, run_get, getOp_run hy]
        rw [← hss, if_pos hm]
        rfl
      rw [run_bind_error e]
      exact ⟨hw, Same.refl w⟩
    · have e : (deepcopyOp o).run w = (.ok (rename w.ops.length (o :: w.reachOps ss).dedup o),
          w.copyObjects ss (w.reachBases ss).dedup (o :: w.reachOps ss).dedup) := by
        simp only [deepcopyOp, PyM.run_bind, run_get, getOp_run hy]
        rw [← hss, if_neg hm]
        rfl
      rw [run_bind_ok e]
      obtain ⟨h2, h3⟩ := within_grow (m := (modify fun w : World K T =>
          w.copyObjects ss (w.reachBases ss).dedup (o :: w.reachOps ss).dedup))
        (fun w => ⟨_, _, _, rfl⟩) w hw
      have hmem : o ∈ (o :: w.reachOps ss).dedup := by simp
      obtain ⟨h4, h5⟩ := hf _ (le_trans hw.lo (rename_ge hmem)) _ h2
      exact ⟨h4, h3.trans h5⟩

theorem within_constructGeneral (hs : s < Ns) (hb : b < Nb) (hA : ∀ o, A o → o < No) (a c : List K)
    (anti : Bool) :
    Within Ns Nb No s b A (constructGeneral s a c anti : PyM (World K T) ℕ) := by
  refine within_getSys_bind fun x hx ho => within_bind (by rw [hx]; exact within_onBasis _)
    fun _ => within_newBasis_bind fun r hr => within_generalInit_bind hb hr fun i hi => ?_
  split
  · exact within_pure _
  · refine within_deepcopyOp_bind fun o' ho' => within_bind ?_ fun _ => within_pure _
    exact within_bind (within_getSys _) fun _ => within_bind (within_setSys_new hs hi) fun _ =>
      within_bind (within_getOp _) fun _ => within_setOp_new hA ho'

/-- Only the system itself is reachable from a system that owns its operator. -/
theorem reach_own {w : World K T} (h : Owns w s b A) : w.reach (w.systems.length + 1) s [] = [s] := by
  obtain ⟨x, hx, -, ho⟩ := h.sys
  obtain ⟨n, hn⟩ : ∃ n, w.systems.length = n + 1 :=
    ⟨w.systems.length - 1, by have := lt_of_get hx; omega⟩
  rw [hn]
  simp only [reach, List.not_mem_nil, if_false, hx, List.nil_append]
  rcases hop : x.op with _ | o
  · rfl
  · obtain ⟨y, hy, hys⟩ := h.ops o (ho o hop)
    simp only [hy, Option.bind_some]
    rcases hsy : y.system with _ | s'
    · rfl
    · obtain rfl := hys s' hsy
      simp

/-- The world after copying system `s`, the `x` of which has basis set `c`. -/
def copied (w : World K T) (s : ℕ) (x : Sys) (c : BasisSet K) : World K T :=
  { bases := w.bases ++ [c]
    systems := w.systems ++ [{ x with basis := w.bases.length, op := x.op.map fun _ => w.ops.length }]
    ops := w.ops ++ (match x.op.bind fun o => w.ops[o]? with
      | none => []
      | some y => [{ y with system := y.system.map fun _ => w.systems.length }]) }

theorem deepcopySystem_own {w : World K T} {x : Sys} {c : BasisSet K} (h : Owns w s b A)
    (hx : w.systems[s]? = some x) (hc : w.bases[b]? = some c) :
    (deepcopySystem s).run w = if w.holdsModule [s] then (.error .type, w)
      else (.ok w.systems.length, copied w s x c) := by
  simp only [deepcopySystem, PyM.run_bind, run_get, reach_own h]
  by_cases hm : w.holdsModule [s] = true
  · rw [if_pos hm, if_pos hm]; rfl
  · rw [if_neg hm, if_neg hm]
    simp only [PyM.run_bind, run_modify, run_pure]
    congr 1
    · simp [rename]
    · obtain ⟨x', hx', hb, ho⟩ := h.sys
      obtain rfl := Option.some.inj (hx'.symm.trans hx)
      unfold copyObjects copied reachBases reachOps
      simp only [List.filterMap_cons, List.filterMap_nil, hx, Option.map_some, Option.bind_some, hb,
        List.dedup_cons_of_notMem (List.not_mem_nil), List.dedup_nil, hc]
      rcases hop : x'.op with _ | o
      · simp [rename, hb]
      · obtain ⟨y, hy, hys⟩ := h.ops o (ho o hop)
        have hr : y.system.map (rename w.systems.length [s]) =
            y.system.map fun _ => w.systems.length := by
          rcases hsy : y.system with _ | s'
          · rfl
          · obtain rfl := hys s' hsy
            simp [rename]
        simp [rename, hb, hy, hr]

theorem within_copySystem (hs : s < Ns) (hb : b < Nb) :
    Within Ns Nb No s b A (copySystem s : PyM (World K T) ℕ) := by
  refine within_getSys_bind fun x hx ho => within_bind (within_setSys hx ho) fun _ =>
    within_bind (by rw [hx]; exact within_onBasis _) fun _ => ?_
  intro w hw
  obtain ⟨x', hx', hb', ho'⟩ := hw.owns.sys
  obtain ⟨c, hc⟩ := hw.owns.basis
  have e := deepcopySystem_own hw.owns hx' hc
  split_ifs at e with hm
  · rw [run_bind_error e]
    exact ⟨hw, Same.refl w⟩
  rw [run_bind_ok e]
  obtain ⟨h2, h3⟩ := within_grow (m := (modify fun w : World K T => copied w s x' c))
    (fun w => ⟨_, _, _, rfl⟩) w hw
  have h2 : Inv Ns Nb No s b A (copied w s x' c) := h2
  have h3 : Same Ns Nb No s b A w (copied w s x' c) := h3
  have hnew : (copied w s x' c).systems[w.systems.length]? =
      some { x' with basis := w.bases.length, op := x'.op.map fun _ => w.ops.length } := by
    simp [copied]
  rw [World.changeModule, bind_assoc, run_bind_ok (getSys_run hnew)]
  have key : Within Ns Nb No s b A (do
      setSys w.systems.length { x' with
        basis := w.bases.length, op := x'.op.map fun _ => w.ops.length, np := x.np }
      onBasis w.bases.length (BasisSet.changeModule x.np)
      World.changeModule s x.np
      let z ← getSys s
      PyM.assert (decide (z.np = x.np))
      let b ← getBasis z.basis
      PyM.assert (decide (b.np = x.np))
      (pure w.systems.length : PyM (World K T) ℕ)) :=
    within_bind (within_setSys_new hs hw.ls) fun _ =>
      within_bind (within_onBasis_new hb hw.lb _) fun _ =>
      within_bind (within_changeModule _) fun _ => within_bind (within_getSys _) fun _ =>
      within_bind (within_assert _) fun _ => within_bind (within_getBasis _) fun _ =>
      within_bind (within_assert _) fun _ => within_pure _
  rw [bind_assoc]
  obtain ⟨h4, h5⟩ := key _ h2
  exact ⟨h4, h3.trans h5⟩

/-- Every operation only touches the objects of the system it is called on and new ones. -/
theorem within_sop (op : SOp K T) (hs : s < Ns) (hb : b < Nb) (hA : ∀ o, A o → o < No)
    (hm : ∀ o, op.mentions o → A o) : Within Ns Nb No s b A (op.run s) := by
  have drop : ∀ {α : Type} {m : PyM (World K T) α}, Within Ns Nb No s b A m →
      Within Ns Nb No s b A (do let _ ← m; pure ()) := fun h =>
    within_bind h fun _ => within_pure _
  cases op with
  | setSystemSize n l => exact within_setSystemSize n l
  | changeModule np => exact within_changeModule np
  | changeBasis C Ct => exact within_changeBasis C Ct
  | density rho C Ct => exact drop (within_density rho C Ct)
  | setOperator o =>
    refine within_setOperator fun o' e => hm o' ?_
    subst e; rfl
  | hT t => exact drop (within_hT t)
  | uT t => exact drop (within_uT t)
  | opHT o t => exact drop (within_opHT (hm o rfl) t)
  | opUT o t => exact drop (within_opUT t)
  | transformOneBody x C Ct => exact drop (within_transformOneBody _ x C Ct)
  | transformTwoBody x C Ct => exact drop (within_transformTwoBody _ x C Ct)
  | referenceEnergy => exact drop (within_referenceEnergy _)
  | changeToHfBasis => exact within_raise _
  | basis op => exact within_basis op
  | copy => exact drop (within_copySystem hs hb)
  | toGeneral a c anti => exact drop (within_constructGeneral hs hb hA a c anti)

/-- The system, basis set and operators of a system. -/
structure SameObjects (s b : ℕ) (A : ℕ → Prop) (w w' : World K T) : Prop where
  sys : w'.systems[s]? = w.systems[s]?
  basis : w'.bases[b]? = w.bases[b]?
  ops : ∀ o, A o → w'.ops[o]? = w.ops[o]?

theorem Owns.of_same {w w' : World K T} (h : Owns w s b A) (e : SameObjects s b A w w') :
    Owns w' s b A :=
  ⟨by rw [e.sys]; exact h.sys, by rw [e.basis]; exact h.basis,
   fun o ho => by rw [e.ops o ho]; exact h.ops o ho⟩

end World

end QS
