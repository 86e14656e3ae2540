import Verif.Lemmas.MemoryMethods

/-!
# The methods of a basis set on array objects simulate those on array values (continued)
-/

namespace QS

open PyM HBasis

variable {K : Type} [PyScalar K] {st : HState K} {i n : ℕ} {x : NDArray K}

theorem anyArray_view (ok : st.Ok) : st.view.anyArray = st.obj.anyArray := by
  have key : ∀ r ∈ st.obj.slots, (st.mem.val r).isSome = r.isSome := fun r hr => ok.isSome hr
  simp only [slots, List.forall_mem_cons] at key
  simp only [BasisSet.anyArray, HBasis.anyArray, HState.view, HBasis.view, key]

theorem realTyped_id (x : NDArray K) (h : RealTyped x) : RealTyped (id x) := h

theorem realTyped_toComplex (x : NDArray K) (_ : RealTyped x) : RealTyped x.toComplex :=
  fun h => absurd rfl h

theorem put_np_ok {np : Option Module} (ok : st.Ok) : (st.put fun o => { o with np := np }).Ok :=
  ⟨fun i hi => ok.bound i hi, fun y hy => ok.real y hy⟩

/-- What `change_module` leaves. -/
def ModuleOf (same : Bool) (np : Option Module) (st s : HState K) : Prop :=
  ∃ t b, BraOf st t b ∧
    (same = true → s.obj = { st.obj with np := np, braSpf := b }) ∧
    (same = false → RenewedAll st.mem.length { st.obj with np := np, braSpf := b } s.obj)

theorem sim_renewAll {f : NDArray K → NDArray K} (hf : ∀ x, RealTyped x → RealTyped (f x)) :
    Sim st (fun _ _ s => RenewedAll st.mem.length st.obj s.obj)
      (modify fun self => { self with
        h := self.h.map f
        s := self.s.map f
        u := self.u.map f
        spf := self.spf.map f
        braSpf := self.braSpf.map f
        dipole := self.dipole.map f
        spinX := self.spinX.map f
        spinY := self.spinY.map f
        spinZ := self.spinZ.map f
        spin2 := self.spin2.map f
        spin2tb := self.spin2tb.map f }) (renewAll f) := by
  intro ok
  obtain ⟨s, hr, hp, ok', hv, hn⟩ := renewAll_run ok f hf
  refine ⟨s, hp, ok', .inl ⟨(), (), ?_, hr, hn⟩⟩
  rw [hv]
  rfl

theorem sim_castToComplex :
    Sim st (fun _ _ s => ∃ t b, BraOf st t b ∧ RenewedAll st.mem.length t.obj s.obj)
      BasisSet.castToComplex HBasis.castToComplex := by
  unfold BasisSet.castToComplex HBasis.castToComplex
  refine sim_bind sim_getBra fun a b t hp ok ok' hb => ?_
  refine sim_get_l (sim_self ?_)
  rw [anyArray_view ok']
  have hnp : t.view.np = t.obj.np := rfl
  rw [hnp]
  have fin : Sim t (fun _ _ s => ∃ t b, BraOf st t b ∧ RenewedAll st.mem.length t.obj s.obj)
      (modify fun self => { self with
        h := self.h.map NDArray.toComplex
        s := self.s.map NDArray.toComplex
        u := self.u.map NDArray.toComplex
        spf := self.spf.map NDArray.toComplex
        braSpf := self.braSpf.map NDArray.toComplex
        dipole := self.dipole.map NDArray.toComplex
        spinX := self.spinX.map NDArray.toComplex
        spinY := self.spinY.map NDArray.toComplex
        spinZ := self.spinZ.map NDArray.toComplex
        spin2 := self.spin2.map NDArray.toComplex
        spin2tb := self.spin2tb.map NDArray.toComplex }) (renewAll NDArray.toComplex) := by
    refine sim_mono (sim_renewAll realTyped_toComplex) fun _ _ s _ _ _ h => ⟨t, b, hb.2, ?_⟩
    have hle := hp.length_le
    exact ⟨h.1.mono hle, h.2.mono hle, h.3.mono hle, h.4.mono hle, h.5.mono hle, h.6.mono hle,
      h.7.mono hle, h.8.mono hle, h.9.mono hle, h.10.mono hle, h.11.mono hle, h.12⟩
  split
  · exact sim_lift fun _ _ => fin
  · exact fin

theorem sim_changeModuleBase {same : Bool} {np : Option Module} :
    Sim st (fun _ _ s => ModuleOf same np st s)
      (BasisSet.changeModuleBase np) (HBasis.changeModuleBase same np) := by
  unfold BasisSet.changeModuleBase HBasis.changeModuleBase
  refine sim_assign_bind (fun _ => rfl) put_np_ok ?_
  refine sim_bind sim_getBra fun a b t hp ok ok' hb => ?_
  refine sim_get_l (sim_self ?_)
  rw [anyArray_view ok']
  have hnp : t.view.np = t.obj.np := rfl
  rw [hnp]
  obtain ⟨-, hb1, hb2, hb3⟩ := hb
  have B : BraOf st { t with obj := { st.obj with braSpf := b } } b := ⟨rfl, hb2, hb3⟩
  have ho : t.obj = { st.obj with np := np, braSpf := b } := hb1
  have fin : Sim t (fun _ _ s => ModuleOf same np st s) (pure ())
      (if (!same) = true then renewAll id else pure PUnit.unit) := by
    cases same with
    | true => exact sim_pure ⟨_, b, B, fun _ => ho, by rintro ⟨⟩⟩
    | false =>
      intro ok''
      obtain ⟨s, hr, hp', ok₃, hv, hn⟩ := renewAll_run ok'' id realTyped_id
      refine ⟨s, hp', ok₃, .inl ⟨(), (), ?_, hr, _, b, B, by rintro ⟨⟩, fun _ => ?_⟩⟩
      · rw [hv]
        simp only [Option.map_id, id_eq]
        rfl
      · rw [ho] at hn
        have hle : st.mem.length ≤ t.mem.length := hp.length_le
        exact ⟨hn.1.mono hle, hn.2.mono hle, hn.3.mono hle, hn.4.mono hle, hn.5.mono hle,
          hn.6.mono hle, hn.7.mono hle, hn.8.mono hle, hn.9.mono hle, hn.10.mono hle,
          hn.11.mono hle, hn.12⟩
  split
  · cases t.obj.np with
    | none => exact sim_raise
    | some _ => exact fin
  · exact fin

theorem uRepr_view : st.view.uRepr = uRepr st.mem st.obj := rfl

theorem sim_changeModule {same : Bool} {np : Option Module} :
    Sim st (fun _ _ s => ModuleOf same np st s ∨ (st.obj.cls = .sincDVR ∧ s.obj = { st.obj with np := np }))
      (BasisSet.changeModule np) (HBasis.changeModule same np) := by
  unfold BasisSet.changeModule HBasis.changeModule
  refine sim_get_l (sim_get_r ?_)
  rw [uRepr_view]
  have hc : st.view.cls = st.obj.cls := rfl
  rw [hc]
  split
  · rename_i h
    exact sim_assign (fun _ => rfl) put_np_ok (.inr ⟨h.1, rfl⟩)
  · exact sim_mono sim_changeModuleBase fun _ _ _ _ _ _ h => .inl h

end QS
