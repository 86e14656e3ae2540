import Verif.Lemmas.MemorySetters

/-!
# The methods of a basis set on array objects simulate those on array values (continued)
-/

namespace QS

open PyM HBasis

variable {K : Type} [PyScalar K] {st : HState K} {i n : ℕ} {x : NDArray K}

/-- The attribute `r'` is `None` if `r` was, and otherwise an array object with a number of at
least `n`. -/
def Renewed (n : ℕ) (r r' : Option ℕ) : Prop := r'.isSome = r.isSome ∧ ∀ i, r' = some i → n ≤ i

theorem Renewed.mono {n m : ℕ} (h : n ≤ m) {r r' : Option ℕ} (hr : Renewed m r r') :
    Renewed n r r' := ⟨hr.1, fun i hi => h.trans (hr.2 i hi)⟩

/-! ## `bra_spf` -/

theorem put_view_bra {c : ℕ} (hc : st.mem.val (some c) = some x) :
    (st.put fun o => { o with braSpf := some c }).view = { st.view with braSpf := some x } := by
  simp [HState.view, HState.put, HBasis.view, hc]

theorem put_ok_bra {c : ℕ} (hc : st.mem.val (some c) = some x) (ok : st.Ok) :
    (st.put fun o => { o with braSpf := some c }).Ok := by
  refine put_ok (r := some c) ?_ rfl ?_ ok
  · simp [slots, HState.put]
  · rintro j ⟨⟩
    exact val_lt hc

/-- What the getter of `bra_spf` leaves: only this attribute may change, and it becomes the array
of `spf` or a new one. -/
def BraOf (st s : HState K) (b : Option ℕ) : Prop :=
  s.obj = { st.obj with braSpf := b } ∧
    (st.obj.braSpf.isSome → b = st.obj.braSpf) ∧
    (st.obj.braSpf = none → b = st.obj.spf ∨
      Renewed st.mem.length st.obj.spf b)

theorem sim_getBra :
    Sim st (fun a b s => a = s.mem.val b ∧ BraOf st s b) BasisSet.getBra HBasis.getBra := by
  refine sim_ok fun ok => ?_
  unfold BasisSet.getBra HBasis.getBra
  refine sim_get_l (sim_self (sim_fetch ?_))
  have hs := ok.isSome (r := st.obj.spf) (by simp [slots])
  have hb := ok.isSome (r := st.obj.braSpf) (by simp [slots])
  have vs : st.view.spf = st.mem.val st.obj.spf := rfl
  have vb : st.view.braSpf = st.mem.val st.obj.braSpf := rfl
  rw [vs, vb]
  cases eb : st.obj.braSpf with
  | some c =>
    obtain ⟨y, hy⟩ := Option.isSome_iff_exists.1 (hb.trans (by rw [eb]; rfl))
    rw [eb] at hy
    rw [hy]
    refine sim_pure ⟨hy.symm, ?_, ?_, ?_⟩
    · rw [← eb]
    · intro _
      rw [eb]
    · intro h
      rw [eb] at h
      cases h
  | none =>
    cases es : st.obj.spf with
    | none =>
      refine sim_pure ⟨rfl, ?_, ?_, ?_⟩
      · rw [← eb]
      · rw [eb]
        intro h
        cases h
      · intro _
        rw [es]
        exact .inl rfl
    | some r =>
      obtain ⟨y, hy⟩ := Option.isSome_iff_exists.1 (hs.trans (by rw [es]; rfl))
      have hreal := ok.real y hy
      rw [es] at hy
      rw [hy]
      show Sim st _ (modify _ >>= _) (conjRef r y >>= _)
      unfold conjRef
      split
      · refine sim_new ?_
        refine sim_assign_bind (fun ok' => ?_) (put_ok_bra (x := y.conj) (Mem.val_push _ _)) ?_
        · rw [put_view_bra (x := y.conj) (Mem.val_push _ _)]
        · refine sim_pure ⟨(Mem.val_push _ _).symm, rfl, ?_, ?_⟩
          · rw [eb]
            intro h
            cases h
          · intro _
            rw [es]
            exact .inr ⟨rfl, by rintro j ⟨⟩; exact le_rfl⟩
      · rename_i hd
        refine sim_pure_r (sim_assign_bind (fun _ => ?_) (put_ok_bra hy) ?_)
        · rw [put_view_bra hy, hreal hd]
        · refine sim_pure ⟨?_, rfl, ?_, ?_⟩
          · rw [hreal hd]
            exact hy.symm
          · rw [eb]
            intro h
            cases h
          · intro _
            rw [es]
            exact .inl rfl

theorem BraOf.renewed {s : HState K} {b : Option ℕ} (h : BraOf st s b) :
    s.obj.spf = st.obj.spf := by rw [h.1]

/-! ## `change_module` and `cast_to_complex` -/

theorem renew_step {st₀ s : HState K} (ok : st₀.Ok) (hp : st₀.mem <+: s.mem) {r : Option ℕ}
    (hr : r ∈ st₀.obj.slots) (f : NDArray K → NDArray K) :
    ∃ c s', (renew f r).run s = (.ok c, s') ∧ s'.obj = s.obj ∧ s.mem <+: s'.mem ∧
      s'.mem.val c = (st₀.mem.val r).map f ∧ Renewed st₀.mem.length r c ∧
      ∀ i, c = some i → i < s'.mem.length := by
  have hv : s.mem.val r = st₀.mem.val r := ok.val hp hr
  have hi := ok.isSome hr
  cases e : st₀.mem.val r with
  | none =>
    rw [e] at hv hi
    refine ⟨none, s, ?_, rfl, List.prefix_rfl, rfl, ⟨hi, by rintro i ⟨⟩⟩, by rintro i ⟨⟩⟩
    show (match s.mem.val r with
      | none => (pure none : PyM (HState K) (Option ℕ))
      | some x => new (f x) >>= fun c => pure (some c)).run s = _
    rw [hv]
    rfl
  | some x =>
    rw [e] at hv hi
    refine ⟨some s.mem.length, s.push (f x), ?_, rfl, List.prefix_append _ _, Mem.val_push _ _,
      ⟨hi, by rintro i ⟨⟩; exact hp.length_le⟩, ?_⟩
    · show (match s.mem.val r with
        | none => (pure none : PyM (HState K) (Option ℕ))
        | some x => new (f x) >>= fun c => pure (some c)).run s = _
      rw [hv]
      rfl
    · rintro i ⟨⟩
      simp [HState.push]

/-- All eleven arrays are replaced; the others are kept. -/
structure RenewedAll (n : ℕ) (o o' : HBasis K) : Prop where
  h : Renewed n o.h o'.h
  s : Renewed n o.s o'.s
  u : Renewed n o.u o'.u
  spf : Renewed n o.spf o'.spf
  braSpf : Renewed n o.braSpf o'.braSpf
  dipole : Renewed n o.dipole o'.dipole
  spinX : Renewed n o.spinX o'.spinX
  spinY : Renewed n o.spinY o'.spinY
  spinZ : Renewed n o.spinZ o'.spinZ
  spin2 : Renewed n o.spin2 o'.spin2
  spin2tb : Renewed n o.spin2tb o'.spin2tb
  rest : o' = { o with
    h := o'.h
    s := o'.s
    u := o'.u
    spf := o'.spf
    braSpf := o'.braSpf
    dipole := o'.dipole
    spinX := o'.spinX
    spinY := o'.spinY
    spinZ := o'.spinZ
    spin2 := o'.spin2
    spin2tb := o'.spin2tb }

theorem renewAll_run (ok : st.Ok) (f : NDArray K → NDArray K)
    (hf : ∀ x, RealTyped x → RealTyped (f x)) :
    ∃ s, (renewAll f).run st = (.ok (), s) ∧ st.mem <+: s.mem ∧ s.Ok ∧
      s.view = { st.view with
        h := st.view.h.map f
        s := st.view.s.map f
        u := st.view.u.map f
        spf := st.view.spf.map f
        braSpf := st.view.braSpf.map f
        dipole := st.view.dipole.map f
        spinX := st.view.spinX.map f
        spinY := st.view.spinY.map f
        spinZ := st.view.spinZ.map f
        spin2 := st.view.spin2.map f
        spin2tb := st.view.spin2tb.map f
      } ∧ RenewedAll st.mem.length st.obj s.obj := by
  have e0 : st.mem <+: st.mem := List.prefix_rfl
  obtain ⟨c0, t0, r0, o0, p0, v0, n0, b0⟩ := renew_step (s := st) ok e0 (r := st.obj.h) (by simp [slots]) f
  have e1 : st.mem <+: t0.mem := p0
  obtain ⟨c1, t1, r1, o1, p1, v1, n1, b1⟩ := renew_step (s := (t0.put fun o => { o with h := c0 })) ok e1 (r := st.obj.s) (by simp [slots]) f
  have e2 : st.mem <+: t1.mem := e1.trans p1
  obtain ⟨c2, t2, r2, o2, p2, v2, n2, b2⟩ := renew_step (s := (t1.put fun o => { o with s := c1 })) ok e2 (r := st.obj.u) (by simp [slots]) f
  have e3 : st.mem <+: t2.mem := e2.trans p2
  obtain ⟨c3, t3, r3, o3, p3, v3, n3, b3⟩ := renew_step (s := (t2.put fun o => { o with u := c2 })) ok e3 (r := st.obj.spf) (by simp [slots]) f
  have e4 : st.mem <+: t3.mem := e3.trans p3
  obtain ⟨c4, t4, r4, o4, p4, v4, n4, b4⟩ := renew_step (s := (t3.put fun o => { o with spf := c3 })) ok e4 (r := st.obj.braSpf) (by simp [slots]) f
  have e5 : st.mem <+: t4.mem := e4.trans p4
  obtain ⟨c5, t5, r5, o5, p5, v5, n5, b5⟩ := renew_step (s := (t4.put fun o => { o with braSpf := c4 })) ok e5 (r := st.obj.dipole) (by simp [slots]) f
  have e6 : st.mem <+: t5.mem := e5.trans p5
  obtain ⟨c6, t6, r6, o6, p6, v6, n6, b6⟩ := renew_step (s := (t5.put fun o => { o with dipole := c5 })) ok e6 (r := st.obj.spinX) (by simp [slots]) f
  have e7 : st.mem <+: t6.mem := e6.trans p6
  obtain ⟨c7, t7, r7, o7, p7, v7, n7, b7⟩ := renew_step (s := (t6.put fun o => { o with spinX := c6 })) ok e7 (r := st.obj.spinY) (by simp [slots]) f
  have e8 : st.mem <+: t7.mem := e7.trans p7
  obtain ⟨c8, t8, r8, o8, p8, v8, n8, b8⟩ := renew_step (s := (t7.put fun o => { o with spinY := c7 })) ok e8 (r := st.obj.spinZ) (by simp [slots]) f
  have e9 : st.mem <+: t8.mem := e8.trans p8
  obtain ⟨c9, t9, r9, o9, p9, v9, n9, b9⟩ := renew_step (s := (t8.put fun o => { o with spinZ := c8 })) ok e9 (r := st.obj.spin2) (by simp [slots]) f
  have e10 : st.mem <+: t9.mem := e9.trans p9
  obtain ⟨c10, t10, r10, o10, p10, v10, n10, b10⟩ := renew_step (s := (t9.put fun o => { o with spin2 := c9 })) ok e10 (r := st.obj.spin2tb) (by simp [slots]) f
  have e11 : st.mem <+: t10.mem := e10.trans p10
  let s : HState K := t10.put fun o => { o with spin2tb := c10 }
  have ho : s.obj = { st.obj with
      h := c0
      s := c1
      u := c2
      spf := c3
      braSpf := c4
      dipole := c5
      spinX := c6
      spinY := c7
      spinZ := c8
      spin2 := c9
      spin2tb := c10 } := by
    simp only [s, HState.put, o0, o1, o2, o3, o4, o5, o6, o7, o8, o9, o10]
  have q10 : t10.mem <+: s.mem := List.prefix_rfl
  have w10 : s.mem.val c10 = (st.mem.val st.obj.spin2tb).map f :=
    (Mem.val_of_prefix q10 b10).trans v10
  have q9 : t9.mem <+: s.mem := List.IsPrefix.trans (show t9.mem <+: t10.mem from p10) q10
  have w9 : s.mem.val c9 = (st.mem.val st.obj.spin2).map f :=
    (Mem.val_of_prefix q9 b9).trans v9
  have q8 : t8.mem <+: s.mem := List.IsPrefix.trans (show t8.mem <+: t9.mem from p9) q9
  have w8 : s.mem.val c8 = (st.mem.val st.obj.spinZ).map f :=
    (Mem.val_of_prefix q8 b8).trans v8
  have q7 : t7.mem <+: s.mem := List.IsPrefix.trans (show t7.mem <+: t8.mem from p8) q8
  have w7 : s.mem.val c7 = (st.mem.val st.obj.spinY).map f :=
    (Mem.val_of_prefix q7 b7).trans v7
  have q6 : t6.mem <+: s.mem := List.IsPrefix.trans (show t6.mem <+: t7.mem from p7) q7
  have w6 : s.mem.val c6 = (st.mem.val st.obj.spinX).map f :=
    (Mem.val_of_prefix q6 b6).trans v6
  have q5 : t5.mem <+: s.mem := List.IsPrefix.trans (show t5.mem <+: t6.mem from p6) q6
  have w5 : s.mem.val c5 = (st.mem.val st.obj.dipole).map f :=
    (Mem.val_of_prefix q5 b5).trans v5
  have q4 : t4.mem <+: s.mem := List.IsPrefix.trans (show t4.mem <+: t5.mem from p5) q5
  have w4 : s.mem.val c4 = (st.mem.val st.obj.braSpf).map f :=
    (Mem.val_of_prefix q4 b4).trans v4
  have q3 : t3.mem <+: s.mem := List.IsPrefix.trans (show t3.mem <+: t4.mem from p4) q4
  have w3 : s.mem.val c3 = (st.mem.val st.obj.spf).map f :=
    (Mem.val_of_prefix q3 b3).trans v3
  have q2 : t2.mem <+: s.mem := List.IsPrefix.trans (show t2.mem <+: t3.mem from p3) q3
  have w2 : s.mem.val c2 = (st.mem.val st.obj.u).map f :=
    (Mem.val_of_prefix q2 b2).trans v2
  have q1 : t1.mem <+: s.mem := List.IsPrefix.trans (show t1.mem <+: t2.mem from p2) q2
  have w1 : s.mem.val c1 = (st.mem.val st.obj.s).map f :=
    (Mem.val_of_prefix q1 b1).trans v1
  have q0 : t0.mem <+: s.mem := List.IsPrefix.trans (show t0.mem <+: t1.mem from p1) q1
  have w0 : s.mem.val c0 = (st.mem.val st.obj.h).map f :=
    (Mem.val_of_prefix q0 b0).trans v0
  have kv : ∀ r ∈ st.obj.slots, s.mem.val r = st.mem.val r := fun r hr => ok.val e11 hr
  refine ⟨s, ?_, e11, ⟨?_, ?_⟩, ?_, ?_⟩
  · unfold renewAll
    refine run_self_bind.trans ?_
    refine (run_bind_ok r0).trans ?_
    refine run_assign_bind.trans ?_
    refine (run_bind_ok r1).trans ?_
    refine run_assign_bind.trans ?_
    refine (run_bind_ok r2).trans ?_
    refine run_assign_bind.trans ?_
    refine (run_bind_ok r3).trans ?_
    refine run_assign_bind.trans ?_
    refine (run_bind_ok r4).trans ?_
    refine run_assign_bind.trans ?_
    refine (run_bind_ok r5).trans ?_
    refine run_assign_bind.trans ?_
    refine (run_bind_ok r6).trans ?_
    refine run_assign_bind.trans ?_
    refine (run_bind_ok r7).trans ?_
    refine run_assign_bind.trans ?_
    refine (run_bind_ok r8).trans ?_
    refine run_assign_bind.trans ?_
    refine (run_bind_ok r9).trans ?_
    refine run_assign_bind.trans ?_
    refine (run_bind_ok r10).trans ?_
    rfl
  · rw [ho]
    have old : ∀ t ∈ st.obj.slots, ∀ i, t = some i → i < s.mem.length := fun t ht i hi =>
      (ok.bound i (hi ▸ ht)).trans_le e11.length_le
    have new : ∀ t, t ∈ ([c0, c1, c2, c3, c4, c5, c6, c7, c8, c9, c10] : List (Option ℕ)) →
        ∀ i, t = some i → i < s.mem.length := by
      simp only [List.forall_mem_cons]
      refine ⟨fun i hi => (b0 i hi).trans_le q0.length_le, fun i hi => (b1 i hi).trans_le q1.length_le, fun i hi => (b2 i hi).trans_le q2.length_le, fun i hi => (b3 i hi).trans_le q3.length_le, fun i hi => (b4 i hi).trans_le q4.length_le, fun i hi => (b5 i hi).trans_le q5.length_le, fun i hi => (b6 i hi).trans_le q6.length_le, fun i hi => (b7 i hi).trans_le q7.length_le, fun i hi => (b8 i hi).trans_le q8.length_le, fun i hi => (b9 i hi).trans_le q9.length_le, fun i hi => (b10 i hi).trans_le q10.length_le, by simp⟩
    have key : ∀ t ∈ HBasis.slots { st.obj with
        h := c0
        s := c1
        u := c2
        spf := c3
        braSpf := c4
        dipole := c5
        spinX := c6
        spinY := c7
        spinZ := c8
        spin2 := c9
        spin2tb := c10 },
        ∀ i, t = some i → i < s.mem.length := by
      simp only [slots, List.forall_mem_cons] at old new ⊢
      refine ⟨old.1, new.1, new.2.2.1, new.2.1, new.2.2.2.2.2.1, old.2.2.2.2.2.1, old.2.2.2.2.2.2.1, old.2.2.2.2.2.2.2.1, new.2.2.2.2.2.2.1, new.2.2.2.2.2.2.2.1, new.2.2.2.2.2.2.2.2.1, new.2.2.2.2.2.2.2.2.2.1, new.2.2.2.2.2.2.2.2.2.2.1, new.2.2.2.1, new.2.2.2.2.1, old.2.2.2.2.2.2.2.2.2.2.2.2.2.2.2.1, old.2.2.2.2.2.2.2.2.2.2.2.2.2.2.2.2.1, by simp⟩
    intro i hi
    exact key _ hi i rfl
  · intro y hy
    have : s.mem.val c3 = some y := by rw [ho] at hy; exact hy
    rw [w3] at this
    obtain ⟨z, hz, rfl⟩ := Option.map_eq_some_iff.1 this
    exact hf z (ok.real z hz)
  · simp only [slots, List.forall_mem_cons] at kv
    simp only [HState.view, HBasis.view, ho, w0, w1, w2, w3, w4, w5, w6, w7, w8, w9, w10, kv]
  · rw [ho]
    exact ⟨n0, n1, n2, n3, n4, n5, n6, n7, n8, n9, n10, rfl⟩

end QS
