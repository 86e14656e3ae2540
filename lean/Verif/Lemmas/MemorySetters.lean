import Verif.Lemmas.Memory

/-!
# The methods of a basis set on array objects simulate those on array values
-/

namespace QS

open PyM HBasis

variable {K : Type} [PyScalar K] {st : HState K} {i : ℕ} {x : NDArray K}

theorem sim_setH (hx : st.mem.val (some i) = some x) :
    Sim st (fun _ _ s => s = st.put fun o => { o with h := some i })
      (BasisSet.setH (some x)) (HBasis.setH (some i)) := by
  unfold BasisSet.setH HBasis.setH
  refine sim_get_l (sim_self (sim_fetch ?_))
  rw [hx]
  refine sim_lift fun c hc => sim_assert fun _ => sim_assign (fun _ => ?_) (put_ok (r := some i) ?_ rfl ?_) rfl
  · obtain rfl : x = c := by simpa [orErr] using hc
    simp [HState.view, HState.put, HBasis.view, hx]
  · simp [slots, HState.put]
  · rintro j ⟨⟩
    exact val_lt hx

theorem sim_setU (hx : st.mem.val (some i) = some x) :
    Sim st (fun _ _ s => s = st.put fun o => { o with u := some i })
      (BasisSet.setU (some x)) (HBasis.setU (some i)) := by
  unfold BasisSet.setU HBasis.setU
  refine sim_get_l (sim_self (sim_fetch ?_))
  rw [hx]
  refine sim_lift fun c hc => sim_assert fun _ => sim_assign (fun _ => ?_) (put_ok (r := some i) ?_ rfl ?_) rfl
  · obtain rfl : x = c := by simpa [orErr] using hc
    simp [HState.view, HState.put, HBasis.view, hx]
  · simp [slots, HState.put]
  · rintro j ⟨⟩
    exact val_lt hx

theorem sim_setS (hx : st.mem.val (some i) = some x) :
    Sim st (fun _ _ s => s = st.put fun o => { o with s := some i })
      (BasisSet.setS (some x)) (HBasis.setS (some i)) := by
  unfold BasisSet.setS HBasis.setS
  refine sim_get_l (sim_self (sim_fetch ?_))
  rw [hx]
  refine sim_lift fun c hc => sim_assert fun _ => sim_assign (fun _ => ?_) (put_ok (r := some i) ?_ rfl ?_) rfl
  · obtain rfl : x = c := by simpa [orErr] using hc
    simp [HState.view, HState.put, HBasis.view, hx]
  · simp [slots, HState.put]
  · rintro j ⟨⟩
    exact val_lt hx

theorem sim_setSpinX (hx : st.mem.val (some i) = some x) :
    Sim st (fun _ _ s => s = st.put fun o => { o with spinX := some i })
      (BasisSet.setSpinX (some x)) (HBasis.setSpinX (some i)) := by
  unfold BasisSet.setSpinX HBasis.setSpinX
  refine sim_get_l (sim_self (sim_assert fun _ => sim_fetch ?_))
  rw [hx]
  refine sim_lift fun c hc => sim_assert fun _ => sim_assign (fun _ => ?_) (put_ok (r := some i) ?_ rfl ?_) rfl
  · obtain rfl : x = c := by simpa [orErr] using hc
    simp [HState.view, HState.put, HBasis.view, hx]
  · simp [slots, HState.put]
  · rintro j ⟨⟩
    exact val_lt hx

theorem sim_setSpinY (hx : st.mem.val (some i) = some x) :
    Sim st (fun _ _ s => s = st.put fun o => { o with spinY := some i })
      (BasisSet.setSpinY (some x)) (HBasis.setSpinY (some i)) := by
  unfold BasisSet.setSpinY HBasis.setSpinY
  refine sim_get_l (sim_self (sim_assert fun _ => sim_fetch ?_))
  rw [hx]
  refine sim_lift fun c hc => sim_assert fun _ => sim_assign (fun _ => ?_) (put_ok (r := some i) ?_ rfl ?_) rfl
  · obtain rfl : x = c := by simpa [orErr] using hc
    simp [HState.view, HState.put, HBasis.view, hx]
  · simp [slots, HState.put]
  · rintro j ⟨⟩
    exact val_lt hx

theorem sim_setSpinZ (hx : st.mem.val (some i) = some x) :
    Sim st (fun _ _ s => s = st.put fun o => { o with spinZ := some i })
      (BasisSet.setSpinZ (some x)) (HBasis.setSpinZ (some i)) := by
  unfold BasisSet.setSpinZ HBasis.setSpinZ
  refine sim_get_l (sim_self (sim_assert fun _ => sim_fetch ?_))
  rw [hx]
  refine sim_lift fun c hc => sim_assert fun _ => sim_assign (fun _ => ?_) (put_ok (r := some i) ?_ rfl ?_) rfl
  · obtain rfl : x = c := by simpa [orErr] using hc
    simp [HState.view, HState.put, HBasis.view, hx]
  · simp [slots, HState.put]
  · rintro j ⟨⟩
    exact val_lt hx

theorem sim_setSpin2 (hx : st.mem.val (some i) = some x) :
    Sim st (fun _ _ s => s = st.put fun o => { o with spin2 := some i })
      (BasisSet.setSpin2 (some x)) (HBasis.setSpin2 (some i)) := by
  unfold BasisSet.setSpin2 HBasis.setSpin2
  refine sim_get_l (sim_self (sim_assert fun _ => sim_fetch ?_))
  rw [hx]
  refine sim_lift fun c hc => sim_assert fun _ => sim_assign (fun _ => ?_) (put_ok (r := some i) ?_ rfl ?_) rfl
  · obtain rfl : x = c := by simpa [orErr] using hc
    simp [HState.view, HState.put, HBasis.view, hx]
  · simp [slots, HState.put]
  · rintro j ⟨⟩
    exact val_lt hx

theorem sim_setSpin2tb (hx : st.mem.val (some i) = some x) :
    Sim st (fun _ _ s => s = st.put fun o => { o with spin2tb := some i })
      (BasisSet.setSpin2tb (some x)) (HBasis.setSpin2tb (some i)) := by
  unfold BasisSet.setSpin2tb HBasis.setSpin2tb
  refine sim_get_l (sim_self (sim_assert fun _ => sim_fetch ?_))
  rw [hx]
  refine sim_lift fun c hc => sim_assert fun _ => sim_assign (fun _ => ?_) (put_ok (r := some i) ?_ rfl ?_) rfl
  · obtain rfl : x = c := by simpa [orErr] using hc
    simp [HState.view, HState.put, HBasis.view, hx]
  · simp [slots, HState.put]
  · rintro j ⟨⟩
    exact val_lt hx

theorem sim_setDipole (hx : st.mem.val (some i) = some x) :
    Sim st (fun _ _ s => s = st.put fun o => { o with dipole := some i })
      (BasisSet.setDipole (some x)) (HBasis.setDipole (some i)) := by
  unfold BasisSet.setDipole HBasis.setDipole
  refine sim_get_l (sim_self (sim_fetch ?_))
  rw [hx]
  refine sim_lift fun c hc => sim_lift fun n _ => sim_assert fun _ => sim_lift fun _ _ =>
    sim_assign (fun _ => ?_) (put_ok (r := some i) ?_ rfl ?_) rfl
  · obtain rfl : x = c := by simpa [orErr] using hc
    simp [HState.view, HState.put, HBasis.view, hx]
  · simp [slots, HState.put]
  · rintro j ⟨⟩
    exact val_lt hx

theorem sim_setBra (hx : st.mem.val (some i) = some x) :
    Sim st (fun _ _ s => s = st.put fun o => { o with braSpf := some i })
      (BasisSet.setBra (some x)) (HBasis.setBra (some i)) := by
  unfold BasisSet.setBra HBasis.setBra
  refine sim_get_l (sim_self (sim_fetch ?_))
  rw [hx]
  refine sim_lift fun c hc => sim_assert fun _ =>
    sim_assign (fun _ => ?_) (put_ok (r := some i) ?_ rfl ?_) rfl
  · simp [HState.view, HState.put, HBasis.view, hx]
  · simp [slots, HState.put]
  · rintro j ⟨⟩
    exact val_lt hx

theorem sim_setSpf (hx : st.mem.val (some i) = some x) (hr : RealTyped x) :
    Sim st (fun _ _ s => s = st.put fun o => { o with spf := some i })
      (BasisSet.setSpf (some x)) (HBasis.setSpf (some i)) := by
  unfold BasisSet.setSpf HBasis.setSpf
  refine sim_get_l (sim_self (sim_fetch ?_))
  rw [hx]
  refine sim_lift fun c hc => sim_assert fun _ =>
    sim_assign (fun _ => ?_) (fun ok => ⟨?_, ?_⟩) rfl
  · simp [HState.view, HState.put, HBasis.view, hx]
  · intro j hj
    have key : ∀ t ∈ (st.put fun o => { o with spf := some i }).obj.slots,
        t ∈ st.obj.slots ∨ t = some i := by simp [slots, HState.put]
    rcases key _ hj with h | h
    · exact ok.bound j h
    · obtain rfl : j = i := by simpa using h
      exact val_lt hx
  · intro y hy
    obtain rfl : x = y := by
      have := hx.symm.trans hy
      simpa using this
    exact hr

theorem sim_setSigma {j k : ℕ} {y z : NDArray K} (hx : st.mem.val (some i) = some x)
    (hy : st.mem.val (some j) = some y) (hz : st.mem.val (some k) = some z) :
    Sim st (fun _ _ s => s = st.put fun o =>
        { o with sigmaX := some i, sigmaY := some j, sigmaZ := some k })
      (BasisSet.setSigma x y z) (HBasis.setSigma i j k) := by
  unfold BasisSet.setSigma HBasis.setSigma
  refine sim_get_l (sim_self (sim_assert fun _ => ?_))
  refine sim_assign_bind (fun _ => ?_) (put_ok (r := some i) ?_ rfl ?_)
    (sim_assign_bind (fun _ => ?_) (put_ok (r := some j) ?_ rfl ?_)
    (sim_assign (fun _ => ?_) (put_ok (r := some k) ?_ rfl ?_) rfl))
  · simp [HState.view, HState.put, HBasis.view, hx]
  · simp [slots, HState.put]
  · rintro j ⟨⟩
    exact val_lt hx
  · simp [HState.view, HState.put, HBasis.view, hy]
  · simp [slots, HState.put]
  · rintro j ⟨⟩
    exact val_lt hy
  · simp [HState.view, HState.put, HBasis.view, hz]
  · simp [slots, HState.put]
  · rintro j ⟨⟩
    exact val_lt hz

end QS
