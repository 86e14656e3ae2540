import Verif.Lemmas.MemoryBasis
import Verif.Core.Lemmas

/-!
# `change_basis` and the spin doubling on array objects
-/

namespace QS

open PyM HBasis Finset

variable {K : Type} [PyScalar K] {st : HState K} {i n : ℕ} {x C Ct : NDArray K}

theorem realTyped_iff : RealTyped x ↔ (x.dtype ≠ .complex128 → ∀ i, star (x.get i) = x.get i) := by
  unfold RealTyped
  refine forall_congr' fun hd => ⟨fun h i => ?_, fun h => ?_⟩
  · by_cases hi : InRange x.shape i
    · have := congrArg (fun y => NDArray.get y i) h
      simpa [NDArray.conj, NDArray.ofFn, hi] using this
    · rw [x.supp i hi, star_zero]
  · refine NDArray.ext' rfl rfl fun i hi => ?_
    have hi' : InRange x.shape i := hi
    simp [NDArray.conj, NDArray.ofFn, hi', h i]

theorem promote_ne {a b : DType} (h : a.promote b ≠ .complex128) :
    a ≠ .complex128 ∧ b ≠ .complex128 := by
  revert h
  cases a <;> cases b <;> decide

theorem realTyped_tensordot {a b c : NDArray K} {i j : ℕ} (ha : RealTyped a) (hb : RealTyped b)
    (h : NDArray.tensordot a b i j = .ok c) : RealTyped c := by
  rw [realTyped_iff] at *
  unfold NDArray.tensordot at h
  split at h
  · split at h
    · cases h
      intro hd k
      obtain ⟨h₁, h₂⟩ := promote_ne (a := a.dtype) (b := b.dtype) hd
      show star (if _ then _ else _) = if _ then _ else _
      split
      · rw [star_sum]
        refine sum_congr rfl fun t _ => ?_
        rw [star_mul', ha h₁, hb h₂]
      · exact star_zero _
    · cases h
  · cases h

theorem realTyped_transformSpf {np : Option Module} {spf y : NDArray K} (hC : RealTyped C)
    (hs : RealTyped spf) (h : BasisSet.transformSpf np spf C = .ok y) : RealTyped y := by
  cases np with
  | none => cases h
  | some _ => exact realTyped_tensordot hC hs h

theorem realTyped_addSpinSpf {np : Option Module} {spf y : NDArray K}
    (hs : RealTyped spf) (h : BasisSet.addSpinSpf np spf = .ok y) : RealTyped y := by
  rw [realTyped_iff] at *
  unfold BasisSet.addSpinSpf at h
  split at h
  · cases h
  · cases np with
    | none => cases h
    | some _ =>
      cases h
      intro hd k
      show star (if _ then _ else _) = if _ then _ else _
      split
      · cases k with
        | nil => exact star_zero _
        | cons k x => exact hs hd _
      · exact star_zero _

theorem sim_changeBasisOneBody :
    Sim st (fun _ _ s => ∃ rh rs, s.obj = { st.obj with h := rh, s := rs } ∧
        (∃ i, rh = some i ∧ st.mem.length ≤ i) ∧ Renewed st.mem.length st.obj.s rs)
      (BasisSet.changeBasisOneBody C Ct) (HBasis.changeBasisOneBody C Ct) := by
  refine sim_ok fun ok => ?_
  unfold BasisSet.changeBasisOneBody HBasis.changeBasisOneBody
  refine sim_get_l (sim_self (sim_fetch ?_))
  refine sim_lift fun h hh => sim_new (sim_bind (sim_setH (Mem.val_push _ _)) ?_)
  rintro _ _ t hp _ okt rfl
  refine sim_get_l (sim_self (sim_fetch ?_))
  have hs := okt.isSome (r := st.obj.s) (by simp [slots, HState.put, HState.push])
  generalize ht : ((st.push h).put fun o => { o with h := some st.mem.length }) = t at *
  have ho : t.obj = { st.obj with h := some st.mem.length } := by rw [← ht]; rfl
  have hl : st.mem.length ≤ t.mem.length := by rw [← ht]; simp [HState.put, HState.push]
  have vs : t.view.s = t.mem.val t.obj.s := rfl
  have hs' : (t.mem.val t.obj.s).isSome = st.obj.s.isSome := by rw [ho]; exact hs
  rw [vs]
  cases e : t.mem.val t.obj.s with
  | none =>
    refine sim_get_l (sim_get_r (sim_lift' fun _ _ => ?_))
    refine ⟨some st.mem.length, st.obj.s, ho, ⟨_, rfl, le_rfl⟩, rfl, fun i hi => ?_⟩
    rw [e, hi] at hs'
    cases hs'
  | some s =>
    refine sim_lift fun s' _ => sim_new (sim_bind (sim_setS (Mem.val_push _ _)) ?_)
    rintro _ _ t' _ _ _ rfl
    refine sim_get_l (sim_get_r (sim_lift' fun _ _ => ?_))
    refine ⟨some st.mem.length, some t.mem.length, ?_, ⟨_, rfl, le_rfl⟩, ?_, ?_⟩
    · show ({ t.obj with s := some t.mem.length } : HBasis K) = _
      rw [ho]
    · rw [← hs', e]
      rfl
    · rintro i ⟨⟩
      exact hl

theorem sim_transformTwoBodyOf {v : Option (NDArray K)} {b : BasisSet K} (hb : b = st.view) :
    Sim st (fun y r s => s.mem.val (some r) = some y ∧ r = st.mem.length ∧ s.obj = st.obj)
      (liftM (b.transformTwoBodyOf v C (some Ct))) (HBasis.transformTwoBodyOf v C Ct) := by
  subst hb
  unfold HBasis.transformTwoBodyOf
  refine sim_get_r ?_
  intro ok
  cases h : st.view.transformTwoBodyOf v C (some Ct) with
  | error e => exact ⟨st, List.prefix_rfl, ok, .inr ⟨e, rfl, rfl⟩⟩
  | ok y =>
    refine ⟨st.push y, List.prefix_append _ _, ok.push y, .inl ⟨y, st.mem.length, ?_, rfl,
      Mem.val_push _ _, rfl, rfl⟩⟩
    rw [ok.view_push]
    rfl

theorem sim_changeBasisTwoBody :
    Sim st (fun _ _ s => ∃ ru rt, s.obj = { st.obj with u := ru, spin2tb := rt } ∧
        (∃ i, ru = some i ∧ st.mem.length ≤ i) ∧ Renewed st.mem.length st.obj.spin2tb rt)
      (BasisSet.changeBasisTwoBody C Ct) (HBasis.changeBasisTwoBody C Ct) := by
  refine sim_ok fun ok => ?_
  unfold BasisSet.changeBasisTwoBody HBasis.changeBasisTwoBody
  refine sim_get_l (sim_self (sim_fetch ?_))
  refine sim_bind (sim_transformTwoBodyOf rfl) ?_
  rintro y r t₀ hp₀ _ ok₀ ⟨hy, hr, ho₀⟩
  refine sim_bind (sim_setU hy) ?_
  rintro _ _ t hp _ okt ht
  refine sim_get_l (sim_self (sim_fetch ?_))
  have ho : t.obj = { st.obj with u := some st.mem.length } := by rw [ht, ← ho₀, ← hr]; rfl
  have hl : st.mem.length ≤ t.mem.length := (hp₀.trans hp).length_le
  have hs' := okt.isSome (r := t.obj.spin2tb) (by simp [slots])
  have vs : t.view.spin2tb = t.mem.val t.obj.spin2tb := rfl
  have e₀ : t.obj.spin2tb = st.obj.spin2tb := by rw [ho]
  rw [vs]
  cases e : t.mem.val t.obj.spin2tb with
  | none =>
    refine sim_pure ?_
    refine ⟨some st.mem.length, st.obj.spin2tb, ho, ⟨_, rfl, le_rfl⟩, rfl, fun i hi => ?_⟩
    rw [e, e₀, hi] at hs'
    cases hs'
  | some s =>
    refine sim_bind (sim_transformTwoBodyOf rfl) ?_
    rintro y' r' t₁ hp₁ _ ok₁ ⟨hy', hr', ho₁⟩
    refine sim_mono (sim_setSpin2tb hy') ?_
    rintro _ _ t₂ - - - rfl
    refine ⟨some st.mem.length, some r', ?_, ⟨_, rfl, le_rfl⟩, ?_, ?_⟩
    · show ({ t₁.obj with spin2tb := some r' } : HBasis K) = _
      rw [ho₁, ho]
    · rw [← e₀, ← hs', e]
      rfl
    · rintro i ⟨⟩
      rw [hr']
      exact hl

theorem sim_changeBasisDipole :
    Sim st (fun _ _ s => ∃ r, s.obj = { st.obj with dipole := some r } ∧ st.mem.length ≤ r)
      (BasisSet.changeBasisDipole C Ct) (HBasis.changeBasisDipole C Ct) := by
  unfold BasisSet.changeBasisDipole HBasis.changeBasisDipole
  refine sim_get_l (sim_self (sim_fetch ?_))
  refine sim_lift fun d _ => sim_lift fun n _ => sim_lift fun ys _ => sim_lift fun _ _ =>
    sim_lift fun arr _ => sim_new (sim_mono (sim_setDipole (Mem.val_push _ _)) ?_)
  rintro _ _ t _ _ _ rfl
  exact ⟨_, rfl, le_rfl⟩

theorem sim_changeBasisSpf (hC : RealTyped C) :
    Sim st (fun _ _ s => ∃ r b, s.obj = { st.obj with spf := some r, braSpf := some b } ∧
        st.mem.length ≤ r ∧ st.mem.length ≤ b)
      (BasisSet.changeBasisSpf C Ct) (HBasis.changeBasisSpf C Ct) := by
  unfold BasisSet.changeBasisSpf HBasis.changeBasisSpf
  refine sim_bind sim_getBra fun a b t hp ok okt hb => ?_
  obtain ⟨rfl, ho, -⟩ := hb
  have hl := hp.length_le
  refine sim_get_l (sim_self (sim_fetch ?_))
  refine sim_lift fun bra _ => sim_lift fun bra' _ => sim_new (sim_bind (sim_setBra (Mem.val_push _ _)) ?_)
  rintro _ _ t₁ hp₁ _ ok₁ ht₁
  have hl₁ : t.mem.length ≤ t₁.mem.length := by rw [ht₁]; simp [HState.put, HState.push]
  refine sim_get_l (sim_self (sim_fetch ?_))
  refine sim_lift fun spf hs => sim_lift fun spf' hs' => sim_new (sim_mono
    (sim_setSpf (Mem.val_push _ _) (realTyped_transformSpf hC (ok₁.real spf ?_) hs')) ?_)
  · have : t₁.mem.val t₁.obj.spf = t₁.view.spf := rfl
    rw [this]
    cases e : t₁.view.spf with
    | none => rw [e] at hs; cases hs
    | some z => rw [e] at hs; cases hs; rfl
  · rintro _ _ t₂ _ _ _ rfl
    refine ⟨t₁.mem.length, t.mem.length, ?_, hl.trans hl₁, hl⟩
    show ({ t₁.obj with spf := some t₁.mem.length } : HBasis K) = _
    rw [ht₁]
    show ({ t.obj with spf := some _, braSpf := some t.mem.length } : HBasis K) = _
    rw [ho, ← ht₁]


/-! ## `change_basis` -/

/-- What `change_basis` leaves. -/
structure Changed (l : ℕ) (st t : HState K) : Prop where
  h : ∃ i, t.obj.h = some i ∧ st.mem.length ≤ i
  u : ∃ i, t.obj.u = some i ∧ st.mem.length ≤ i
  s : Renewed st.mem.length st.obj.s t.obj.s
  spin2tb : Renewed st.mem.length st.obj.spin2tb t.obj.spin2tb
  dipole : Renewed st.mem.length st.obj.dipole t.obj.dipole
  spf : Renewed st.mem.length st.obj.spf t.obj.spf
  braSpf : st.obj.spf.isSome → ∃ i, t.obj.braSpf = some i ∧ st.mem.length ≤ i
  rest : t.obj = { st.obj with
    l := l
    h := t.obj.h
    u := t.obj.u
    s := t.obj.s
    spin2tb := t.obj.spin2tb
    dipole := t.obj.dipole
    spf := t.obj.spf
    braSpf := t.obj.braSpf }

theorem put_l_ok {f : ℕ → ℕ} (ok : st.Ok) : (st.put fun o => { o with l := f o.l }).Ok :=
  ⟨fun i hi => ok.bound i hi, fun y hy => ok.real y hy⟩

theorem sim_changeBasis (hC : RealTyped C) (Ct : Option (NDArray K)) :
    Sim st (fun _ _ s => ∃ l, C.shapeAt 1 = .ok l ∧ Changed l st s)
      (BasisSet.changeBasis C Ct) (HBasis.changeBasis C Ct) := by
  unfold BasisSet.changeBasis HBasis.changeBasis
  refine sim_lift fun n hn => sim_assign_bind (fun _ => rfl) (put_l_ok (f := fun _ => n)) ?_
  refine sim_bind sim_changeBasisOneBody ?_
  rintro _ _ t₁ p₁ ok₀ ok₁ ⟨rh, rs, o₁, ⟨ih, rfl, lh⟩, hs⟩
  refine sim_bind sim_changeBasisTwoBody ?_
  rintro _ _ t₂ p₂ _ ok₂ ⟨ru, rt, o₂, ⟨iu, rfl, lu⟩, ht⟩
  refine sim_get_l (sim_self ?_)
  have l₁ : st.mem.length ≤ t₁.mem.length := p₁.length_le
  have l₂ : t₁.mem.length ≤ t₂.mem.length := p₂.length_le
  have lh' : st.mem.length ≤ ih := lh
  have hs' : Renewed st.mem.length st.obj.s rs := hs
  have ht' : Renewed st.mem.length st.obj.spin2tb rt := by
    have : t₁.obj.spin2tb = st.obj.spin2tb := by rw [o₁]; rfl
    rw [this] at ht
    exact ht.mono l₁
  have O₂ : t₂.obj = { st.obj with
      l := n, h := some ih, s := rs, u := some iu, spin2tb := rt } := by
    rw [o₂, o₁]
    rfl
  have e₁ : t₂.view.dipole.isSome = t₂.obj.dipole.isSome :=
    ok₂.isSome (r := t₂.obj.dipole) (by simp [slots])
  -- the last step
  have fin : ∀ (t : HState K) (rd : Option ℕ), st.mem.length ≤ t.mem.length →
      Renewed st.mem.length st.obj.dipole rd → t.obj = { st.obj with
        l := n, h := some ih, s := rs, u := some iu, spin2tb := rt, dipole := rd } →
      Sim t (fun _ _ s => ∃ l, C.shapeAt 1 = .ok l ∧ Changed l st s)
        (PyM.get >>= fun self => if self.spf.isSome = true then
          BasisSet.changeBasisSpf C (Ct.getD C.conj.T) else pure PUnit.unit)
        (self >>= fun o => if o.spf.isSome = true then
          HBasis.changeBasisSpf C (Ct.getD C.conj.T) else pure PUnit.unit) := by
    intro t rd hl hd ho
    refine sim_ok fun okt => sim_get_l (sim_self ?_)
    have e₂ : t.view.spf.isSome = t.obj.spf.isSome := okt.isSome (r := t.obj.spf) (by simp [slots])
    have e₃ : t.obj.spf = st.obj.spf := by rw [ho]
    rw [e₂, e₃]
    split
    · rename_i hsome
      refine sim_mono (sim_changeBasisSpf hC) ?_
      rintro _ _ s _ _ _ ⟨r, b, os, hr, hb⟩
      rw [ho] at os
      refine ⟨n, hn, ?_⟩
      refine ⟨⟨ih, by rw [os], lh'⟩, ⟨iu, by rw [os], l₁.trans lu⟩, by rw [os]; exact hs',
        by rw [os]; exact ht', by rw [os]; exact hd, by
          rw [os]
          exact ⟨hsome.symm, by rintro i ⟨⟩; exact hl.trans hr⟩,
        fun _ => ⟨b, by rw [os], hl.trans hb⟩, by rw [os]⟩
    · rename_i hnone
      have hno : st.obj.spf = none := by
        cases h : st.obj.spf with
        | none => rfl
        | some _ => rw [h] at hnone; exact absurd rfl hnone
      refine sim_pure ⟨n, hn, ?_⟩
      refine ⟨⟨ih, by rw [ho], lh'⟩, ⟨iu, by rw [ho], l₁.trans lu⟩, by rw [ho]; exact hs',
        by rw [ho]; exact ht', by rw [ho]; exact hd, by
          rw [ho]
          exact ⟨rfl, fun i hi => absurd (hno.symm.trans hi) (by simp)⟩,
        fun h => absurd h (by rw [hno]; simp), by rw [ho]⟩
  rw [e₁]
  have e₄ : t₂.obj.dipole = st.obj.dipole := by rw [O₂]
  split
  · rename_i hd
    refine sim_bind sim_changeBasisDipole ?_
    rintro _ _ t₃ p₃ _ ok₃ ⟨r, o₃, hr⟩
    refine fin t₃ (some r) (l₁.trans (l₂.trans p₃.length_le)) ?_ (by rw [o₃, O₂])
    rw [e₄] at hd
    exact ⟨hd.symm, by rintro i ⟨⟩; exact l₁.trans (l₂.trans hr)⟩
  · rename_i hd
    have hno : st.obj.dipole = none := by
      cases h : st.obj.dipole with
      | none => rfl
      | some _ => rw [e₄, h] at hd; exact absurd rfl hd
    refine fin t₂ st.obj.dipole (l₁.trans l₂) ⟨rfl, fun i hi => ?_⟩ O₂
    rw [hno] at hi
    cases hi

/-! ## Anti-symmetrisation -/

theorem sim_antiSymmetrizeU {r : Option ℕ} {c : Cls} {v : Option (NDArray K)}
    (hc : c = st.obj.cls) (hv : v = st.mem.val r) :
    Sim st (fun y k s => s.mem.val k = some y ∧ s.obj = st.obj ∧
        (c = .plain → k = some st.mem.length) ∧ (k = r ∨ k = some st.mem.length))
      (liftM (BasisSet.antiSymmetrizeU c v)) (HBasis.antiSymmetrizeU r) := by
  subst hc hv
  unfold HBasis.antiSymmetrizeU
  refine sim_self (sim_fetch ?_)
  intro ok
  cases h : BasisSet.antiSymmetrizeU st.obj.cls (st.mem.val r) with
  | error e => exact ⟨st, List.prefix_rfl, ok, .inr ⟨e, rfl, rfl⟩⟩
  | ok y =>
    have A : ∃ s : HState K, st.mem <+: s.mem ∧ s.Ok ∧
        (liftM (Except.ok y : Except PyErr (NDArray K)) : PyM (BasisSet K) (NDArray K)).run st.view =
          (.ok y, s.view) ∧
        (new y >>= fun c => (pure (some c) : PyM (HState K) (Option ℕ))).run st =
          (.ok (some st.mem.length), s) ∧ s.mem.val (some st.mem.length) = some y ∧
          s.obj = st.obj := by
      refine ⟨st.push y, List.prefix_append _ _, ok.push y, ?_, rfl, Mem.val_push _ _, rfl⟩
      rw [ok.view_push]
      rfl
    cases hc : st.obj.cls with
    | plain =>
      obtain ⟨s, hp, oks, rp, rq, hy, ho⟩ := A
      exact ⟨s, hp, oks, .inl ⟨y, _, rp, rq, hy, ho, fun _ => rfl, .inr rfl⟩⟩
    | sincDVR =>
      cases hv : st.mem.val r with
      | none =>
        obtain ⟨s, hp, oks, rp, rq, hy, ho⟩ := A
        exact ⟨s, hp, oks, .inl ⟨y, _, rp, rq, hy, ho, fun _ => rfl, .inr rfl⟩⟩
      | some v =>
        by_cases hd : v.ndim = 2
        · refine ⟨st, List.prefix_rfl, ok, .inl ⟨y, r, rfl, ?_, ?_, rfl, by rintro ⟨⟩, .inl rfl⟩⟩
          · show ((if v.ndim = 2 then pure r else new y >>= fun c => pure (some c) :
              PyM (HState K) (Option ℕ))).run st = _
            rw [if_pos hd]
            rfl
          · rw [hc, hv] at h
            have : BasisSet.antiSymmetrizeU Cls.sincDVR (some v) =
                if v.ndim = 2 then .ok v else BasisSet.antiSymmetrizeUBase (some v) := rfl
            rw [this, if_pos hd] at h
            cases h
            exact hv
        · obtain ⟨s, hp, oks, rp, rq, hy, ho⟩ := A
          refine ⟨s, hp, oks, .inl ⟨y, some st.mem.length, rp, ?_, hy, ho, fun _ => rfl, .inr rfl⟩⟩
          show ((if v.ndim = 2 then pure r else new y >>= fun c => pure (some c) :
              PyM (HState K) (Option ℕ))).run st = _
          rw [if_neg hd]
          exact rq


theorem sim_setU' {k : Option ℕ} (hx : st.mem.val k = some x) :
    Sim st (fun _ _ s => s = st.put fun o => { o with u := k })
      (BasisSet.setU (some x)) (HBasis.setU k) := by
  cases k with
  | none => cases hx
  | some i => exact sim_setU hx

theorem sim_setSpin2tb' {k : Option ℕ} (hx : st.mem.val k = some x) :
    Sim st (fun _ _ s => s = st.put fun o => { o with spin2tb := k })
      (BasisSet.setSpin2tb (some x)) (HBasis.setSpin2tb k) := by
  cases k with
  | none => cases hx
  | some i => exact sim_setSpin2tb hx

theorem put_antiSym_ok (ok : st.Ok) : (st.put fun o => { o with antiSym := true }).Ok :=
  ⟨fun i hi => ok.bound i hi, fun y hy => ok.real y hy⟩

/-- What the anti-symmetrisation leaves. -/
structure Antisymmetrised (st t : HState K) : Prop where
  done : st.obj.antiSym = true → t = st
  u : st.obj.antiSym = false → st.obj.cls = .plain → ∃ i, t.obj.u = some i ∧ st.mem.length ≤ i
  spin2tb : st.obj.antiSym = false → st.obj.cls = .plain →
    Renewed st.mem.length st.obj.spin2tb t.obj.spin2tb
  rest : t.obj = { st.obj with u := t.obj.u, spin2tb := t.obj.spin2tb, antiSym := true }

theorem sim_antiSymmetrizeTwoBody :
    Sim st (fun _ _ t => Antisymmetrised st t)
      BasisSet.antiSymmetrizeTwoBody HBasis.antiSymmetrizeTwoBody := by
  refine sim_ok fun ok => ?_
  unfold BasisSet.antiSymmetrizeTwoBody HBasis.antiSymmetrizeTwoBody
  refine sim_get_l (sim_self ?_)
  have ha : st.view.antiSym = st.obj.antiSym := rfl
  rw [ha]
  cases e : st.obj.antiSym with
  | true =>
    refine sim_pure ⟨fun _ => rfl, fun h => ?_, fun h => ?_, ?_⟩
    · rw [e] at h; cases h
    · rw [e] at h; cases h
    · rw [← e]
  | false =>
    refine sim_bind (sim_antiSymmetrizeU rfl rfl) ?_
    rintro y k t₁ p₁ _ ok₁ ⟨hy, o₁, hk, -⟩
    refine sim_bind (sim_setU' hy) ?_
    rintro _ _ t₂ p₂ _ ok₂ ht₂
    refine sim_get_l (sim_self (sim_fetch ?_))
    have O₂ : t₂.obj = { st.obj with u := k } := by
      rw [ht₂, ← o₁]
      rfl
    have hl : st.mem.length ≤ t₂.mem.length := (p₁.trans p₂).length_le
    have vs : t₂.view.spin2tb = t₂.mem.val t₂.obj.spin2tb := rfl
    have e₀ : t₂.obj.spin2tb = st.obj.spin2tb := by rw [O₂]
    have hs' := ok₂.isSome (r := t₂.obj.spin2tb) (by simp [slots])
    have hu : st.obj.cls = .plain → ∃ i, k = some i ∧ st.mem.length ≤ i := fun h =>
      ⟨_, hk h, le_rfl⟩
    rw [vs]
    cases ev : t₂.mem.val t₂.obj.spin2tb with
    | none =>
      refine sim_assign (fun _ => rfl) put_antiSym_ok ⟨fun h => ?_, fun _ h => ?_, fun _ _ => ?_, ?_⟩
      · rw [e] at h; cases h
      · show ∃ i, t₂.obj.u = some i ∧ _
        rw [O₂]
        exact hu h
      · show Renewed _ _ t₂.obj.spin2tb
        rw [e₀]
        refine ⟨rfl, fun i hi => ?_⟩
        rw [ev, e₀, hi] at hs'
        cases hs'
      · show ({ t₂.obj with antiSym := true } : HBasis K) = _
        rw [O₂]
        show _ = ({ st.obj with
          u := t₂.obj.u, spin2tb := t₂.obj.spin2tb, antiSym := true } : HBasis K)
        rw [O₂]
    | some v =>
      refine sim_bind (sim_antiSymmetrizeU rfl ev.symm) ?_
      rintro y' k' t₃ p₃ _ ok₃ ⟨hy', o₃, hk', -⟩
      refine sim_bind (sim_setSpin2tb' hy') ?_
      rintro _ _ t₄ p₄ _ ok₄ ht₄
      have O₄ : t₄.obj = { st.obj with u := k, spin2tb := k' } := by
        rw [ht₄]
        show ({ t₃.obj with spin2tb := k' } : HBasis K) = _
        rw [o₃, O₂]
      refine sim_assign (fun _ => rfl) put_antiSym_ok ⟨fun h => ?_, fun _ h => ?_, fun _ h => ?_, ?_⟩
      · rw [e] at h; cases h
      · show ∃ i, t₄.obj.u = some i ∧ _
        rw [O₄]
        exact hu h
      · show Renewed _ _ t₄.obj.spin2tb
        have hc : t₂.view.cls = st.obj.cls := by
          show t₂.obj.cls = _
          rw [O₂]
        rw [O₄]
        refine ⟨?_, fun i hi => ?_⟩
        · rw [hk' (hc.trans h), ← e₀, ← hs', ev]
          rfl
        · have hi' : k' = some i := hi
          rw [hk' (hc.trans h)] at hi'
          cases hi'
          exact hl
      · show ({ t₄.obj with antiSym := true } : HBasis K) = _
        rw [O₄]
        show _ = ({ st.obj with
          u := t₄.obj.u, spin2tb := t₄.obj.spin2tb, antiSym := true } : HBasis K)
        rw [O₄]

/-! ## Spin doubling -/

theorem put_a_ok (hx : st.mem.val (some i) = some x) (ok : st.Ok) :
    (st.put fun o => { o with a := some i }).Ok := by
  refine put_ok (r := some i) ?_ rfl ?_ ok
  · simp [slots, HState.put]
  · rintro j ⟨⟩
    exact val_lt hx

theorem put_b_ok (hx : st.mem.val (some i) = some x) (ok : st.Ok) :
    (st.put fun o => { o with b := some i }).Ok := by
  refine put_ok (r := some i) ?_ rfl ?_ ok
  · simp [slots, HState.put]
  · rintro j ⟨⟩
    exact val_lt hx

theorem put_view_a (hx : st.mem.val (some i) = some x) :
    (st.put fun o => { o with a := some i }).view = { st.view with a := some x } := by
  simp [HState.view, HState.put, HBasis.view, hx]

theorem put_view_b (hx : st.mem.val (some i) = some x) :
    (st.put fun o => { o with b := some i }).view = { st.view with b := some x } := by
  simp [HState.view, HState.put, HBasis.view, hx]

theorem val_push_of {m : Mem K} {y : NDArray K} (h : m.val (some i) = some x) :
    Mem.val (m ++ [y]) (some i) = some x := by
  rw [Mem.val_of_prefix (List.prefix_append m [y])]
  · exact h
  · rintro j ⟨⟩
    exact val_lt h

theorem sim_setupSpin {overlap : NDArray K} {a b : List K} :
    Sim st (fun _ _ _ => True) (BasisSet.setupSpin overlap a b)
      (HBasis.setupSpin overlap a b) := by
  unfold BasisSet.setupSpin HBasis.setupSpin
  refine sim_get_l (sim_self (sim_lift fun _ _ => ?_))
  refine sim_new (sim_assign_bind (fun _ => put_view_a (Mem.val_push _ _))
    (put_a_ok (Mem.val_push _ _)) ?_)
  refine sim_new (sim_assign_bind (fun _ => put_view_b (Mem.val_push _ _))
    (put_b_ok (Mem.val_push _ _)) ?_)
  have hnp : st.view.np = st.obj.np := rfl
  rw [hnp]
  generalize st.obj.np = np
  generalize HState.put (K := K) (HState.push _ _) _ = t
  refine sim_lift fun c _ => sim_assert fun _ => sim_lift fun c _ => sim_assert fun _ =>
    sim_lift fun c _ => sim_assert fun _ => sim_lift fun xyz _ => ?_
  obtain ⟨x, y, z⟩ := xyz
  refine sim_new (sim_new (sim_new ?_))
  refine sim_bind (sim_setSigma (val_push_of (val_push_of (Mem.val_push _ _)))
    (val_push_of (Mem.val_push _ _)) (Mem.val_push _ _)) ?_
  rintro _ _ t - - - -
  refine sim_new (sim_bind (sim_setSpinX (Mem.val_push _ _)) ?_)
  rintro _ _ t - - - -
  refine sim_new (sim_bind (sim_setSpinY (Mem.val_push _ _)) ?_)
  rintro _ _ t - - - -
  refine sim_new (sim_bind (sim_setSpinZ (Mem.val_push _ _)) ?_)
  rintro _ _ t - - - -
  refine sim_get_l (sim_self (sim_fetch ?_))
  refine sim_lift fun sx _ => sim_fetch (sim_lift fun sy _ => sim_fetch (sim_lift fun sz _ =>
    sim_fetch (sim_lift fun s _ => sim_lift fun sq _ => ?_)))
  obtain ⟨s2, tb⟩ := sq
  refine sim_new (sim_bind (sim_setSpin2 (Mem.val_push _ _)) ?_)
  rintro _ _ t - - - -
  refine sim_new (sim_mono (sim_setSpin2tb (Mem.val_push _ _)) fun _ _ _ _ _ _ _ => trivial)

theorem sim_doubleDipole :
    Sim st (fun _ _ _ => True) BasisSet.doubleDipole HBasis.doubleDipole := by
  unfold BasisSet.doubleDipole HBasis.doubleDipole
  refine sim_get_l (sim_self (sim_fetch ?_))
  have vs : st.view.dipole = st.mem.val st.obj.dipole := rfl
  rw [vs]
  cases st.mem.val st.obj.dipole with
  | none => exact sim_pure trivial
  | some d =>
    exact sim_lift fun n _ => sim_lift fun ys _ => sim_lift fun arr _ =>
      sim_new (sim_mono (sim_setDipole (Mem.val_push _ _)) fun _ _ _ _ _ _ _ => trivial)

theorem sim_doubleSpf :
    Sim st (fun _ _ _ => True) BasisSet.doubleSpf HBasis.doubleSpf := by
  refine sim_ok fun ok => ?_
  unfold BasisSet.doubleSpf HBasis.doubleSpf
  refine sim_get_l (sim_self (sim_fetch ?_))
  have vs : st.view.spf = st.mem.val st.obj.spf := rfl
  rw [vs]
  cases e : st.mem.val st.obj.spf with
  | none => exact sim_pure trivial
  | some spf =>
    refine sim_lift fun spf' hs => sim_new (sim_bind (sim_setSpf (Mem.val_push _ _)
      (realTyped_addSpinSpf (ok.real _ e) hs)) ?_)
    rintro _ _ t - - - -
    refine sim_get_l (sim_self (sim_fetch ?_))
    have vs : t.view.braSpf = t.mem.val t.obj.braSpf := rfl
    rw [vs]
    cases t.mem.val t.obj.braSpf with
    | none => exact sim_pure trivial
    | some bra =>
      exact sim_lift fun bra' _ =>
        sim_new (sim_mono (sim_setBra (Mem.val_push _ _)) fun _ _ _ _ _ _ _ => trivial)

theorem put_spin_ok (ok : st.Ok) : (st.put fun o => { o with includesSpin := true }).Ok :=
  ⟨fun i hi => ok.bound i hi, fun y hy => ok.real y hy⟩

/-- The eleven arrays that `change_module` and `cast_to_complex` treat. -/
def HBasis.eleven (o : HBasis K) : List (Option ℕ) :=
  [o.h, o.s, o.u, o.spf, o.braSpf, o.dipole, o.spinX, o.spinY, o.spinZ, o.spin2, o.spin2tb]

theorem RenewedAll.ge {n : ℕ} {o o' : HBasis K} (h : RenewedAll n o o') :
    ∀ i, some i ∈ o'.eleven → n ≤ i := by
  have key : ∀ r ∈ o'.eleven, ∀ i, r = some i → n ≤ i := by
    simp only [eleven, List.forall_mem_cons]
    exact ⟨h.1.2, h.2.2, h.3.2, h.4.2, h.5.2, h.6.2, h.7.2, h.8.2, h.9.2, h.10.2, h.11.2, by simp⟩
  exact fun i hi => key _ hi i rfl

theorem sim_changeToGeneralBase {a b : List K} {anti : Bool} :
    Sim st (fun r r' t => r = r' ∧ (r = false → st.obj.includesSpin = true ∧ t = st) ∧
        (r = true → ∀ i, some i ∈ t.obj.eleven → st.mem.length ≤ i))
      (BasisSet.changeToGeneralBase a b anti) (HBasis.changeToGeneralBase a b anti) := by
  unfold BasisSet.changeToGeneralBase HBasis.changeToGeneralBase
  refine sim_get_l (sim_self ?_)
  have hi : st.view.includesSpin = st.obj.includesSpin := rfl
  rw [hi]
  split
  · rename_i h
    exact sim_pure ⟨rfl, fun _ => ⟨h, rfl⟩, by rintro ⟨⟩⟩
  refine sim_assign_bind (fun _ => rfl) put_spin_ok ?_
  refine sim_assign_bind (fun _ => rfl) (put_l_ok (f := fun l => 2 * l)) ?_
  generalize ht : HState.put (HState.put st _) _ = t
  have hl : st.mem.length ≤ t.mem.length := by rw [← ht]; exact le_rfl
  clear ht
  refine sim_get_l (sim_self (sim_fetch ?_))
  refine sim_lift fun overlap _ => sim_fetch (sim_lift fun h _ => ?_)
  refine sim_new (sim_bind (sim_setH (Mem.val_push _ _)) ?_)
  rintro _ _ t₁ p₁ - - -
  refine sim_get_l (sim_self (sim_fetch ?_))
  refine sim_lift fun s _ => ?_
  refine sim_new (sim_bind (sim_setS (Mem.val_push _ _)) ?_)
  rintro _ _ t₂ p₂ - - -
  refine sim_get_l (sim_self (sim_fetch ?_))
  refine sim_lift fun u _ => ?_
  refine sim_new (sim_bind (sim_setU (Mem.val_push _ _)) ?_)
  rintro _ _ t₃ p₃ - - -
  refine sim_get_l (sim_get_r ?_)
  have l₃ : st.mem.length ≤ t₃.mem.length := by
    have q₁ := p₁.length_le
    have q₂ := p₂.length_le
    have q₃ := p₃.length_le
    simp only [HState.push, List.length_append] at q₁ q₂ q₃
    omega
  clear hl p₁ p₂ p₃
  -- the last two steps
  have f₁ : ∀ t : HState K, st.mem.length ≤ t.mem.length →
      Sim t (fun r r' t => r = r' ∧ (r = false → st.obj.includesSpin = true ∧ t = st) ∧
        (r = true → ∀ i, some i ∈ t.obj.eleven → st.mem.length ≤ i))
        (do BasisSet.doubleDipole; BasisSet.doubleSpf; BasisSet.castToComplex; pure true)
        (do HBasis.doubleDipole; HBasis.doubleSpf; HBasis.castToComplex; pure true) := by
    intro t hl
    refine sim_bind sim_doubleDipole ?_
    rintro _ _ s₁ p₁ - - -
    refine sim_bind sim_doubleSpf ?_
    rintro _ _ s₂ p₂ - - -
    refine sim_bind sim_castToComplex ?_
    rintro _ _ s₃ p₃ - - ⟨s, b, -, hr⟩
    refine sim_pure ⟨rfl, by rintro ⟨⟩, fun _ i hi => ?_⟩
    exact hl.trans (p₁.length_le.trans (p₂.length_le.trans (hr.ge i hi)))
  have f₂ : ∀ t : HState K, st.mem.length ≤ t.mem.length →
      Sim t (fun r r' t => r = r' ∧ (r = false → st.obj.includesSpin = true ∧ t = st) ∧
        (r = true → ∀ i, some i ∈ t.obj.eleven → st.mem.length ≤ i))
        (do
          if anti = true then BasisSet.antiSymmetrizeTwoBody
          BasisSet.doubleDipole; BasisSet.doubleSpf; BasisSet.castToComplex; pure true)
        (do
          if anti = true then HBasis.antiSymmetrizeTwoBody
          HBasis.doubleDipole; HBasis.doubleSpf; HBasis.castToComplex; pure true) := by
    intro t hl
    cases anti with
    | true =>
      refine sim_bind sim_antiSymmetrizeTwoBody ?_
      rintro _ _ s₁ p₁ - - -
      exact f₁ s₁ (hl.trans p₁.length_le)
    | false => exact f₁ t hl
  rw [uRepr_view]
  have hc : t₃.view.cls = t₃.obj.cls := rfl
  rw [hc]
  by_cases hc : ¬ (t₃.obj.cls = .sincDVR ∧ uRepr t₃.mem t₃.obj = .two)
  · rw [if_pos hc, if_pos hc]
    refine sim_bind (sim_setupSpin (K := K)) ?_
    rintro _ _ s₁ p₁ - - -
    exact f₂ s₁ (l₃.trans p₁.length_le)
  · rw [if_neg hc, if_neg hc]
    exact f₂ t₃ l₃

end QS
