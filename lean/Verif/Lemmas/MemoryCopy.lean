import Verif.Lemmas.MemoryChange

/-!
# `copy_basis` on array objects
-/

namespace QS

open PyM HBasis

variable {K : Type} [PyScalar K] {st : HState K} {i n : ℕ} {x : NDArray K}

/-- The memo of `copy.deepcopy`: every entry is a copy with a number of at least `n`, and different
arrays have different copies. -/
structure GoodMemo (n : ℕ) (m : Mem K) (memo : List (ℕ × ℕ)) : Prop where
  copy : ∀ i j, memo.lookup i = some j → i < n ∧ n ≤ j ∧ j < m.length ∧ m[j]? = m[i]?
  inj : ∀ i i' j, memo.lookup i = some j → memo.lookup i' = some j → i = i'

theorem lookup_ne {i k v : ℕ} {memo : List (ℕ × ℕ)} (h : k ≠ i) :
    ((i, v) :: memo).lookup k = memo.lookup k := by
  have : (k == i) = false := by simpa using h
  rw [List.lookup_cons, this]

theorem run_get_bind {σ β : Type} {s : σ} {g : σ → PyM σ β} :
    ((PyM.get : PyM σ σ) >>= g).run s = (g s).run s := rfl

theorem run_modify_bind {σ β : Type} {s : σ} {f : σ → σ} {g : Unit → PyM σ β} :
    (modify f >>= g).run s = (g ()).run (f s) := rfl

theorem run_lift_ok_bind {σ α β : Type} {s : σ} {a : α} {g : α → PyM σ β} :
    ((liftM (Except.ok a : Except PyErr α) : PyM σ α) >>= g).run s = (g a).run s := rfl

theorem deepcopyRefs_run {n : ℕ} : ∀ (rs : List (Option ℕ)) (memo : List (ℕ × ℕ)) (s : HState K),
    n ≤ s.mem.length → (∀ i, some i ∈ rs → i < n) → GoodMemo n s.mem memo →
    ∃ memo' s', (deepcopyRefs memo rs).run s = (.ok (rs.map (·.bind (memo'.lookup ·))), s') ∧
      s'.obj = s.obj ∧ s.mem <+: s'.mem ∧ GoodMemo n s'.mem memo' ∧
      (∀ i, some i ∈ rs → (memo'.lookup i).isSome) ∧
      ∀ i j, memo.lookup i = some j → memo'.lookup i = some j := by
  intro rs
  induction rs with
  | nil => exact fun memo s _ _ hg => ⟨memo, s, rfl, rfl, List.prefix_rfl, hg, by simp, fun _ _ h => h⟩
  | cons r rs ih =>
    intro memo s hn hb hg
    have hb' : ∀ i, some i ∈ rs → i < n := fun i hi => hb i (List.mem_cons_of_mem _ hi)
    -- the first attribute
    have first : ∃ memo₁ s₁, (deepcopyRef memo r).run s = (.ok (r.bind (memo₁.lookup ·), memo₁), s₁) ∧
        s₁.obj = s.obj ∧ s.mem <+: s₁.mem ∧ GoodMemo n s₁.mem memo₁ ∧
        (∀ i, r = some i → (memo₁.lookup i).isSome) ∧
        ∀ i j, memo.lookup i = some j → memo₁.lookup i = some j := by
      cases r with
      | none => exact ⟨memo, s, rfl, rfl, List.prefix_rfl, hg, by rintro i ⟨⟩, fun _ _ h => h⟩
      | some i =>
        have hi : i < n := hb i (by simp)
        have hx : s.mem.val (some i) = some s.mem[i] := List.getElem?_eq_getElem (hi.trans_le hn)
        generalize s.mem[i] = x at hx
        cases hl : memo.lookup i with
        | some j =>
          refine ⟨memo, s, ?_, rfl, List.prefix_rfl, hg, ?_, fun _ _ h => h⟩
          · unfold deepcopyRef
            show (match some i, s.mem.val (some i) with
              | some i, some x => (match memo.lookup i with
                | some j => pure (some j, memo)
                | none => new x >>= fun j => pure (some j, (i, j) :: memo))
              | _, _ => (pure (none, memo) : PyM (HState K) (Option ℕ × List (ℕ × ℕ)))).run s = _
            rw [hx]
            simp only [hl]
            simp [hl]
          · rintro k ⟨⟩
            rw [hl]
            rfl
        | none =>
          have hx' : s.mem[i]? = some x := hx
          refine ⟨(i, s.mem.length) :: memo, s.push x, ?_, rfl, List.prefix_append _ _,
            ⟨fun k j hk => ?_, fun k k' j hk hk' => ?_⟩, ?_, fun k j hk => ?_⟩
          · unfold deepcopyRef
            show (match some i, s.mem.val (some i) with
              | some i, some x => (match memo.lookup i with
                | some j => pure (some j, memo)
                | none => new x >>= fun j => pure (some j, (i, j) :: memo))
              | _, _ => (pure (none, memo) : PyM (HState K) (Option ℕ × List (ℕ × ℕ)))).run s = _
            rw [hx]
            simp only [hl]
            simp [List.lookup]
            rfl
          · show k < n ∧ n ≤ j ∧ j < (s.mem ++ [x]).length ∧ (s.mem ++ [x])[j]? = (s.mem ++ [x])[k]?
            by_cases hki : k = i
            · subst hki
              simp only [List.lookup, beq_self_eq_true, Option.some.injEq] at hk
              subst hk
              refine ⟨hi, hn, by simp, ?_⟩
              rw [List.getElem?_append_left (hi.trans_le hn), hx']
              simp
            · rw [lookup_ne hki] at hk
              obtain ⟨h₁, h₂, h₃, h₄⟩ := hg.copy k j hk
              refine ⟨h₁, h₂, by simp; omega, ?_⟩
              rw [List.getElem?_append_left h₃, List.getElem?_append_left (h₁.trans_le hn), h₄]
          · by_cases hki : k = i <;> by_cases hki' : k' = i
            · rw [hki, hki']
            · subst hki
              rw [lookup_ne hki'] at hk'
              simp only [List.lookup, beq_self_eq_true, Option.some.injEq] at hk
              have := (hg.copy k' j hk').2.2.1
              omega
            · subst hki'
              rw [lookup_ne hki] at hk
              simp only [List.lookup, beq_self_eq_true, Option.some.injEq] at hk'
              have := (hg.copy k j hk).2.2.1
              omega
            · rw [lookup_ne hki] at hk
              rw [lookup_ne hki'] at hk'
              exact hg.inj k k' j hk hk'
          · rintro k ⟨⟩
            simp [List.lookup]
          · have hki : k ≠ i := by
              rintro rfl
              rw [hl] at hk
              cases hk
            rw [lookup_ne hki]
            exact hk
    obtain ⟨memo₁, s₁, r₁, o₁, p₁, g₁, h₁, e₁⟩ := first
    obtain ⟨memo', s', r', o', p', g', h', e'⟩ := ih memo₁ s₁ (hn.trans p₁.length_le) hb' g₁
    refine ⟨memo', s', ?_, o'.trans o₁, p₁.trans p', g', fun i hi => ?_, fun i j h => e' i j (e₁ i j h)⟩
    · unfold deepcopyRefs
      refine (run_bind_ok r₁).trans ((run_bind_ok r').trans ?_)
      have : r.bind (memo₁.lookup ·) = r.bind (memo'.lookup ·) := by
        cases r with
        | none => rfl
        | some i =>
          obtain ⟨j, hj⟩ := Option.isSome_iff_exists.1 (h₁ i rfl)
          show memo₁.lookup i = memo'.lookup i
          rw [hj, e' i j hj]
      simp [this]
    · rcases List.mem_cons.1 hi with h | h
      · obtain ⟨j, hj⟩ := Option.isSome_iff_exists.1 (h₁ i h.symm)
        rw [e' i j hj]
        rfl
      · exact h' i h

theorem goodMemo_nil {m : Mem K} : GoodMemo n m [] := ⟨by simp, by simp⟩

theorem withSlots_map (o : HBasis K) (g : Option ℕ → Option ℕ) :
    (o.withSlots (o.slots.map g)).slots = o.slots.map g := rfl

/-- What is seen through the copies is what is seen through the originals. -/
theorem withSlots_view {o : HBasis K} {m m' : Mem K} {g : Option ℕ → Option ℕ}
    (h : ∀ r ∈ o.slots, m'.val (g r) = m.val r) :
    (o.withSlots (o.slots.map g)).view m' = o.view m := by
  simp only [slots, List.forall_mem_cons] at h
  simp only [HBasis.view, HBasis.withSlots, slots, List.map_cons, List.getD_cons_zero,
    List.getD_cons_succ, h]

/-- `change_module` keeps references or takes new ones. -/
theorem ModuleOf.slots {same : Bool} {np : Option Module} {s : HState K}
    (h : ModuleOf same np st s ∨ (st.obj.cls = .sincDVR ∧ s.obj = { st.obj with np := np })) :
    ∀ i, some i ∈ s.obj.slots → some i ∈ st.obj.slots ∨ st.mem.length ≤ i := by
  rcases h with ⟨t, b, ⟨-, hb, hb'⟩, h₁, h₂⟩ | ⟨-, h⟩
  · have hbs : ∀ i, b = some i → some i ∈ st.obj.slots ∨ st.mem.length ≤ i := by
      intro i hi
      cases e : st.obj.braSpf with
      | some j =>
        left
        rw [← hi, hb (by rw [e]; rfl)]
        simp [HBasis.slots]
      | none =>
        rcases hb' e with h | h
        · left
          rw [← hi, h]
          simp [HBasis.slots]
        · exact .inr (h.2 i hi)
    have old : ∀ r ∈ st.obj.slots, ∀ i, r = some i → some i ∈ st.obj.slots ∨ st.mem.length ≤ i :=
      fun r hr i hi => .inl (hi ▸ hr)
    have key : ∀ r ∈ s.obj.slots, ∀ i, r = some i → some i ∈ st.obj.slots ∨ st.mem.length ≤ i := by
      have og := old st.obj.grid (by simp [HBasis.slots])
      have ox := old st.obj.sigmaX (by simp [HBasis.slots])
      have oy := old st.obj.sigmaY (by simp [HBasis.slots])
      have oz := old st.obj.sigmaZ (by simp [HBasis.slots])
      have oa := old st.obj.a (by simp [HBasis.slots])
      have ob := old st.obj.b (by simp [HBasis.slots])
      cases same with
      | true =>
        have ho := h₁ rfl
        intro r hr
        have : r = b ∨ r ∈ st.obj.slots := by
          rw [ho] at hr
          revert r
          simp [HBasis.slots]
        rcases this with rfl | h
        · exact hbs
        · exact old r h
      | false =>
        obtain ⟨n1, n2, n3, n4, n5, n6, n7, n8, n9, n10, n11, rest⟩ := h₂ rfl
        rw [show s.obj.slots = HBasis.slots _ from congrArg HBasis.slots rest]
        simp only [HBasis.slots, List.forall_mem_cons]
        simp only [HBasis.slots] at og ox oy oz oa ob
        exact ⟨og, fun i hi => .inr (n1.2 i hi), fun i hi => .inr (n3.2 i hi),
          fun i hi => .inr (n2.2 i hi), fun i hi => .inr (n6.2 i hi), ox, oy, oz,
          fun i hi => .inr (n7.2 i hi), fun i hi => .inr (n8.2 i hi),
          fun i hi => .inr (n9.2 i hi), fun i hi => .inr (n10.2 i hi),
          fun i hi => .inr (n11.2 i hi), fun i hi => .inr (n4.2 i hi),
          fun i hi => .inr (n5.2 i hi), oa, ob, by simp⟩
    exact fun i hi => key _ hi i rfl
  · intro i hi
    rw [h] at hi
    exact .inl hi

/-- What `copy_basis` leaves: the copy shares no array object with the original, nor with anything
else there was. -/
structure Copied (st t : HState K) (c : HBasis K) : Prop where
  fresh : ∀ i, some i ∈ c.slots → st.mem.length ≤ i ∧ i < t.mem.length
  own : ∀ i, some i ∈ t.obj.slots → some i ∉ c.slots

theorem sim_copyBasis {same : Bool} :
    Sim st (fun a c t => a = c.view t.mem ∧ Copied st t c)
      BasisSet.copyBasis (HBasis.copyBasis same) := by
  refine sim_ok fun ok => ?_
  unfold BasisSet.copyBasis HBasis.copyBasis
  refine sim_get_l (sim_self ?_)
  refine sim_assign_bind (fun _ => rfl) put_np_ok ?_
  have he : st.view.extraModule = st.obj.extraModule := rfl
  rw [he]
  split
  · exact sim_raise
  generalize ht₀ : (st.put fun self => { self with np := none }) = t₀
  have hm₀ : t₀.mem = st.mem := by rw [← ht₀]; rfl
  refine sim_get_l (sim_self ?_)
  intro ok₀
  obtain ⟨memo, s, hr, ho, hp, hg, hsome, -⟩ := deepcopyRefs_run (n := t₀.mem.length)
    t₀.obj.slots [] t₀ le_rfl ok₀.bound goodMemo_nil
  set g : Option ℕ → Option ℕ := fun r => r.bind (memo.lookup ·) with hgdef
  set c : HBasis K := t₀.obj.withSlots (t₀.obj.slots.map g) with hc
  have hgv : ∀ r ∈ t₀.obj.slots, s.mem.val (g r) = t₀.mem.val r := by
    intro r hr'
    cases r with
    | none => rfl
    | some i =>
      obtain ⟨j, hj⟩ := Option.isSome_iff_exists.1 (hsome i hr')
      obtain ⟨h₁, -, -, h₄⟩ := hg.copy i j hj
      show s.mem.val (memo.lookup i) = _
      rw [hj]
      show s.mem[j]? = _
      rw [h₄]
      exact ok₀.val hp hr'
  have hcs : ∀ i, some i ∈ c.slots → t₀.mem.length ≤ i ∧ i < s.mem.length := by
    intro i hi
    rw [hc, withSlots_map, List.mem_map] at hi
    obtain ⟨r, hr', hri⟩ := hi
    cases r with
    | none => cases hri
    | some k =>
      obtain ⟨-, h₂, h₃, -⟩ := hg.copy k i hri
      exact ⟨h₂, h₃⟩
  have hcv : c.view s.mem = t₀.view := withSlots_view hgv
  let sc : HState K := { s with obj := c }
  have okc : sc.Ok := by
    refine ⟨fun i hi => (hcs i hi).2, fun y hy => ok₀.real y ?_⟩
    have : s.mem.val c.spf = t₀.mem.val t₀.obj.spf := hgv t₀.obj.spf (by simp [slots])
    exact this ▸ hy
  obtain ⟨sc', pc, okc', hcase⟩ := sim_changeModule (same := same) (np := st.obj.np) (st := sc) okc
  have hcview : sc.view = t₀.view := hcv
  rw [hcview] at hcase
  -- the state of the original after the copy has gone through `change_module`
  let s₁ : HState K := { s with mem := sc'.mem }
  have ps : t₀.mem <+: s₁.mem := hp.trans pc
  have ok₁ : s₁.Ok := by
    refine ⟨fun i hi => ?_, fun y hy => ok₀.real y ?_⟩
    · have hi' : some i ∈ s.obj.slots := hi
      rw [ho] at hi'
      exact (ok₀.bound i hi').trans_le ps.length_le
    · have hy' : s₁.mem.val t₀.obj.spf = some y := by rw [← ho]; exact hy
      rwa [ok₀.val ps (by simp [slots])] at hy'
  have v₁ : s₁.view = t₀.view := by
    show s.obj.view s₁.mem = _
    rw [ho]
    exact view_prefix ps ok₀.bound
  have hnp : st.view.np = st.obj.np := rfl
  rw [hnp]
  rcases hcase with ⟨_, _, rp, rq, hmod⟩ | ⟨e, rp, rq⟩
  · -- the original
    obtain ⟨t, pt, okt, h⟩ := sim_changeModule (same := same) (np := st.obj.np) (st := s₁) ok₁
    rw [v₁] at h
    rcases h with ⟨_, _, rp', rq', hmod'⟩ | ⟨e, rp', rq'⟩
    · refine ⟨t, ps.trans pt, okt, .inl ⟨sc'.view, sc'.obj, ?_, ?_, ?_, ?_, ?_⟩⟩
      · have rp₁ : BasisSet.changeModule st.obj.np t₀.view = (.ok (), sc'.view) := rp
        simp only [rp₁]
        refine (run_bind_ok (a := ()) (s' := t₀.view) rfl).trans ?_
        exact (run_bind_ok rp').trans rfl
      · refine (run_bind_ok hr).trans ?_
        have rq₁ : HBasis.changeModule same st.obj.np { s with obj := c } = (.ok (), sc') := rq
        refine run_get_bind.trans ?_
        simp only [← hc, rq₁]
        refine run_modify_bind.trans (run_lift_ok_bind.trans ?_)
        exact (run_bind_ok rq').trans rfl
      · exact (view_prefix pt okc'.bound).symm
      · intro i hi
        refine ⟨?_, (okc'.bound i hi).trans_le pt.length_le⟩
        rw [← hm₀]
        rcases ModuleOf.slots hmod i hi with h | h
        · exact (hcs i h).1
        · exact hp.length_le.trans h
      · intro i hi hi'
        have lo : i < sc'.mem.length := okc'.bound i hi'
        rcases ModuleOf.slots hmod' i hi with h | h
        · have h' : i < t₀.mem.length := ok₀.bound i (by rw [← ho]; exact h)
          rcases ModuleOf.slots hmod i hi' with h | h
          · have := (hcs i h).1
            omega
          · have h₁ := hp.length_le
            have h₂ : s.mem.length ≤ i := h
            omega
        · have : sc'.mem.length ≤ i := h
          omega
    · refine ⟨t, ps.trans pt, okt, .inr ⟨e, ?_, ?_⟩⟩
      · have rp₁ : BasisSet.changeModule st.obj.np t₀.view = (.ok (), sc'.view) := rp
        simp only [rp₁]
        refine (run_bind_ok (a := ()) (s' := t₀.view) rfl).trans ?_
        exact run_bind_error rp'
      · refine (run_bind_ok hr).trans ?_
        have rq₁ : HBasis.changeModule same st.obj.np { s with obj := c } = (.ok (), sc') := rq
        refine run_get_bind.trans ?_
        simp only [← hc, rq₁]
        refine run_modify_bind.trans (run_lift_ok_bind.trans ?_)
        exact run_bind_error rq'
  · refine ⟨s₁, ps, ok₁, .inr ⟨e, ?_, ?_⟩⟩
    · rw [v₁]
      have rp₁ : BasisSet.changeModule st.obj.np t₀.view = (.error e, sc'.view) := rp
      simp only [rp₁]
      rfl
    · refine (run_bind_ok hr).trans ?_
      have rq₁ : HBasis.changeModule same st.obj.np { s with obj := c } = (.error e, sc') := rq
      refine run_get_bind.trans ?_
      simp only [← hc, rq₁]
      rfl

end QS
