import Verif.Lemmas.SharedCopies
import Verif.Props.Systems

/-! # C33, C35: copies of systems that share objects -/

namespace QS.Props

open NDArray PyM BasisSet World Demo

variable {K T : Type} [PyScalar K]

/-- **C33** `copy_system` whatever objects are shared: the systems that can be reached through
operators are copied with the system, all to new systems.  The copies are related to each other as the
originals are: they lead to each other in the same way, and they share basis sets and operators with
each other exactly where the originals do, but share none with any existing system.  Every copy reports
what its original reported, and so does every existing system. -/
theorem C33_shared {w w' : World K T} {s new : ℕ} {x : Sys} {b : BasisSet K} (ok : SysOK w s x b) (cl : w.Closed)
    (run : (World.copySystem s).run w = (.ok new, w')) :
    ∃ ρ : ℕ → ℕ, ρ s = new ∧
      (∀ r, w.Reaches s r → w.systems.length ≤ ρ r ∧ SameReports w r w' (ρ r)) ∧
      (∀ r r', w.Reaches s r → w.Reaches s r' → ρ r = ρ r' → r = r') ∧
      (∀ j, w'.Reaches new j ↔ ∃ r, w.Reaches s r ∧ ρ r = j) ∧
      (∀ j, j < w.systems.length → SameReports w j w' j) ∧
      (∀ j z, j < w.systems.length → w'.systems[j]? = some z → w.systems[j]? = some z) ∧
      ∀ r r' z z' y y', w.Reaches s r → w.Reaches s r' → w.systems[r]? = some z → w.systems[r']? = some z' →
        w'.systems[ρ r]? = some y → w'.systems[ρ r']? = some y' →
        w.bases.length ≤ y.basis ∧ (y.basis = y'.basis ↔ z.basis = z'.basis) ∧
        (∀ o, y.op = some o → w.ops.length ≤ o) ∧ (y.op = y'.op ↔ z.op = z'.op) := by
  rw [copySystem_shared cl ok] at run
  split at run
  · cases run
  simp only [Prod.mk.injEq, Except.ok.injEq] at run
  obtain ⟨rfl, rfl⟩ := run
  have hm : ∀ {r}, r ∈ copiedSystems w s x b ↔ w.Reaches s r := fun {r} => mem_copied cl ok.sys ok.basis
  have hlts := lt_of_get ok.sys
  have hltb := lt_of_get ok.basis
  have hs0 : s ∈ copiedSystems w s x b := hm.2 .refl
  have hb0 : (bare w s x b).systems[s]? = some { x with np := none } := get_set ok.sys _
  have hb1 : (bare w s x b).bases[x.basis]? = some { b with np := none } := get_set ok.basis _
  have hge : ∀ {r}, w.Reaches s r → w.systems.length ≤ rename w.systems.length (copiedSystems w s x b) r :=
    fun h => rename_ge (hm.2 h)
  have hinj : ∀ {r r'}, w.Reaches s r → w.Reaches s r' → rename w.systems.length (copiedSystems w s x b) r =
      rename w.systems.length (copiedSystems w s x b) r' → r = r' := fun h h' e => rename_inj (hm.2 h) (hm.2 h') e
  have hmb : ∀ {r z}, w.Reaches s r → w.systems[r]? = some z →
      z.basis ∈ ((bare w s x b).reachBases (copiedSystems w s x b)).dedup := fun {r z} h hz => by
    obtain ⟨z', h1, h2, -, -⟩ := bare_sys (c := b) ok.sys r hz
    rw [← h2]; exact mem_bases (hm.2 h) h1
  have hmo : ∀ {r z o}, w.Reaches s r → w.systems[r]? = some z → z.op = some o →
      o ∈ ((bare w s x b).reachOps (copiedSystems w s x b)).dedup := fun {r z o} h hz ho => by
    obtain ⟨z', h1, -, h2, -⟩ := bare_sys (c := b) ok.sys r hz
    exact mem_ops (hm.2 h) h1 (h2.trans ho)
  have hval : ∀ {r}, w.Reaches s r → ∃ z, w.systems[r]? = some z := fun {r} h => by
    obtain ⟨z', hz'⟩ := (copied_facts cl ok.sys ok.basis).1 r (hm.2 h)
    obtain ⟨z, hz, -⟩ := bare_sys' ok.sys r hz'
    exact ⟨z, hz⟩
  -- the new systems
  have newSys : ∀ {r z}, w.Reaches s r → w.systems[r]? = some z →
      (sharedCopy w s x b).systems[rename w.systems.length (copiedSystems w s x b) r]? = some { z with
        basis := rename w.bases.length ((bare w s x b).reachBases (copiedSystems w s x b)).dedup z.basis
        op := z.op.map (rename w.ops.length ((bare w s x b).reachOps (copiedSystems w s x b)).dedup) } := by
    intro r z hr hz
    have hne : rename w.systems.length (copiedSystems w s x b) r ≠ s := by have := hge hr; omega
    rw [sharedCopy]
    dsimp only
    rw [get_set_ne hne, halfCopy]
    dsimp only
    by_cases h : r = s
    · subst h
      obtain rfl := Option.some.inj (ok.sys.symm.trans hz)
      exact get_set (deepCopied_sys cl ok.sys ok.basis hs0 hb0) _
    · obtain ⟨z', h1, -, -, h2⟩ := bare_sys (c := b) ok.sys r hz
      obtain rfl := h2 h
      rw [get_set_ne (fun e => h (hinj hr .refl e))]
      exact deepCopied_sys cl ok.sys ok.basis (hm.2 hr) h1
  have newBasis : ∀ {r z d}, w.Reaches s r → w.systems[r]? = some z → w.bases[z.basis]? = some d →
      ∃ d', (sharedCopy w s x b).bases[rename w.bases.length
        ((bare w s x b).reachBases (copiedSystems w s x b)).dedup z.basis]? = some d' ∧ (d' = d ∨ d' = withBra d) := by
    intro r z d hr hz hd
    have hne : rename w.bases.length ((bare w s x b).reachBases (copiedSystems w s x b)).dedup z.basis ≠ x.basis := by
      have := rename_ge (base := w.bases.length) (hmb hr hz); omega
    rw [sharedCopy]
    dsimp only
    rw [get_set_ne hne, halfCopy]
    dsimp only
    by_cases h : z.basis = x.basis
    · rw [h] at hd ⊢
      obtain rfl := Option.some.inj (ok.basis.symm.trans hd)
      refine ⟨_, get_set (deepCopied_basis cl ok.sys ok.basis (hmb .refl ok.sys) |>.trans hb1) _, .inr rfl⟩
    · rw [get_set_ne (fun e => h (rename_inj (hmb hr hz) (hmb .refl ok.sys) e)),
        deepCopied_basis cl ok.sys ok.basis (hmb hr hz)]
      exact ⟨d, (get_set_ne h _).trans hd, .inl rfl⟩
  have newOp : ∀ {r z o y}, w.Reaches s r → w.systems[r]? = some z → z.op = some o → w.ops[o]? = some y →
      (sharedCopy w s x b).ops[rename w.ops.length ((bare w s x b).reachOps (copiedSystems w s x b)).dedup o]? =
        some { y with system := y.system.map (rename w.systems.length (copiedSystems w s x b)) } :=
    fun hr hz ho hy => deepCopied_op cl ok.sys ok.basis (hmo hr hz ho) hy
  -- the old systems
  have oldSys : ∀ {j : ℕ} {z : Sys}, w.systems[j]? = some z → (sharedCopy w s x b).systems[j]? = some z := by
    intro j z hz
    have hj := lt_of_get hz
    have hne : j ≠ rename w.systems.length (copiedSystems w s x b) s := by have := hge .refl; omega
    have e : (halfCopy w s x b).systems[j]? = (bare w s x b).systems[j]? := by
      rw [halfCopy]
      dsimp only
      rw [get_set_ne hne]
      exact List.getElem?_append_left (by simpa [bare] using hj)
    rw [sharedCopy]
    dsimp only
    by_cases h : j = s
    · subst h
      obtain rfl := Option.some.inj (ok.sys.symm.trans hz)
      exact get_set (e.trans hb0) _
    · rw [get_set_ne h, e]
      exact (get_set_ne h _).trans hz
  have oldBasis : ∀ {i : ℕ} {d : BasisSet K}, w.bases[i]? = some d →
      ∃ d', (sharedCopy w s x b).bases[i]? = some d' ∧ (d' = d ∨ d' = withBra d) := by
    intro i d hd
    have hi := lt_of_get hd
    have hne : i ≠ rename w.bases.length ((bare w s x b).reachBases (copiedSystems w s x b)).dedup x.basis := by
      have := rename_ge (base := w.bases.length) (hmb .refl ok.sys); omega
    have e : (halfCopy w s x b).bases[i]? = (bare w s x b).bases[i]? := by
      rw [halfCopy]
      dsimp only
      rw [get_set_ne hne]
      exact List.getElem?_append_left (by simpa [bare] using hi)
    rw [sharedCopy]
    dsimp only
    by_cases h : i = x.basis
    · subst h
      obtain rfl := Option.some.inj (ok.basis.symm.trans hd)
      exact ⟨_, get_set (e.trans hb1) _, .inr rfl⟩
    · rw [get_set_ne h, e]
      exact ⟨d, (get_set_ne h _).trans hd, .inl rfl⟩
  have oldOp : ∀ {o : ℕ} {y : TEOp K T}, w.ops[o]? = some y → (sharedCopy w s x b).ops[o]? = some y := fun hy => get_append hy _
  refine ⟨rename w.systems.length (copiedSystems w s x b), rfl, fun r hr => ⟨hge hr, ?_⟩, fun r r' h h' => hinj h h',
    fun j => ⟨fun h => ?_, ?_⟩, fun j hj => ?_, fun j z hj hz => ?_, ?_⟩
  · refine sameReports_map (J := w.Reaches s)
      (g := rename w.bases.length ((bare w s x b).reachBases (copiedSystems w s x b)).dedup)
      (k := rename w.ops.length ((bare w s x b).reachOps (copiedSystems w s x b)).dedup) (fun r hr => ?_) hr
    obtain ⟨z, hz⟩ := hval hr
    obtain ⟨d, hd⟩ := cl.basis r z hz
    refine ⟨z, hz, newSys hr hz, ⟨d, hd, newBasis hr hz hd⟩, fun o ho => ?_⟩
    obtain ⟨y, hy⟩ := cl.op r z o hz ho
    exact ⟨y, hy, newOp hr hz ho hy, fun q hq => hr.step ⟨z, hz, o, ho, y, hy, hq⟩⟩
  · induction h with
    | refl => exact ⟨s, .refl, rfl⟩
    | step _ h ih =>
      obtain ⟨r, hr, rfl⟩ := ih
      obtain ⟨z, hz⟩ := hval hr
      obtain ⟨z', hz', o', ho', y', hy', hq⟩ := h
      obtain rfl := Option.some.inj ((newSys hr hz).symm.trans hz')
      simp only [Option.map_eq_some_iff] at ho'
      obtain ⟨o, ho, rfl⟩ := ho'
      obtain ⟨y, hy⟩ := cl.op r z o hz ho
      obtain rfl := Option.some.inj ((newOp hr hz ho hy).symm.trans hy')
      simp only [Option.map_eq_some_iff] at hq
      obtain ⟨q, hq, rfl⟩ := hq
      exact ⟨q, hr.step ⟨z, hz, o, ho, y, hy, hq⟩, rfl⟩
  · rintro ⟨r, hr, rfl⟩
    induction hr with
    | refl => exact .refl
    | step hr h ih =>
      obtain ⟨z, hz, o, ho, y, hy, hq⟩ := h
      exact ih.step ⟨_, newSys hr hz, _, by simp [ho], _, newOp hr hz ho hy, by simp [hq]⟩
  · refine sameReports_map (J := fun j => j < w.systems.length) (f := id) (g := id) (k := id) (fun j hj => ?_) hj
    have hz : w.systems[j]? = some w.systems[j] := List.getElem?_eq_getElem hj
    obtain ⟨d, hd⟩ := cl.basis j _ hz
    refine ⟨_, hz, ?_, ⟨d, hd, oldBasis hd⟩, fun o ho => ?_⟩
    · simpa using oldSys hz
    · obtain ⟨y, hy⟩ := cl.op j _ o hz ho
      exact ⟨y, hy, by simpa using oldOp hy, fun q hq => by
        obtain ⟨z, hz⟩ := cl.sys o y q hy hq
        exact lt_of_get hz⟩
  · have h : w.systems[j]? = some w.systems[j] := List.getElem?_eq_getElem hj
    rw [h, ← oldSys h, hz]
  · intro r r' z z' y y' hr hr' hz hz' hy hy'
    obtain rfl := Option.some.inj ((newSys hr hz).symm.trans hy)
    obtain rfl := Option.some.inj ((newSys hr' hz').symm.trans hy')
    refine ⟨rename_ge (hmb hr hz), ⟨fun e => rename_inj (hmb hr hz) (hmb hr' hz') e, fun e => by simp only [e]⟩,
      fun o ho => ?_, ⟨fun e => ?_, fun e => by simp only [e]⟩⟩
    · simp only [Option.map_eq_some_iff] at ho
      obtain ⟨o', ho', rfl⟩ := ho
      exact rename_ge (hmo hr hz ho')
    · dsimp only at e
      rcases h1 : z.op with _ | o1 <;> rcases h2 : z'.op with _ | o2
      · rfl
      · rw [h1, h2] at e; cases e
      · rw [h1, h2] at e; cases e
      · rw [h1, h2] at e
        rw [rename_inj (hmo hr hz h1) (hmo hr' hz' h2) (Option.some.inj e)]

/-- **C35** (what happens) `copy_system` raises exactly if one of the systems that can be reached through
operators, other than the system itself, still holds its module, or a basis set of such a system does,
or the basis set of one of them refers to a module elsewhere.  What is raised is `TypeError`, and the
system and its basis set have lost their module. -/
theorem C35_actual_shared {w : World K T} {s : ℕ} {x : Sys} {b : BasisSet K} (ok : SysOK w s x b) (cl : w.Closed) :
    ((∃ new w', (World.copySystem s).run w = (.ok new, w')) ↔
      ∀ r z d, w.Reaches s r → w.systems[r]? = some z → w.bases[z.basis]? = some d →
        (r ≠ s → z.np = none) ∧ (z.basis ≠ x.basis → d.np = none) ∧ d.extraModule = false) ∧
    ∀ e w', (World.copySystem s).run w = (.error e, w') → e = .type ∧
      w' = { bases := w.bases.set x.basis { b with np := none }
             systems := w.systems.set s { x with np := none }, ops := w.ops } := by
  rw [copySystem_shared cl ok]
  have hm : ∀ {r}, r ∈ copiedSystems w s x b ↔ w.Reaches s r := fun {r} => mem_copied cl ok.sys ok.basis
  have key : (bare w s x b).holdsModule (copiedSystems w s x b) = false ↔
      ∀ r z d, w.Reaches s r → w.systems[r]? = some z → w.bases[z.basis]? = some d →
        (r ≠ s → z.np = none) ∧ (z.basis ≠ x.basis → d.np = none) ∧ d.extraModule = false := by
    have hb0 : (bare w s x b).systems[s]? = some { x with np := none } := get_set ok.sys _
    have hb1 : (bare w s x b).bases[x.basis]? = some { b with np := none } := get_set ok.basis _
    unfold holdsModule
    rw [List.any_eq_false]
    constructor
    · intro h r z d hr hz hd
      have h := h r (hm.2 hr)
      obtain ⟨z', h1, h2, -, h3⟩ := bare_sys (c := b) ok.sys r hz
      rw [h1] at h
      simp only [h2] at h
      by_cases hb : z.basis = x.basis
      · rw [hb] at hd
        obtain rfl := Option.some.inj (ok.basis.symm.trans hd)
        rw [hb, hb1] at h
        simp only [Option.isSome_none, Bool.false_or, Bool.not_eq_true, Bool.or_eq_false_iff] at h
        refine ⟨fun hne => ?_, fun h => (h hb).elim, h.2⟩
        rw [← h3 hne]
        simpa using h.1
      · rw [show (bare w s x b).bases[z.basis]? = some d from (get_set_ne hb _).trans hd] at h
        simp only [Bool.not_eq_true, Bool.or_eq_false_iff] at h
        refine ⟨fun hne => ?_, fun _ => by simpa using h.2.1, h.2.2⟩
        rw [← h3 hne]
        simpa using h.1
    · intro h r hr
      obtain ⟨z', hz'⟩ := (copied_facts cl ok.sys ok.basis).1 r hr
      obtain ⟨z, hz, h2, -⟩ := bare_sys' ok.sys r hz'
      obtain ⟨d, hd⟩ := cl.basis r z hz
      obtain ⟨g1, g2, g3⟩ := h r z d (hm.1 hr) hz hd
      rw [hz']
      simp only [h2]
      have e1 : z'.np = none := by
        by_cases hrs : r = s
        · subst hrs
          obtain rfl := Option.some.inj (hb0.symm.trans hz')
          rfl
        · have : z' = z := Option.some.inj (hz'.symm.trans ((get_set_ne hrs _).trans hz))
          rw [this]; exact g1 hrs
      by_cases hb : z.basis = x.basis
      · rw [hb] at hd
        obtain rfl := Option.some.inj (ok.basis.symm.trans hd)
        rw [hb, hb1]
        simp [e1, g3]
      · rw [show (bare w s x b).bases[z.basis]? = some d from (get_set_ne hb _).trans hd]
        simp [e1, g2 hb, g3]
  constructor
  · rw [← key]
    by_cases h : (bare w s x b).holdsModule (copiedSystems w s x b) = true
    · simp [h]
    · simp [h]
  · intro e w' h
    split at h
    · simp only [Prod.mk.injEq, Except.error.injEq] at h
      exact ⟨h.1.symm, h.2.symm⟩
    · cases h

/-- Systems 0 and 1 with swapped operators, after a copy of system 0 has failed. -/
def swappedWorld : World GaussQ ℤ :=
  { bases := [{ basis with np := none }, basis]
    systems := [{ sys with np := none, op := some 0 }, { sys with basis := 1, op := some 1 }]
    ops := [{ kind := .laser (.fn fun t => .scalar .float64 ⟨t, 0⟩) none, system := some 1, cells := [] },
      { kind := .laser (.fn fun t => .scalar .float64 ⟨2 * t, 0⟩) none, system := some 0, cells := [] }] }

theorem swapped_closed : swappedWorld.Closed := by
  refine ⟨?_, ?_, ?_⟩
  · rintro (_ | _ | s) z ⟨⟩
    · exact ⟨_, rfl⟩
    · exact ⟨_, rfl⟩
  · rintro (_ | _ | s) z o ⟨⟩ ⟨⟩
    · exact ⟨_, rfl⟩
    · exact ⟨_, rfl⟩
  · rintro (_ | _ | s) z o ⟨⟩ ⟨⟩
    · exact ⟨_, rfl⟩
    · exact ⟨_, rfl⟩

theorem swapped_ok : SysOK swappedWorld 1 { sys with basis := 1, op := some 1 } basis :=
  ⟨rfl, rfl, basis_wf, rfl, by decide, rfl, rfl, rfl⟩

/-- Both systems are copied; the copy of system 1 reports the same as system 1. -/
example : ∃ new w', (World.copySystem 1).run swappedWorld = (.ok new, w') ∧ SameReports swappedWorld 1 w' new ∧
    ∃ new', w'.Reaches new new' ∧ new' ≠ new ∧ SameReports swappedWorld 0 w' new' := by
  obtain ⟨new, w', run⟩ : ∃ new w', (World.copySystem 1).run swappedWorld = (.ok new, w') := by
    refine (C35_actual_shared swapped_ok swapped_closed).1.2 fun r z d _ hz hd => ?_
    match r, hz with
    | 0, hz =>
      obtain rfl := Option.some.inj hz
      obtain rfl := Option.some.inj hd
      exact ⟨fun _ => rfl, fun _ => rfl, rfl⟩
    | 1, hz =>
      obtain rfl := Option.some.inj hz
      obtain rfl := Option.some.inj hd
      exact ⟨fun h => (h rfl).elim, fun h => (h rfl).elim, rfl⟩
    | r + 2, hz => cases hz
  obtain ⟨ρ, h1, h2, h3, h4, -⟩ := C33_shared swapped_ok swapped_closed run
  have r0 : swappedWorld.Reaches 1 0 := .step .refl ⟨_, rfl, _, rfl, _, rfl, rfl⟩
  refine ⟨new, w', run, h1 ▸ (h2 1 .refl).2, ρ 0, (h4 _).2 ⟨0, r0, rfl⟩, fun e => ?_, (h2 0 r0).2⟩
  have := h3 0 1 r0 .refl (e.trans h1.symm)
  cases this

end QS.Props
