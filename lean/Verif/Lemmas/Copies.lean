import Verif.Lemmas.Reports

set_option linter.unusedSimpArgs false

/-! # Copies of systems; sizes of systems (helper file) -/

namespace QS

open Finset NDArray PyM BasisSet

variable {K T : Type} [PyScalar K]

namespace World

/-! ### calls that touch new objects only -/

/-- Objects beyond the first `Ns`, `Nb`, `No` may change, others do not. -/
structure Extends (Ns Nb No : ℕ) (w w' : World K T) : Prop where
  sys : ∀ i < Ns, w'.systems[i]? = w.systems[i]?
  bas : ∀ i < Nb, w'.bases[i]? = w.bases[i]?
  ops : ∀ i < No, w'.ops[i]? = w.ops[i]?
  ls : Ns ≤ w'.systems.length
  lb : Nb ≤ w'.bases.length
  lo : No ≤ w'.ops.length

def Fresh {α : Type} (Ns Nb No : ℕ) (m : PyM (World K T) α) : Prop :=
  ∀ w, Ns ≤ w.systems.length → Nb ≤ w.bases.length → No ≤ w.ops.length →
    Extends Ns Nb No w (m.run w).2

variable {Ns Nb No : ℕ} {α β : Type}

theorem Extends.refl {w : World K T} (h1 : Ns ≤ w.systems.length) (h2 : Nb ≤ w.bases.length)
    (h3 : No ≤ w.ops.length) : Extends Ns Nb No w w :=
  ⟨fun _ _ => rfl, fun _ _ => rfl, fun _ _ => rfl, h1, h2, h3⟩

theorem Extends.trans {w w' w'' : World K T} (h : Extends Ns Nb No w w')
    (h' : Extends Ns Nb No w' w'') : Extends Ns Nb No w w'' :=
  ⟨fun i hi => (h'.sys i hi).trans (h.sys i hi), fun i hi => (h'.bas i hi).trans (h.bas i hi),
   fun i hi => (h'.ops i hi).trans (h.ops i hi), h'.ls, h'.lb, h'.lo⟩

theorem fresh_state {m : PyM (World K T) α} (h : ∀ w, (m.run w).2 = w) : Fresh Ns Nb No m :=
  fun w h1 h2 h3 => by rw [h w]; exact .refl h1 h2 h3

theorem fresh_bind {m : PyM (World K T) α} {f : α → PyM (World K T) β}
    (h : Fresh Ns Nb No m) (hf : ∀ a, Fresh Ns Nb No (f a)) : Fresh Ns Nb No (m >>= f) := by
  intro w h1 h2 h3
  have h4 := h w h1 h2 h3
  rw [PyM.run_bind]
  rcases hr : m.run w with ⟨_ | a, w'⟩
  · rw [hr] at h4; exact h4
  · rw [hr] at h4
    exact h4.trans (hf a w' h4.ls h4.lb h4.lo)

theorem fresh_pure (a : α) : Fresh Ns Nb No (pure a : PyM (World K T) α) :=
  fresh_state fun _ => rfl
theorem fresh_getSys (i : ℕ) : Fresh Ns Nb No (getSys i : PyM (World K T) Sys) :=
  fresh_state fun w => by simp only [getSys, PyM.run_bind, run_get]; rfl
theorem fresh_getBasis (i : ℕ) : Fresh Ns Nb No (getBasis i : PyM (World K T) (BasisSet K)) :=
  fresh_state fun w => by simp only [getBasis, PyM.run_bind, run_get]; rfl
theorem fresh_getOp (i : ℕ) : Fresh Ns Nb No (getOp i : PyM (World K T) (TEOp K T)) :=
  fresh_state fun w => by simp only [getOp, PyM.run_bind, run_get]; rfl

theorem fresh_grow {m : PyM (World K T) α}
    (h : ∀ w, ∃ bs ss os, (m.run w).2 =
      { bases := w.bases ++ bs, systems := w.systems ++ ss, ops := w.ops ++ os }) :
    Fresh Ns Nb No m := by
  intro w h1 h2 h3
  obtain ⟨bs, ss, os, e⟩ := h w
  rw [e]
  refine ⟨fun i hi => ?_, fun i hi => ?_, fun i hi => ?_, ?_, ?_, ?_⟩
  · exact List.getElem?_append_left (by omega)
  · exact List.getElem?_append_left (by omega)
  · exact List.getElem?_append_left (by omega)
  all_goals simp; omega

theorem fresh_newBasis_bind {c : BasisSet K} {f : ℕ → PyM (World K T) β}
    (hf : ∀ r, Nb ≤ r → Fresh Ns Nb No (f r)) : Fresh Ns Nb No (newBasis c >>= f) := by
  intro w h1 h2 h3
  have e : (newBasis c).run w = (.ok w.bases.length, { w with bases := w.bases ++ [c] }) := rfl
  have h4 : Extends Ns Nb No w { w with bases := w.bases ++ [c] } :=
    fresh_grow (m := modify fun w : World K T => { w with bases := w.bases ++ [c] })
      (fun w => ⟨[c], [], [], by simp⟩) w h1 h2 h3
  rw [run_bind_ok e]
  exact h4.trans (hf _ h2 _ h4.ls h4.lb h4.lo)

theorem fresh_onBasis {r : ℕ} (h : Nb ≤ r) (m : PyM (BasisSet K) α) :
    Fresh Ns Nb No (onBasis r m : PyM (World K T) α) := by
  intro w h1 h2 h3
  rcases hr : w.bases[r]? with _ | y
  · simp only [PyM.run, onBasis, hr]
    exact .refl h1 h2 h3
  · rw [onBasis_run hr]
    exact ⟨fun _ _ => rfl, fun i hi => get_set_ne (by omega) _, fun _ _ => rfl, h1, by simpa, h3⟩

theorem fresh_setSys {i : ℕ} (h : Ns ≤ i) (x : Sys) :
    Fresh Ns Nb No (setSys i x : PyM (World K T) Unit) := by
  intro w h1 h2 h3
  rw [setSys_run]
  exact ⟨fun j hj => get_set_ne (by omega) _, fun _ _ => rfl, fun _ _ => rfl, by simpa, h2, h3⟩

theorem fresh_setOp {i : ℕ} (h : No ≤ i) (x : TEOp K T) : Fresh Ns Nb No (setOp i x) := by
  intro w h1 h2 h3
  rw [setOp_run]
  exact ⟨fun _ _ => rfl, fun _ _ => rfl, fun j hj => get_set_ne (by omega) _, h1, h2, by simpa⟩

theorem fresh_initSystem_bind {k : SysKind} {n r : ℕ} {f : ℕ → PyM (World K T) β}
    (hf : ∀ i, Ns ≤ i → Fresh Ns Nb No (f i)) : Fresh Ns Nb No (initSystem k n r >>= f) := by
  intro w h1 h2 h3
  rcases hr : w.bases[r]? with _ | y
  · have : (initSystem k n r).run w = (.error .name, w) := by
      simp [initSystem, getBasis, PyM.run_bind, hr, orErr]
    rw [run_bind_error this]
    exact .refl h1 h2 h3
  · by_cases h : n ≤ y.l
    · have e := initSystem_run (w := w) (k := k) (n := n) hr
      rw [if_pos h] at e
      rw [run_bind_ok e]
      have h4 : Extends Ns Nb No w { w with systems := w.systems ++ [newSys k r n y.l y.np] } :=
        fresh_grow (m := modify fun w : World K T =>
          { w with systems := w.systems ++ [newSys k r n y.l y.np] })
        (fun w => ⟨[], [newSys k r n y.l y.np], [], by simp⟩) w h1 h2 h3
      exact h4.trans (hf _ h1 _ h4.ls h4.lb h4.lo)
    · have e := initSystem_run (w := w) (k := k) (n := n) hr
      rw [if_neg h] at e
      rw [run_bind_error e]
      exact .refl h1 h2 h3

theorem deepcopyOp_run {w : World K T} {o : ℕ} {y : TEOp K T} (hy : w.ops[o]? = some y) :
    (deepcopyOp o).run w = if w.holdsModule (w.reachFromOp y) then (.error .type, w)
      else (.ok (rename w.ops.length (o :: w.reachOps (w.reachFromOp y)).dedup o),
        w.copyObjects (w.reachFromOp y) (w.reachBases (w.reachFromOp y)).dedup
          (o :: w.reachOps (w.reachFromOp y)).dedup) := by
  simp only [deepcopyOp, PyM.run_bind, run_get, getOp_run hy]
  by_cases hm : w.holdsModule (w.reachFromOp y) = true
  · rw [if_pos hm, if_pos hm]; rfl
  · rw [if_neg hm, if_neg hm]; rfl

theorem fresh_deepcopyOp_bind {o : ℕ} {f : ℕ → PyM (World K T) β}
    (hf : ∀ i, No ≤ i → Fresh Ns Nb No (f i)) : Fresh Ns Nb No (deepcopyOp o >>= f) := by
  intro w h1 h2 h3
  rcases hy : w.ops[o]? with _ | y
  · have e : (deepcopyOp o).run w = (.error .name, w) := by
      simp [deepcopyOp, PyM.run_bind, getOp, hy, orErr]
    rw [run_bind_error e]
    exact .refl h1 h2 h3
  · have e := deepcopyOp_run hy
    split_ifs at e
    · rw [run_bind_error e]
      exact .refl h1 h2 h3
    · rw [run_bind_ok e]
      have h4 := fresh_grow (Ns := Ns) (Nb := Nb) (No := No) (m := modify fun w' : World K T =>
          w'.copyObjects (w.reachFromOp y) (w.reachBases (w.reachFromOp y)).dedup
          (o :: w.reachOps (w.reachFromOp y)).dedup) (fun w => ⟨_, _, _, rfl⟩) w h1 h2 h3
      have hmem : o ∈ (o :: w.reachOps (w.reachFromOp y)).dedup := by simp
      exact h4.trans (hf _ (le_trans h3 (rename_ge hmem)) _ h4.ls h4.lb h4.lo)

theorem fresh_generalInit_bind {n r : ℕ} {a c : List K} {anti : Bool}
    {f : ℕ → PyM (World K T) β} (hr : Nb ≤ r) (hf : ∀ i, Ns ≤ i → Fresh Ns Nb No (f i)) :
    Fresh Ns Nb No (generalInit n r a c anti >>= f) := by
  unfold generalInit
  rw [bind_assoc]
  refine fresh_bind (fresh_getBasis _) fun x => ?_
  cases hx : x.includesSpin <;> cases anti <;>
    simp only [Bool.not_true, Bool.not_false, Bool.false_eq_true, if_true, if_false, bind_assoc,
      pure_bind]
  · exact fresh_bind (fresh_onBasis hr _) fun _ => fresh_initSystem_bind hf
  · exact fresh_bind (fresh_onBasis hr _) fun _ =>
      fresh_bind (fresh_onBasis hr _) fun _ => fresh_initSystem_bind hf
  · exact fresh_initSystem_bind hf
  · exact fresh_bind (fresh_onBasis hr _) fun _ => fresh_initSystem_bind hf

/-- `construct_general_orbital_system` changes nothing but the cached dual functions of the basis
set. -/
theorem constructGeneral_extends {w : World K T} {s : ℕ} {x : Sys} {c : BasisSet K} {l : ℕ}
    (hx : w.systems[s]? = some x) (hc : w.bases[x.basis]? = some c) (hwf : WellFormed c l)
    (he : c.extraModule = false) (a b : List K) (anti : Bool) :
    Extends w.systems.length w.bases.length w.ops.length
      { w with bases := w.bases.set x.basis (withBra c) }
      ((constructGeneral s a b anti).run w).2 := by
  unfold constructGeneral
  rw [run_bind_ok (getSys_run hx)]
  have e : (onBasis x.basis copyBasis).run w =
      (.ok (withBra c), { w with bases := w.bases.set x.basis (withBra c) }) := by
    rw [onBasis_run hc, copyBasis_run hwf he]
  rw [run_bind_ok e]
  refine fresh_newBasis_bind (fun r hr => fresh_generalInit_bind hr fun i hi => ?_) _ le_rfl
    (by simp) le_rfl
  split
  · exact fresh_pure _
  · refine fresh_deepcopyOp_bind fun o' ho' => fresh_bind ?_ fun _ => fresh_pure _
    exact fresh_bind (fresh_getSys _) fun _ => fresh_bind (fresh_setSys hi _) fun _ =>
      fresh_bind (fresh_getOp _) fun _ => fresh_setOp ho' _

/-! ### `copy_system` -/

/-- The operator of a copied system. -/
def copiedOps (w : World K T) (x : Sys) : List (TEOp K T) :=
  match x.op.bind fun o => w.ops[o]? with
  | none => []
  | some y => [{ y with system := y.system.map fun _ => w.systems.length }]

/-- The world after `copy_system`. -/
def withCopy (w : World K T) (x : Sys) (c : BasisSet K) : World K T :=
  { bases := w.bases.set x.basis (withBra c) ++ [withBra c]
    systems := w.systems ++ [{ x with basis := w.bases.length, op := x.op.map fun _ => w.ops.length }]
    ops := w.ops ++ copiedOps w x }

theorem copySystem_run {w : World K T} {s : ℕ} {x : Sys} {c : BasisSet K} {A : ℕ → Prop}
    (ok : SysOK w s x c) (own : Owns w s x.basis A) (he : c.extraModule = false) :
    (copySystem s).run w = (.ok w.systems.length, withCopy w x c) := by
  obtain ⟨m, hm⟩ := ok.wf.np
  have hxnp : x.np = some m := ok.np.trans hm
  obtain ⟨ho0⟩ : (∀ o, x.op = some o → A o) ∧ True := by
    obtain ⟨x', hx', -, ho⟩ := own.sys
    obtain rfl := Option.some.inj (hx'.symm.trans ok.sys)
    exact ⟨ho, trivial⟩
  -- the world after the modules were removed
  let w1 : World K T := { bases := w.bases.set x.basis { c with np := none }
                          systems := w.systems.set s { x with np := none }, ops := w.ops }
  have hw1s : w1.systems[s]? = some { x with np := none } := get_set ok.sys _
  have hw1b : w1.bases[x.basis]? = some { c with np := none } := get_set ok.basis _
  have own1 : Owns w1 s x.basis A :=
    ⟨⟨_, hw1s, rfl, ho0⟩, ⟨_, hw1b⟩, own.ops⟩
  have hmod : w1.holdsModule [s] = false := by
    simp [holdsModule, hw1s, hw1b, he]
  have hdc := deepcopySystem_own own1 hw1s hw1b
  rw [hmod] at hdc
  simp only [Bool.false_eq_true, if_false] at hdc
  have hl1 : w1.systems.length = w.systems.length := by simp [w1]
  have hl2 : w1.bases.length = w.bases.length := by simp [w1]
  -- `change_module` of a copy
  have hwf1 : WellFormed ({ c with np := some m } : BasisSet K) x.l := by
    have : ({ c with np := some m } : BasisSet K) = c := by rw [← hm]
    rw [this]; exact ok.wf
  have hcm : (BasisSet.changeModule (some m)).run ({ c with np := none } : BasisSet K) =
      (.ok (), withBra c) := by
    have h1 := changeModule_run ok.wf (some m)
    have h2 : (BasisSet.changeModule (some m)).run ({ c with np := none } : BasisSet K) =
        (BasisSet.changeModule (some m)).run c := by
      have hn := not_two ok.wf
      have hn' : ({ c with np := none } : BasisSet K).uRepr ≠ .two := hn
      simp only [BasisSet.changeModule, PyM.run_bind, run_get, hn, hn', and_false, if_false,
        changeModuleBase, run_modify]
    rw [h2, h1]
    simp only [Prod.mk.injEq, true_and]
    show ({ withBra c with np := some m } : BasisSet K) = withBra c
    rw [← hm]; rfl
  unfold copySystem
  rw [run_bind_ok (getSys_run ok.sys), run_bind_ok (setSys_run _ _ _)]
  have e1 : (onBasis x.basis (PyM.modify fun b : BasisSet K => { b with np := none })).run
      ({ w with systems := w.systems.set s { x with np := none } } : World K T) = (.ok (), w1) := by
    rw [onBasis_run (by exact ok.basis)]
    rfl
  rw [run_bind_ok e1, run_bind_ok hdc, hl1, hxnp]
  -- the copy gets its module back
  have hnew : (copied w1 s { x with np := none } { c with np := none }).systems[w.systems.length]? =
      some { x with np := none, basis := w.bases.length, op := x.op.map fun _ => w.ops.length } := by
    have : w.systems.length = w1.systems.length := hl1.symm
    simp only [copied]
    rw [this, List.getElem?_append_right le_rfl, hl2]
    simp [w1]
  let w2 : World K T := { bases := w.bases.set x.basis { c with np := none } ++ [withBra c]
                          systems := w.systems.set s { x with np := none } ++
                            [{ x with basis := w.bases.length, op := x.op.map fun _ => w.ops.length }]
                          ops := w.ops ++ copiedOps w x }
  have e2 : (World.changeModule w.systems.length (some m)).run
      (copied w1 s { x with np := none } { c with np := none }) = (.ok (), w2) := by
    unfold World.changeModule
    rw [run_bind_ok (getSys_run hnew), run_bind_ok (setSys_run _ _ _)]
    rw [onBasis_run (b := { c with np := none }) (by
      show (w1.bases ++ [_])[w.bases.length]? = _
      rw [← hl2]; simp)]
    rw [hcm]
    simp only [Prod.mk.injEq, true_and, w2]
    have hops : (copied w1 s { x with np := none } { c with np := none }).ops =
        w.ops ++ copiedOps w x := by
      simp only [copied, copiedOps, hl1]
      rfl
    have hb : (w1.bases ++ [({ c with np := none } : BasisSet K)]).set w.bases.length (withBra c) =
        w1.bases ++ [withBra c] := by
      rw [← hl2, List.set_append_right _ _ le_rfl]; simp
    have hs' : ∀ z : Sys, (copied w1 s { x with np := none } { c with np := none }).systems.set
        w.systems.length z = w1.systems ++ [z] := by
      intro z
      simp only [copied]
      rw [← hl1, List.set_append_right _ _ le_rfl]; simp
    rw [hops, hs', ← hxnp]
    congr 1
  rw [run_bind_ok e2]
  have hw2s : w2.systems[s]? = some { x with np := none } := get_append (get_set ok.sys _) _
  have hw2b : w2.bases[x.basis]? = some { c with np := none } := get_append (get_set ok.basis _) _
  have e3 : (World.changeModule s (some m)).run w2 = (.ok (), withCopy w x c) := by
    unfold World.changeModule
    rw [run_bind_ok (getSys_run hw2s), run_bind_ok (setSys_run _ _ _)]
    rw [onBasis_run (by exact hw2b), hcm]
    simp only [Prod.mk.injEq, true_and, w2, withCopy]
    have h1 := lt_of_get ok.sys
    have h2 := lt_of_get ok.basis
    rw [List.set_append_left _ _ (by simpa), List.set_append_left _ _ (by simpa), List.set_set,
      List.set_set]
    congr 2
    refine set_same ?_
    rw [ok.sys, ← hxnp]
  rw [run_bind_ok e3]
  have h4 : (withCopy w x c).systems[s]? = some x := get_append ok.sys _
  have h5 : (withCopy w x c).bases[x.basis]? = some (withBra c) :=
    get_append (get_set ok.basis _) _
  rw [run_bind_ok (getSys_run h4)]
  have h6 : (withBra c).np = some m := hm
  simp only [PyM.run_bind, run_assert, hxnp, decide_true, if_true, getBasis_run h5, h6, run_pure]

/-! ### independence -/

theorem independent_of_separate {w : World K T} {S : ℕ → Prop} {B : ℕ → ℕ} {A : ℕ → ℕ → Prop}
    (h : Separate w S B A) : Independent w S A := by
  intro ops hd i op hi hm j hj hji
  have h1 := separate_history h hd
  exact sameReports_of_same (h1.owns j hj) ((separate_step h1 hi hm).2 j hj hji)

/-- What is known about an operator object that is not bound to a system and not in use. -/
def Spare (w : World K T) (S : ℕ → Prop) (A : ℕ → ℕ → Prop) (o : ℕ) : Prop :=
  (∃ y, w.ops[o]? = some y ∧ y.system = none) ∧ ∀ i, S i → ¬ A i o

theorem owns_op {w : World K T} {S : ℕ → Prop} {B : ℕ → ℕ} {A : ℕ → ℕ → Prop} {s : ℕ} {x : Sys}
    (h : Separate w S B A) (hs : S s) (hx : w.systems[s]? = some x) :
    x.basis = B s ∧ ∀ o, x.op = some o → A s o := by
  obtain ⟨x', hx', hb, ho⟩ := (h.owns s hs).sys
  obtain rfl := Option.some.inj (hx'.symm.trans hx)
  exact ⟨hb, ho⟩

/-- The operator of a system, as a match with itself in a world with the same operators. -/
theorem opMatch_self {w w' : World K T} {s b : ℕ} {A : ℕ → Prop} {x : Sys} (h : Owns w s b A)
    (hx : w.systems[s]? = some x) (he : ∀ o, A o → w'.ops[o]? = w.ops[o]?) :
    OpMatch w s w' s x.op x.op := by
  obtain ⟨x', hx', hb, ho⟩ := h.sys
  obtain rfl := Option.some.inj (hx'.symm.trans hx)
  rcases hop : x'.op with _ | o
  · exact Or.inl ⟨rfl, rfl⟩
  · obtain ⟨y, hy, hs⟩ := h.ops o (ho o hop)
    refine Or.inr ⟨o, o, y, y.system, y.system, rfl, rfl, hy, (he o (ho o hop)).trans hy, ?_⟩
    rcases hq : y.system with _ | q
    · exact .inl ⟨rfl, rfl⟩
    · exact .inr ⟨by rw [hs q hq], by rw [hs q hq]⟩

/-- Other systems are not affected if only the basis set of one is replaced. -/
theorem sameReports_touched {w w' : World K T} {S : ℕ → Prop} {B : ℕ → ℕ} {A : ℕ → ℕ → Prop}
    {s : ℕ} {x : Sys} {c : BasisSet K} (h : Separate w S B A) (hs : S s)
    (hx : w.systems[s]? = some x) (hc : w.bases[x.basis]? = some c)
    (hE : Extends w.systems.length w.bases.length w.ops.length
      { w with bases := w.bases.set x.basis (withBra c) } w') (j : ℕ) (hj : S j) :
    SameReports w j w' j ∧ Owns w' j (B j) (A j) := by
  have own := h.owns j hj
  obtain ⟨z, hz, hzb, hzo⟩ := own.sys
  obtain ⟨d, hd⟩ := own.basis
  have hbs := (owns_op h hs hx).1
  have e1 : w'.systems[j]? = some z := by rw [hE.sys j (lt_of_get hz)]; exact hz
  have e3 : ∀ o, A j o → w'.ops[o]? = w.ops[o]? := fun o ho => by
    obtain ⟨y, hy, -⟩ := own.ops o ho
    rw [hE.ops o (lt_of_get hy)]
  have e2 : ∃ d', w'.bases[B j]? = some d' ∧ (d' = d ∨ d' = withBra d) := by
    rw [hE.bas (B j) (lt_of_get hd)]
    by_cases hjs : j = s
    · subst hjs
      have : d = c := by
        rw [hbs] at hc; exact Option.some.inj (hd.symm.trans hc)
      subst this
      refine ⟨withBra d, ?_, .inr rfl⟩
      show (w.bases.set x.basis _)[B j]? = _
      rw [← hbs, get_set hc]
    · refine ⟨d, ?_, .inl rfl⟩
      show (w.bases.set x.basis _)[B j]? = _
      rw [get_set_ne (by rw [hbs]; exact h.bases j s hj hs hjs), hd]
  obtain ⟨d', hd', hdd⟩ := e2
  refine ⟨sameReports_of (c₀ := d) hz e1 (hzb ▸ hd) (hzb ▸ hd') (.inl rfl) hdd rfl
      (opMatch_self own hz e3), ⟨z, e1, hzb, hzo⟩, ⟨d', hd'⟩, fun o ho => ?_⟩
  rw [e3 o ho]; exact own.ops o ho

/-- A new system with its own new basis set is separate from the old ones. -/
theorem separate_new {w w' : World K T} {S : ℕ → Prop} {B : ℕ → ℕ} {A : ℕ → ℕ → Prop}
    {N b : ℕ} {A' : ℕ → Prop} (h : Separate w S B A) (hN : w.systems.length ≤ N)
    (hb : w.bases.length ≤ b) (hold : ∀ j, S j → Owns w' j (B j) (A j)) (hnew : Owns w' N b A')
    (hdis : ∀ j o, S j → A j o → ¬ A' o) :
    Separate w' (fun i => S i ∨ i = N) (fun i => if i = N then b else B i)
      (fun i => if i = N then A' else A i) := by
  have hne : ∀ i, S i → i ≠ N := fun i hi e => by
    obtain ⟨x, hx, -⟩ := (h.owns i hi).sys
    have := lt_of_get hx; omega
  have hBb : ∀ i, S i → B i ≠ b := fun i hi e => by
    obtain ⟨x, hx⟩ := (h.owns i hi).basis
    have := lt_of_get hx; omega
  refine ⟨?_, ?_, ?_⟩
  · rintro i (hi | rfl)
    · simp only [hne i hi, if_false]; exact hold i hi
    · simpa using hnew
  · rintro i j (hi | rfl) (hj | rfl) hij
    · simp only [hne i hi, hne j hj, if_false]; exact h.bases i j hi hj hij
    · simp only [hne i hi, if_false, if_true]; exact hBb i hi
    · simp only [hne j hj, if_false, if_true]; exact (hBb j hj).symm
    · exact absurd rfl hij
  · rintro i j o (hi | rfl) (hj | rfl) hij ho
    · simp only [hne i hi, if_false] at ho
      simp only [hne j hj, if_false]
      exact h.ops i j o hi hj hij ho
    · simp only [hne i hi, if_false] at ho
      simp only [if_true]
      exact hdis i o hi ho
    · simp only [if_true] at ho
      simp only [hne j hj, if_false]
      exact fun h' => hdis j o hj h' ho
    · exact absurd rfl hij

theorem onBasis_length {w w' : World K T} {r : ℕ} {m : PyM (BasisSet K) α} {a : α}
    (h : (onBasis r m).run w = (.ok a, w')) :
    ∃ y y', w.bases[r]? = some y ∧ m.run y = (.ok a, y') ∧
      w' = { w with bases := w.bases.set r y' } := by
  rcases hr : w.bases[r]? with _ | y
  · simp [PyM.run, onBasis, hr] at h
  · obtain ⟨y', h1, h2⟩ := onBasis_ok hr h
    exact ⟨y, y', rfl, h1, h2⟩

theorem initSystem_ok {w w' : World K T} {k : SysKind} {n r g : ℕ}
    (h : (initSystem k n r).run w = (.ok g, w')) :
    ∃ y, w.bases[r]? = some y ∧ n ≤ y.l ∧ g = w.systems.length ∧
      w' = { w with systems := w.systems ++ [newSys k r n y.l y.np] } := by
  rcases hr : w.bases[r]? with _ | y
  · simp [initSystem, getBasis, PyM.run_bind, hr, orErr] at h
  · rw [initSystem_run hr] at h
    split_ifs at h with hn
    · simp only [Prod.mk.injEq, Except.ok.injEq] at h
      exact ⟨y, rfl, hn, h.1.symm, h.2.symm⟩
    · simp at h

/-- A successful `GeneralOrbitalSystem(n, basis_set, …)`. -/
theorem generalInit_ok {w w' : World K T} {n r g : ℕ} {a b : List K} {anti : Bool}
    (h : (generalInit n r a b anti).run w = (.ok g, w')) :
    ∃ y, n ≤ y.l ∧ r < w.bases.length ∧ g = w.systems.length ∧
      w' = { w with bases := w.bases.set r y
                    systems := w.systems ++ [newSys .general r n y.l y.np] } := by
  unfold generalInit at h
  obtain ⟨z, w1, h1, h'⟩ := run_bind_eq_ok.1 h
  clear h
  have hr : w.bases[r]? = some z ∧ w1 = w := by
    rcases hr : w.bases[r]? with _ | y
    · simp [getBasis, PyM.run_bind, hr, orErr] at h1
    · rw [getBasis_run hr] at h1
      simp only [Prod.mk.injEq, Except.ok.injEq] at h1
      exact ⟨by rw [h1.1], h1.2.symm⟩
  obtain ⟨hr, rfl⟩ := hr
  have fin : ∀ {y : BasisSet K} {w2 : World K T},
      w2 = { w1 with bases := w1.bases.set r y } →
      (initSystem .general n r).run w2 = (.ok g, w') →
      ∃ y, n ≤ y.l ∧ r < w1.bases.length ∧ g = w1.systems.length ∧
        w' = { w1 with bases := w1.bases.set r y
                       systems := w1.systems ++ [newSys .general r n y.l y.np] } := by
    rintro y _ rfl h
    obtain ⟨y', hy', hn, hg, hw⟩ := initSystem_ok h
    obtain rfl : y = y' := Option.some.inj ((get_set hr y).symm.trans hy')
    exact ⟨y, hn, lt_of_get hr, hg, hw⟩
  cases hx : z.includesSpin <;> cases anti <;>
    simp only [hx, Bool.not_true, Bool.not_false, Bool.false_eq_true, if_true, if_false, bind_assoc,
      pure_bind] at h'
  · obtain ⟨_, w2, h2, h4⟩ := run_bind_eq_ok.1 h'
    obtain ⟨_, y, _, _, e⟩ := onBasis_length h2
    exact fin e h4
  · obtain ⟨_, w2, h2, h4⟩ := run_bind_eq_ok.1 h'
    obtain ⟨_, y, _, _, rfl⟩ := onBasis_length h2
    obtain ⟨_, w3, h3, h5⟩ := run_bind_eq_ok.1 h4
    obtain ⟨_, y', _, _, rfl⟩ := onBasis_length h3
    exact fin (y := y') (by simp only [List.set_set]) h5
  · exact fin (y := z) (by rw [set_same hr]) h'
  · obtain ⟨_, w2, h2, h4⟩ := run_bind_eq_ok.1 h'
    obtain ⟨_, y, _, _, e⟩ := onBasis_length h2
    exact fin e h4

/-- A successful `construct_general_orbital_system` of a system without operator: the new system is
the last object, on a new basis set. -/
theorem constructGeneral_ok {w w' : World K T} {s g : ℕ} {x : Sys} {a b : List K} {anti : Bool}
    (hx : w.systems[s]? = some x) (hop : x.op = none)
    (h : (constructGeneral s a b anti).run w = (.ok g, w')) :
    ∃ y, x.n * 2 ≤ y.l ∧ g = w.systems.length ∧ w'.ops = w.ops ∧
      w'.systems = w.systems ++ [newSys .general w.bases.length (x.n * 2) y.l y.np] ∧
      w'.bases[w.bases.length]? = some y := by
  unfold constructGeneral at h
  rw [run_bind_ok (getSys_run hx)] at h
  obtain ⟨c, w1, h1, h⟩ := run_bind_eq_ok.1 h
  obtain ⟨_, y1, _, _, rfl⟩ := onBasis_length h1
  obtain ⟨r, w2, h2, h⟩ := run_bind_eq_ok.1 h
  have e : (newBasis c).run ({ w with bases := w.bases.set x.basis y1 } : World K T) =
      (.ok w.bases.length, { w with bases := w.bases.set x.basis y1 ++ [c] }) := by
    simp only [newBasis, PyM.run_bind, run_get, run_modify, run_pure, List.length_set]
  rw [e] at h2
  simp only [Prod.mk.injEq, Except.ok.injEq] at h2
  obtain ⟨rfl, rfl⟩ := h2
  obtain ⟨g', w3, h3, h⟩ := run_bind_eq_ok.1 h
  obtain ⟨y, hn, hlt, rfl, rfl⟩ := generalInit_ok h3
  simp only [hop, run_pure, Prod.mk.injEq, Except.ok.injEq] at h
  obtain ⟨rfl, rfl⟩ := h
  refine ⟨y, hn, rfl, rfl, rfl, ?_⟩
  show ((w.bases.set x.basis y1 ++ [c]).set w.bases.length y)[w.bases.length]? = _
  rw [List.getElem?_set_self (by simpa using hlt)]

/-! ### sizes -/

/-- The slices of every system fit. -/
def AllSized (w : World K T) : Prop := ∀ x ∈ w.systems, Sized x

def KeepsSizes {α : Type} (m : PyM (World K T) α) : Prop := ∀ w, AllSized w → AllSized (m.run w).2

theorem keeps_state {m : PyM (World K T) α} (h : ∀ w, (m.run w).2.systems = w.systems) :
    KeepsSizes m := fun w hw => by unfold AllSized; rw [h w]; exact hw

theorem keeps_bind {m : PyM (World K T) α} {f : α → PyM (World K T) β} (h : KeepsSizes m)
    (hf : ∀ a, KeepsSizes (f a)) : KeepsSizes (m >>= f) := by
  intro w hw
  have h1 := h w hw
  rw [PyM.run_bind]
  rcases hr : m.run w with ⟨_ | a, w'⟩
  · rw [hr] at h1; exact h1
  · rw [hr] at h1; exact hf a w' h1

theorem keeps_pure (a : α) : KeepsSizes (pure a : PyM (World K T) α) := keeps_state fun _ => rfl
theorem keeps_raise (e : PyErr) : KeepsSizes (raise e : PyM (World K T) α) :=
  keeps_state fun _ => rfl
theorem keeps_lift (x : Except PyErr α) : KeepsSizes (liftM x : PyM (World K T) α) :=
  keeps_state fun _ => rfl
theorem keeps_assert (c : Bool) : KeepsSizes (PyM.assert c : PyM (World K T) Unit) :=
  keeps_state fun _ => by rw [run_assert]
theorem keeps_getSys (i : ℕ) : KeepsSizes (getSys i : PyM (World K T) Sys) :=
  keeps_state fun w => by simp only [getSys, PyM.run_bind, run_get]; rfl
theorem keeps_getBasis (i : ℕ) : KeepsSizes (getBasis i : PyM (World K T) (BasisSet K)) :=
  keeps_state fun w => by simp only [getBasis, PyM.run_bind, run_get]; rfl
theorem keeps_getOp (i : ℕ) : KeepsSizes (getOp i : PyM (World K T) (TEOp K T)) :=
  keeps_state fun w => by simp only [getOp, PyM.run_bind, run_get]; rfl
theorem keeps_setOp (i : ℕ) (x : TEOp K T) : KeepsSizes (setOp i x) := keeps_state fun _ => rfl
theorem keeps_newBasis (c : BasisSet K) : KeepsSizes (newBasis c : PyM (World K T) ℕ) :=
  keeps_state fun _ => rfl

theorem keeps_onBasis (r : ℕ) (m : PyM (BasisSet K) α) :
    KeepsSizes (onBasis r m : PyM (World K T) α) := keeps_state fun w => by
  rcases hr : w.bases[r]? with _ | y
  · simp only [PyM.run, onBasis, hr]
  · rw [onBasis_run hr]

theorem keeps_setSys (s : ℕ) {x : Sys} (hx : Sized x) :
    KeepsSizes (setSys s x : PyM (World K T) Unit) := by
  intro w hw y hy
  rw [setSys_run] at hy
  rcases List.mem_or_eq_of_mem_set hy with h | rfl
  · exact hw y h
  · exact hx

theorem keeps_getSys_bind {s : ℕ} {f : Sys → PyM (World K T) β}
    (hf : ∀ x, Sized x → KeepsSizes (f x)) : KeepsSizes (getSys s >>= f) := by
  intro w hw
  rcases hr : w.systems[s]? with _ | x
  · have : (getSys s).run w = (.error .name, w) := by
      simp [getSys, PyM.run_bind, hr, orErr]
    rw [run_bind_error this]
    exact hw
  · rw [run_bind_ok (getSys_run hr)]
    exact hf x (hw x (List.mem_of_getElem? hr)) w hw

theorem keeps_modify {f : World K T → World K T} (h : ∀ w, AllSized w → AllSized (f w)) :
    KeepsSizes (modify f) := h

theorem sized_np {x : Sys} (h : Sized x) (np : Option Module) : Sized { x with np := np } :=
  ⟨h.le, h.m, h.o, h.v⟩

theorem sized_op {x : Sys} (h : Sized x) (op : Option ℕ) : Sized { x with op := op } :=
  ⟨h.le, h.m, h.o, h.v⟩

theorem keeps_setSystemSize (s n l : ℕ) :
    KeepsSizes (setSystemSize s n l : PyM (World K T) Unit) := by
  intro w hw
  unfold setSystemSize
  by_cases h : n ≤ l
  · rw [run_bind_ok (a := ()) (s' := w) (by rw [run_assert]; simp [h])]
    exact keeps_getSys_bind (fun x _ => keeps_setSys s ⟨h, rfl, rfl, rfl⟩) w hw
  · rw [run_bind_error (e := .assertion) (s' := w) (by rw [run_assert]; simp [h])]
    exact hw

theorem copyObjects_sized {w : World K T} (hw : AllSized w) (ss bs os : List ℕ) :
    AllSized (w.copyObjects ss bs os) := by
  intro x hx
  simp only [copyObjects, List.mem_append, List.mem_filterMap, Option.map_eq_some_iff] at hx
  rcases hx with hx | ⟨i, -, y, hy, rfl⟩
  · exact hw x hx
  · have := hw y (List.mem_of_getElem? hy)
    exact ⟨this.le, this.m, this.o, this.v⟩

theorem keeps_initSystem (k : SysKind) (n r : ℕ) :
    KeepsSizes (initSystem k n r : PyM (World K T) ℕ) := by
  intro w hw
  rcases hr : w.bases[r]? with _ | y
  · have : (initSystem k n r).run w = (.error .name, w) := by
      simp [initSystem, getBasis, PyM.run_bind, hr, orErr]
    rw [this]; exact hw
  · rw [initSystem_run hr]
    split_ifs with h
    · intro x hx
      rcases List.mem_append.1 hx with hx | hx
      · exact hw x hx
      · obtain rfl := List.mem_singleton.1 hx
        exact newSys_sized h
    · exact hw

theorem keeps_deepcopySystem (s : ℕ) : KeepsSizes (deepcopySystem s : PyM (World K T) ℕ) := by
  unfold deepcopySystem
  refine keeps_bind (keeps_state fun _ => rfl) fun w => ?_
  simp only
  split
  · exact keeps_raise _
  · exact keeps_bind (keeps_modify fun w hw => copyObjects_sized hw _ _ _) fun _ => keeps_pure _

theorem keeps_deepcopyOp (o : ℕ) : KeepsSizes (deepcopyOp o : PyM (World K T) ℕ) := by
  unfold deepcopyOp
  refine keeps_bind (keeps_state fun _ => rfl) fun w => keeps_bind (keeps_getOp _) fun y => ?_
  simp only
  split
  · exact keeps_raise _
  · exact keeps_bind (keeps_modify fun w hw => copyObjects_sized hw _ _ _) fun _ => keeps_pure _

theorem keeps_changeModule (s : ℕ) (np : Option Module) :
    KeepsSizes (World.changeModule s np : PyM (World K T) Unit) :=
  keeps_getSys_bind fun _ hx => keeps_bind (keeps_setSys _ (sized_np hx _)) fun _ =>
    keeps_onBasis _ _

theorem keeps_setOperator (s : ℕ) (o : Option ℕ) :
    KeepsSizes (setTimeEvolutionOperator s o : PyM (World K T) Unit) := by
  refine keeps_getSys_bind fun x hx => keeps_bind (keeps_setSys _ (sized_op hx _)) fun _ => ?_
  split
  · exact keeps_pure _
  · exact keeps_bind (keeps_getOp _) fun _ => keeps_setOp _ _

theorem keeps_h (s : ℕ) : KeepsSizes (World.h s : PyM (World K T) _) :=
  keeps_bind (keeps_getSys _) fun _ => keeps_bind (keeps_getBasis _) fun _ => keeps_pure _
theorem keeps_u (s : ℕ) : KeepsSizes (World.u s : PyM (World K T) _) :=
  keeps_bind (keeps_getSys _) fun _ => keeps_bind (keeps_getBasis _) fun _ => keeps_pure _
theorem keeps_dipole (s : ℕ) : KeepsSizes (World.dipole s : PyM (World K T) _) :=
  keeps_bind (keeps_getSys _) fun _ => keeps_bind (keeps_getBasis _) fun _ => keeps_pure _

theorem keeps_opUT (o : ℕ) (t : T) : KeepsSizes (opUT o t : PyM (World K T) _) := by
  refine keeps_bind (keeps_getOp _) fun y => keeps_bind (keeps_lift _) fun s' => ?_
  split
  · exact keeps_bind (keeps_lift _) fun _ => keeps_bind (keeps_u _) fun _ =>
      keeps_bind (keeps_lift _) fun _ => keeps_bind (keeps_lift _) fun _ => keeps_pure _
  · exact keeps_u _

theorem keeps_laserHT (o s : ℕ) (t : T) : KeepsSizes (laserHT o s t : PyM (World K T) _) := by
  refine keeps_bind (keeps_getOp _) fun y => keeps_bind ?_ fun _ => keeps_bind ?_ fun _ =>
    keeps_bind ?_ fun _ => ?_
  · refine keeps_bind (keeps_getOp _) fun y => ?_
    split
    · exact keeps_setOp _ _
    · exact keeps_pure _
  · refine keeps_bind (keeps_getOp _) fun y => ?_
    split
    · exact keeps_bind (keeps_getSys _) fun _ => keeps_bind (keeps_lift _) fun _ =>
        keeps_bind (keeps_dipole _) fun _ => keeps_bind (keeps_lift _) fun _ => keeps_setOp _ _
    · exact keeps_pure _
  · refine keeps_bind (keeps_getOp _) fun y => ?_
    split
    · exact keeps_setOp _ _
    · exact keeps_pure _
  · refine keeps_bind (keeps_getSys _) fun _ => keeps_bind (keeps_h _) fun _ =>
      keeps_bind (keeps_getOp _) fun y => ?_
    split
    · exact keeps_bind (keeps_lift _) fun _ => keeps_bind (keeps_lift _) fun _ =>
        keeps_bind (keeps_lift _) fun _ => keeps_bind (keeps_dipole _) fun _ =>
        keeps_bind (keeps_lift _) fun _ => keeps_bind (keeps_lift _) fun _ =>
        keeps_bind (keeps_lift _) fun _ => keeps_lift _
    · exact keeps_raise _

theorem keeps_customHT (o s : ℕ) (t : T) : KeepsSizes (customHT o s t : PyM (World K T) _) := by
  refine keeps_bind (keeps_getOp _) fun y => keeps_bind ?_ fun _ => keeps_bind (keeps_h _) fun _ =>
    keeps_bind (keeps_getOp _) fun y => ?_
  · refine keeps_bind (keeps_getOp _) fun y => ?_
    split
    · exact keeps_setOp _ _
    · exact keeps_pure _
  · split
    · exact keeps_bind (keeps_lift _) fun _ => keeps_bind (keeps_lift _) fun _ =>
        keeps_bind (keeps_lift _) fun _ => keeps_lift _
    · exact keeps_raise _

theorem keeps_opHT (o : ℕ) (t : T) : KeepsSizes (opHT o t : PyM (World K T) _) := by
  refine keeps_bind (keeps_getOp _) fun y => keeps_bind (keeps_lift _) fun s' => ?_
  split
  · exact keeps_h _
  · exact keeps_h _
  · exact keeps_bind (keeps_laserHT _ _ _) fun _ => keeps_pure _
  · exact keeps_bind (keeps_customHT _ _ _) fun _ => keeps_pure _

/-- What `change_basis` does to the system object: nothing, or new sizes with the same `n`. -/
theorem changeBasis_systems {w : World K T} {s : ℕ} {x : Sys} (hx : w.systems[s]? = some x)
    (C : NDArray K) (Ct : Option (NDArray K)) :
    ((World.changeBasis s C Ct).run w).2.systems[s]? = some x ∨
    ∃ l, x.n ≤ l ∧ ((World.changeBasis s C Ct).run w).2.systems[s]? = some (sized x x.n l) := by
  unfold World.changeBasis
  rw [run_bind_ok (getSys_run hx), PyM.run_bind]
  rcases hb : w.bases[x.basis]? with _ | b
  · refine .inl ?_
    have : (onBasis x.basis (BasisSet.changeBasis C Ct)).run w = (.error .name, w) := by
      simp only [PyM.run, onBasis, hb]
    rw [this]; exact hx
  · rw [onBasis_run hb]
    rcases ((BasisSet.changeBasis C Ct).run b).1 with e | a
    · exact .inl hx
    · simp only
      rw [run_bind_ok (getBasis_run (get_set hb _)), setSystemSize_run (by exact hx)]
      split_ifs with h
      · exact .inr ⟨_, h, get_set hx _⟩
      · exact .inl hx

theorem changeBases_sized {w : World K T} {s : ℕ} {x : Sys} (hx : w.systems[s]? = some x)
    (hs : Sized x) (changes : List (NDArray K × Option (NDArray K))) :
    ∃ x', (performAll w (changes.map fun c => (s, .changeBasis c.1 c.2))).systems[s]? = some x' ∧
      x'.n = x.n ∧ Sized x' := by
  induction changes generalizing w x with
  | nil => exact ⟨x, hx, rfl, hs⟩
  | cons c cs ih =>
    rcases changeBasis_systems hx c.1 c.2 with h | ⟨l, hl, h⟩
    · exact ih h hs
    · obtain ⟨x', h1, h2, h3⟩ := ih h ⟨hl, rfl, rfl, rfl⟩
      exact ⟨x', h1, h2, h3⟩

/-! ### failing copies -/

theorem reach_mono {w : World K T} {s : ℕ} : ∀ (n s' : ℕ) (acc : List ℕ), s ∈ acc →
    s ∈ w.reach n s' acc := by
  intro n
  induction n with
  | zero => intro s' acc h; exact h
  | succ n ih =>
    intro s' acc h
    simp only [reach]
    split_ifs
    · exact h
    · split
      · exact h
      · split
        · simp [h]
        · split
          · simp [h]
          · exact ih _ _ (by simp [h])

theorem reach_start {w : World K T} {s n : ℕ} {x : Sys} {acc : List ℕ}
    (h : w.systems[s]? = some x) : s ∈ w.reach (n + 1) s acc := by
  simp only [reach, h]
  split_ifs with hm
  · exact hm
  · split
    · simp
    · split
      · simp
      · exact reach_mono _ _ _ (by simp)

theorem reach_bound {w : World K T} {s s' n o : ℕ} {x x' : Sys} {y : TEOp K T}
    (hx : w.systems[s]? = some x) (ho : x.op = some o) (hy : w.ops[o]? = some y)
    (hs : y.system = some s') (hx' : w.systems[s']? = some x') :
    s' ∈ w.reach (n + 2) s [] := by
  rw [reach]
  simp only [List.not_mem_nil, if_false, hx, ho, hy, Option.bind_some, hs, List.nil_append]
  exact reach_start hx'

theorem holdsModule_of {w : World K T} {ss : List ℕ} {s : ℕ} {x : Sys} (hs : s ∈ ss)
    (hx : w.systems[s]? = some x)
    (h : x.np.isSome = true ∨ ∃ b, w.bases[x.basis]? = some b ∧ (b.np.isSome || b.extraModule)) :
    w.holdsModule ss = true := by
  simp only [holdsModule, List.any_eq_true]
  refine ⟨s, hs, ?_⟩
  simp only [hx]
  rcases h with h | ⟨b, hb, h⟩
  · simp [h]
  · simp only [hb, h, Bool.or_true]

/-- The world after a `copy_system` whose `deepcopy` raised. -/
def withoutModule (w : World K T) (s : ℕ) (x : Sys) (c : BasisSet K) : World K T :=
  { bases := w.bases.set x.basis { c with np := none }
    systems := w.systems.set s { x with np := none }, ops := w.ops }

theorem copySystem_raises {w : World K T} {s : ℕ} {x : Sys} {c : BasisSet K}
    (hx : w.systems[s]? = some x) (hc : w.bases[x.basis]? = some c)
    (h : (withoutModule w s x c).holdsModule
      ((withoutModule w s x c).reach (w.systems.length + 1) s []) = true) :
    (copySystem s).run w = (.error .type, withoutModule w s x c) := by
  unfold copySystem
  rw [run_bind_ok (getSys_run hx), run_bind_ok (setSys_run _ _ _)]
  have e1 : (onBasis x.basis (PyM.modify fun b : BasisSet K => { b with np := none })).run
      ({ w with systems := w.systems.set s { x with np := none } } : World K T) =
      (.ok (), withoutModule w s x c) := by
    rw [onBasis_run (by exact hc)]
    rfl
  rw [run_bind_ok e1]
  refine run_bind_error ?_
  have hl : (withoutModule w s x c).systems.length = w.systems.length := by simp [withoutModule]
  simp only [deepcopySystem, PyM.run_bind, run_get, hl, h, if_true, run_raise]

/-- Every operation keeps the sizes and slices of all systems consistent. -/
theorem keeps_sop (s : ℕ) (op : SOp K T) : KeepsSizes (op.run s) := by
  have drop : ∀ {α : Type} {m : PyM (World K T) α}, KeepsSizes m →
      KeepsSizes (do let _ ← m; pure ()) := fun h => keeps_bind h fun _ => keeps_pure _
  cases op with
  | setSystemSize n l => exact keeps_setSystemSize s n l
  | changeModule np => exact keeps_changeModule s np
  | changeBasis C Ct =>
    exact keeps_bind (keeps_getSys _) fun _ => keeps_bind (keeps_onBasis _ _) fun _ =>
      keeps_bind (keeps_getBasis _) fun _ => keeps_setSystemSize _ _ _
  | density rho C Ct => exact drop (keeps_bind (keeps_getSys _) fun _ => keeps_onBasis _ _)
  | setOperator o => exact keeps_setOperator s o
  | hT t =>
    refine drop (keeps_bind (keeps_getSys _) fun x => ?_)
    split
    · exact keeps_h _
    · exact keeps_opHT _ _
  | uT t =>
    refine drop (keeps_bind (keeps_getSys _) fun x => ?_)
    split
    · exact keeps_u _
    · exact keeps_opUT _ _
  | opHT o t => exact drop (keeps_opHT _ _)
  | opUT o t => exact drop (keeps_opUT _ _)
  | transformOneBody x C Ct => exact drop (keeps_bind (keeps_getSys _) fun _ => keeps_lift _)
  | transformTwoBody x C Ct =>
    refine drop (keeps_bind (keeps_getSys _) fun _ => keeps_bind (keeps_getBasis _) fun _ => ?_)
    split <;> exact keeps_lift _
  | referenceEnergy =>
    refine drop (keeps_bind (keeps_getSys _) fun _ => keeps_bind (keeps_h _) fun _ =>
      keeps_bind (keeps_u _) fun _ => ?_)
    split <;> exact keeps_lift _
  | changeToHfBasis => exact keeps_raise _
  | basis op => exact keeps_bind (keeps_getSys _) fun _ => keeps_onBasis _ _
  | copy =>
    exact drop (keeps_getSys_bind fun x hx => keeps_bind (keeps_setSys _ (sized_np hx _)) fun _ =>
      keeps_bind (keeps_onBasis _ _) fun _ => keeps_bind (keeps_deepcopySystem _) fun _ =>
      keeps_bind (keeps_changeModule _ _) fun _ => keeps_bind (keeps_changeModule _ _) fun _ =>
      keeps_bind (keeps_getSys _) fun _ => keeps_bind (keeps_assert _) fun _ =>
      keeps_bind (keeps_getBasis _) fun _ => keeps_bind (keeps_assert _) fun _ => keeps_pure _)
  | toGeneral a c anti =>
    refine drop (keeps_bind (keeps_getSys _) fun _ => keeps_bind (keeps_onBasis _ _) fun _ =>
      keeps_bind (keeps_newBasis _) fun _ => keeps_bind ?_ fun _ => ?_)
    · refine keeps_bind (keeps_getBasis _) fun x => ?_
      cases hx : x.includesSpin <;> cases anti <;>
        simp only [Bool.not_true, Bool.not_false, Bool.false_eq_true, if_true, if_false, bind_assoc,
          pure_bind]
      · exact keeps_bind (keeps_onBasis _ _) fun _ => keeps_initSystem _ _ _
      · exact keeps_bind (keeps_onBasis _ _) fun _ => keeps_bind (keeps_onBasis _ _) fun _ =>
          keeps_initSystem _ _ _
      · exact keeps_initSystem _ _ _
      · exact keeps_bind (keeps_onBasis _ _) fun _ => keeps_initSystem _ _ _
    · split
      · exact keeps_pure _
      · exact keeps_bind (keeps_deepcopyOp _) fun _ => keeps_bind (keeps_setOperator _ _) fun _ =>
          keeps_pure _

theorem performAll_sized {w : World K T} (hw : AllSized w) (ops : List (ℕ × SOp K T)) :
    AllSized (performAll w ops) := by
  induction ops generalizing w with
  | nil => exact hw
  | cons e ops ih => exact ih (keeps_sop e.1 e.2 w hw)

end World

end QS
