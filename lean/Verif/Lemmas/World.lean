import Verif.Lemmas.System
import Verif.Lemmas.SpinOps

/-! # Running the methods of systems in a world of objects -/

set_option linter.unusedSimpArgs false

namespace QS

open Finset PyM NDArray BasisSet

variable {K T : Type} [PyScalar K]

namespace World

theorem getSys_run {w : World K T} {s : ℕ} {x : Sys} (h : w.systems[s]? = some x) :
    (getSys s).run w = (.ok x, w) := by
  simp [getSys, PyM.run_bind, h, orErr]

theorem getBasis_run {w : World K T} {s : ℕ} {x : BasisSet K} (h : w.bases[s]? = some x) :
    (getBasis s).run w = (.ok x, w) := by
  simp [getBasis, PyM.run_bind, h, orErr]

theorem getOp_run {w : World K T} {s : ℕ} {x : TEOp K T} (h : w.ops[s]? = some x) :
    (getOp s).run w = (.ok x, w) := by
  simp [getOp, PyM.run_bind, h, orErr]

theorem onBasis_run {α : Type} {w : World K T} {r : ℕ} {b : BasisSet K} (h : w.bases[r]? = some b)
    (m : PyM (BasisSet K) α) :
    (onBasis r m).run w = ((m.run b).1, { w with bases := w.bases.set r (m.run b).2 }) := by
  simp only [PyM.run, onBasis, h]

theorem setSys_run (w : World K T) (s : ℕ) (x : Sys) :
    (setSys s x).run w = (.ok (), { w with systems := w.systems.set s x }) := rfl

theorem setOp_run (w : World K T) (s : ℕ) (x : TEOp K T) :
    (setOp s x).run w = (.ok (), { w with ops := w.ops.set s x }) := rfl

theorem lt_of_get {α : Type} {m : List α} {r : ℕ} {x : α} (h : m[r]? = some x) : r < m.length := by
  by_contra hc
  rw [List.getElem?_eq_none (by omega)] at h
  simp at h

theorem get_set {α : Type} {m : List α} {r : ℕ} {x : α} (h : m[r]? = some x) (y : α) :
    (m.set r y)[r]? = some y := by
  simp [List.getElem?_set, lt_of_get h]

theorem get_set_ne {α : Type} {m : List α} {r q : ℕ} (h : q ≠ r) (y : α) :
    (m.set r y)[q]? = m[q]? := by
  simp [List.getElem?_set, Ne.symm h]

theorem get_append {α : Type} {m : List α} {r : ℕ} {x : α} (h : m[r]? = some x) (n : List α) :
    (m ++ n)[r]? = some x := by
  rw [List.getElem?_append_left (lt_of_get h), h]

/-- The system object after `set_system_size(n, l)`. -/
def sized (x : Sys) (n l : ℕ) : Sys :=
  { x with n := n, l := l, m := l - n, o := (0, n), v := (n, l) }

theorem setSystemSize_run {w : World K T} {s n l : ℕ} {x : Sys} (hs : w.systems[s]? = some x) :
    (setSystemSize s n l).run w =
      if n ≤ l then (.ok (), { w with systems := w.systems.set s (sized x n l) })
      else (.error .assertion, w) := by
  by_cases h : n ≤ l
  · simp [setSystemSize, PyM.run_bind, run_assert, getSys_run hs, setSys_run, h, sized]
  · simp [setSystemSize, PyM.run_bind, run_assert, h]

/-- The system object that `__init__` makes. -/
def newSys (k : SysKind) (r n l : ℕ) (np : Option Module) : Sys :=
  { kind := k, basis := r, np := np, n := n, l := l, m := l - n, o := (0, n), v := (n, l),
    op := none }

theorem newSys_sized {k : SysKind} {r n l : ℕ} {np : Option Module} (h : n ≤ l) :
    Sized (newSys k r n l np) := ⟨h, rfl, rfl, rfl⟩

theorem initSystem_run {w : World K T} {k : SysKind} {n r : ℕ} {b : BasisSet K}
    (hb : w.bases[r]? = some b) :
    (initSystem k n r).run w =
      if n ≤ b.l then (.ok w.systems.length,
        { w with systems := w.systems ++ [newSys k r n b.l b.np] })
      else (.error .assertion, w) := by
  by_cases h : n ≤ b.l
  · simp only [initSystem, PyM.run_bind, getBasis_run hb, run_assert, h, decide_true, if_true,
      run_get, run_modify]
    rw [setSystemSize_run (x := newSys k r 0 0 b.np) (by simp [newSys])]
    simp [h, sized, newSys]
  · simp [initSystem, PyM.run_bind, getBasis_run hb, run_assert, h]

theorem h_run {w : World K T} {s : ℕ} {x : Sys} {b : BasisSet K} (hx : w.systems[s]? = some x)
    (hb : w.bases[x.basis]? = some b) : (World.h s).run w = (.ok b.h, w) := by
  simp only [World.h, PyM.run_bind, getSys_run hx, getBasis_run hb, run_pure]

theorem u_run {w : World K T} {s : ℕ} {x : Sys} {b : BasisSet K} (hx : w.systems[s]? = some x)
    (hb : w.bases[x.basis]? = some b) : (World.u s).run w = (.ok b.u, w) := by
  simp only [World.u, PyM.run_bind, getSys_run hx, getBasis_run hb, run_pure]

theorem dipole_run {w : World K T} {s : ℕ} {x : Sys} {b : BasisSet K} (hx : w.systems[s]? = some x)
    (hb : w.bases[x.basis]? = some b) : (World.dipole s).run w = (.ok b.dipole, w) := by
  simp only [World.dipole, PyM.run_bind, getSys_run hx, getBasis_run hb, run_pure]

/-- Reference energy of a consistent system. -/
theorem referenceEnergy_run {w : World K T} {s : ℕ} {x : Sys} {b : BasisSet K} (ok : SysOK w s x b)
    {H U : NDArray K} (hh : b.h = some H) (hu : b.u = some U) :
    ∃ r, (referenceEnergy s).run w = (.ok r, w) ∧ r.shape = [] ∧
      r.get [] = energyOf x.kind x.n H U := by
  obtain ⟨np, hnp⟩ := ok.wf.np
  obtain ⟨H', hh', sh⟩ := ok.wf.h
  obtain ⟨U', hu', su⟩ := ok.wf.u
  obtain rfl : H = H' := by rw [hh] at hh'; exact Option.some.inj hh'
  obtain rfl : U = U' := by rw [hu] at hu'; exact Option.some.inj hu'
  have hx : x.np = some np := by rw [ok.np, hnp]
  simp only [referenceEnergy, PyM.run_bind, getSys_run ok.sys, h_run ok.sys ok.basis,
    u_run ok.sys ok.basis]
  cases hk : x.kind with
  | general =>
    obtain ⟨r, h1, h2, h3⟩ := refEnergyGeneral_eq (np := np) sh su ok.size.le
    exact ⟨r, by simp only [run_liftM, hh, hu, hx, ok.size.o, h1], h2, h3⟩
  | spatial =>
    obtain ⟨r, h1, h2, h3⟩ := refEnergySpatial_eq (np := np) sh su ok.size.le
    exact ⟨r, by simp only [run_liftM, hh, hu, hx, ok.size.o, h1], h2, h3⟩

end World

/-! ### copies of basis sets -/

/-- `b` after the dual functions were read once. -/
def withBra (b : BasisSet K) : BasisSet K := { b with braSpf := b.bra }

@[simp] theorem withBra_bra (b : BasisSet K) : (withBra b).bra = b.bra := by
  unfold withBra BasisSet.bra
  cases b.braSpf <;> cases b.spf <;> rfl

theorem withBra_wf {b : BasisSet K} {l : ℕ} (hb : WellFormed b l) : WellFormed (withBra b) l := by
  refine ⟨hb.l_eq, hb.np, hb.h, hb.u, hb.s, hb.dipole, hb.spf, fun x hx => BasisSet.WellFormed.bra_shape hb hx, ?_, hb.tb⟩
  intro h
  have h' : b.spf = none := h
  show b.bra = none
  simp [BasisSet.bra, hb.braNeedsSpf h', h']

theorem not_two {b : BasisSet K} {l : ℕ} (hb : WellFormed b l) : b.uRepr ≠ .two := by
  obtain ⟨u, hu, hus⟩ := hb.u
  simp [uRepr, hu, ndim, hus]

theorem changeModule_run {b : BasisSet K} {l : ℕ} (hb : WellFormed b l) (m : Option Module) :
    (changeModule m).run b =
      (match m with
        | none => .error .attribute
        | some _ => .ok (), { withBra b with np := m }) := by
  have h2 := not_two hb
  obtain ⟨h, hh, -⟩ := hb.h
  have hbra : ({ b with np := m } : BasisSet K).bra = b.bra := by
    cases hb1 : b.braSpf <;> simp [BasisSet.bra, hb1]
  simp only [changeModule, PyM.run_bind, run_get, h2, and_false, if_false, changeModuleBase,
    run_modify, getBra_run, hbra]
  rw [if_pos (by simp [anyArray, hh])]
  cases m <;> simp [needNp, withBra]

theorem copyBasis_run {b : BasisSet K} {l : ℕ} (hb : WellFormed b l) (he : b.extraModule = false) :
    (copyBasis).run b = (.ok (withBra b), withBra b) := by
  obtain ⟨np, hnp⟩ := hb.np
  have key : (changeModule (some np)).run { b with np := none } = (.ok (), withBra b) := by
    have h2 : ({ b with np := none } : BasisSet K).uRepr ≠ .two := by
      have := not_two hb
      exact this
    obtain ⟨h, hh, -⟩ := hb.h
    simp only [changeModule, PyM.run_bind, run_get, h2, and_false, if_false, changeModuleBase,
      run_modify, getBra_run]
    rw [if_pos (by simp [anyArray, hh])]
    have hbra : ({ b with np := some np } : BasisSet K).bra = b.bra := by
      cases hb1 : b.braSpf <;> simp [BasisSet.bra, hb1]
    simp [needNp, withBra, hnp, hbra]
  simp only [he] at key
  have key' : changeModule (some np) { b with np := none, extraModule := false } =
      (.ok (), withBra b) := key
  simp only [copyBasis, PyM.run_bind, run_get, run_modify, he, Bool.false_eq_true, if_false,
    run_pure, hnp, key', run_liftM, key]

theorem generalOf_withBra {b b' : BasisSet K} {l : ℕ} {anti : Bool}
    (h : GeneralOf (withBra b) b' l anti) : GeneralOf b b' l anti :=
  ⟨h.size, h.spin, h.h, h.s, h.u, h.antiSym, h.dipole, h.spf, by simpa using h.bra, h.rest⟩

namespace World

/-- The world after `construct_general_orbital_system` (no time-evolution operator). -/
def withGeneral (w : World K T) (x : Sys) (b g : BasisSet K) : World K T :=
  { bases := w.bases.set x.basis (withBra b) ++ [g]
    systems := w.systems ++ [newSys .general w.bases.length (2 * x.n) (2 * x.l) b.np]
    ops := w.ops }

theorem general_antiSymmed {b : BasisSet K} {l : ℕ} {ov : NDArray K} (a₀ a₁ b₀ b₁ : K) :
    (general b l ov a₀ a₁ b₀ b₁ true).antiSym = true := by
  simp only [general, casted]
  split_ifs <;> simp [antiSymmed] <;> split_ifs <;> simp_all

/-- The new general system, before the time-evolution operator is dealt with. -/
theorem constructPart_run {w : World K T} {s : ℕ} {x : Sys} {b : BasisSet K} {ov : NDArray K}
    {a₀ a₁ b₀ b₁ : K} {anti : Bool} (ok : SysOK w s x b) (hc : b.cls = .plain)
    (he : b.extraModule = false) (hsp : b.includesSpin = false)
    (hs : b.s = some ov) (ho : OrthoSpin a₀ a₁ b₀ b₁) :
    (do
      let c ← onBasis x.basis copyBasis
      let r ← newBasis c
      generalInit (x.n * 2) r [a₀, a₁] [b₀, b₁] anti : PyM (World K T) ℕ).run w =
      (.ok w.systems.length,
        withGeneral w x b (general (withBra b) x.l ov a₀ a₁ b₀ b₁ anti)) := by
  obtain ⟨h1, h2, h3⟩ := small_of_ortho ho
  have hw := withBra_wf ok.wf
  have run := changeToGeneralBase_run (anti := anti) hw hsp hs h1 h2 h3
  obtain ⟨gw, -⟩ := general_wellFormed (ov := ov) a₀ a₁ b₀ b₁ anti hw
  have gl : (general (withBra b) x.l ov a₀ a₁ b₀ b₁ anti).l = 2 * x.l := gw.l_eq
  have gnp : (general (withBra b) x.l ov a₀ a₁ b₀ b₁ anti).np = b.np :=
    (general_isGeneral a₀ a₁ b₀ b₁ anti hw hs).rest.2.2.2
  have hlen : (w.bases.set x.basis (withBra b)).length = w.bases.length := by simp
  simp only [PyM.run_bind, onBasis_run ok.basis,
    copyBasis_run ok.wf he, newBasis, run_get, run_modify, run_pure, hlen, generalInit]
  have e1 : (w.bases.set x.basis (withBra b) ++ [withBra b])[w.bases.length]? =
      some (withBra b) := by
    rw [List.getElem?_append_right (by simp)]; simp
  rw [getBasis_run (by exact e1)]
  have hsp' : (withBra b).includesSpin = false := hsp
  have hc' : (withBra b).cls = .plain := hc
  simp only [hsp', Bool.not_false, if_true, PyM.run_bind]
  rw [onBasis_run (by exact e1)]
  have runAB : (changeToGeneralAB [a₀, a₁] [b₀, b₁] anti).run (withBra b) =
      (.ok true, general (withBra b) x.l ov a₀ a₁ b₀ b₁ anti) := by
    simp only [changeToGeneralAB, PyM.run_bind, run_get, hc', run]
  simp only [runAB]
  have hset : (w.bases.set x.basis (withBra b) ++ [withBra b]).set w.bases.length
      (general (withBra b) x.l ov a₀ a₁ b₀ b₁ anti) =
      w.bases.set x.basis (withBra b) ++ [general (withBra b) x.l ov a₀ a₁ b₀ b₁ anti] := by
    rw [List.set_append_right _ _ (by simp)]; simp
  rw [hset]
  have e2 : (w.bases.set x.basis (withBra b) ++
      [general (withBra b) x.l ov a₀ a₁ b₀ b₁ anti])[w.bases.length]? =
      some (general (withBra b) x.l ov a₀ a₁ b₀ b₁ anti) := by
    rw [List.getElem?_append_right (by simp)]; simp
  have fin : ∀ w' : World K T, w' = { w with bases := w.bases.set x.basis (withBra b) ++
        [general (withBra b) x.l ov a₀ a₁ b₀ b₁ anti] } →
      (initSystem .general (x.n * 2) w.bases.length).run w' =
      (.ok w.systems.length, withGeneral w x b (general (withBra b) x.l ov a₀ a₁ b₀ b₁ anti)) := by
    rintro _ rfl
    rw [initSystem_run (by exact e2), gl, gnp, if_pos (by have := ok.size.le; omega)]
    simp [withGeneral, mul_comm]
  cases anti with
  | false =>
    simp only [Bool.false_eq_true, if_false, PyM.run_bind, run_pure]
    rw [fin _ rfl]
  | true =>
    simp only [if_true, PyM.run_bind]
    rw [onBasis_run (by exact e2)]
    have : (antiSymmetrizeTwoBody).run (general (withBra b) x.l ov a₀ a₁ b₀ b₁ true) =
        (.ok (), general (withBra b) x.l ov a₀ a₁ b₀ b₁ true) := by
      simp [antiSymmetrizeTwoBody, PyM.run_bind, general_antiSymmed]
    simp only [this]
    rw [fin]
    · congr 1
      rw [List.set_append_right _ _ (by simp)]; simp

theorem constructGeneral_split {w : World K T} {s : ℕ} {x : Sys} (hx : w.systems[s]? = some x)
    (a b : List K) (anti : Bool) :
    (constructGeneral s a b anti).run w = ((do
      let c ← onBasis x.basis copyBasis
      let r ← newBasis c
      generalInit (x.n * 2) r a b anti : PyM (World K T) ℕ) >>= fun gos =>
        match x.op with
        | none => pure gos
        | some o => do
          let o' ← deepcopyOp o
          setTimeEvolutionOperator gos (some o')
          pure gos).run w := by
  unfold constructGeneral
  rw [run_bind_ok (getSys_run hx)]
  simp only [bind_assoc]
  rfl

theorem constructGeneral_run {w : World K T} {s : ℕ} {x : Sys} {b : BasisSet K} {ov : NDArray K}
    {a₀ a₁ b₀ b₁ : K} {anti : Bool} (ok : SysOK w s x b) (hc : b.cls = .plain)
    (he : b.extraModule = false) (hsp : b.includesSpin = false) (hop : x.op = none)
    (hs : b.s = some ov) (ho : OrthoSpin a₀ a₁ b₀ b₁) :
    (constructGeneral s [a₀, a₁] [b₀, b₁] anti).run w =
      (.ok w.systems.length,
        withGeneral w x b (general (withBra b) x.l ov a₀ a₁ b₀ b₁ anti)) := by
  rw [constructGeneral_split ok.sys, run_bind_ok (constructPart_run ok hc he hsp hs ho), hop]
  rfl

/-! ### change of basis -/

theorem onBasis_ok {α : Type} {w w' : World K T} {r : ℕ} {b : BasisSet K} {m : PyM (BasisSet K) α}
    {a : α} (hb : w.bases[r]? = some b) (h : (onBasis r m).run w = (.ok a, w')) :
    ∃ b', m.run b = (.ok a, b') ∧ w' = { w with bases := w.bases.set r b' } := by
  rw [onBasis_run hb] at h
  simp only [Prod.mk.injEq] at h
  exact ⟨(m.run b).2, by rw [← h.1], h.2.symm⟩

/-- The world after `change_basis` on system `s`. -/
def withChanged (w : World K T) (s : ℕ) (x : Sys) (b' : BasisSet K) (n : ℕ) : World K T :=
  { w with bases := w.bases.set x.basis b', systems := w.systems.set s (sized x x.n n) }

theorem withChanged_ok {w : World K T} {s n : ℕ} {x : Sys} {b b' : BasisSet K} (ok : SysOK w s x b)
    (hb' : WellFormed b' n) (hnp : b'.np = b.np) (hn : x.n ≤ n) :
    SysOK (withChanged w s x b' n) s (sized x x.n n) b' :=
  ⟨get_set ok.sys _, get_set ok.basis _, hb', by rw [hnp]; exact ok.np, hn, rfl, rfl, rfl⟩

theorem changeBasis_ok {w w' : World K T} {s : ℕ} {x : Sys} {b : BasisSet K} {C : NDArray K}
    {Ct : Option (NDArray K)} {r : Unit} (ok : SysOK w s x b)
    (h : (World.changeBasis s C Ct).run w = (.ok r, w')) :
    ∃ n, C.shape = [x.l, n] ∧ (Ct.getD C.conj.T).shape = [n, x.l] ∧ x.n ≤ n ∧
      w' = withChanged w s x (changed b C (Ct.getD C.conj.T) x.l n) n := by
  unfold World.changeBasis at h
  obtain ⟨_, _, h1, h⟩ := run_bind_eq_ok.1 h
  rw [getSys_run ok.sys] at h1
  obtain ⟨rfl, rfl⟩ : x = _ ∧ w = _ := by simpa using h1
  obtain ⟨_, _, h2, h⟩ := run_bind_eq_ok.1 h
  obtain ⟨b', h3, rfl⟩ := onBasis_ok ok.basis h2
  obtain ⟨n, hC, hCt, -, rfl⟩ := changeBasis_inv ok.wf h3
  obtain ⟨_, _, h4, h⟩ := run_bind_eq_ok.1 h
  rw [getBasis_run (get_set ok.basis _)] at h4
  simp only [Prod.mk.injEq, Except.ok.injEq] at h4
  obtain ⟨rfl, rfl⟩ := h4
  rw [setSystemSize_run (by exact ok.sys)] at h
  split_ifs at h with hn
  · simp only [Prod.mk.injEq, true_and] at h
    exact ⟨n, hC, hCt, hn, h.symm⟩
  · simp at h

theorem changeBasis_sys_run {w : World K T} {s n : ℕ} {x : Sys} {b : BasisSet K} {C : NDArray K}
    {Ct : Option (NDArray K)} (ok : SysOK w s x b) (hsp : SpinShaped b x.l)
    (hC : C.shape = [x.l, n]) (hCt : (Ct.getD C.conj.T).shape = [n, x.l]) (hn : x.n ≤ n) :
    (World.changeBasis s C Ct).run w =
      (.ok (), withChanged w s x (changed b C (Ct.getD C.conj.T) x.l n) n) := by
  have run := changeBasis_run ok.wf hsp hC hCt
  have run' : (BasisSet.changeBasis C Ct).run b =
      (.ok (), changed b C (Ct.getD C.conj.T) x.l n) := by
    rw [← run]; cases Ct <;> rfl
  simp only [World.changeBasis, PyM.run_bind, getSys_run ok.sys]
  rw [onBasis_run ok.basis, run']
  simp only
  rw [getBasis_run (get_set ok.basis _)]
  simp only
  rw [setSystemSize_run (by exact ok.sys), if_pos (by exact hn)]
  rfl

end World

end QS
