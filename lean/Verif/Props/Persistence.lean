import Verif.Lemmas.Persistence
import Verif.Spec.DemoSystem

/-! # C154: objects keep their identity -/

namespace QS.Props

open NDArray PyM BasisSet World Demo

variable {K T : Type} [PyScalar K]

/-! ## C154 -/

/-- **C154** In every world that can arise, every reference leads to an object, and every lambda of an operator
reads a local variable that exists. -/
theorem C154_arises {w : World K T} (h : World.Arises w) : w.Sound := by
  induction h with
  | empty => exact ⟨⟨by simp, by simp, by simp⟩, by simp⟩
  | newBasis c _ ih => exact (good_newBasis c ih).1
  | newOp y h0 hl _ ih => exact (good_newOp h0 hl ih).1
  | generalInit n r a b anti _ ih => exact (good_generalInit n r a b anti ih).1
  | spatialInit n r _ ih => exact (good_spatialInit n r ih).1
  | perform s op hm _ ih => exact (good_sop s op hm ih).1

/-- **C154** (histories) After any history, in which operations may raise exceptions, all objects are still there:
systems have the class and the basis set object they had, operators the class, functions, matrices and weights.
References stay valid, also those of new objects. -/
theorem C154_history {w : World K T} (hw : w.Sound) {ops : List (ℕ × SOp K T)}
    (hm : ∀ e ∈ ops, ∀ o, e.2.mentions o → ∃ y, w.ops[o]? = some y) :
    (performAll w ops).Sound ∧ w.Intact (performAll w ops) := by
  induction ops generalizing w with
  | nil => exact ⟨hw, .refl w⟩
  | cons e ops ih =>
    obtain ⟨h1, h2⟩ := good_sop e.1 e.2 (hm e (by simp)) hw
    obtain ⟨h3, h4⟩ := ih h1 fun e' he' o ho => by
      obtain ⟨y, hy⟩ := hm e' (by simp [he']) o ho
      obtain ⟨y', hy', -⟩ := h2.op o y hy
      exact ⟨y', hy'⟩
    exact ⟨h3, h2.trans h4⟩

/-- **C154** (constructors) Constructing systems, basis sets and operators takes nothing away, whether it succeeds
or not. -/
theorem C154_constructors {w : World K T} (hw : w.Sound) :
    (∀ n r a b anti, w.Intact ((World.generalInit n r a b anti).run w).2) ∧
    (∀ n r, w.Intact ((World.spatialInit n r).run w).2) ∧
    (∀ c, w.Intact ((World.newBasis c).run w).2) ∧
    ∀ y : TEOp K T, y.system = none → y.Live → w.Intact ((World.newOp y).run w).2 :=
  ⟨fun n r a b anti => (good_generalInit n r a b anti hw).2, fun n r => (good_spatialInit n r hw).2,
    fun c => (good_newBasis c hw).2, fun _ h0 hl => (good_newOp h0 hl hw).2⟩

/-- **C154** (operators) The constructors of the operator classes, given plain values or functions, make operators
that are not bound and have no lambdas that lead nowhere. -/
theorem C154_operators {p : Attr K T} (hp : ∀ c, p ≠ .closure c) :
    ((adiabaticSwitching p).system = none ∧ (adiabaticSwitching p).Live) ∧
    (∀ a, (customOneBodyOperator p a).system = none ∧ (customOneBodyOperator p a).Live) ∧
    (∀ e : Option (Attr K T), (∀ c, e ≠ some (.closure c)) →
      (laserField p e).system = none ∧ (laserField p e).Live) := by
  have live : ∀ {q : Attr K T} (n : ℕ), (∀ c, q ≠ .closure c) → q.Live n := by
    intro q n h
    cases q with
    | closure c => exact absurd rfl (h c)
    | _ => trivial
  refine ⟨?_, fun a => ⟨rfl, live 0 hp⟩, fun e he => ⟨rfl, live 0 hp, fun a ha => live 0 fun c hc => ?_⟩⟩
  · cases p with
    | closure c => exact absurd rfl (hp c)
    | const v => exact ⟨rfl, trivial⟩
    | fn f => exact ⟨rfl, trivial⟩
  · exact he c (by rw [ha, hc])

/-- **C154** (calls) A lambda of an operator never raises `NameError`. -/
theorem C154_calls {w : World K T} (hw : w.Sound) {o : ℕ} {y : TEOp K T} (hy : w.ops[o]? = some y) (t : T) :
    (∀ p e, y.kind = .laser p e → p.call y.cells t ≠ .error .name ∧ ∀ a, e = some a → a.call y.cells t ≠ .error .name) ∧
    (∀ f, y.kind = .adiabatic f → f.call y.cells t ≠ .error .name) ∧
    ∀ c a, y.kind = .custom c a → c.call y.cells t ≠ .error .name := by
  have hl := hw.live o y hy
  have call : ∀ {q : Attr K T}, q.Live y.cells.length → q.call y.cells t ≠ .error .name := by
    intro q hq
    cases q with
    | const v => simp [Attr.call]
    | fn f => simp [Attr.call]
    | closure c =>
      have hq : c < y.cells.length := hq
      simp [Attr.call, List.getElem?_eq_getElem hq]
  refine ⟨fun p e hk => ?_, fun f hk => ?_, fun c a hk => ?_⟩ <;> simp only [TEOp.Live, hk] at hl
  · exact ⟨call hl.1, fun a ha => call (hl.2 a ha)⟩
  · exact call hl
  · exact call hl

/-- One basis set, two systems on it, and one laser field that is set on both: the first system's operator is bound
to the second system. -/
example : ∃ w : World GaussQ ℚ, World.Arises w ∧ w.systems.length = 2 ∧
    (w.systems[0]?).map Sys.basis = some 0 ∧ (w.systems[1]?).map Sys.basis = some 0 ∧
    (w.systems[0]?).bind Sys.op = some 0 ∧ (w.systems[1]?).bind Sys.op = some 0 ∧
    (w.ops[0]?).bind TEOp.system = some 1 := by
  let w₁ : World GaussQ ℚ := ((World.newBasis Demo.basis).run ⟨[], [], []⟩).2
  let w₂ := ((World.spatialInit 2 0).run w₁).2
  let w₃ := ((World.spatialInit 4 0).run w₂).2
  let w₄ := ((World.newOp (laserField (.fn fun t => .scalar .float64 ⟨t, 0⟩) none)).run w₃).2
  let w₅ := (((SOp.setOperator (some 0)).run 0).run w₄).2
  let w₆ := (((SOp.setOperator (some 0)).run 1).run w₅).2
  refine ⟨w₆, ?_, by decide +kernel, by decide +kernel, by decide +kernel, by decide +kernel, by decide +kernel, by decide +kernel⟩
  refine .perform 1 (.setOperator (some 0)) (fun o h => ?_) <| .perform 0 (.setOperator (some 0)) (fun o h => ?_) <|
    .newOp _ rfl ⟨trivial, fun a ha => by cases ha⟩ <| .spatialInit 4 0 <| .spatialInit 2 0 <|
    .newBasis Demo.basis .empty
  · obtain rfl : o = 0 := h
    exact ⟨_, rfl⟩
  · obtain rfl : o = 0 := h
    exact ⟨_, rfl⟩

/-- The weight of a `CustomOneBodyOperator` stays 3 although its attribute changes from a number to a lambda. -/
example : TEOp.Kept (customOneBodyOperator (.const (.scalar .int64 3)) Demo.h : TEOp GaussQ ℚ)
    ⟨.custom (.closure 0) Demo.h, some 0, [.scalar .int64 3]⟩ :=
  ⟨by simp [customOneBodyOperator], fun h => by simp [customOneBodyOperator] at h,
    fun _ _ h => by simp [customOneBodyOperator] at h, fun _ h => by simp [customOneBodyOperator] at h, fun c a h => by
    obtain ⟨rfl, rfl⟩ := OpKind.custom.inj h
    exact ⟨_, rfl, rfl⟩⟩

end QS.Props
