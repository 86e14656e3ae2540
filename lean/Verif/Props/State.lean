import Verif.Lemmas.History
import Verif.Props.BasisChange
import Verif.Props.SpinDoubling

/-!
# Properties C08–C11, C73: the state of a basis set over its history

Each theorem is followed by a concrete case that meets its hypotheses.
-/

namespace QS.Props

open Finset NDArray BasisSet PyM Demo

variable {K : Type} [PyScalar K]

/-! ## C10 -/

/-- **C10** Assigning `h`, `s` or `u`: accepted exactly if all axes have length `l`; a rejected
assignment raises `AssertionError` and changes nothing. -/
theorem C10_elements (b : BasisSet K) (x : NDArray K) :
    (AxesAre b.l x → (setH (some x)).run b = (.ok (), { b with h := some x }) ∧
      (setS (some x)).run b = (.ok (), { b with s := some x }) ∧
      (setU (some x)).run b = (.ok (), { b with u := some x })) ∧
    (¬ AxesAre b.l x → (setH (some x)).run b = (.error .assertion, b) ∧
      (setS (some x)).run b = (.error .assertion, b) ∧
      (setU (some x)).run b = (.error .assertion, b)) := by
  constructor
  · intro h
    have h := axesOk_iff.2 h
    exact ⟨setH_run h, setS_run h, setU_run h⟩
  · intro h
    have h : axesOk x b.l = false := by simpa using mt axesOk_iff.1 h
    refine ⟨?_, ?_, ?_⟩
    · simp [setH, PyM.run_bind, orErr, h]
    · simp [setS, PyM.run_bind, orErr, h]
    · simp [setU, PyM.run_bind, orErr, h]

/-- **C10** Assigning a spin matrix: accepted exactly if the basis set includes spin and all axes have
length `l`; a rejected assignment raises `AssertionError` and changes nothing. -/
theorem C10_spin (b : BasisSet K) (x : NDArray K) :
    (b.includesSpin = true ∧ AxesAre b.l x →
      (setSpinX (some x)).run b = (.ok (), { b with spinX := some x }) ∧
      (setSpinY (some x)).run b = (.ok (), { b with spinY := some x }) ∧
      (setSpinZ (some x)).run b = (.ok (), { b with spinZ := some x }) ∧
      (setSpin2 (some x)).run b = (.ok (), { b with spin2 := some x }) ∧
      (setSpin2tb (some x)).run b = (.ok (), { b with spin2tb := some x })) ∧
    (¬ (b.includesSpin = true ∧ AxesAre b.l x) →
      (setSpinX (some x)).run b = (.error .assertion, b) ∧
      (setSpinY (some x)).run b = (.error .assertion, b) ∧
      (setSpinZ (some x)).run b = (.error .assertion, b) ∧
      (setSpin2 (some x)).run b = (.error .assertion, b) ∧
      (setSpin2tb (some x)).run b = (.error .assertion, b)) := by
  constructor
  · rintro ⟨hs, h⟩
    have h := axesOk_iff.2 h
    exact ⟨setSpinX_run h hs, setSpinY_run h hs, setSpinZ_run h hs, setSpin2_run h hs,
      setSpin2tb_run h hs⟩
  · intro h
    cases hs : b.includesSpin with
    | false =>
      refine ⟨?_, ?_, ?_, ?_, ?_⟩ <;>
        simp [setSpinX, setSpinY, setSpinZ, setSpin2, setSpin2tb, PyM.run_bind, hs]
    | true =>
      have h : axesOk x b.l = false := by
        simpa using mt axesOk_iff.1 (fun h' => h ⟨hs, h'⟩)
      refine ⟨?_, ?_, ?_, ?_, ?_⟩ <;>
        simp [setSpinX, setSpinY, setSpinZ, setSpin2, setSpin2tb, PyM.run_bind, orErr, hs, h]

open Classical in
/-- **C10** Assigning `dipole_moment`, `spf` or `bra_spf`: accepted exactly if the documented axis
conditions hold; an array that is not 0-dimensional is otherwise rejected with `AssertionError` and
nothing changes. -/
theorem C10_functions (b : BasisSet K) (x : NDArray K) :
    ((setDipole (some x)).run b =
      if DipoleAxes b.dim b.l x then (.ok (), { b with dipole := some x })
      else (.error (if x.shape = [] then .type else .assertion), b)) ∧
    ((setSpf (some x)).run b =
      if SpfAxes b.dim b.l x then (.ok (), { b with spf := some x })
      else (.error (if x.shape = [] then .index else .assertion), b)) ∧
    ((setBra (some x)).run b =
      if SpfAxes b.dim b.l x then (.ok (), { b with braSpf := some x })
      else (.error (if x.shape = [] then .index else .assertion), b)) := by
  have h0 : x.shape = [] → ¬ DipoleAxes b.dim b.l x := by
    rintro h ⟨sh, e, _⟩; rw [h] at e; simp at e
  have h1 : x.shape = [] → ¬ SpfAxes b.dim b.l x := by
    rintro h ⟨sh, e, _⟩; rw [h] at e; simp at e
  refine ⟨?_, ?_, ?_⟩
  · rcases setDipole_cases b x with ⟨a, e⟩ | ⟨a, e⟩ | ⟨a', a, e⟩
    · rw [if_pos a, e]
    · rw [if_neg (h0 a), if_pos a, e]
    · rw [if_neg a, if_neg a', e]
  · rcases setSpf_cases b x with ⟨a, e⟩ | ⟨a, e⟩ | ⟨a', a, e⟩
    · rw [if_pos a, e]
    · rw [if_neg (h1 a), if_pos a, e]
    · rw [if_neg a, if_neg a', e]
  · rcases setBra_cases b x with ⟨a, e⟩ | ⟨a, e⟩ | ⟨a', a, e⟩
    · rw [if_pos a, e]
    · rw [if_neg (h1 a), if_pos a, e]
    · rw [if_neg a, if_neg a', e]

/-- **C10** Assigning `None`: the matrix elements reject it (`AttributeError`, for the dipole moment
`TypeError`, for spin matrices of a set without spin `AssertionError`) and nothing changes; the
single-particle functions accept it. -/
theorem C10_none (b : BasisSet K) :
    (setH none).run b = (.error .attribute, b) ∧ (setS none).run b = (.error .attribute, b) ∧
    (setU none).run b = (.error .attribute, b) ∧ (setDipole none).run b = (.error .type, b) ∧
    (setSpf none).run b = (.ok (), { b with spf := none }) ∧
    (setBra none).run b = (.ok (), { b with braSpf := none }) ∧
    ∀ set ∈ [setSpinX (K := K), setSpinY, setSpinZ, setSpin2, setSpin2tb],
      (set none).run b = (.error (if b.includesSpin then .attribute else .assertion), b) := by
  refine ⟨?_, ?_, ?_, ?_, ?_, ?_, ?_⟩
  · simp [setH, PyM.run_bind, orErr]
  · simp [setS, PyM.run_bind, orErr]
  · simp [setU, PyM.run_bind, orErr]
  · simp [setDipole, PyM.run_bind, orErr]
  · simp [setSpf, PyM.run_bind]
  · simp [setBra, PyM.run_bind]
  · intro set hs
    cases h : b.includesSpin <;> fin_cases hs <;>
      simp [setSpinX, setSpinY, setSpinZ, setSpin2, setSpin2tb, PyM.run_bind, orErr, h]

example : AxesAre basis.l Demo.h ∧ ¬ AxesAre basis.l Demo.C23 := by
  constructor <;> unfold AxesAre <;> decide +kernel
example : ¬ SpfAxes basis.dim basis.l Demo.dip := by
  rintro ⟨g, e, _⟩
  have : Demo.dip.shape = [1, 2, 2] := rfl
  rw [this] at e
  exact absurd (List.cons.inj e).1 (by decide)

/-! ## C09 -/

/-- Spin operators are populated only if the basis set includes spin. -/
structure SpinGate (b : BasisSet K) : Prop where
  ops : b.includesSpin = false → NoSpinOps b
  tb : b.includesSpin = false → b.spin2tb = none

theorem casted_core {b : BasisSet K} (h : CoreMatch b) : CoreMatch (casted b) := by
  constructor <;> intro x hx <;> obtain ⟨y, hy, rfl⟩ := Option.map_eq_some_iff.1 hx
  · exact h.h y hy
  · exact h.s y hy
  · exact h.u y hy
  · exact h.tb y hy
  · exact h.dipole y hy
  · exact h.spf y hy

theorem casted_spin {b : BasisSet K} (h : SpinMatch b) : SpinMatch (casted b) := by
  constructor <;> intro x hx <;> obtain ⟨y, hy, rfl⟩ := Option.map_eq_some_iff.1 hx
  · exact h.x y hy
  · exact h.y y hy
  · exact h.z y hy
  · exact h.two y hy

theorem casted_gate {b : BasisSet K} (h : SpinGate b) : SpinGate (casted b) := by
  constructor
  · intro hs
    have := h.ops hs
    constructor <;> simp [casted, this.x, this.y, this.z, this.two]
  · intro hs
    simp [casted, h.tb hs]

theorem bra_match {b : BasisSet K} (hc : CoreMatch b) (h : BraMatch b) {x : NDArray K}
    (hx : b.bra = some x) : SpfAxes b.dim b.l x := by
  unfold BasisSet.bra at hx
  rcases hy : b.braSpf with _ | y
  · rw [hy] at hx
    obtain ⟨z, hz, rfl⟩ := Option.map_eq_some_iff.1 hx
    exact hc.spf z hz
  · rw [hy] at hx
    cases hx
    exact h _ hy

/-- One operation preserves the invariant. -/
theorem core_step {b b' : BasisSet K} {op : Op K} (hc : CoreMatch b) (hg : SpinGate b)
    (h : (op.run).run b = (.ok (), b')) : CoreMatch b' ∧ SpinGate b' := by
  cases op with
  | setH x =>
    obtain ⟨y, -, hy, rfl⟩ := setH_inv h
    exact ⟨{ hc with h := by rintro z ⟨⟩; exact hy }, ⟨fun e => ⟨(hg.ops e).x, (hg.ops e).y,
      (hg.ops e).z, (hg.ops e).two⟩, hg.tb⟩⟩
  | setU x =>
    obtain ⟨y, -, hy, rfl⟩ := setU_inv h
    exact ⟨{ hc with u := by rintro z ⟨⟩; exact hy }, ⟨fun e => ⟨(hg.ops e).x, (hg.ops e).y,
      (hg.ops e).z, (hg.ops e).two⟩, hg.tb⟩⟩
  | setS x =>
    obtain ⟨y, -, hy, rfl⟩ := setS_inv h
    exact ⟨{ hc with s := by rintro z ⟨⟩; exact hy }, ⟨fun e => ⟨(hg.ops e).x, (hg.ops e).y,
      (hg.ops e).z, (hg.ops e).two⟩, hg.tb⟩⟩
  | setDipole x =>
    obtain ⟨y, -, hy, rfl⟩ := setDipole_inv h
    exact ⟨{ hc with dipole := by rintro z ⟨⟩; exact hy }, ⟨fun e => ⟨(hg.ops e).x, (hg.ops e).y,
      (hg.ops e).z, (hg.ops e).two⟩, hg.tb⟩⟩
  | setSpinX x =>
    obtain ⟨y, -, hy, hs, rfl⟩ := setSpinX_inv h
    exact ⟨{ hc with }, ⟨fun e => by simp_all, fun e => by simp_all⟩⟩
  | setSpinY x =>
    obtain ⟨y, -, hy, hs, rfl⟩ := setSpinY_inv h
    exact ⟨{ hc with }, ⟨fun e => by simp_all, fun e => by simp_all⟩⟩
  | setSpinZ x =>
    obtain ⟨y, -, hy, hs, rfl⟩ := setSpinZ_inv h
    exact ⟨{ hc with }, ⟨fun e => by simp_all, fun e => by simp_all⟩⟩
  | setSpin2 x =>
    obtain ⟨y, -, hy, hs, rfl⟩ := setSpin2_inv h
    exact ⟨{ hc with }, ⟨fun e => by simp_all, fun e => by simp_all⟩⟩
  | setSpin2tb x =>
    obtain ⟨y, -, hy, hs, rfl⟩ := setSpin2tb_inv h
    exact ⟨{ hc with tb := by rintro z ⟨⟩; exact hy },
      ⟨fun e => by simp_all, fun e => by simp_all⟩⟩
  | setSpf x =>
    obtain ⟨hy, rfl⟩ := setSpf_inv h
    exact ⟨{ hc with spf := hy }, ⟨fun e => ⟨(hg.ops e).x, (hg.ops e).y,
      (hg.ops e).z, (hg.ops e).two⟩, hg.tb⟩⟩
  | setBra x =>
    obtain ⟨hy, rfl⟩ := setBra_inv h
    exact ⟨{ hc with }, ⟨fun e => ⟨(hg.ops e).x, (hg.ops e).y,
      (hg.ops e).z, (hg.ops e).two⟩, hg.tb⟩⟩
  | setNre x =>
    obtain rfl := run_modify_eq_ok.1 h
    exact ⟨{ hc with }, ⟨fun e => ⟨(hg.ops e).x, (hg.ops e).y,
      (hg.ops e).z, (hg.ops e).two⟩, hg.tb⟩⟩
  | setGrid x =>
    obtain rfl := run_modify_eq_ok.1 h
    exact ⟨{ hc with }, ⟨fun e => ⟨(hg.ops e).x, (hg.ops e).y,
      (hg.ops e).z, (hg.ops e).two⟩, hg.tb⟩⟩
  | readBra =>
    simp only [Op.run, PyM.run_bind, getBra_run, run_pure, Prod.mk.injEq, true_and] at h
    subst h
    exact ⟨{ hc with }, ⟨fun e => ⟨(hg.ops e).x, (hg.ops e).y,
      (hg.ops e).z, (hg.ops e).two⟩, hg.tb⟩⟩
  | changeBasis C Ct =>
    obtain ⟨n, hn, h', s', u', tb', d', spf', bra', rfl, a1, a2, a3, a4, a5, a6, a7, a8⟩ :=
      changeBasis_axes h
    refine ⟨⟨?_, a2, ?_, fun z hz => (a4 z hz).1, a5, a6⟩, ⟨fun e => ⟨(hg.ops e).x, (hg.ops e).y,
      (hg.ops e).z, (hg.ops e).two⟩, ?_⟩⟩
    · rintro z ⟨⟩; exact a1
    · rintro z ⟨⟩; exact a3
    · intro e
      rcases ht : tb' with _ | z
      · rfl
      · have := (a4 z ht).2
        have e' : b.includesSpin = false := e
        simp [e'] at this
  | toGeneral a c anti =>
    simp only [Op.run] at h
    obtain ⟨r, s₁, h1, h2⟩ := run_bind_eq_ok.1 h
    obtain ⟨-, rfl⟩ := run_pure_eq_ok.1 h2
    cases hs : b.includesSpin with
    | true =>
      rw [(C17_no_second_doubling hs a c anti 0).1] at h1
      simp only [Prod.mk.injEq] at h1
      rw [← h1.2]
      exact ⟨hc, hg⟩
    | false =>
      obtain ⟨b₀, rfl, k1, k2, k3, k4, k5, k6, k7⟩ :=
        changeToGeneralBase_axes hs (hg.ops hs) (hg.tb hs) h1
      refine ⟨casted_core k4, casted_gate ⟨?_, ?_⟩⟩ <;> intro e <;> simp [k3] at e
  | antiSymmetrize =>
    rcases antiSymmetrizeTwoBody_inv h with ⟨-, e⟩ | ⟨-, u, tb, q1, q2, q3, rfl⟩
    · subst e; exact ⟨hc, hg⟩
    · exact ⟨{ hc with u := by (rintro z ⟨⟩; exact q1), tb := q2 },
        ⟨fun e => ⟨(hg.ops e).x, (hg.ops e).y, (hg.ops e).z, (hg.ops e).two⟩,
          fun e => q3 (hg.tb e)⟩⟩
  | castToComplex =>
    obtain rfl := castToComplex_inv h
    exact ⟨casted_core hc, casted_gate hg⟩
  | changeModule np =>
    rcases changeModule_inv h with rfl | rfl
    · exact ⟨{ hc with }, ⟨fun e => ⟨(hg.ops e).x, (hg.ops e).y,
        (hg.ops e).z, (hg.ops e).two⟩, hg.tb⟩⟩
    · exact ⟨{ hc with }, ⟨fun e => ⟨(hg.ops e).x, (hg.ops e).y,
        (hg.ops e).z, (hg.ops e).two⟩, hg.tb⟩⟩

/-- **C09** (part) After every history of successful operations the axes of `h`, `s`, `u`,
`spin_2_tb`, the dipole moments and `spf` match `l`.  Missing: the one-body spin matrices and
`bra_spf`, for which the claim is false (`C09_false_spin`, `C09_false_bra`; `C09_all_partial` says
when it holds). -/
theorem C09_partial {b b' : BasisSet K} {ops : List (Op K)} (hc : CoreMatch b) (hg : SpinGate b)
    (h : History (fun _ _ => True) b ops b') : CoreMatch b' := by
  induction h with
  | nil => exact hc
  | cons _ h _ ih =>
    obtain ⟨h1, h2⟩ := core_step hc hg h
    exact ih h1 h2

/-- Operations that keep all axes right: a basis set with spin matrices is not given a basis change
to a different size, and `bra_spf` is not assigned, and `spf` not removed, in a way that leaves a
`bra_spf` without `spf`. -/
def Careful (b : BasisSet K) : Op K → Prop
  | .changeBasis C _ => NoSpinOps b ∨ C.shape[1]? = some b.l
  | .setBra x => x = none ∨ b.spf ≠ none
  | .setSpf x => x ≠ none ∨ b.braSpf = none
  | _ => True

/-- **C09** (part) With those restrictions everything matches, spin matrices and `bra_spf`
included. -/
theorem C09_all_partial {b b' : BasisSet K} {ops : List (Op K)} (hc : CoreMatch b)
    (hg : SpinGate b) (hs : SpinMatch b) (hb : BraMatch b) (hbs : b.spf = none → b.braSpf = none)
    (h : History Careful b ops b') : CoreMatch b' ∧ SpinMatch b' ∧ BraMatch b' := by
  induction h with
  | nil => exact ⟨hc, hs, hb⟩
  | @cons b b₁ b' op ops hq h _ ih =>
    obtain ⟨h1, h2⟩ := core_step hc hg h
    suffices SpinMatch b₁ ∧ BraMatch b₁ ∧ (b₁.spf = none → b₁.braSpf = none) from
      ih h1 h2 this.1 this.2.1 this.2.2
    cases op with
    | setH x =>
      obtain ⟨y, -, hy, rfl⟩ := setH_inv h
      exact ⟨⟨hs.x, hs.y, hs.z, hs.two⟩, hb, hbs⟩
    | setU x =>
      obtain ⟨y, -, hy, rfl⟩ := setU_inv h
      exact ⟨⟨hs.x, hs.y, hs.z, hs.two⟩, hb, hbs⟩
    | setS x =>
      obtain ⟨y, -, hy, rfl⟩ := setS_inv h
      exact ⟨⟨hs.x, hs.y, hs.z, hs.two⟩, hb, hbs⟩
    | setDipole x =>
      obtain ⟨y, -, hy, rfl⟩ := setDipole_inv h
      exact ⟨⟨hs.x, hs.y, hs.z, hs.two⟩, hb, hbs⟩
    | setSpinX x =>
      obtain ⟨y, -, hy, -, rfl⟩ := setSpinX_inv h
      exact ⟨⟨by rintro z ⟨⟩; exact hy, hs.y, hs.z, hs.two⟩, hb, hbs⟩
    | setSpinY x =>
      obtain ⟨y, -, hy, -, rfl⟩ := setSpinY_inv h
      exact ⟨⟨hs.x, by rintro z ⟨⟩; exact hy, hs.z, hs.two⟩, hb, hbs⟩
    | setSpinZ x =>
      obtain ⟨y, -, hy, -, rfl⟩ := setSpinZ_inv h
      exact ⟨⟨hs.x, hs.y, by rintro z ⟨⟩; exact hy, hs.two⟩, hb, hbs⟩
    | setSpin2 x =>
      obtain ⟨y, -, hy, -, rfl⟩ := setSpin2_inv h
      exact ⟨⟨hs.x, hs.y, hs.z, by rintro z ⟨⟩; exact hy⟩, hb, hbs⟩
    | setSpin2tb x =>
      obtain ⟨y, -, hy, -, rfl⟩ := setSpin2tb_inv h
      exact ⟨⟨hs.x, hs.y, hs.z, hs.two⟩, hb, hbs⟩
    | setSpf x =>
      obtain ⟨hy, rfl⟩ := setSpf_inv h
      refine ⟨⟨hs.x, hs.y, hs.z, hs.two⟩, hb, ?_⟩
      intro e
      exact hq.resolve_left (fun h => h e)
    | setBra x =>
      obtain ⟨hy, rfl⟩ := setBra_inv h
      refine ⟨⟨hs.x, hs.y, hs.z, hs.two⟩, hy, ?_⟩
      intro e
      exact hq.resolve_right (fun h => h e)
    | setNre x =>
      obtain rfl := run_modify_eq_ok.1 h
      exact ⟨⟨hs.x, hs.y, hs.z, hs.two⟩, hb, hbs⟩
    | setGrid x =>
      obtain rfl := run_modify_eq_ok.1 h
      exact ⟨⟨hs.x, hs.y, hs.z, hs.two⟩, hb, hbs⟩
    | readBra =>
      simp only [Op.run, PyM.run_bind, getBra_run, run_pure, Prod.mk.injEq, true_and] at h
      subst h
      refine ⟨⟨hs.x, hs.y, hs.z, hs.two⟩, fun x hx => bra_match hc hb hx, fun e => ?_⟩
      have e : b.spf = none := e
      simp [BasisSet.bra, e, hbs e]
    | changeBasis C Ct =>
      obtain ⟨n, hn, h', s', u', tb', d', spf', bra', rfl, a1, a2, a3, a4, a5, a6, a7, a8⟩ :=
        changeBasis_axes h
      refine ⟨?_, ?_, ?_⟩
      · rcases hq with hno | hl
        · constructor <;> intro m hm
          · have : b.spinX = some m := hm
            simp [hno.x] at this
          · have : b.spinY = some m := hm
            simp [hno.y] at this
          · have : b.spinZ = some m := hm
            simp [hno.z] at this
          · have : b.spin2 = some m := hm
            simp [hno.two] at this
        · rw [hl] at hn
          obtain rfl := Option.some.inj hn
          exact ⟨hs.x, hs.y, hs.z, hs.two⟩
      · by_cases hsp : b.spf = none
        · intro x hx
          rw [(a7 hsp).2, hbs hsp] at hx
          simp at hx
        · exact (a8 hsp).2
      · intro e
        by_cases hsp : b.spf = none
        · rw [(a7 hsp).2, hbs hsp]
        · exact absurd e (a8 hsp).1
    | toGeneral a c anti =>
      simp only [Op.run] at h
      obtain ⟨r, s₁, k1, k2⟩ := run_bind_eq_ok.1 h
      obtain ⟨-, rfl⟩ := run_pure_eq_ok.1 k2
      cases hi : b.includesSpin with
      | true =>
        rw [(C17_no_second_doubling hi a c anti 0).1] at k1
        simp only [Prod.mk.injEq] at k1
        rw [← k1.2]
        exact ⟨hs, hb, hbs⟩
      | false =>
        obtain ⟨b₀, rfl, q1, q2, q3, q4, q5, q6, q7⟩ :=
          changeToGeneralBase_axes hi (hg.ops hi) (hg.tb hi) k1
        have hb₀ : BraMatch b₀ ∧ (b₀.spf = none → b₀.braSpf = none) := by
          by_cases hsp : b.spf = none
          · have e := (q6 hsp).2.trans (hbs hsp)
            exact ⟨fun x hx => by rw [e] at hx; simp at hx, fun _ => e⟩
          · exact ⟨(q7 hsp).2, fun e => absurd e (q7 hsp).1⟩
        refine ⟨casted_spin q5, ?_, ?_⟩
        · intro x hx
          obtain ⟨y, hy, rfl⟩ := Option.map_eq_some_iff.1 hx
          have := bra_match q4 hb₀.1 hy
          exact this
        · intro e
          have e : b₀.spf = none := by simpa [casted] using e
          simp [casted, BasisSet.bra, e, hb₀.2 e]
    | antiSymmetrize =>
      rcases antiSymmetrizeTwoBody_inv h with ⟨-, e⟩ | ⟨-, u, tb, q1, q2, q3, rfl⟩
      · subst e; exact ⟨hs, hb, hbs⟩
      · exact ⟨⟨hs.x, hs.y, hs.z, hs.two⟩, hb, hbs⟩
    | castToComplex =>
      obtain rfl := castToComplex_inv h
      refine ⟨casted_spin hs, ?_, ?_⟩
      · intro x hx
        obtain ⟨y, hy, rfl⟩ := Option.map_eq_some_iff.1 hx
        have := bra_match hc hb hy
        exact this
      · intro e
        have e : b.spf = none := by simpa [casted] using e
        simp [casted, BasisSet.bra, e, hbs e]
    | changeModule np =>
      rcases changeModule_inv h with rfl | rfl
      · exact ⟨⟨hs.x, hs.y, hs.z, hs.two⟩, hb, hbs⟩
      · refine ⟨⟨hs.x, hs.y, hs.z, hs.two⟩, fun x hx => bra_match hc hb hx, fun e => ?_⟩
        have e : b.spf = none := e
        simp [BasisSet.bra, e, hbs e]

/-- Freshly constructed basis sets satisfy the invariant. -/
theorem init_match (l dim : ℕ) (np : Module) (sp anti : Bool) :
    let b : BasisSet K := BasisSet.init l dim np sp anti
    CoreMatch b ∧ SpinGate b ∧ SpinMatch b ∧ BraMatch b := by
  refine ⟨⟨?_, ?_, ?_, ?_, ?_, ?_⟩, ⟨fun _ => ⟨rfl, rfl, rfl, rfl⟩, fun _ => rfl⟩,
    ⟨?_, ?_, ?_, ?_⟩, ?_⟩ <;> rintro x ⟨⟩

/-- From four to two orbitals. -/
def C42 : NDArray GaussQ := mat .complex128 [[g 1 0, g 0 0], [g 0 0, g 1 0], [g 0 1, g 0 0],
  [g 0 0, g 2 0]]

/-- The spin-doubled demo basis set after a change to two orbitals. -/
theorem demo_stale : ∃ b₁ b₂ x, (changeToGeneralBase [1, 0] [0, 1] false).run basis = (.ok true, b₁) ∧
    (changeBasis C42 none).run b₁ = (.ok (), b₂) ∧ WellFormed b₁ 4 ∧ WellFormed b₂ 2 ∧
    b₁.spinX = some x ∧ b₂.spinX = some x ∧ x.shape = [4, 4] ∧ AngularMomentum 4 x
      (b₁.spinY.getD x) (b₁.spinZ.getD x) := by
  have ho : OrthoSpin (1 : GaussQ) 0 0 1 := by constructor <;> decide +kernel
  obtain ⟨b₁, h1⟩ := C16_succeeds false basis_wf rfl rfl ho
  obtain ⟨-, -, w1, s1⟩ := C16_general basis_wf rfl h1
  obtain ⟨x, y, z, s2, tb, hx, hy, hz, h2, htb, ham, -⟩ :=
    C19_angular_momentum basis_wf rfl h1 ho rfl (by decide +kernel)
  have hr := changeBasis_run (C := C42) (Ct := C42.conj.T) (n := 2) w1 s1 rfl rfl
  refine ⟨b₁, _, x, h1, hr, w1, changed_wellFormed w1, hx, hx, ham.shape.1, ?_⟩
  rw [hy, hz]
  exact ham

/-- **C09** The claim is false for the spin matrices: after spin doubling and a change to fewer
orbitals `spin_x` still has the old size. -/
theorem C09_false_spin : ∃ (ops : List (Op GaussQ)) (b' : BasisSet GaussQ) (x : NDArray GaussQ),
    WellFormed basis 2 ∧ History (fun _ _ => True) basis ops b' ∧ b'.spinX = some x ∧
      ¬ AxesAre b'.l x := by
  obtain ⟨b₁, b₂, x, h1, h2, -, w2, -, hx, hxs, -⟩ := demo_stale
  refine ⟨[.toGeneral [1, 0] [0, 1] false, .changeBasis C42 none], b₂, x, basis_wf, ?_, hx, ?_⟩
  · refine .cons trivial (b₁ := b₁) ?_ (.cons trivial h2 (.nil _))
    simp only [Op.run, PyM.run_bind, h1]
    rfl
  · intro h
    have := h 4 (by rw [hxs]; simp)
    rw [w2.l_eq] at this
    exact absurd this (by decide)

/-- The demo basis set without functions. -/
def basisNoSpf : BasisSet GaussQ := { basis with spf := none }

theorem basisNoSpf_wf : WellFormed basisNoSpf 2 :=
  { basis_wf with
    spf := by rintro x ⟨⟩
    bra := by rintro x ⟨⟩
    braNeedsSpf := fun _ => rfl }

/-- **C09** The claim is false for `bra_spf`: assigned without `spf`, it keeps its old size under a
change of basis. -/
theorem C09_false_bra : ∃ (ops : List (Op GaussQ)) (b' : BasisSet GaussQ) (x : NDArray GaussQ),
    WellFormed basisNoSpf 2 ∧ History (fun _ _ => True) basisNoSpf ops b' ∧ b'.braSpf = some x ∧
      ¬ SpfAxes b'.dim b'.l x := by
  have h1 : ((Op.setBra (some Demo.spf)).run).run basisNoSpf =
      (.ok (), { basisNoSpf with braSpf := some Demo.spf }) := setBra_run (sh := [3]) rfl rfl
  obtain ⟨b₂, h2⟩ : ∃ b₂, (changeBasis C21 none).run { basisNoSpf with braSpf := some Demo.spf } =
      (.ok (), b₂) ∧ b₂.braSpf = some Demo.spf ∧ b₂.l = 1 := by
    have h : ((changeBasis C21 none).run { basisNoSpf with braSpf := some Demo.spf }).1 = .ok () := by
      decide +kernel
    rcases hr : (changeBasis C21 none).run { basisNoSpf with braSpf := some Demo.spf } with ⟨r, b₂⟩
    rw [hr] at h
    cases h
    obtain ⟨n, hn, h', s', u', tb', d', spf', bra', rfl, a⟩ := changeBasis_axes hr
    refine ⟨_, rfl, (a.2.2.2.2.2.2.1 rfl).2, ?_⟩
    have : C21.shape[1]? = some 1 := rfl
    rw [this] at hn
    exact (Option.some.inj hn).symm
  refine ⟨[.setBra (some Demo.spf), .changeBasis C21 none], b₂, Demo.spf, basisNoSpf_wf, ?_, h2.2.1, ?_⟩
  · exact .cons trivial h1 (.cons trivial h2.1 (.nil _))
  · rintro ⟨g, e, -⟩
    rw [h2.2.2] at e
    have : Demo.spf.shape = [2, 3] := rfl
    rw [this] at e
    exact absurd (List.cons.inj e).1 (by decide)

/-- The demo basis set after a first read of `bra_spf`. -/
def basisBra : BasisSet GaussQ := { basis with braSpf := basis.bra }

theorem basisBra_wf : WellFormed basisBra 2 :=
  { basis_wf with
    bra := by rintro x ⟨⟩; exact ⟨[3], rfl, rfl⟩
    braNeedsSpf := by rintro ⟨⟩ }

/-- A history that meets the hypotheses of both partial theorems. -/
example : ∃ b', History Careful basis [.readBra, .changeBasis C23 none, .antiSymmetrize] b' ∧
    History (fun _ _ => True) basis [.readBra, .changeBasis C23 none, .antiSymmetrize] b' ∧
    CoreMatch basis ∧ SpinGate basis ∧ SpinMatch basis ∧ BraMatch basis := by
  have h1 : ((Op.readBra).run).run basis = (.ok (), basisBra) := rfl
  have h2 := changeBasis_run (C := C23) (Ct := C23.conj.T) (n := 3) basisBra_wf
    (NoSpinOps.spinShaped ⟨rfl, rfl, rfl, rfl⟩ 2) rfl rfl
  have w2 := changed_wellFormed (C := C23) (Ct := C23.conj.T) (n := 3) basisBra_wf
  obtain ⟨u, hu, hus⟩ := w2.u
  have h3 := antiSymmetrizeTwoBody_run w2.l_eq hu hus w2.tb
  refine ⟨_, .cons trivial h1 (.cons (.inl ⟨rfl, rfl, rfl, rfl⟩) h2 (.cons trivial h3 (.nil _))),
    .cons trivial h1 (.cons trivial h2 (.cons trivial h3 (.nil _))), ?_, ?_, ?_, ?_⟩
  · constructor <;> rintro x ⟨⟩
    · unfold AxesAre; decide +kernel
    · unfold AxesAre; decide +kernel
    · unfold AxesAre; decide +kernel
    · exact ⟨[2, 2], rfl, fun _ => by decide⟩
    · exact ⟨[3], rfl, rfl⟩
  · exact ⟨fun _ => ⟨rfl, rfl, rfl, rfl⟩, fun _ => rfl⟩
  · constructor <;> rintro x ⟨⟩
  · rintro x ⟨⟩

/-! ## C08 -/

/-- **C08** What `change_basis` does to the spin operators: `spin_2_tb` is transformed, the one-body
spin matrices stay the arrays they were. -/
theorem C08_actual {b b' : BasisSet K} {C : NDArray K} {Ct : Option (NDArray K)} {l : ℕ}
    (hb : WellFormed b l) (h : (changeBasis C Ct).run b = (.ok (), b')) :
    OptRel (IsTwoBody C (Ct.getD C.conj.T) l b'.l) b.spin2tb b'.spin2tb ∧
    b'.spinX = b.spinX ∧ b'.spinY = b.spinY ∧ b'.spinZ = b.spinZ ∧ b'.spin2 = b.spin2 := by
  obtain ⟨n, hC, hCt, _, rfl⟩ := changeBasis_inv hb h
  refine ⟨?_, rfl, rfl, rfl, rfl⟩
  simp only [changed]
  rcases b.spin2tb with _ | x
  · trivial
  · exact ⟨rfl, fun p hp q hq r hr s hs => twoBodyArr_get hp hq hr hs⟩

/-- A matrix acting on the spin part only is left alone by spatial rotations. -/
theorem spinOnly_fixed {l : ℕ} {c ct C Ct x : NDArray K} (m : ℕ → ℕ → K)
    (hC : IsDoubledOneBody l l c C) (hCt : IsDoubledOneBody l l ct Ct)
    (hcc : ∀ p < l, ∀ q < l, mulAt l ct c p q = kd p q) (hxs : x.shape = [2 * l, 2 * l])
    (hx : ∀ p < l, ∀ q < l, ∀ a < 2, ∀ b < 2,
      x.get [2 * p + a, 2 * q + b] = if p = q then m a b else 0) :
    IsOneBody C Ct (2 * l) (2 * l) x x := by
  refine ⟨hxs, fun p hp q hq => ?_⟩
  obtain ⟨P, A, rfl, hA⟩ : ∃ P A, p = 2 * P + A ∧ A < 2 := ⟨p / 2, p % 2, by omega, by omega⟩
  obtain ⟨Q, B, rfl, hB⟩ : ∃ Q B, q = 2 * Q + B ∧ B < 2 := ⟨q / 2, q % 2, by omega, by omega⟩
  have hP : P < l := by omega
  have hQ : Q < l := by omega
  rw [hx P hP Q hQ A hA B hB]
  have key : ∀ t ∈ range l, ∀ a ∈ range 2, ∑ u ∈ range (2 * l),
      Ct.get [2 * P + A, 2 * t + a] * x.get [2 * t + a, u] * C.get [u, 2 * Q + B] =
      if a = A then ct.get [P, t] * c.get [t, Q] * m A B else 0 := by
    intro t ht a ha
    have ht' := mem_range.1 ht
    have ha' := mem_range.1 ha
    rw [sum_range_two_mul, sum_eq_single t, sum_eq_single B]
    · rw [hCt.2 P hP t ht' A hA a ha', hx t ht' t ht' a ha' B hB, hC.2 t ht' Q hQ B hB B hB]
      by_cases e : a = A
      · subst e; simp; ring
      · simp [e, Ne.symm e]
    · intro b hb hne
      rw [hC.2 t ht' Q hQ b (mem_range.1 hb) B hB, if_neg hne, mul_zero]
    · intro hn; exact absurd (mem_range.2 hB) hn
    · intro u hu hne
      refine sum_eq_zero fun b hb => ?_
      rw [hx t ht' u (mem_range.1 hu) a ha' b (mem_range.1 hb), if_neg (Ne.symm hne)]
      ring
    · intro hn; exact absurd ht hn
  rw [sum_range_two_mul, sum_congr rfl fun t ht => sum_congr rfl (key t ht)]
  rw [sum_congr rfl fun t _ => sum_eq_single A (fun a _ hne => if_neg hne)
    (fun hn => absurd (mem_range.2 hA) hn)]
  simp only [if_true]
  rw [← sum_mul]
  have := hcc P hP Q hQ
  unfold mulAt kd at this
  rw [this]
  by_cases e : P = Q <;> simp [e]

/-- **C08** (restricted) `spin_2_tb` follows every basis change; after spin doubling of an
orthonormal basis the one-body spin matrices are right after every rotation of the spatial orbitals
(`C = c ⊗ 1`, `C_tilde = ct ⊗ 1`, `ct c = 1`).  Missing: all other coefficient matrices, for which
the claim is false (`C08_false`). -/
theorem C08_partial {b b' b'' : BasisSet K} {l : ℕ} {a₀ a₁ b₀ b₁ : K} {r anti : Bool}
    {s c ct C Ct : NDArray K} (hb : WellFormed b l) (hsp : b.includesSpin = false)
    (h : (changeToGeneralBase [a₀, a₁] [b₀, b₁] anti).run b = (.ok r, b'))
    (ho : OrthoSpin a₀ a₁ b₀ b₁) (hs : b.s = some s)
    (hov : ∀ p < l, ∀ q < l, s.get [p, q] = kd p q)
    (hC : IsDoubledOneBody l l c C) (hCt : IsDoubledOneBody l l ct Ct)
    (hcc : ∀ p < l, ∀ q < l, mulAt l ct c p q = kd p q)
    (h' : (changeBasis C (some Ct)).run b' = (.ok (), b'')) :
    OptRel (IsOneBody C Ct (2 * l) (2 * l)) b'.spinX b''.spinX ∧
    OptRel (IsOneBody C Ct (2 * l) (2 * l)) b'.spinY b''.spinY ∧
    OptRel (IsOneBody C Ct (2 * l) (2 * l)) b'.spinZ b''.spinZ ∧
    OptRel (IsOneBody C Ct (2 * l) (2 * l)) b'.spin2 b''.spin2 ∧
    OptRel (IsTwoBody C Ct (2 * l) (2 * l)) b'.spin2tb b''.spin2tb := by
  obtain ⟨-, -, w1, -⟩ := C16_general hb hsp h
  obtain ⟨x, y, z, s2, tb, hx, hy, hz, h2, htb, -, hs2, -⟩ :=
    C19_angular_momentum hb hsp h ho hs hov
  obtain ⟨e5, e1, e2, e3, e4⟩ := C08_actual w1 h'
  obtain ⟨n, hCn, hbc, -⟩ := C03_change_basis w1 h'
  have hn : b''.l = 2 * l := by
    have := hC.1
    rw [hCn] at this
    rw [hbc.size]
    simpa using this
  rw [hn] at e5
  obtain ⟨ov, hs', rfl, rfl⟩ := changeToGeneralBase_inv hb hsp h
  obtain rfl : ov = s := by rw [hs] at hs'; exact (Option.some.inj hs').symm
  obtain ⟨ex, ey, ez, -⟩ := general_spin (b := b) (l := l) (ov := ov) a₀ a₁ b₀ b₁ anti
  have key : ∀ m : NDArray K, IsOneBody C Ct (2 * l) (2 * l)
      (spinArr ov (pauliOf a₀ a₁ b₀ b₁ m) l).toComplex
      (spinArr ov (pauliOf a₀ a₁ b₀ b₁ m) l).toComplex := by
    intro m
    refine spinOnly_fixed (fun a b => 1 / 2 * (pauliOf a₀ a₁ b₀ b₁ m).get [a, b]) hC hCt hcc rfl ?_
    intro p hp q hq a ha b hb
    rw [toComplex_get, spin_entry hov (by omega) (by omega), idx_div ha, idx_div hb, idx_mod ha,
      idx_mod hb]
  refine ⟨?_, ?_, ?_, ?_, e5⟩
  · rw [e1, ex]; exact key _
  · rw [e2, ey]; exact key _
  · rw [e3, ez]; exact key _
  · rw [e4, h2]
    refine spinOnly_fixed (fun a b => 3 / 4 * kd a b) hC hCt hcc hs2.1 ?_
    intro p hp q hq a ha b hb
    rw [hs2.2 _ (by omega) _ (by omega), ← kd_split, idx_div ha, idx_div hb, idx_mod ha, idx_mod hb]
    by_cases e : p = q <;> simp [kd, e]

/-- A rotation of two spatial orbitals, and its spin-doubled version. -/
def rot2 : NDArray GaussQ := mat .complex128 [[⟨3 / 5, 0⟩, ⟨0, 4 / 5⟩], [⟨0, 4 / 5⟩, ⟨3 / 5, 0⟩]]
def rot4 : NDArray GaussQ := kron rot2 (eye 2)

example : ∃ b' b'', (changeToGeneralBase [1, 0] [0, 1] false).run basis = (.ok true, b') ∧
    (changeBasis rot4 (some rot4.conj.T)).run b' = (.ok (), b'') ∧
    IsDoubledOneBody 2 2 rot2 rot4 ∧ IsDoubledOneBody 2 2 rot2.conj.T rot4.conj.T ∧
    (∀ p < 2, ∀ q < 2, mulAt 2 rot2.conj.T rot2 p q = kd p q) := by
  have ho : OrthoSpin (1 : GaussQ) 0 0 1 := by constructor <;> decide +kernel
  obtain ⟨b₁, h1⟩ := C16_succeeds false basis_wf rfl rfl ho
  obtain ⟨-, -, w1, s1⟩ := C16_general basis_wf rfl h1
  have hr := changeBasis_run (C := rot4) (Ct := rot4.conj.T) (n := 4) w1 s1 rfl rfl
  refine ⟨b₁, _, h1, hr, ⟨rfl, ?_⟩, ⟨rfl, ?_⟩, by decide +kernel⟩
  · decide +kernel
  · decide +kernel

/-- Exchange of the two spin orbitals of the first pair. -/
def swap4 : NDArray GaussQ := mat .complex128 [[g 0 0, g 1 0, g 0 0, g 0 0],
  [g 1 0, g 0 0, g 0 0, g 0 0], [g 0 0, g 0 0, g 1 0, g 0 0], [g 0 0, g 0 0, g 0 0, g 1 0]]

/-- **C08** The claim is false: after the change of basis that exchanges the two spin orbitals of a
pair, `spin_z` still has its old elements, not those in the new basis. -/
theorem C08_false : ∃ (b' b'' : BasisSet GaussQ) (x y : NDArray GaussQ), WellFormed basis 2 ∧
    (changeToGeneralBase [1, 0] [0, 1] false).run basis = (.ok true, b') ∧
    (changeBasis swap4 none).run b' = (.ok (), b'') ∧ b'.spinZ = some x ∧ b''.spinZ = some y ∧
    ¬ IsOneBody swap4 swap4.conj.T 4 4 x y := by
  have ho : OrthoSpin (1 : GaussQ) 0 0 1 := by constructor <;> decide +kernel
  obtain ⟨b₁, h1⟩ := C16_succeeds false basis_wf rfl rfl ho
  obtain ⟨-, -, w1, s1⟩ := C16_general basis_wf rfl h1
  have hr := changeBasis_run (C := swap4) (Ct := swap4.conj.T) (n := 4) w1 s1 rfl rfl
  obtain ⟨ov, hs', -, e⟩ := changeToGeneralBase_inv basis_wf rfl h1
  obtain rfl := Option.some.inj hs'
  have ez := (general_spin (b := basis) (l := 2) (ov := Demo.s) 1 0 0 1 false).2.2.1
  rw [← e] at ez
  refine ⟨b₁, _, _, _, basis_wf, h1, hr, ez, ez, ?_⟩
  intro h
  have := h.2 0 (by decide) 0 (by decide)
  exact absurd this (by decide +kernel)

/-! ## C11 -/

/-- **C11** (restricted) A `change_basis` whose coefficient matrices do not match the basis set
raises, and the only attribute that changed is `l`; every later `change_basis` behaves as if the
failed one had not been called.  Missing: `l` itself keeps the wrong value (`C11_false`), and calls
that fail because of stale spin matrices leave some elements transformed and others not
(`C11_false_half`). -/
theorem C11_partial {b : BasisSet K} {C Ct : NDArray K} {l k n m j : ℕ} (hb : WellFormed b l)
    (hC : C.shape = [k, n]) (hCt : Ct.shape = [m, j]) (hbad : ¬ (k = l ∧ m = n ∧ j = l)) :
    ∃ e, (changeBasis C (some Ct)).run b = (.error e, { b with l := n }) ∧
      ∀ (C' : NDArray K) (Ct' : Option (NDArray K)), C'.shape.length = 2 →
        (changeBasis C' Ct').run { b with l := n } = (changeBasis C' Ct').run b := by
  obtain ⟨np, hnp⟩ := hb.np
  obtain ⟨x, hh, hhs⟩ := hb.h
  have hat : C.shapeAt 1 = .ok n := by simp [shapeAt, hC]
  have later : ∀ (C' : NDArray K) (Ct' : Option (NDArray K)), C'.shape.length = 2 →
      (changeBasis C' Ct').run { b with l := n } = (changeBasis C' Ct').run b := by
    intro C' Ct' h2
    obtain ⟨p, q, hpq⟩ : ∃ p q, C'.shape = [p, q] := by
      rcases h : C'.shape with _ | ⟨p, _ | ⟨q, _ | _⟩⟩ <;> simp_all
    have hat' : C'.shapeAt 1 = .ok q := by simp [shapeAt, hpq]
    simp only [changeBasis, PyM.run_bind, run_liftM, hat', run_modify]
  by_cases hkj : l = k ∧ l = j
  · obtain ⟨rfl, rfl⟩ := hkj
    have hmn : m ≠ n := fun e => hbad ⟨rfl, e, rfl⟩
    refine ⟨.assertion, ?_, later⟩
    simp only [changeBasis, changeBasisOneBody, PyM.run_bind, run_liftM, hat, run_modify, run_get,
      Option.getD, hnp, hh]
    rw [transformOneBody_eq hhs hC hCt]
    have : axesOk (oneBodyArr x C Ct m l l n) n = false := by
      simp [axesOk, Ne.symm hmn]
    simp only [setH, PyM.run_bind, run_get, orErr, run_liftM, this, run_assert_false]
  · refine ⟨.value, ?_, later⟩
    simp only [changeBasis, changeBasisOneBody, PyM.run_bind, run_liftM, hat, run_modify, run_get,
      Option.getD, hnp, hh]
    rw [(C01_one_body np hhs hC hCt).2 hkj]

/-- **C11** (restricted) A coefficient array without a second axis is rejected with `IndexError` and
nothing changes. -/
theorem C11_axes_partial {b : BasisSet K} {C : NDArray K} {Ct : Option (NDArray K)}
    (hC : C.shape.length < 2) : (changeBasis C Ct).run b = (.error .index, b) := by
  have hat : C.shapeAt 1 = .error .index := by
    simp only [shapeAt]
    rw [List.getElem?_eq_none (by omega)]
  simp only [changeBasis, PyM.run_bind, run_liftM, hat]

/-- **C11** The claim is false: after a failing call `l` has changed, and assigning the very same `h`
again, accepted before, is now rejected. -/
theorem C11_false : ∃ b', (changeBasis (eye 3) none).run basis = (.error .value, b') ∧ b'.l = 3 ∧
    basis.l = 2 ∧ (setH basis.h).run basis = (.ok (), basis) ∧
    (setH basis.h).run b' = (.error .assertion, b') := by
  obtain ⟨e, h, -⟩ := C11_partial (C := eye 3) (Ct := (eye 3 : NDArray GaussQ).conj.T) (k := 3) (n := 3)
    (m := 3) (j := 3) basis_wf rfl rfl (by decide)
  have he : ((changeBasis (eye 3 : NDArray GaussQ) (some (eye 3).conj.T)).run basis).1 =
      .error .value := by decide +kernel
  rw [h] at he
  cases he
  exact ⟨_, h, rfl, rfl, rfl, rfl⟩

example : ¬ ((3 : ℕ) = 2 ∧ (3 : ℕ) = 3 ∧ (3 : ℕ) = 2) ∧ (eye (K := GaussQ) 3).shape = [3, 3] :=
  ⟨by decide, rfl⟩

/-! ## C73 -/

/-- **C73** What happens once the spin matrices do not have the size of the basis: every matching
`change_basis` raises `ValueError`, after it has already replaced `l`, `h` and `s`, but not `u`. -/
theorem C73_actual {b : BasisSet K} {C Ct x : NDArray K} {l k n : ℕ} (hb : WellFormed b l)
    (hx : b.spinX = some x) (hxs : x.shape = [k, k]) (hk : k ≠ l) (hC : C.shape = [l, n])
    (hCt : Ct.shape = [n, l]) :
    ∃ b', (changeBasis C (some Ct)).run b = (.error .value, b') ∧ b'.l = n ∧
      OptRel (IsOneBody C Ct l n) b.h b'.h ∧ OptRel (IsOneBody C Ct l n) b.s b'.s ∧
      b'.u = b.u ∧ b'.spf = b.spf ∧ b'.dipole = b.dipole := by
  obtain ⟨np, hnp⟩ := hb.np
  obtain ⟨h, hh, hhs⟩ := hb.h
  have hat : C.shapeAt 1 = .ok n := by simp [shapeAt, hC]
  have hloop : spinLoop (some np) C Ct [b.spinX, b.spinY, b.spinZ, b.spin2] = .error .value := by
    rw [hx]
    simp only [spinLoop]
    rw [(C01_one_body np hxs hC hCt).2 (fun e => hk e.1)]
    rfl
  have e := changeBasisOneBody_run' (b := { b with l := n }) rfl hnp hh hhs hb.s hC hCt
  refine ⟨{ b with
    l := n
    h := some (oneBodyArr h C Ct n l l n)
    s := b.s.map fun x => oneBodyArr x C Ct n l l n }, ?_, ?_⟩
  · simp only [changeBasis, PyM.run_bind, run_liftM, hat, run_modify, Option.getD]
    rw [e, hloop]
  · refine ⟨rfl, ?_, ?_, rfl, rfl, rfl⟩
    · rw [hh]
      exact ⟨rfl, fun p hp q hq => oneBodyArr_get hp hq⟩
    · show OptRel _ b.s (b.s.map fun x => oneBodyArr x C Ct n l l n)
      rcases b.s with _ | x
      · trivial
      · exact ⟨rfl, fun p hp q hq => oneBodyArr_get hp hq⟩

/-- **C73** The claim is false: the spin-doubled demo basis set can be changed to two orbitals, but
then no further `change_basis` succeeds, not even with the identity. -/
theorem C73_false : ∃ b₁ b₂ : BasisSet GaussQ,
    (changeToGeneralBase [1, 0] [0, 1] false).run basis = (.ok true, b₁) ∧
    (changeBasis C42 none).run b₁ = (.ok (), b₂) ∧ WellFormed b₂ 2 ∧
    ∀ (n : ℕ) (C Ct : NDArray GaussQ), C.shape = [2, n] → Ct.shape = [n, 2] →
      ((changeBasis C (some Ct)).run b₂).1 = .error .value := by
  obtain ⟨b₁, b₂, x, h1, h2, -, w2, -, hx, hxs, -⟩ := demo_stale
  refine ⟨b₁, b₂, h1, h2, w2, fun n C Ct hC hCt => ?_⟩
  obtain ⟨b', h, -⟩ := C73_actual w2 hx hxs (by decide) hC hCt
  rw [h]

/-- **C11** The claim is also false in a worse way: a failing call can leave `h` transformed and `u`
not (with a different number of orbitals). -/
theorem C11_false_half : ∃ (b b' : BasisSet GaussQ) (C : NDArray GaussQ) (h u : NDArray GaussQ),
    WellFormed b 2 ∧ (changeBasis C none).run b = (.error .value, b') ∧
    b'.h = some h ∧ h.shape = [1, 1] ∧ b'.u = some u ∧ u.shape = [2, 2, 2, 2] := by
  obtain ⟨b₁, b₂, x, h1, h2, -, w2, -, hx, hxs, -⟩ := demo_stale
  obtain ⟨b', h, hl, hh, hs, hu, -⟩ := C73_actual (C := C21) (Ct := C21.conj.T) (n := 1) w2 hx hxs
    (by decide) rfl rfl
  obtain ⟨h₂, e1, -⟩ := w2.h
  obtain ⟨u₂, e2, e3⟩ := w2.u
  rw [e1] at hh
  rcases e4 : b'.h with _ | h'
  · rw [e4] at hh; exact hh.elim
  · rw [e4] at hh
    exact ⟨b₂, b', C21, h', u₂, w2, h, e4, hh.1, hu.trans e2, e3⟩

/-- Basis changes one after the other. -/
def changeAll : List (NDArray K × NDArray K) → PyM (BasisSet K) Unit
  | [] => pure ()
  | c :: cs => do
    BasisSet.changeBasis c.1 (some c.2)
    changeAll cs

/-- Coefficient matrices with matching sizes leading from `l` to `n` functions. -/
inductive Chain : ℕ → List (NDArray K × NDArray K) → ℕ → Prop
  | nil (l) : Chain l [] l
  | cons {l m n C Ct cs} (hC : NDArray.shape C = [l, m]) (hCt : NDArray.shape Ct = [m, l])
      (t : Chain m cs n) : Chain l ((C, Ct) :: cs) n

/-- **C73** (restricted) Any number of matching basis changes succeed one after the other if the set
has no spin matrices, or if the coefficient matrices are square.  Missing: spin-doubled sets with
rectangular coefficient matrices (`C73_false`). -/
theorem C73_partial {b : BasisSet K} {l n : ℕ} {cs : List (NDArray K × NDArray K)}
    (hb : WellFormed b l) (hc : Chain l cs n)
    (hs : NoSpinOps b ∨ SpinShaped b l ∧ ∀ c ∈ cs, c.1.shape = [l, l]) :
    ∃ b', (changeAll cs).run b = (.ok (), b') ∧ WellFormed b' n := by
  induction hc generalizing b with
  | nil l => exact ⟨b, rfl, hb⟩
  | @cons l m n C Ct cs hC hCt t ih =>
    have sh : SpinShaped b l := hs.elim (fun h => h.spinShaped l) (fun h => h.1)
    have hr := changeBasis_run hb sh hC hCt
    obtain ⟨b', h', w'⟩ := ih (changed_wellFormed (C := C) (Ct := Ct) (n := m) hb) (by
      rcases hs with h | ⟨h, hc⟩
      · exact .inl ⟨h.x, h.y, h.z, h.two⟩
      · right
        have : m = l := by
          have := hc _ (List.mem_cons_self ..)
          rw [hC] at this
          simpa using this
        subst this
        exact ⟨⟨h.x, h.y, h.z, h.two⟩, fun c hc' => hc c (List.mem_cons_of_mem _ hc')⟩)
    refine ⟨b', ?_, w'⟩
    rw [changeAll, PyM.run_bind, hr]
    exact h'

example : ∃ b' : BasisSet GaussQ, Chain 2 [(C23, C23.conj.T), (C23.T, C23.conj)] 2 ∧
    (changeAll [(C23, C23.conj.T), (C23.T, C23.conj)]).run basis = (.ok (), b') ∧
    WellFormed b' 2 := by
  have hc : Chain 2 [(C23, C23.conj.T), (C23.T, C23.conj)] 2 :=
    .cons (m := 3) rfl rfl (.cons (m := 2) rfl rfl (.nil 2))
  obtain ⟨b', h⟩ := C73_partial basis_wf hc (.inl basis_noSpin)
  exact ⟨b', hc, h⟩

end QS.Props
