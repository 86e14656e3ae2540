import Verif.Lemmas.Ownership
import Verif.Lemmas.Density

set_option linter.unusedSimpArgs false

/-! # When two systems report the same (helper file) -/

namespace QS

open Finset NDArray PyM BasisSet

variable {K T : Type} [PyScalar K]

theorem density_withBra (c : BasisSet K) (rho : NDArray K) (C Ct : Option (NDArray K)) :
    ((computeParticleDensity rho C Ct).run (withBra c)).1 =
      ((computeParticleDensity rho C Ct).run c).1 := by
  rcases hs : c.spf with _ | x
  · have hs' : (withBra c).spf = none := hs
    simp [computeParticleDensity, PyM.run_bind, hs, hs']
  · obtain ⟨y, hy⟩ := bra_of_spf hs
    have hs' : (withBra c).spf = some x := hs
    have hy' : (withBra c).bra = some y := by rw [withBra_bra, hy]
    rcases C with _ | C
    · have e : ∀ d : BasisSet K, (computeParticleDensity rho none Ct).run d =
        (computeParticleDensity rho none none).run d := fun _ => rfl
      rw [e, e, density_none_run hs hy, density_none_run hs' hy']
      rfl
    · rw [density_some_run hs hy, density_some_run hs' hy']
      rfl

namespace World

variable {w w' : World K T} {s s' b : ℕ} {A : ℕ → Prop} {x x' : Sys} {c c' : BasisSet K}

theorem evalHT_rebind (np : Option Module) (c : BasisSet K) (y : TEOp K T) (q : Option ℕ) (t : T) :
    evalHT np c { y with system := q } t =
      ((evalHT np c y t).1, { (evalHT np c y t).2 with system := q }) := by
  rcases y with ⟨_ | ⟨_ | f | p, _ | _ | f' | e⟩ | f | ⟨_ | f | p, a⟩, σ, cells⟩ <;>
    simp only [evalHT, wrapPulse', fillPol', wrapPol', wrapWeight', laserValue', customValue',
      ok_bind, error_bind]
  all_goals
    cases needNp np with
    | error e => rfl
    | ok _ =>
      simp only [ok_bind]
      cases defaultPol c.dipole <;> rfl

theorem evalUT_rebind (c : BasisSet K) (y : TEOp K T) (q : Option ℕ) (t : T) :
    evalUT c { y with system := q } t = evalUT c y t := rfl

theorem evalHT_withBra (np : Option Module) (c : BasisSet K) (y : TEOp K T) (t : T) :
    evalHT np (withBra c) y t = evalHT np c y t := rfl

/-- The operator of one system corresponds to the operator of another one. -/
def OpMatch (w : World K T) (s : ℕ) (w' : World K T) (s' : ℕ) (o o' : Option ℕ) : Prop :=
  (o = none ∧ o' = none) ∨
  ∃ (i i' : ℕ) (y : TEOp K T) (q q' : Option ℕ), o = some i ∧ o' = some i' ∧ w.ops[i]? = some { y with system := q } ∧
    w'.ops[i']? = some { y with system := q' } ∧
    ((q = none ∧ q' = none) ∨ (q = some s ∧ q' = some s'))

theorem sameReports_of {c₀ : BasisSet K} (hx : w.systems[s]? = some x)
    (hx' : w'.systems[s']? = some x') (hc : w.bases[x.basis]? = some c)
    (hc' : w'.bases[x'.basis]? = some c')
    (hcc : c = c₀ ∨ c = withBra c₀) (hcc' : c' = c₀ ∨ c' = withBra c₀)
    (hs : (x.kind, x.np, x.n, x.l, x.m, x.o, x.v) = (x'.kind, x'.np, x'.n, x'.l, x'.m, x'.o, x'.v))
    (ho : OpMatch w s w' s' x.op x'.op) : SameReports w s w' s' := by
  have e0 : ({ c with braSpf := c.bra } : BasisSet K) = withBra c₀ := by
    rcases hcc with rfl | rfl
    · rfl
    · show ({ withBra c₀ with braSpf := (withBra c₀).bra } : BasisSet K) = _
      rw [withBra_bra]; rfl
  have e0' : ({ c' with braSpf := c'.bra } : BasisSet K) = withBra c₀ := by
    rcases hcc' with rfl | rfl
    · rfl
    · show ({ withBra c₀ with braSpf := (withBra c₀).bra } : BasisSet K) = _
      rw [withBra_bra]; rfl
  have eh : c.h = c'.h := by rcases hcc with rfl | rfl <;> rcases hcc' with rfl | rfl <;> rfl
  have eu : c.u = c'.u := by rcases hcc with rfl | rfl <;> rcases hcc' with rfl | rfl <;> rfl
  have eHT : ∀ np y (t : T), evalHT np c y t = evalHT np c' y t := by
    rcases hcc with rfl | rfl <;> rcases hcc' with rfl | rfl <;> intros <;> rfl
  have eUT : ∀ y (t : T), evalUT c y t = evalUT c' y t := by
    rcases hcc with rfl | rfl <;> rcases hcc' with rfl | rfl <;> intros <;> rfl
  simp only [Prod.mk.injEq] at hs
  obtain ⟨h1, h2, h3, h4, h5, h6, h7⟩ := hs
  have flags : ∀ (f : Bool × Bool → Bool),
      ((do
        let x ← getSys s
        match x.op with
        | none => pure false
        | some o => do
          let y ← getOp o
          pure (f (opFlags y.kind)) : PyM (World K T) Bool).run w).1 =
      ((do
        let x ← getSys s'
        match x.op with
        | none => pure false
        | some o => do
          let y ← getOp o
          pure (f (opFlags y.kind)) : PyM (World K T) Bool).run w').1 := by
    intro f
    rw [run_bind_ok (getSys_run hx), run_bind_ok (getSys_run hx')]
    rcases ho with ⟨e, e'⟩ | ⟨i, i', y, q, q', e, e', hy, hy', -⟩
    · rw [e, e']; rfl
    · rw [e, e']
      simp only [PyM.run_bind, getOp_run hy, getOp_run hy', run_pure]
  refine ⟨?_, ?_, ?_, ?_, ?_, ?_, ?_, ?_⟩
  · rw [hx, hx']; simp [h1, h2, h3, h4, h5, h6, h7]
  · rw [hx, hx']
    simp only [Option.bind_some, hc, hc', Option.map_some, e0, e0']
  · intro t
    rcases ho with ⟨e, e'⟩ | ⟨i, i', y, q, q', e, e', hy, hy', ⟨rfl, rfl⟩ | ⟨rfl, rfl⟩⟩
    · rw [hT_none hx hc e, hT_none hx' hc' e', eh]
    · rw [hT_some hx e, hT_some hx' e', opHT_unbound hy rfl, opHT_unbound hy' rfl]
    · rw [hT_some hx e, hT_some hx' e', opHT_run hx hc hy rfl, opHT_run hx' hc' hy' rfl]
      simp only [evalHT_rebind, eHT, h2]
  · intro t
    rcases ho with ⟨e, e'⟩ | ⟨i, i', y, q, q', e, e', hy, hy', ⟨rfl, rfl⟩ | ⟨rfl, rfl⟩⟩
    · rw [uT_none hx hc e, uT_none hx' hc' e', eu]
    · rw [uT_some hx e, uT_some hx' e', opUT_unbound hy rfl, opUT_unbound hy' rfl]
    · rw [uT_some hx e, uT_some hx' e', opUT_run hx hc hy rfl, opUT_run hx' hc' hy' rfl]
      simp only [evalUT_rebind, eUT]
  · exact flags Prod.fst
  · exact flags Prod.snd
  · simp only [referenceEnergy, PyM.run_bind, getSys_run hx, getSys_run hx', h_run hx hc,
      h_run hx' hc', u_run hx hc, u_run hx' hc', h1, eh, eu, h2, h6]
    cases x'.kind <;> rfl
  · intro rho C Ct
    simp only [World.computeParticleDensity, PyM.run_bind, getSys_run hx, getSys_run hx',
      onBasis_run hc, onBasis_run hc']
    rcases hcc with rfl | rfl <;> rcases hcc' with rfl | rfl <;> simp only [density_withBra]

theorem sameReports_of_same (h : Owns w s b A) (e : SameObjects s b A w w') :
    SameReports w s w' s := by
  obtain ⟨x, hx, hb, ho⟩ := h.sys
  obtain ⟨c, hc⟩ := h.basis
  refine sameReports_of (x := x) (x' := x) (c := c) (c' := c) (c₀ := c) hx (e.sys.trans hx)
    (hb ▸ hc) (hb ▸ e.basis.trans hc) (.inl rfl) (.inl rfl) rfl ?_
  rcases hop : x.op with _ | o
  · exact Or.inl ⟨rfl, rfl⟩
  · obtain ⟨y, hy, hs⟩ := h.ops o (ho o hop)
    refine Or.inr ⟨o, o, y, y.system, y.system, rfl, rfl, hy, (e.ops o (ho o hop)).trans hy, ?_⟩
    rcases hq : y.system with _ | q
    · exact .inl ⟨rfl, rfl⟩
    · exact .inr ⟨by rw [hs q hq], by rw [hs q hq]⟩

end World

open World

section separate
variable {w : World K T} {S : ℕ → Prop} {B : ℕ → ℕ} {A : ℕ → ℕ → Prop}

theorem separate_step (h : Separate w S B A) {i : ℕ} {op : SOp K T} (hi : S i)
    (hm : ∀ o, op.mentions o → A i o) :
    Separate ((op.run i).run w).2 S B A ∧
      ∀ j, S j → j ≠ i → SameObjects j (B j) (A j) w ((op.run i).run w).2 := by
  have own := h.owns i hi
  obtain ⟨x, hx, -, -⟩ := own.sys
  obtain ⟨c, hc⟩ := own.basis
  have hA : ∀ o, A i o → o < w.ops.length := fun o ho => by
    obtain ⟨y, hy, -⟩ := own.ops o ho
    exact lt_of_get hy
  obtain ⟨h1, h2⟩ := within_sop op (lt_of_get hx) (lt_of_get hc) hA hm w
    ⟨le_rfl, le_rfl, le_rfl, own⟩
  have key : ∀ j, S j → j ≠ i → SameObjects j (B j) (A j) w ((op.run i).run w).2 := by
    intro j hj hji
    have ownj := h.owns j hj
    obtain ⟨x, hx, -, -⟩ := ownj.sys
    obtain ⟨c, hc⟩ := ownj.basis
    refine ⟨h2.sys j (lt_of_get hx) hji, h2.bas (B j) (lt_of_get hc) (h.bases j i hj hi hji), ?_⟩
    intro o ho
    obtain ⟨y, hy, -⟩ := ownj.ops o ho
    exact h2.ops o (lt_of_get hy) (h.ops j i o hj hi hji ho)
  refine ⟨⟨?_, h.bases, h.ops⟩, key⟩
  intro j hj
  by_cases hji : j = i
  · subst hji; exact h1.owns
  · exact Owns.of_same (h.owns j hj) (key j hj hji)

theorem separate_history (h : Separate w S B A) {ops : List (ℕ × SOp K T)}
    (hd : Disciplined S A ops) : Separate (performAll w ops) S B A := by
  induction ops generalizing w with
  | nil => exact h
  | cons e ops ih =>
    have he := hd e (by simp)
    exact ih (separate_step h he.1 he.2).1 (fun e' h' => hd e' (by simp [h']))

end separate

end QS
