import Verif.Lemmas.SharedCopies
import Verif.Props.SpinDoubling

set_option linter.unusedSimpArgs false

/-! # Several systems on one basis set object (helper file) -/

namespace QS

open Finset NDArray PyM BasisSet World

variable {K T : Type} [PyScalar K]

namespace World

/-- A system reports the same if only objects are added and dual functions are cached. -/
theorem sameReports_grow {w : World K T} (cl : w.Closed) {r : ℕ} {c c' : BasisSet K} (hc : w.bases[r]? = some c)
    (hcc : c' = c ∨ c' = withBra c) (new : List Sys) {j : ℕ} (hj : j < w.systems.length) :
    SameReports w j { w with bases := w.bases.set r c', systems := w.systems ++ new } j := by
  refine sameReports_map (J := fun i => i < w.systems.length) (f := id) (g := id) (k := id) (fun i hi => ?_) hj
  obtain ⟨x, hx⟩ : ∃ x, w.systems[i]? = some x := ⟨_, List.getElem?_eq_getElem hi⟩
  obtain ⟨d, hd⟩ := cl.basis i x hx
  refine ⟨x, hx, ?_, ⟨d, hd, ?_⟩, fun o ho => ?_⟩
  · show (w.systems ++ new)[i]? = _
    rw [List.getElem?_append_left hi, hx]
    simp
  · show ∃ e, (w.bases.set r c')[x.basis]? = some e ∧ _
    by_cases h : x.basis = r
    · subst h
      obtain rfl := Option.some.inj (hd.symm.trans hc)
      exact ⟨c', get_set hc _, hcc⟩
    · exact ⟨d, (get_set_ne h _).trans hd, .inl rfl⟩
  · obtain ⟨y, hy⟩ := cl.op i x o hx ho
    refine ⟨y, hy, ?_, fun q hq => ?_⟩
    · show w.ops[o]? = _
      rw [hy]; simp
    · obtain ⟨z, hz⟩ := cl.sys o y q hy hq
      exact lt_of_get hz

/-- `GeneralOrbitalSystem(n, basis_set, …)` on a basis set of spatial orbitals. -/
theorem generalInit_double {w : World K T} {n r l : ℕ} {b : BasisSet K} {ov : NDArray K} {a₀ a₁ b₀ b₁ : K}
    {anti : Bool} (hb : w.bases[r]? = some b) (wf : WellFormed b l) (hc : b.cls = .plain)
    (hsp : b.includesSpin = false) (hs : b.s = some ov) (ho : OrthoSpin a₀ a₁ b₀ b₁) :
    (generalInit n r [a₀, a₁] [b₀, b₁] anti).run w =
      (if n ≤ 2 * l then .ok w.systems.length else .error .assertion,
        { w with
          bases := w.bases.set r (general b l ov a₀ a₁ b₀ b₁ anti)
          systems := w.systems ++ if n ≤ 2 * l then [newSys .general r n (2 * l) b.np] else [] }) := by
  obtain ⟨h1, h2, h3⟩ := small_of_ortho ho
  have run := changeToGeneralBase_run (anti := anti) wf hsp hs h1 h2 h3
  obtain ⟨gw, -⟩ := general_wellFormed (ov := ov) a₀ a₁ b₀ b₁ anti wf
  have gl : (general b l ov a₀ a₁ b₀ b₁ anti).l = 2 * l := gw.l_eq
  have gnp : (general b l ov a₀ a₁ b₀ b₁ anti).np = b.np := (general_isGeneral a₀ a₁ b₀ b₁ anti wf hs).rest.2.2.2
  have runAB : (changeToGeneralAB [a₀, a₁] [b₀, b₁] anti).run b = (.ok true, general b l ov a₀ a₁ b₀ b₁ anti) := by
    simp only [changeToGeneralAB, PyM.run_bind, run_get, hc, run]
  have e2 : (w.bases.set r (general b l ov a₀ a₁ b₀ b₁ anti))[r]? = some (general b l ov a₀ a₁ b₀ b₁ anti) :=
    get_set hb _
  have fin : ∀ w' : World K T, w' = { w with bases := w.bases.set r (general b l ov a₀ a₁ b₀ b₁ anti) } →
      (initSystem .general n r).run w' =
      (if n ≤ 2 * l then .ok w.systems.length else .error .assertion,
        { w with
          bases := w.bases.set r (general b l ov a₀ a₁ b₀ b₁ anti)
          systems := w.systems ++ if n ≤ 2 * l then [newSys .general r n (2 * l) b.np] else [] }) := by
    rintro _ rfl
    rw [initSystem_run (by exact e2), gl, gnp]
    split_ifs <;> simp
  simp only [generalInit, PyM.run_bind, getBasis_run hb, hsp, Bool.not_false, if_true, onBasis_run hb, runAB]
  cases anti with
  | false =>
    simp only [Bool.false_eq_true, if_false, PyM.run_bind, run_pure]
    rw [fin _ rfl]
  | true =>
    simp only [if_true, PyM.run_bind]
    rw [onBasis_run (by exact e2)]
    have : (antiSymmetrizeTwoBody).run (general b l ov a₀ a₁ b₀ b₁ true) =
        (.ok (), general b l ov a₀ a₁ b₀ b₁ true) := by
      simp [antiSymmetrizeTwoBody, PyM.run_bind, general_antiSymmed]
    simp only [this]
    rw [fin _ (by simp)]

/-- `GeneralOrbitalSystem(n, basis_set, …)` on a basis set of general orbitals. -/
theorem generalInit_again {w : World K T} {n r l : ℕ} {b : BasisSet K} {a c : List K}
    {anti : Bool} (hb : w.bases[r]? = some b) (wf : WellFormed b l) (hsp : b.includesSpin = true) :
    (generalInit n r a c anti).run w =
      (if n ≤ l then .ok w.systems.length else .error .assertion,
        { w with
          bases := w.bases.set r (if anti then antiSymmed b l else b)
          systems := w.systems ++ if n ≤ l then [newSys .general r n l b.np] else [] }) := by
  obtain ⟨u, hu, hus⟩ := wf.u
  have run := antiSymmetrizeTwoBody_run wf.l_eq hu hus wf.tb
  have el : (antiSymmed b l).l = l ∧ (antiSymmed b l).np = b.np := by
    unfold antiSymmed; split_ifs <;> exact ⟨wf.l_eq, rfl⟩
  simp only [generalInit, PyM.run_bind, getBasis_run hb, hsp, Bool.not_true, Bool.false_eq_true, if_false, run_pure]
  cases anti with
  | false =>
    simp only [Bool.false_eq_true, if_false, PyM.run_bind, run_pure]
    rw [initSystem_run hb, wf.l_eq, set_same hb]
    split_ifs <;> simp
  | true =>
    simp only [if_true, PyM.run_bind]
    rw [onBasis_run hb]
    simp only [run]
    rw [initSystem_run (b := antiSymmed b l) (by exact get_set hb _), el.1, el.2]
    split_ifs <;> simp

/-- The reference energy of a system the basis set of which has `l'` orbitals. -/
theorem referenceEnergy_axes {w : World K T} {s l' : ℕ} {x : Sys} {b : BasisSet K} (hx : w.systems[s]? = some x)
    (hb : w.bases[x.basis]? = some b) (wf : WellFormed b l') (hnp : x.np = b.np) (ho : x.o = (0, x.n))
    (hn : x.n ≤ l') {H U : NDArray K} (hh : b.h = some H) (hu : b.u = some U) :
    ∃ r, (referenceEnergy s).run w = (.ok r, w) ∧ r.shape = [] ∧ r.get [] = energyOf x.kind x.n H U := by
  obtain ⟨np, hnp'⟩ := wf.np
  obtain ⟨H', hh', sh⟩ := wf.h
  obtain ⟨U', hu', su⟩ := wf.u
  obtain rfl : H = H' := by rw [hh] at hh'; exact Option.some.inj hh'
  obtain rfl : U = U' := by rw [hu] at hu'; exact Option.some.inj hu'
  have hx' : x.np = some np := by rw [hnp, hnp']
  simp only [referenceEnergy, PyM.run_bind, getSys_run hx, h_run hx hb, u_run hx hb]
  cases hk : x.kind with
  | general =>
    obtain ⟨r, h1, h2, h3⟩ := refEnergyGeneral_eq (np := np) sh su hn
    exact ⟨r, by simp only [run_liftM, hh, hu, hx', ho, h1], h2, h3⟩
  | spatial =>
    obtain ⟨r, h1, h2, h3⟩ := refEnergySpatial_eq (np := np) sh su hn
    exact ⟨r, by simp only [run_liftM, hh, hu, hx', ho, h1], h2, h3⟩

end World

end QS
