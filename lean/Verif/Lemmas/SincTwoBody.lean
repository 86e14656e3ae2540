import Verif.Spec.SincDvr
import Verif.Lemmas.General

/-!
# The overridden two-body methods of `ODSincDVR` agree with the four-index ones
-/

namespace QS

open NDArray BasisSet PyM Spec Finset

variable {K : Type} [PyScalar K]

theorem promote_rot (x y z : DType) : x.promote (y.promote z) = z.promote (x.promote y) := by
  cases x <;> cases y <;> cases z <;> rfl

theorem sum_pair {l : ℕ} (f : ℕ → ℕ → K) {a b : ℕ} (ha : a < l) (hb : b < l) :
    ∑ c ∈ range l, ∑ d ∈ range l, (if a = c ∧ b = d then f c d else 0) = f a b := by
  rw [Finset.sum_eq_single a, Finset.sum_eq_single b]
  · simp
  · intro d _ hd
    rw [if_neg (fun h => hd h.2.symm)]
  · intro h
    exact absurd (Finset.mem_range.2 hb) h
  · intro c _ hc
    exact Finset.sum_eq_zero fun d _ => if_neg (fun h => hc h.1.symm)
  · intro h
    exact absurd (Finset.mem_range.2 ha) h

theorem twoBodyArr_pair {u2 u4 C Ct : NDArray K} {l m n p q r s : ℕ} (hu : SameInteraction l u2 u4)
    (hp : p < m) (hq : q < m) (hr : r < n) (hs : s < n) :
    (twoBodyArr u4 C Ct l m n).get [p, q, r, s] = ∑ a ∈ range l, ∑ b ∈ range l,
      C.get [b, s] * C.get [a, r] * Ct.get [q, b] * Ct.get [p, a] * u2.get [a, b] := by
  rw [twoBodyArr_get hp hq hr hs]
  refine Finset.sum_congr rfl fun a ha => Finset.sum_congr rfl fun b hb => ?_
  have ha := Finset.mem_range.1 ha
  have hb := Finset.mem_range.1 hb
  rw [← sum_pair (fun c d => C.get [d, s] * C.get [c, r] * Ct.get [q, b] * Ct.get [p, a] * u2.get [a, b]) ha hb]
  refine Finset.sum_congr rfl fun c hc => Finset.sum_congr rfl fun d hd => ?_
  rw [hu.same a ha b hb c (Finset.mem_range.1 hc) d (Finset.mem_range.1 hd)]
  by_cases h : a = c ∧ b = d
  · rw [if_pos h, if_pos h]; ring
  · rw [if_neg h, if_neg h]; ring

theorem einsumDvr_eq {u2 u4 C Ct : NDArray K} {l m n : ℕ} (hu : SameInteraction l u2 u4)
    (hd : u2.dtype = u4.dtype) (hC : C.shape = [l, n]) (hCt : Ct.shape = [m, l]) :
    einsumDvr u2 C Ct = .ok (twoBodyArr u4 C Ct l m n) := by
  unfold einsumDvr
  rw [hu.two, hC, hCt]
  simp only [and_self, if_true]
  congr 1
  refine ext' ?_ rfl fun i hi => ?_
  · show u2.dtype.promote (C.dtype.promote Ct.dtype) = Ct.dtype.promote (u4.dtype.promote C.dtype)
    rw [hd, promote_rot]
  · obtain ⟨p, q, r, s, rfl, hp, hq, hr, hs⟩ := inRange_four.1 (show InRange [m, m, n, n] i from hi)
    rw [twoBodyArr_pair hu hp hq hr hs, ofFn_get_of (by exact ⟨hp, hq, hr, hs, trivial⟩)]

theorem einsumDvrX_eq {u2 u4 C Ct : NDArray K} {l m n : ℕ} (hu : SameInteraction l u2 u4)
    (hC : C.shape = [l, n]) (hCt : Ct.shape = [m, l]) :
    ∃ x, einsumDvrX u2 C Ct = .ok x ∧ x.dtype = u2.dtype.promote (C.dtype.promote Ct.dtype) ∧
      x.shape = [m, m, n, n] ∧ ∀ p < m, ∀ q < m, ∀ r < n, ∀ s < n,
        x.get [p, q, r, s] = (twoBodyArr u4 C Ct l m n).get [p, q, s, r] := by
  unfold einsumDvrX
  rw [hu.two, hC, hCt]
  simp only [and_self, if_true]
  refine ⟨_, rfl, rfl, rfl, fun p hp q hq r hr s hs => ?_⟩
  rw [twoBodyArr_pair hu hp hq hs hr, ofFn_get_of (by exact ⟨hp, hq, hr, hs, trivial⟩)]

namespace BasisSet

/-- The two-body elements of a sinc-DVR set in the 2d representation change as those in the 4d
representation. -/
theorem changeBasisTwoBody_sinc {b : BasisSet K} {np : Module} {u2 u4 C Ct : NDArray K} {l n : ℕ}
    (hc : b.cls = .sincDVR) (hl : b.l = n) (hnp : b.np = some np) (hu2 : b.u = some u2)
    (hu : SameInteraction l u2 u4) (hd : u2.dtype = u4.dtype)
    (htb : ∀ x, b.spin2tb = some x → x.shape = [l, l, l, l] ∧ b.includesSpin = true)
    (hC : C.shape = [l, n]) (hCt : Ct.shape = [n, l]) :
    (changeBasisTwoBody C Ct).run b =
      (.ok (), { b with
        u := some (twoBodyArr u4 C Ct l n n)
        spin2tb := b.spin2tb.map fun x => twoBodyArr x C Ct l n n }) := by
  have hr : b.uRepr = .two := by simp [uRepr, hu2, ndim, hu.two]
  have e : b.transformTwoBodyOf (some u2) C (some Ct) = .ok (twoBodyArr u4 C Ct l n n) := by
    unfold transformTwoBodyOf
    rw [hc]
    simp only [transformTwoBodySinc, hr, if_true, hnp, needNp, orErr, Option.getD, bind, Except.bind]
    rw [einsumDvr_eq hu hd hC hCt]
    rfl
  simp only [changeBasisTwoBody, PyM.run_bind, run_get, run_liftM, hu2]
  rw [e]
  simp only
  rw [setU_run (by rw [hl]; exact axesOk_four rfl)]
  simp only [PyM.run_bind, run_get]
  rcases hbs : b.spin2tb with _ | x
  · simp only [run_pure, Option.map]
  · obtain ⟨h1, h2⟩ := htb x hbs
    simp only [PyM.run_bind, run_liftM]
    rw [transformTwoBodyOf_eq (np := np) (u := twoBodyArr u4 C Ct l n n) (by exact hnp) (by rfl)
      (by simp [ndim]) h1 hC hCt]
    simp only
    rw [setSpin2tb_run (by simp only [hl]; exact axesOk_four rfl) (by exact h2)]
    simp only [Option.map]

theorem changeBasis_sinc {b : BasisSet K} {u2 u4 C : NDArray K} {Ct : Option (NDArray K)} {l n : ℕ}
    (hc : b.cls = .sincDVR) (hu2 : b.u = some u2) (hu : SameInteraction l u2 u4) (hd : u2.dtype = u4.dtype)
    (hb : WellFormed { b with u := some u4 } l) (hsp : SpinShaped b l)
    (hC : C.shape = [l, n]) (hCt : (Ct.getD C.conj.T).shape = [n, l]) :
    (changeBasis C Ct).run b = (changeBasis C Ct).run { b with u := some u4 } := by
  obtain ⟨np, hnp⟩ := hb.np
  have hnp : b.np = some np := hnp
  obtain ⟨h, hh, hhs⟩ := hb.h
  have hh : b.h = some h := hh
  have hsh : C.shapeAt 1 = .ok n := by simp [shapeAt, hC]
  generalize hCt' : Ct.getD C.conj.T = Ct' at hCt
  have hlp : spinLoop (some np) C Ct' [b.spinX, b.spinY, b.spinZ, b.spin2] = .ok () :=
    spinShaped_loop hsp hC hCt
  simp only [changeBasis, PyM.run_bind, run_liftM, hsh, run_modify, hCt']
  rw [changeBasisOneBody_run (b := { b with l := n }) (np := np) (h := h) rfl hnp hh hhs hb.s hlp hC hCt,
    changeBasisOneBody_run (b := { b with l := n, u := some u4 }) (np := np) (h := h) rfl hnp hh hhs hb.s hlp
      hC hCt]
  simp only
  rw [changeBasisTwoBody_sinc (np := np) (by exact hc) (by rfl) (by exact hnp) (by exact hu2) hu hd (by exact hb.tb)
      hC hCt,
    changeBasisTwoBody_run (np := np) (u := u4) (by rfl) (by exact hnp) (by rfl) hu.four (by exact hb.tb) hC hCt]

/-- The doubled two-index elements. -/
def dblPair (x : NDArray K) (l : ℕ) : NDArray K :=
  ofFn (x.dtype.promote .float64) [2 * l, 2 * l] (fun i => match i with
    | [p, q] => x.get [p / 2, q / 2]
    | _ => 0)

theorem addSpinTwoBodySinc_two {np : Module} {x : NDArray K} {l : ℕ} (hx : x.shape = [l, l]) :
    addSpinTwoBodySinc (some np) (some x) = .ok (dblPair x l) := by
  simp only [addSpinTwoBodySinc, needNp, ndim, hx, List.length_cons, List.length_nil, bind, Except.bind,
    Nat.reduceAdd, if_true]
  congr 1
  rw [kron_two hx (by rfl)]
  refine ext' rfl (by simp [dblPair, mul_comm]) fun i hi => ?_
  obtain ⟨p, q, rfl, hp, hq⟩ := inRange_two.1 (show InRange [l * 2, l * 2] i from hi)
  rw [ofFn_get_of (by exact ⟨hp, hq, trivial⟩), dblPair, ofFn_get_of (by exact ⟨by omega, by omega, trivial⟩),
    NDArray.ones]
  simp only
  rw [ofFn_get_of (by exact ⟨Nat.mod_lt _ (by norm_num), Nat.mod_lt _ (by norm_num), trivial⟩), mul_one]

theorem dblPair_same {u2 u4 : NDArray K} {l : ℕ} (hu : SameInteraction l u2 u4) :
    SameInteraction (2 * l) (dblPair u2 l) (dbl2 u4 l) where
  two := rfl
  four := rfl
  same p hp q hq r hr s hs := by
    rw [dbl2_get hp hq hr hs, dblPair, ofFn_get_of (by exact ⟨hp, hq, trivial⟩),
      hu.same _ (by omega) _ (by omega) _ (by omega) _ (by omega)]
    simp only
    by_cases h : p = r ∧ q = s
    · obtain ⟨rfl, rfl⟩ := h
      simp
    · rw [if_neg h]
      by_cases h1 : p % 2 = r % 2 ∧ q % 2 = s % 2
      · rw [if_pos h1, if_neg (by omega)]
      · rw [if_neg h1]

/-- The general-orbital set that `ODSincDVR.change_to_general_orbital_basis` makes of a set with two-index
elements. -/
def generalPair (b : BasisSet K) (u2 : NDArray K) (l : ℕ) (anti : Bool) : BasisSet K :=
  casted { b with
    includesSpin := true, l := 2 * l
    h := b.h.map fun x => dbl1 x l l
    s := b.s.map fun x => dbl1 x l l
    u := some (dblPair u2 l)
    antiSym := anti || b.antiSym
    dipole := b.dipole.map fun x => dblDip x b.dim l
    spf := b.spf.map fun x => dblSpf x l
    braSpf := b.braSpf.map fun x => dblSpf x l }

theorem changeToGeneralSinc_two {b : BasisSet K} {u2 u4 ov : NDArray K} {l : ℕ} {anti : Bool}
    (hc : b.cls = .sincDVR) (hu2 : b.u = some u2) (hu2s : u2.shape = [l, l])
    (hb : WellFormed { b with u := some u4 } l) (hsp : b.includesSpin = false) (hs : b.s = some ov) :
    (changeToGeneralSinc anti).run b = (.ok true, generalPair b u2 l anti) := by
  obtain ⟨np, hnp⟩ := hb.np
  have hnp : b.np = some np := hnp
  obtain ⟨h, hh, hhs⟩ := hb.h
  have hh : b.h = some h := hh
  have hl : b.l = l := hb.l_eq
  have hovs := hb.s ov hs
  have hr : b.uRepr = .two := by simp [uRepr, hu2, ndim, hu2s]
  have htb : b.spin2tb = none := by
    rcases ht : b.spin2tb with _ | x
    · rfl
    · have := (hb.tb x ht).2
      simp only at this
      rw [hsp] at this
      cases this
  have hset : ∀ (x : Bool), (if x = true then (setURepr .four : PyM (BasisSet K) Unit) else pure ()).run b
      = (.ok (), b) := by
    intro x
    cases x
    · rfl
    · simp only [if_true, setURepr, PyM.run_bind, run_get, hr, reduceCtorEq, if_false, hu2, orErr, run_liftM,
        run_pure]
  have h2 : (changeToGeneralSinc (K := K) anti).run b = (changeToGeneralBase [1, 0] [0, 1] anti).run b := by
    unfold changeToGeneralSinc
    have := hset (anti && decide (b.uRepr = .two))
    simp only [PyM.run_bind, run_get]
    split_ifs with h
    · rw [if_pos h] at this
      simp only [PyM.run_bind, this]
    · rfl
  rw [h2]
  unfold changeToGeneralBase
  simp only [PyM.run_bind, run_get, hsp, Bool.false_eq_true, if_false, run_modify, run_liftM, hs,
    orErr, hnp, hh]
  rw [addSpinOneBody_eq hhs]
  simp only [hl]
  rw [setH_run (by exact axesOk_two rfl)]
  simp only [run_get, run_liftM, hs, hnp]
  rw [addSpinOneBody_eq hovs]
  simp only
  rw [setS_run (by exact axesOk_two rfl)]
  simp only [run_get, run_liftM, hu2, hnp, hc, addSpinTwoBody]
  rw [addSpinTwoBodySinc_two hu2s]
  simp only
  rw [setU_run (by exact axesOk_two rfl)]
  simp only [run_get]
  rw [if_neg (by
    rw [not_not]
    simp [uRepr, ndim, dblPair])]
  cases anti with
  | false =>
    simp only [Bool.false_eq_true, if_false, PyM.run_bind]
    rw [doubleDipole_run (np := np) (l := l) (by rfl) (by rfl) (by exact hb.dipole)]
    simp only
    rw [doubleSpf_run (np := np) (l := l) (by rfl) (by rfl)
      (by exact hb.spf) (by exact hb.bra) (by exact hb.braNeedsSpf)]
    simp only
    rw [castToComplex_run (np := np) (by rfl)]
    simp [generalPair, hh, hs, hnp, hc]
  | true =>
    simp only [if_true, PyM.run_bind]
    unfold antiSymmetrizeTwoBody
    simp only [PyM.run_bind, run_get]
    cases hanti : b.antiSym with
    | true =>
      simp only [Bool.not_true, Bool.false_eq_true, if_false, run_pure]
      rw [doubleDipole_run (np := np) (l := l) (by rfl) (by rfl) (by exact hb.dipole)]
      simp only
      rw [doubleSpf_run (np := np) (l := l) (by rfl) (by rfl)
        (by exact hb.spf) (by exact hb.bra) (by exact hb.braNeedsSpf)]
      simp only
      rw [castToComplex_run (np := np) (by rfl)]
      simp [generalPair, hh, hs, hnp, hc, hanti]
    | false =>
      simp only [Bool.not_false, if_true, PyM.run_bind, run_liftM]
      have : antiSymmetrizeU .sincDVR (some (dblPair u2 l)) = .ok (dblPair u2 l) := by
        simp [antiSymmetrizeU, antiSymmetrizeUSinc, ndim, dblPair]
      rw [this]
      simp only
      rw [setU_run (by exact axesOk_two rfl)]
      simp only [run_get, htb, run_pure, run_modify]
      rw [doubleDipole_run (np := np) (l := l) (by rfl) (by rfl) (by exact hb.dipole)]
      simp only
      rw [doubleSpf_run (np := np) (l := l) (by rfl) (by rfl)
        (by exact hb.spf) (by exact hb.bra) (by exact hb.braNeedsSpf)]
      simp only
      rw [castToComplex_run (np := np) (by rfl)]
      simp [generalPair, hh, hs, hnp, hc, hanti, htb]

end BasisSet

end QS
