import Verif.Lemmas.PositiveCoulomb
import Verif.Props.Consistent
import Verif.Props.BasisChange
import Verif.Lemmas.SincKinetic

/-!
# C92, C93: repulsive interactions and lower bounds for the energy
-/

namespace QS.Props

open NDArray BasisSet Idx Spec TwoDim OneDim SincDvr Coulomb PyM Finset

/-! ### every description of the same system -/

theorem conjT_star {C : NDArray ℂ} {l n : ℕ} (hC : C.shape = [l, n]) :
    ∀ p < n, ∀ a < l, C.conj.T.get [p, a] = star (C.get [a, p]) := by
  intro p _ a _
  rw [T_get2 C.conj (show C.conj.shape = [l, n] from hC), conj_get]

theorem herm_doubled {l : ℕ} {x y : NDArray ℂ} (h : HermMat l x) (hd : IsDoubledOneBody l l x y) :
    HermMat (2 * l) y := by
  intro p hp q hq
  obtain ⟨p, a, hp', ha, rfl⟩ := parity_cases p hp
  obtain ⟨q, c, hq', hc, rfl⟩ := parity_cases q hq
  rw [hd.2 p hp' q hq' a ha c hc, hd.2 q hq' p hp' c hc a ha, h p hp' q hq']
  by_cases e : a = c
  · rw [if_pos e, if_pos e.symm]
  · rw [if_neg e, if_neg (Ne.symm e), star_zero]

theorem wf_braSpf {b : BasisSet ℂ} {l : ℕ} (h : WellFormed b l) (np : Module) :
    WellFormed { withBra b with np := some np } l :=
  have := withBra_wf h
  ⟨this.l_eq, ⟨np, rfl⟩, this.h, this.u, this.s, this.dipole, this.spf, this.bra, this.braNeedsSpf, this.tb⟩

theorem casted_wf {b : BasisSet ℂ} {l : ℕ} (h : WellFormed b l) : WellFormed (casted b) l := by
  obtain ⟨x, hx, sx⟩ := h.h
  obtain ⟨u, hu, su⟩ := h.u
  refine ⟨h.l_eq, h.np, ⟨x.toComplex, by simp [casted, hx], sx⟩, ⟨u.toComplex, by simp [casted, hu], su⟩, ?_, ?_, ?_,
    ?_, ?_, ?_⟩
  · intro y hy
    simp only [casted, Option.map_eq_some_iff] at hy
    obtain ⟨z, hz, rfl⟩ := hy
    exact h.s z hz
  · intro y hy
    simp only [casted, Option.map_eq_some_iff] at hy
    obtain ⟨z, hz, rfl⟩ := hy
    exact h.dipole z hz
  · intro y hy
    simp only [casted, Option.map_eq_some_iff] at hy
    obtain ⟨z, hz, rfl⟩ := hy
    exact h.spf z hz
  · intro y hy
    simp only [casted, Option.map_eq_some_iff] at hy
    obtain ⟨z, hz, rfl⟩ := hy
    exact (withBra_wf h).bra z hz
  · intro hn
    simp only [casted, Option.map_eq_none_iff] at hn ⊢
    exact (withBra_wf h).braNeedsSpf hn
  · intro y hy
    simp only [casted, Option.map_eq_some_iff] at hy
    obtain ⟨z, hz, rfl⟩ := hy
    exact h.tb z hz

theorem physical_step {m : ℝ} {b b' : BasisSet ℂ} {l : ℕ} {op : Op ℂ} (hb : Physical m b l) (ho : Ordinary op)
    (h : (op.run).run b = (.ok (), b')) : ∃ l', Physical m b' l' := by
  have hb0 := hb
  obtain ⟨wf, ⟨x, s, hx, hs, Hx, Bx⟩, ⟨u, hu, Pu, Eu⟩⟩ := hb
  cases op with
  | changeBasis C Ct =>
    cases Ct with
    | some => exact ho.elim
    | none =>
      obtain ⟨n, hC, hCt, -, rfl⟩ := changeBasis_inv wf h
      have hch := changed_isChanged (C := C) (D := C.conj.T) (n := n) wf
      have e1 := hch.h
      have e2 := hch.s
      have e3 := hch.u
      refine ⟨n, changed_wellFormed wf, ⟨oneBodyArr x C C.conj.T n l l n, oneBodyArr s C C.conj.T n l l n, ?_, ?_,
        oneBodyArr_herm hC Hx, Bx.changed (conjT_star hC) ⟨rfl, fun p hp q hq => oneBodyArr_get hp hq⟩
          ⟨rfl, fun p hp q hq => oneBodyArr_get hp hq⟩⟩,
        ⟨twoBodyArr u C C.conj.T l n n, ?_, Pu.changed (conjT_star hC)
          ⟨rfl, fun p hp q hq r hr s hs => twoBodyArr_get hp hq hr hs⟩, twoBodyArr_exch Eu⟩⟩
      · simp [changed, hx]
      · simp [changed, hs]
      · simp [changed, hu]
  | toGeneral a c anti =>
    obtain ⟨a₀, a₁, rfl⟩ : ∃ a₀ a₁, a = [a₀, a₁] := by
      rcases a with _ | ⟨_, _ | ⟨_, _ | _⟩⟩
      · exact ho.elim
      · exact ho.elim
      · exact ⟨_, _, rfl⟩
      · exact ho.elim
    obtain ⟨c₀, c₁, rfl⟩ : ∃ a₀ a₁, c = [a₀, a₁] := by
      rcases c with _ | ⟨_, _ | ⟨_, _ | _⟩⟩
      · exact ho.elim
      · exact ho.elim
      · exact ⟨_, _, rfl⟩
      · exact ho.elim
    change (changeToGeneralBase [a₀, a₁] [c₀, c₁] anti >>= fun _ => pure ()).run b = _ at h
    rw [run_bind_eq_ok] at h
    obtain ⟨r, b1, h, h'⟩ := h
    rw [run_pure_eq_ok] at h'
    obtain ⟨-, rfl⟩ := h'
    cases hsp : b.includesSpin with
    | true =>
      rw [(C17_no_second_doubling hsp _ _ anti 0).1] at h
      cases h
      exact ⟨l, hb0⟩
    | false =>
      obtain ⟨-, hg, wf', -⟩ := C16_general wf hsp h
      have eh := hg.h
      have es := hg.s
      have eu := hg.u
      rw [hx] at eh
      rw [hs] at es
      rw [hu] at eu
      obtain ⟨x', hx'⟩ : ∃ x', b1.h = some x' := ⟨_, wf'.h.choose_spec.1⟩
      obtain ⟨u', hu'⟩ : ∃ x', b1.u = some x' := ⟨_, wf'.u.choose_spec.1⟩
      rw [hx'] at eh
      rw [hu'] at eu
      cases hs' : b1.s with
      | none => rw [hs'] at es; exact es.elim
      | some s' =>
        rw [hs'] at es
        refine ⟨2 * l, wf', ⟨x', s', hx', hs', herm_doubled Hx eh, Bx.doubled eh es⟩, u', hu', ?_⟩
        split_ifs at eu with hc
        · obtain ⟨z, hz, hy⟩ := doubledAnti eu
          exact ⟨(Pu.doubled hz).anti (exch_doubled Eu hz) hy, exch_anti (exch_doubled Eu hz) hy⟩
        · exact ⟨Pu.doubled eu, exch_doubled Eu eu⟩
  | antiSymmetrize =>
    obtain ⟨u', hu', hus⟩ := wf.u
    rw [hu] at hu'
    cases hu'
    cases ha : b.antiSym with
    | true =>
      obtain ⟨-, rfl⟩ | ⟨h', -⟩ := antiSymmetrizeTwoBody_inv h
      · exact ⟨l, hb0⟩
      · rw [ha] at h'; cases h'
    | false =>
      obtain ⟨b1, h1, h2, h3, h4, h5⟩ := C15_once wf ha 0
      have hr : (callN antiSymmetrizeTwoBody (0 + 1)).run b = (.ok (), b') := by
        rw [callN, PyM.run_bind]
        change (antiSymmetrizeTwoBody).run b = _ at h
        rw [h]
        rfl
      rw [hr] at h1
      cases h1
      rw [hu] at h2
      cases hu' : b'.u with
      | none => rw [hu'] at h2; exact h2.elim
      | some u' =>
        rw [hu'] at h2
        have eh : b'.h = b.h := by rw [h5]
        have es : b'.s = b.s := by rw [h5]
        refine ⟨l, ?_, ⟨x, s, eh.trans hx, es.trans hs, Hx, Bx⟩, u', hu', Pu.anti Eu h2, exch_anti Eu h2⟩
        have htb : ∀ y, b'.spin2tb = some y → y.shape = [l, l, l, l] ∧ b.includesSpin = true := by
          intro y hy
          rw [hy] at h3
          cases hz : b.spin2tb with
          | none => rw [hz] at h3; exact h3.elim
          | some z =>
            rw [hz] at h3
            exact ⟨h3.1, (wf.tb z hz).2⟩
        rw [h5]
        exact ⟨wf.l_eq, wf.np, wf.h, ⟨u', hu', h2.1⟩, wf.s, wf.dipole, wf.spf, wf.bra, wf.braNeedsSpf, htb⟩
  | castToComplex =>
    obtain rfl := castToComplex_inv h
    exact ⟨l, casted_wf wf, ⟨x.toComplex, s.toComplex, by simp [casted, hx], by simp [casted, hs], Hx, Bx⟩,
      u.toComplex, by simp [casted, hu], Pu, Eu⟩
  | changeModule np =>
    cases np with
    | none => exact ho.elim
    | some np =>
      obtain rfl | rfl := changeModule_inv h
      · exact ⟨l, ⟨wf.l_eq, ⟨np, rfl⟩, wf.h, wf.u, wf.s, wf.dipole, wf.spf, wf.bra, wf.braNeedsSpf, wf.tb⟩,
          ⟨x, s, hx, hs, Hx, Bx⟩, u, hu, Pu, Eu⟩
      · exact ⟨l, wf_braSpf wf np, ⟨x, s, hx, hs, Hx, Bx⟩, u, hu, Pu, Eu⟩
  | readBra =>
    change (getBra >>= fun _ => pure ()).run b = _ at h
    rw [run_bind_eq_ok] at h
    obtain ⟨r, b1, h, h'⟩ := h
    rw [run_pure_eq_ok] at h'
    obtain ⟨-, rfl⟩ := h'
    rw [getBra_run] at h
    cases h
    exact ⟨l, withBra_wf wf, ⟨x, s, hx, hs, Hx, Bx⟩, u, hu, Pu, Eu⟩
  | _ => exact ho.elim

/-! ## C92 -/

/-- **C92** A Hermitian one-body part bounded from below and a repulsive interaction stay so, with the same bound,
under any sequence of changes of basis (also to fewer or non-orthogonal functions), spin doubling,
anti-symmetrisation, casts and module changes. -/
theorem C92_history {m : ℝ} {b b' : BasisSet ℂ} {l : ℕ} {ops : List (Op ℂ)} (hb : Physical m b l)
    (h : History (fun _ op => Ordinary op) b ops b') : ∃ l', Physical m b' l' := by
  induction h generalizing l with
  | nil => exact ⟨l, hb⟩
  | cons hq h _ ih =>
    obtain ⟨l', hb'⟩ := physical_step hb hq h
    exact ih hb'

/-- **C92** What a repulsive interaction says about the two-body elements: direct elements are real and not
negative, exchange elements are real and not larger, all elements obey the Cauchy–Schwarz inequality, and `u` has
both of its symmetries. -/
theorem C92_elements {m : ℝ} {b : BasisSet ℂ} {l : ℕ} (hb : Physical m b l) :
    ∃ u, b.u = some u ∧ ∀ p < l, ∀ q < l,
      (u.get [p, q, p, q]).im = 0 ∧ 0 ≤ (u.get [p, q, p, q]).re ∧
      (u.get [p, q, q, p]).im = 0 ∧ ‖u.get [p, q, q, p]‖ ≤ (u.get [p, q, p, q]).re ∧
      ∀ r < l, ∀ s < l, ‖u.get [p, q, r, s]‖ ^ 2 ≤ (u.get [p, q, p, q]).re * (u.get [r, s, r, s]).re ∧
        u.get [p, q, r, s] = star (u.get [r, s, p, q]) ∧ u.get [p, q, r, s] = u.get [q, p, s, r] := by
  obtain ⟨u, hu, P, E⟩ := hb.two
  refine ⟨u, hu, fun p hp q hq => ?_⟩
  obtain ⟨h1, h2⟩ := P.direct hp hq
  obtain ⟨h3, h4⟩ := P.exchange E hp hq
  exact ⟨h1, h2, h3, h4, fun r hr s hs => ⟨(P.schwarz hp hq hr hs).2, (P.schwarz hr hs hp hq).1, E p hp q hq r hr s hs⟩⟩

/-! ### the constructors -/

theorem physical_of {m : ℝ} {b : BasisSet ℂ} {l d : ℕ} {np : Module} {sp an : Bool} (hb : Consistent b l d np sp an)
    {h u : NDArray ℂ} (hh : b.h = some h) (hu : b.u = some u)
    (h0 : ∀ p < l, ∀ q < l, p ≠ q → h.get [p, q] = 0)
    (h1 : ∀ p < l, (h.get [p, p]).im = 0 ∧ m ≤ (h.get [p, p]).re) (h2 : PosU l u) (h3 : ExchU l u) :
    Physical m b l := by
  obtain ⟨s, hs, es⟩ := hb.s
  obtain ⟨h', hh', Hh⟩ := hb.h
  rw [hh] at hh'
  cases hh'
  exact ⟨hb.wf, ⟨h, s, hh, hs, Hh, diag_bounded h0 h1 es⟩, u, hu, h2, h3⟩

/-- **C92** `ODQD` on a grid of width `2 L`, for a repulsion (`alpha ≥ 0`): the one-body energies are bounded by
the minimum of the potential. -/
theorem C92_odqd {eigh : NDArray ℂ → Except PyErr (NDArray ℂ × NDArray ℂ)} (he : IsEigh eigh) {l num : ℕ} {L : ℝ}
    (hL : 0 < L) (h3 : 3 ≤ num) (hl : l ≤ num - 2) (a : ℝ) {alpha : ℝ} (ha : 0 ≤ alpha) (beta : ℝ) {V : ℝ → ℝ}
    (hm : Bool) (np : Module) (sp an : Bool) {m : ℝ}
    (hV : ∀ i, 1 ≤ i → i < num - 1 → m ≤ V (-L + i * (2 * L / ((num : ℝ) - 1)))) :
    ∃ b, odqd eigh l L num a alpha beta V hm np sp an = .ok b ∧ Physical m b l := by
  obtain ⟨b, h1, hb⟩ := C91_odqd he hL h3 hl a alpha beta V hm np sp an
  obtain ⟨b', H, w, v, g1, hH, E, -, hh, hd⟩ := odqd_ok he L h3 hl a alpha beta V hm np sp an
  rw [h1] at g1
  cases g1
  obtain ⟨b', f, h, d, u, g1, -, g2, -, g3, F⟩ := odqd_facts he hL h3 hl a alpha beta V hm np sp an
  rw [h1] at g1
  cases g1
  obtain ⟨b', f', h', g1, -, g2', -, g4, -, g5, -⟩ := C87_spectrum he hL h3 hl a alpha beta V hm np sp an
  rw [h1] at g1
  cases g1
  rw [g2] at g2' hh
  cases g2'
  cases hh
  refine ⟨b, h1, physical_of hb g2 g3 (fun p hp q hq hpq => ?_) (fun p hp => ⟨g4 p hp, (g5 m hV p hp).le⟩) ?_ ?_⟩
  · rw [ofFn_get_of (by exact ⟨hp, hq, trivial⟩)]
    simp only [List.getD_cons_zero, List.getD_cons_succ]
    rw [if_neg hpq]
  · have hden : (0 : ℝ) < (num : ℝ) - 1 := by
      have : (3 : ℝ) ≤ num := by exact_mod_cast h3
      linarith
    exact coulombSum_pos (dx := 2 * L / ((num : ℝ) - 1)) (by omega) (fun i => by push_cast; ring) (by positivity) _ ha a
      F.coulomb
  · exact coulombSum_exchU _ a F.coulomb

/-- **C92** `ODHO`, for a repulsion: bounded by the zero-point energy `ω / 2`. -/
theorem C92_odho (l : ℕ) {L : ℝ} (hL : 0 ≤ L) {num : ℕ} (h2 : 2 ≤ num) {omega : ℝ} (ho : 0 ≤ omega) (a : ℝ)
    {alpha : ℝ} (ha : 0 ≤ alpha) (beta : ℝ) (np : Module) (sp an : Bool) :
    ∃ b, odho l L num omega a alpha beta np sp an = .ok b ∧ Physical (omega / 2) b l := by
  obtain ⟨b, h1, hb⟩ := C91_odho l L h2 omega a alpha beta np sp an
  obtain ⟨b', g1, F, hh, -⟩ := odho_ok l L h2 omega a alpha beta np sp an
  rw [h1] at g1
  cases g1
  have hden : (0 : ℝ) < (num : ℝ) - 1 := by
    have : (2 : ℝ) ≤ num := by exact_mod_cast h2
    linarith
  have hu : ∀ p q r s, p < l → q < l → r < l → s < l → (ofFn .complex128 [l, l, l, l] (fun i =>
      coulombSum num (TwoDim.linspace (-L) L num) (fun p j => (odhoSpf l num L omega).get [p, j]) alpha a
          (i.getD 0 0) (i.getD 1 0) (i.getD 2 0) (i.getD 3 0))).get [p, q, r, s]
      = coulombSum num (TwoDim.linspace (-L) L num) (fun p j => (odhoSpf l num L omega).get [p, j]) alpha a
          p q r s := fun p q r s hp hq hr hs => ofFn_get_of (by exact ⟨hp, hq, hr, hs, trivial⟩)
  refine ⟨b, h1, physical_of hb hh F.u_eq (fun p hp q hq hpq => ?_) (fun p hp => ?_) ?_ ?_⟩
  · rw [ofFn_get_of (by exact ⟨hp, hq, trivial⟩)]
    simp only [List.getD_cons_zero, List.getD_cons_succ]
    rw [if_neg hpq]
  · rw [ofFn_get_of (by exact ⟨hp, hp, trivial⟩)]
    simp only [List.getD_cons_zero, List.getD_cons_succ]
    rw [if_pos trivial, Complex.ofReal_im, Complex.ofReal_re]
    refine ⟨rfl, ?_⟩
    have : 0 ≤ omega * p := by positivity
    linarith
  · exact coulombSum_pos (by omega) (linspace_uniform L).step (div_nonneg (by linarith) hden.le) _ ha a hu
  · exact coulombSum_exchU _ a hu

/-- **C92** `TwoDimensionalHarmonicOscillator`: bounded by the zero-point energy `ω`. -/
theorem C92_tdho (l num : ℕ) (radiusLength : ℝ) {omega mass : ℝ} (ho : 0 < omega) (hm : 0 < mass) (np : Module) :
    ∃ b, tdho (getCoulombElementsRaw l) l num radiusLength omega mass np = .ok b ∧ Physical omega b l := by
  obtain ⟨b, h1, hb⟩ := C91_tdho l num radiusLength omega mass np
  obtain ⟨b', g1, u, hu, -, eu⟩ := (C83_actual l num radiusLength ho hm np).1
  rw [h1] at g1
  cases g1
  obtain ⟨u', hu', -⟩ := C45_table l
  rw [hu'] at h1
  obtain ⟨b', g1, -, hh⟩ := tdho_ok u' l num radiusLength omega mass np
  rw [h1] at g1
  cases g1
  obtain ⟨P, E⟩ := integrals_pos (by positivity) eu
  refine ⟨b, by rw [hu', h1], physical_of hb hh hu (fun p hp q hq hpq => ?_) (fun p hp => ?_) P E⟩
  · unfold oscillatorH
    rw [NDArray.smul_get, ofFn_get_of (show InRange [l, l] [p, q] from ⟨hp, hq, trivial⟩)]
    simp only [List.getD_cons_zero, List.getD_cons_succ]
    rw [if_neg hpq, mul_zero]
  · unfold oscillatorH
    rw [NDArray.smul_get, ofFn_get_of (show InRange [l, l] [p, p] from ⟨hp, hp, trivial⟩)]
    simp only [List.getD_cons_zero, List.getD_cons_succ, if_true]
    rw [← Complex.ofReal_intCast, ← Complex.ofReal_mul, Complex.ofReal_im, Complex.ofReal_re]
    refine ⟨rfl, le_mul_of_one_le_right ho.le ?_⟩
    have h := C42_nonneg p
    have h' := abs_nonneg (getIndicesNm p).2
    have : (1 : ℤ) ≤ getShellEnergy (getIndicesNm p).1 (getIndicesNm p).2 := by
      unfold getShellEnergy
      omega
    exact_mod_cast this

theorem levelEnergy_ge {omega0 omegaC : ℝ} {n m : ℤ} (hn : 0 ≤ n) :
    Real.sqrt (omega0 ^ 2 + omegaC ^ 2 / 4) ≤ levelEnergy omega0 omegaC (n, m) := by
  unfold levelEnergy
  have h1 : |omegaC| / 2 ≤ Real.sqrt (omega0 ^ 2 + omegaC ^ 2 / 4) := by
    refine Real.le_sqrt_of_sq_le ?_
    rw [div_pow, sq_abs]
    nlinarith [sq_nonneg omega0]
  have h0 := Real.sqrt_nonneg (omega0 ^ 2 + omegaC ^ 2 / 4)
  generalize Real.sqrt (omega0 ^ 2 + omegaC ^ 2 / 4) = w at *
  have hn' : (0 : ℝ) ≤ n := by exact_mod_cast hn
  have h2 : omegaC * m ≤ |omegaC| * |(m : ℝ)| := by
    rw [← abs_mul]
    exact le_abs_self _
  have h3 : |omegaC| / 2 * |(m : ℝ)| ≤ w * |(m : ℝ)| := mul_le_mul_of_nonneg_right h1 (abs_nonneg _)
  have h4 : 0 ≤ w * n := mul_nonneg h0 hn'
  push_cast
  nlinarith

/-- **C92** `TwoDimHarmonicOscB`: bounded by the zero-point energy in the field. -/
theorem C92_magnetic {l num : ℕ} {radiusLength omega0 mass omegaC : ℝ} {np : Module} {b : BasisSet ℂ} {df : List Row}
    (h : oscB l num radiusLength omega0 mass omegaC np = .ok (b, df)) (hm : 0 < mass) (ho : omega0 ≠ 0 ∨ omegaC ≠ 0) :
    Physical (Real.sqrt (omega0 ^ 2 + omegaC ^ 2 / 4)) b l := by
  obtain ⟨phi, f, -, -, -, -, u, hu, -, eu⟩ := C84_magnetic h hm ho
  obtain ⟨hd, x, hx, -, ex⟩ := C51_one_body h
  obtain ⟨P, E⟩ := integrals_pos (by positivity) eu
  refine physical_of (C91_magnetic h) hx hu (fun p hp q hq hpq => ?_) (fun p hp => ?_) P E
  · rw [ex p q hp hq, if_neg hpq]
  · rw [ex p p hp hp, if_pos rfl, Complex.ofReal_im, Complex.ofReal_re]
    exact ⟨rfl, levelEnergy_ge (kept_row hd hp).2.2.2⟩

/-- Every matrix is bounded from below. -/
theorem exists_bounded (l : ℕ) {h s : NDArray ℂ} (hs : ∀ p < l, ∀ q < l, s.get [p, q] = if p = q then 1 else 0) :
    ∃ m, BoundedBelow m l h s := by
  refine ⟨-∑ p ∈ range l, ∑ q ∈ range l, ‖h.get [p, q]‖, fun v => ?_⟩
  have es : (oneForm l s v).re = ∑ p ∈ range l, ‖v p‖ ^ 2 := by
    unfold oneForm
    rw [Complex.re_sum]
    refine sum_congr rfl fun p hp => ?_
    rw [sum_eq_single_of_mem p hp fun q hq hne => by
      rw [hs p (mem_range.1 hp) q (mem_range.1 hq), if_neg (Ne.symm hne)]; ring]
    rw [hs p (mem_range.1 hp) p (mem_range.1 hp), if_pos rfl, mul_one]
    change ((starRingEnd ℂ) (v p) * v p).re = _
    rw [Complex.conj_mul']
    norm_cast
  have hv : ∀ p ∈ range l, ‖v p‖ ^ 2 ≤ ∑ p ∈ range l, ‖v p‖ ^ 2 := fun p hp =>
    single_le_sum (f := fun p => ‖v p‖ ^ 2) (fun _ _ => by positivity) hp
  have hn : ‖oneForm l h v‖ ≤ (∑ p ∈ range l, ∑ q ∈ range l, ‖h.get [p, q]‖) * ∑ p ∈ range l, ‖v p‖ ^ 2 := by
    unfold oneForm
    rw [sum_mul]
    refine (norm_sum_le _ _).trans (sum_le_sum fun p hp => ?_)
    rw [sum_mul]
    refine (norm_sum_le _ _).trans (sum_le_sum fun q hq => ?_)
    rw [norm_mul, norm_mul, norm_star]
    have := hv p hp
    have := hv q hq
    have h4 : ‖v p‖ * ‖v q‖ ≤ ∑ p ∈ range l, ‖v p‖ ^ 2 := by nlinarith [sq_nonneg (‖v p‖ - ‖v q‖)]
    calc ‖v p‖ * ‖h.get [p, q]‖ * ‖v q‖ = ‖h.get [p, q]‖ * (‖v p‖ * ‖v q‖) := by ring
      _ ≤ _ := mul_le_mul_of_nonneg_left h4 (norm_nonneg _)
  rw [es, neg_mul]
  exact (neg_le_neg hn).trans ((neg_le_neg (Complex.abs_re_le_norm _)).trans (neg_abs_le _))

/-- **C92** `TwoDimensionalDoubleWell`, with some bound. -/
theorem C92_double_well (l num : ℕ) (radiusLength : ℝ) {omega mass : ℝ} (ho : 0 < omega) (hm : 0 < mass)
    (barrier : ℝ) (axis : ℕ) (np : Module) :
    ∃ b m, doubleWell (getCoulombElementsRaw l) l num radiusLength omega mass barrier axis np = .ok b ∧
      Physical m b l := by
  obtain ⟨b, h1, hb⟩ := C91_double_well l num radiusLength omega mass barrier axis np
  obtain ⟨b', g1, u, hu, -, eu⟩ := (C83_actual l num radiusLength ho hm np).2 barrier axis
  rw [h1] at g1
  cases g1
  obtain ⟨P, E⟩ := integrals_pos (by positivity) eu
  obtain ⟨s, hs, es⟩ := hb.s
  obtain ⟨h, hh, Hh⟩ := hb.h
  obtain ⟨m, M⟩ := exists_bounded l (h := h) es
  exact ⟨b, m, h1, hb.wf, ⟨h, s, hh, hs, Hh, M⟩, u, hu, P, E⟩

/-- **C92** `ODSincDVR` in the 4d representation, for a repulsion: bounded by the minimum of the potential on the
grid (the kinetic-energy matrix is positive). -/
theorem C92_sinc {l : ℕ} (h2 : 2 ≤ l) {L : ℝ} (hL : 0 < L) (a : ℝ) {alpha : ℝ} (ha : 0 ≤ alpha) (beta : ℝ)
    {V : ℝ → ℝ} (hm : Bool) (np : Module) (sp an : Bool) {m : ℝ}
    (hV : ∀ i < l, m ≤ V (-L + i * (2 * L / ((l : ℝ) - 1)))) :
    ∃ b, odSincDvr l L a alpha beta V .four hm np sp an = .ok b ∧ Physical m b l := by
  obtain ⟨b, h1, hb⟩ := C91_sinc h2 hL a alpha beta V hm np sp an
  have hok := odSincDvr_ok h2 L a alpha beta V (repr := .four) (by simp) hm np sp an
  rw [h1] at hok
  cases hok
  obtain ⟨h', hh', Hh⟩ := hb.h
  cases hh'
  obtain ⟨s, hs, es⟩ := hb.s
  have hu : ∀ p < l, ∀ q < l, ∀ r < l, ∀ s < l, (sincU l L alpha a .complex128 .four).get [p, q, r, s]
      = if p = r ∧ q = s then ((SincDvr.shieldedCoulomb (TwoDim.linspace (-L) L l p) (TwoDim.linspace (-L) L l q)
        alpha a : ℝ) : ℂ) else 0 := by
    intro p hp q hq r hr s hs
    unfold sincU
    rw [if_neg (by simp), ofFn_get_of (by exact ⟨hp, hq, hr, hs, trivial⟩)]
    rfl
  have hw : ∀ x y : ℝ, 0 ≤ SincDvr.shieldedCoulomb x y alpha a := by
    intro x y
    unfold SincDvr.shieldedCoulomb
    positivity
  refine ⟨_, h1, hb.wf, ⟨_, s, rfl, hs, Hh, fun v => ?_⟩, _, rfl, diag_pos (fun p q => hw _ _) hu, ?_⟩
  · have hd : 0 < spacing l L := by
      unfold spacing
      have : (2 : ℝ) ≤ l := by exact_mod_cast h2
      exact div_pos (by linarith) (by linarith)
    have e1 : oneForm l (sincH l L V) v = (((1 / spacing l L ^ 2 : ℝ)) : ℂ)
          * (∑ p ∈ range l, ∑ q ∈ range l, star (v p) * (SincKinetic.kin p q : ℂ) * v q)
        + ((∑ p ∈ range l, V (TwoDim.linspace (-L) L l p) * ‖v p‖ ^ 2 : ℝ) : ℂ) := by
      unfold oneForm
      rw [Complex.ofReal_sum, mul_sum, ← sum_add_distrib]
      refine sum_congr rfl fun p hp => ?_
      have : ((V (TwoDim.linspace (-L) L l p) * ‖v p‖ ^ 2 : ℝ) : ℂ)
          = ∑ q ∈ range l, if p = q then star (v p) * (V (TwoDim.linspace (-L) L l p) : ℂ) * v q else 0 := by
        rw [sum_ite_eq, if_pos hp, Complex.ofReal_mul, Complex.ofReal_pow, ← Complex.conj_mul']
        change _ = (starRingEnd ℂ) (v p) * _ * _
        ring
      rw [this, mul_sum, ← sum_add_distrib]
      refine sum_congr rfl fun q hq => ?_
      unfold sincH SincKinetic.kin
      rw [ofFn_get_of (by exact ⟨mem_range.1 hp, mem_range.1 hq, trivial⟩)]
      simp only [List.getD_cons_zero, List.getD_cons_succ]
      by_cases h : p = q
      · subst h
        rw [if_pos rfl, if_pos rfl, if_pos rfl, show Real.pi ^ 2 / (6 * spacing l L ^ 2)
          = 1 / spacing l L ^ 2 * (Real.pi ^ 2 / 6) by field_simp, Complex.ofReal_mul]
        ring
      · rw [if_neg h, if_neg h, if_neg h, ← div_div, show ∀ x : ℝ, x / spacing l L ^ 2 / ((p : ℝ) - q) ^ 2
          = 1 / spacing l L ^ 2 * (x / ((p : ℝ) - q) ^ 2) from fun x => by ring, Complex.ofReal_mul]
        ring
    have es' : (oneForm l s v).re = ∑ p ∈ range l, ‖v p‖ ^ 2 := by
      unfold oneForm
      rw [Complex.re_sum]
      refine sum_congr rfl fun p hp => ?_
      rw [sum_eq_single_of_mem p hp fun q hq hne => by
        rw [es p (mem_range.1 hp) q (mem_range.1 hq), if_neg (Ne.symm hne)]; ring]
      rw [es p (mem_range.1 hp) p (mem_range.1 hp), if_pos rfl, mul_one]
      change ((starRingEnd ℂ) (v p) * v p).re = _
      rw [Complex.conj_mul']
      norm_cast
    rw [e1, es', Complex.add_re, Complex.re_ofReal_mul, Complex.ofReal_re, mul_sum]
    refine le_add_of_nonneg_of_le (mul_nonneg (by positivity) (SincKinetic.kin_nonneg l v))
      (sum_le_sum fun p hp => mul_le_mul_of_nonneg_right ?_ (by positivity))
    rw [linspace_spacing]
    exact hV p (mem_range.1 hp)
  · intro p hp q hq r hr s hs
    rw [hu p hp q hq r hr s hs, hu q hq p hp s hs r hr]
    simp only [and_comm]
    refine if_congr Iff.rfl ?_ rfl
    unfold SincDvr.shieldedCoulomb
    rw [show ∀ x y : ℝ, (x - y) ^ 2 = (y - x) ^ 2 from fun x y => by ring]

/-- Five sinc functions in a harmonic potential, then three (not orthogonal) combinations of them: the one-body
part is still positive and the interaction repulsive. -/
example : ∃ b b', odSincDvr 5 2 1 1 0 (fun x => x ^ 2) .four false 0 false false = .ok b ∧
    (changeBasis (ofFn .complex128 [5, 3] (fun i => i.getD 0 0 + Complex.I)) none).run b = (.ok (), b') ∧
    ∃ l, Physical 0 b' l := by
  obtain ⟨b, h, P⟩ := C92_sinc (l := 5) (by omega) (L := 2) (by norm_num) 1 (alpha := 1) (by norm_num) 0
    (V := fun x => x ^ 2) false 0 false false (m := 0) (fun i _ => by positivity)
  obtain ⟨b₁, h', hb⟩ := C91_sinc (l := 5) (by omega) (L := 2) (by norm_num) 1 1 0 (fun x => x ^ 2) false 0 false false
  rw [h] at h'
  cases h'
  obtain ⟨b', e, -⟩ := (C91_usable hb).1 3 (ofFn .complex128 [5, 3] (fun i => i.getD 0 0 + Complex.I)) rfl
  exact ⟨b, b', h, e, C92_history P (.cons (op := .changeBasis _ none) trivial e (.nil _))⟩

end QS.Props
