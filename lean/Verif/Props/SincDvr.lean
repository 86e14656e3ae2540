import Verif.Lemmas.SincDvr
import Verif.Lemmas.SincTwoBody
import Verif.Lemmas.Sinc
import Verif.Lemmas.Copies
import Verif.Spec.OneDim
import Verif.Spec.Spin
import Verif.Props.SpinDoubling

/-!
# Sinc-DVR basis sets (C59 - C62, C82)
-/

namespace QS.Props

open SincDvr OneDim NDArray Spec BasisSet PyM World

/-! ## C59 -/

theorem spacing_pos {l : ℕ} (h2 : 2 ≤ l) {L : ℝ} (hL : 0 < L) : 0 < spacing l L := by
  unfold spacing
  have : (2 : ℝ) ≤ l := by exact_mod_cast h2
  exact div_pos (by linarith) (by linarith)

theorem linspace_spacing (l : ℕ) (L : ℝ) (i : ℕ) :
    TwoDim.linspace (-L) L l i = -L + i * spacing l L := by
  unfold TwoDim.linspace spacing
  ring

theorem linspace_sub {l : ℕ} (h2 : 2 ≤ l) {L : ℝ} (hL : 0 < L) (i p : ℕ) :
    (TwoDim.linspace (-L) L l i - TwoDim.linspace (-L) L l p) / spacing l L = (((i : ℤ) - p : ℤ) : ℝ) := by
  have := (spacing_pos h2 hL).ne'
  rw [linspace_spacing, linspace_spacing]
  push_cast
  field_simp
  ring

theorem sincSpf_get {l : ℕ} (h2 : 2 ≤ l) {L : ℝ} (hL : 0 < L) {p i : ℕ} (hp : p < l) (hi : i < l) :
    (sincSpf l L).get [p, i] = if p = i then ((1 / Real.sqrt (spacing l L) : ℝ) : ℂ) else 0 := by
  unfold sincSpf
  rw [ofFn_get_of (by exact ⟨hp, hi, trivial⟩)]
  simp only [List.getD_cons_zero, List.getD_cons_succ]
  rw [linspace_sub h2 hL, npSinc_int]
  by_cases h : p = i
  · subst h
    simp
  · rw [if_neg h, if_neg (by omega)]
    simp

/-- **C59** Every `ODSincDVR` object has: functions with the value `1/√dx` at the own grid point and 0 at all
others, the matrix of grid overlaps in `s`, and a real symmetric matrix `h` (with the real potential `V` on
the diagonal, so its kinetic part is symmetric). -/
theorem C59_functions {l : ℕ} (h2 : 2 ≤ l) {L : ℝ} (hL : 0 < L) (a alpha beta : ℝ) (V : ℝ → ℝ) {repr : URepr}
    (hr : repr ≠ .unknown) (hm : Bool) (np : Module) (sp an : Bool) :
    ∃ b f s h g, odSincDvr l L a alpha beta V repr hm np sp an = .ok b ∧ b.spf = some f ∧ b.s = some s ∧
      b.h = some h ∧ b.grid = some g ∧
      f.shape = [l, l] ∧ s.shape = [l, l] ∧ h.shape = [l, l] ∧
      (∀ i < l, g.get [i] = ((-L + i * (2 * L / ((l : ℝ) - 1)) : ℝ) : ℂ)) ∧
      (∀ p < l, ∀ i < l, f.get [p, i]
        = if p = i then ((1 / Real.sqrt (2 * L / ((l : ℝ) - 1)) : ℝ) : ℂ) else 0) ∧
      (∀ p < l, ∀ q < l, s.get [p, q] = gridOverlap (2 * L / ((l : ℝ) - 1)) l f p q) ∧
      (∀ p < l, ∀ q < l, h.get [p, q] = h.get [q, p] ∧ (h.get [p, q]).im = 0) := by
  refine ⟨_, sincSpf l L, (eye l).toComplex, sincH l L V, linspaceArr (-L) L l,
    odSincDvr_ok h2 L a alpha beta V hr hm np sp an, rfl, rfl, rfl, rfl, rfl, rfl, rfl, ?_, ?_, ?_, ?_⟩
  · intro i hi
    rw [linspaceArr_get _ _ hi, linspace_spacing]
    rfl
  · intro p hp i hi
    exact sincSpf_get h2 hL hp hi
  · intro p hp q hq
    have e : ((eye l).toComplex : NDArray ℂ).get [p, q] = if p = q then 1 else 0 := by
      unfold eye
      rw [toComplex_ofFn, ofFn_get_of (by exact ⟨hp, hq, trivial⟩)]
    rw [e]
    unfold gridOverlap
    rw [Finset.sum_congr rfl (g := fun i => if i = p then (if p = q then (1 : ℂ) else 0) else 0)]
    · rw [Finset.sum_ite_eq' (Finset.range l) p, if_pos (Finset.mem_range.2 hp)]
    · intro i hi
      have hi := Finset.mem_range.1 hi
      rw [sincSpf_get h2 hL hp hi, sincSpf_get h2 hL hq hi]
      by_cases h : i = p
      · subst h
        rw [if_pos rfl, if_pos rfl]
        by_cases h' : i = q
        · subst h'
          rw [if_pos rfl, if_pos rfl, Complex.conj_ofReal, ← Complex.ofReal_mul, ← Complex.ofReal_mul]
          have hd : 0 < 2 * L / ((l : ℝ) - 1) := spacing_pos h2 hL
          have h3 := Real.sqrt_pos.2 hd
          have h4 := Real.mul_self_sqrt hd.le
          rw [show spacing l L = 2 * L / ((l : ℝ) - 1) from rfl]
          rw [show (2 * L / ((l : ℝ) - 1)) * (1 / Real.sqrt (2 * L / ((l : ℝ) - 1)))
            * (1 / Real.sqrt (2 * L / ((l : ℝ) - 1))) = 1 by
              field_simp
              nlinarith [h4]]
          simp
        · rw [if_neg h', if_neg (fun hc => h' hc.symm), mul_zero]
      · rw [if_neg h, if_neg (fun hc => h hc.symm)]
        simp
  · intro p hp q hq
    unfold sincH
    rw [ofFn_get_of (by exact ⟨hp, hq, trivial⟩), ofFn_get_of (by exact ⟨hq, hp, trivial⟩)]
    simp only [List.getD_cons_zero, List.getD_cons_succ]
    by_cases h : p = q
    · subst h
      rw [if_pos rfl, ← Complex.ofReal_add]
      exact ⟨rfl, Complex.ofReal_im _⟩
    · rw [if_neg h, if_neg (fun hc => h hc.symm)]
      refine ⟨?_, Complex.ofReal_im _⟩
      rw [show ((q : ℤ) - p) = -((p : ℤ) - q) by ring, zpow_neg,
        show ((q : ℝ) - p) ^ 2 = ((p : ℝ) - q) ^ 2 by ring, ← inv_zpow]
      norm_num

/-- Three points at distance 1. -/
example : ∃ b f, odSincDvr 3 1 1 1 0 (fun x => x ^ 2) = .ok b ∧ b.spf = some f ∧ f.get [1, 1] = 1 ∧
    f.get [1, 2] = 0 := by
  obtain ⟨b, f, s, h, g, h1, h2, _, _, _, _, _, _, _, h3, _⟩ := C59_functions (l := 3) (by norm_num) one_pos 1 1 0
    (fun x => x ^ 2) (repr := .two) (by simp) false 0 false false
  refine ⟨b, f, h1, h2, ?_, ?_⟩
  · rw [h3 1 (by norm_num) 1 (by norm_num), if_pos rfl]
    norm_num
  · rw [h3 1 (by norm_num) 2 (by norm_num), if_neg (by norm_num)]

/-! ## C82 -/

theorem sincFunction_eq {dx : ℝ} (hd : 0 < dx) (c : ℝ) :
    sincFunction dx c = fun x => 1 / Real.sqrt dx * npSinc (1 / dx * x + -(c / dx)) := by
  funext x
  unfold sincFunction npSinc
  have e : 1 / dx * x + -(c / dx) = (x - c) / dx := by ring
  rw [e]
  by_cases h : x = c
  · subst h
    simp
  · rw [if_neg h, if_neg (div_ne_zero (sub_ne_zero.2 h) hd.ne'), mul_div_assoc]

theorem sincFunction_analytic {dx : ℝ} (hd : 0 < dx) (c x : ℝ) : AnalyticAt ℝ (sincFunction dx c) x := by
  rw [sincFunction_eq hd]
  refine analyticAt_const.mul ((analyticAt_npSinc _).comp' ?_)
  exact (analyticAt_const.mul analyticAt_id).add analyticAt_const

theorem sincFunction_grid {dx : ℝ} (hd : 0 < dx) (L : ℝ) (p q : ℕ) :
    sincFunction dx (-L + q * dx) (-L + p * dx) = if p = q then 1 / Real.sqrt dx else 0 := by
  rw [sincFunction_eq hd]
  simp only
  rw [show 1 / dx * (-L + (p : ℝ) * dx) + -((-L + q * dx) / dx) = (((p : ℤ) - q : ℤ) : ℝ) by
    push_cast
    field_simp
    ring, npSinc_int]
  by_cases h : p = q
  · subst h
    simp
  · rw [if_neg h, if_neg (by omega), mul_zero]

/-- **C82** The one-body elements are the Hamilton operator `-½ d²/dx² + V` acting on the sinc function of `q`
and evaluated at the grid point of `p`, times the weight `√dx` of that point. -/
theorem C82_elements {l : ℕ} (h2 : 2 ≤ l) {L : ℝ} (hL : 0 < L) (a alpha beta : ℝ) (V : ℝ → ℝ) {repr : URepr}
    (hr : repr ≠ .unknown) (hm : Bool) (np : Module) (sp an : Bool) :
    ∃ b h, odSincDvr l L a alpha beta V repr hm np sp an = .ok b ∧ b.h = some h ∧
      ∀ p < l, ∀ q < l, h.get [p, q] =
        ((Real.sqrt (2 * L / ((l : ℝ) - 1)) *
          lineHamiltonian V (sincFunction (2 * L / ((l : ℝ) - 1)) (-L + q * (2 * L / ((l : ℝ) - 1))))
            (-L + p * (2 * L / ((l : ℝ) - 1))) : ℝ) : ℂ) := by
  refine ⟨_, sincH l L V, odSincDvr_ok h2 L a alpha beta V hr hm np sp an, rfl, ?_⟩
  intro p hp q hq
  have hd := spacing_pos h2 hL
  rw [show (2 * L / ((l : ℝ) - 1)) = spacing l L from rfl]
  generalize hdx : spacing l L = dx at hd
  have hf := sincFunction_eq hd
  have hdd : ∀ c x, deriv (deriv (sincFunction dx c)) x
      = 1 / Real.sqrt dx * (1 / dx) ^ 2 * deriv (deriv npSinc) ((x - c) / dx) := by
    intro c x
    have hin : ∀ x : ℝ, HasDerivAt (fun x => 1 / dx * x + -(c / dx)) (1 / dx) x := fun x => by
      have := ((hasDerivAt_id x).const_mul (1 / dx)).add_const (-(c / dx))
      simpa using this
    have d1 : deriv (sincFunction dx c)
        = fun x => 1 / Real.sqrt dx * (deriv npSinc (1 / dx * x + -(c / dx)) * (1 / dx)) := by
      funext x
      rw [hf]
      exact (((analyticAt_npSinc _).differentiableAt.hasDerivAt.comp x (hin x)).const_mul _).deriv
    rw [d1]
    have := (((analyticAt_npSinc _).deriv.differentiableAt.hasDerivAt.comp x (hin x)).mul_const
      (1 / dx)).const_mul (1 / Real.sqrt dx)
    have e := this.deriv
    simp only [Function.comp_def] at e
    rw [e, show 1 / dx * x + -(c / dx) = (x - c) / dx by ring]
    ring
  have hs : Real.sqrt dx * (1 / Real.sqrt dx) = 1 := by
    have := (Real.sqrt_pos.2 hd).ne'
    field_simp
  unfold lineHamiltonian sincH
  rw [ofFn_get_of (by exact ⟨hp, hq, trivial⟩), hdd]
  simp only [List.getD_cons_zero, List.getD_cons_succ, hdx]
  have e : (-L + (p : ℝ) * dx - (-L + q * dx)) / dx = (((p : ℤ) - q : ℤ) : ℝ) := by
    push_cast
    field_simp
    ring
  rw [e, linspace_spacing, hdx]
  by_cases h : p = q
  · subst h
    rw [if_pos rfl, sub_self, Int.cast_zero, deriv2_npSinc_zero, ← Complex.ofReal_add]
    congr 1
    rw [sincFunction, if_pos rfl]
    linear_combination (-(Real.pi ^ 2 / (6 * dx ^ 2)) - V (-L + p * dx)) * hs
  · have h0 : sincFunction dx (-L + q * dx) (-L + p * dx) = 0 := by
      rw [hf]
      simp only
      rw [show 1 / dx * (-L + (p : ℝ) * dx) + -((-L + q * dx) / dx) = (-L + (p : ℝ) * dx - (-L + q * dx)) / dx by
        ring, e, npSinc_int, if_neg (by omega), mul_zero]
    rw [if_neg h, h0, deriv2_npSinc_int (by omega)]
    congr 1
    have hn : ((p : ℝ) - q) ≠ 0 := sub_ne_zero.2 (by exact_mod_cast h)
    push_cast
    rw [show Real.sqrt dx * (-(1 / 2) * (1 / Real.sqrt dx * (1 / dx) ^ 2
        * -(2 * (-1 : ℝ) ^ ((p : ℤ) - q) / ((p : ℝ) - q) ^ 2)) + V (-L + p * dx) * 0)
        = (Real.sqrt dx * (1 / Real.sqrt dx)) * ((-1 : ℝ) ^ ((p : ℤ) - q) / (dx ^ 2 * ((p : ℝ) - q) ^ 2)) by
      field_simp
      ring, hs, one_mul]

/-- Three points at distance 1: the stored elements. -/
example : ∃ b h, odSincDvr 3 1 1 1 0 (fun x => x ^ 2) = .ok b ∧ b.h = some h ∧ h.get [0, 1] = -1 ∧
    h.get [0, 2] = 1 / 4 ∧ h.get [0, 0] = ((Real.pi ^ 2 / 6 + 1 : ℝ) : ℂ) := by
  refine ⟨_, sincH 3 1 (fun x => x ^ 2), odSincDvr_ok (by norm_num) 1 1 1 0 _ (by simp) false 0 false false, rfl,
    ?_, ?_, ?_⟩ <;>
  · unfold sincH
    rw [ofFn_get_of (by simp [InRange])]
    norm_num [spacing, TwoDim.linspace]

/-- **C82** For every linear combination `f` of the functions, `h` applied to the values of `f` at the grid
points gives the values of `-½ f'' + V f` at the grid points. -/
theorem C82_hamiltonian {l : ℕ} (h2 : 2 ≤ l) {L : ℝ} (hL : 0 < L) (a alpha beta : ℝ) (V : ℝ → ℝ) {repr : URepr}
    (hr : repr ≠ .unknown) (hm : Bool) (np : Module) (sp an : Bool) (c : ℕ → ℝ) (f : ℝ → ℝ) (dx : ℝ)
    (hdx : dx = 2 * L / ((l : ℝ) - 1))
    (hf : f = fun x => ∑ q ∈ Finset.range l, c q * sincFunction dx (-L + q * dx) x) :
    ∃ b h, odSincDvr l L a alpha beta V repr hm np sp an = .ok b ∧ b.h = some h ∧
      ∀ p < l, ∑ q ∈ Finset.range l, h.get [p, q] * (f (-L + q * dx) : ℂ)
        = (lineHamiltonian V f (-L + p * dx) : ℂ) := by
  obtain ⟨b, h, h1, h3, h4⟩ := C82_elements h2 hL a alpha beta V hr hm np sp an
  refine ⟨b, h, h1, h3, fun p hp => ?_⟩
  have hd : 0 < dx := by rw [hdx]; exact spacing_pos h2 hL
  rw [← hdx] at h4
  have e1 : ∀ q < l, f (-L + q * dx) = c q * (1 / Real.sqrt dx) := by
    intro q hq
    rw [hf]
    simp only
    rw [Finset.sum_eq_single q]
    · rw [sincFunction_grid hd, if_pos rfl]
    · intro r _ hrq
      rw [sincFunction_grid hd, if_neg (fun hc => hrq hc.symm), mul_zero]
    · intro hc
      exact absurd (Finset.mem_range.2 hq) hc
  have d1 : deriv f = fun x => ∑ q ∈ Finset.range l, c q * deriv (sincFunction dx (-L + q * dx)) x := by
    funext x
    rw [hf]
    exact (HasDerivAt.fun_sum fun (q : ℕ) _ =>
      ((sincFunction_analytic hd (-L + q * dx) x).differentiableAt.hasDerivAt).const_mul (c q)).deriv
  have d2 : deriv (deriv f) (-L + p * dx)
      = ∑ q ∈ Finset.range l, c q * deriv (deriv (sincFunction dx (-L + q * dx))) (-L + p * dx) := by
    rw [d1]
    exact (HasDerivAt.fun_sum fun (q : ℕ) _ =>
      ((sincFunction_analytic hd (-L + q * dx) (-L + p * dx)).deriv.differentiableAt.hasDerivAt).const_mul
        (c q)).deriv
  have e2 : lineHamiltonian V f (-L + p * dx)
      = ∑ q ∈ Finset.range l, c q * lineHamiltonian V (sincFunction dx (-L + q * dx)) (-L + p * dx) := by
    unfold lineHamiltonian
    rw [d2, hf]
    simp only
    rw [Finset.mul_sum, Finset.mul_sum, ← Finset.sum_add_distrib]
    exact Finset.sum_congr rfl fun q _ => by ring
  have hs : Real.sqrt dx * (1 / Real.sqrt dx) = 1 := by
    have := (Real.sqrt_pos.2 hd).ne'
    field_simp
  rw [e2, Complex.ofReal_sum]
  refine Finset.sum_congr rfl fun q hq => ?_
  have hq := Finset.mem_range.1 hq
  rw [h4 p hp q hq, e1 q hq, ← Complex.ofReal_mul]
  congr 1
  linear_combination (c q * lineHamiltonian V (sincFunction dx (-L + q * dx)) (-L + p * dx)) * hs

/-! ## C60 -/

section
variable {K : Type} [PyScalar K]

/-- **C60** For all arrays `u2` and `u4` that hold the same interaction and all rectangular `C`, `C_tilde`:
`ODSincDVR.transform_two_body_elements` of `u2` (on an object in the 2d representation) is what the general
routine makes of `u4`; with `anti_symmetrize=True` it is the anti-symmetrised form of that. -/
theorem C60_transform {b : BasisSet K} {np : Module} {u2 u4 C : NDArray K} {Ct : Option (NDArray K)}
    {l m n : ℕ} (hb : b.uRepr = .two) (hu : SameInteraction l u2 u4) (hd : u2.dtype = u4.dtype)
    (hC : C.shape = [l, n]) (hCt : (Ct.getD C.conj.T).shape = [m, l]) :
    ∃ y z, transformTwoBody (some np) (some u4) C Ct = .ok y ∧ y.shape = [m, m, n, n] ∧
      transformTwoBodySinc b (some np) (some u2) C false Ct = .ok y ∧
      transformTwoBodySinc b (some np) (some u2) C true Ct = .ok z ∧ z.shape = [m, m, n, n] ∧
      ∀ p < m, ∀ q < m, ∀ r < n, ∀ s < n, z.get [p, q, r, s] = y.get [p, q, r, s] - y.get [p, q, s, r] := by
  have e1 : transformTwoBody (some np) (some u4) C Ct
      = .ok (twoBodyArr u4 C (Ct.getD C.conj.T) l m n) := by
    have := transformTwoBody_eq (np := np) hu.four hC hCt
    cases Ct <;> exact this
  obtain ⟨x, e2, hxd, hxs, hx⟩ := einsumDvrX_eq hu hC hCt
  refine ⟨_, ofFn (twoBodyArr u4 C (Ct.getD C.conj.T) l m n).dtype [m, m, n, n]
    (fun i => (twoBodyArr u4 C (Ct.getD C.conj.T) l m n).get i - x.get i), e1, rfl, ?_, ?_, rfl, ?_⟩
  · simp only [transformTwoBodySinc, hb, if_true, needNp, orErr, bind, Except.bind]
    rw [einsumDvr_eq hu hd hC hCt]
    rfl
  · simp only [transformTwoBodySinc, hb, if_true, needNp, orErr, bind, Except.bind]
    rw [einsumDvr_eq hu hd hC hCt, e2]
    simp only
    rw [isub_same (by rw [hxs]; rfl)]
    · rfl
    · rw [show (twoBodyArr u4 C (Ct.getD C.conj.T) l m n).dtype
        = (Ct.getD C.conj.T).dtype.promote (u4.dtype.promote C.dtype) from rfl, hxd, hd]
      cases u4.dtype <;> cases C.dtype <;> cases (Ct.getD C.conj.T).dtype <;> rfl
  · intro p hp q hq r hr s hs
    rw [ofFn_get_of (by exact ⟨hp, hq, hr, hs, trivial⟩), hx p hp q hq r hr s hs]

/-- **C60** Spin doubling of the two representations of the same interaction gives the two representations of
the same interaction again. -/
theorem C60_spin {np : Module} {u2 u4 : NDArray K} {l : ℕ} (hu : SameInteraction l u2 u4) :
    ∃ x2 x4, addSpinTwoBodySinc (some np) (some u2) = .ok x2 ∧
      addSpinTwoBodySinc (some np) (some u4) = .ok x4 ∧ addSpinTwoBodyBase (some np) (some u4) = .ok x4 ∧
      SameInteraction (2 * l) x2 x4 := by
  refine ⟨dblPair u2 l, dbl2 u4 l, addSpinTwoBodySinc_two hu.two, ?_, ?_, dblPair_same hu⟩
  · exact addSpinTwoBody_eq (c := .sincDVR) hu.four
  · exact addSpinTwoBody_eq (c := .plain) hu.four

/-- **C60** `change_basis` on a sinc-DVR object in the 2d representation does what it does on the object with
the same interaction in the 4d representation (all attributes of the result are the same). -/
theorem C60_change_basis {b : BasisSet K} {u2 u4 C : NDArray K} {Ct : Option (NDArray K)} {l n : ℕ}
    (hc : b.cls = .sincDVR) (hu2 : b.u = some u2) (hu : SameInteraction l u2 u4) (hd : u2.dtype = u4.dtype)
    (hb : WellFormed { b with u := some u4 } l) (hsp : SpinShaped b l)
    (hC : C.shape = [l, n]) (hCt : (Ct.getD C.conj.T).shape = [n, l]) :
    (BasisSet.changeBasis C Ct).run b = (BasisSet.changeBasis C Ct).run { b with u := some u4 } :=
  changeBasis_sinc hc hu2 hu hd hb hsp hC hCt

end

theorem sincU_same (l : ℕ) (L alpha a : ℝ) (dt : DType) :
    SameInteraction l (sincU l L alpha a dt .two) (sincU l L alpha a dt .four) where
  two := rfl
  four := rfl
  same p hp q hq r hr s hs := by
    unfold sincU
    rw [if_pos rfl, if_neg (by simp), ofFn_get_of (by exact ⟨hp, hq, hr, hs, trivial⟩),
      ofFn_get_of (by exact ⟨hp, hq, trivial⟩)]
    rfl

theorem sincObj_wf {l : ℕ} (L a alpha beta : ℝ) (V : ℝ → ℝ) (hm : Bool) (np : Module) (sp an : Bool) :
    WellFormed (sincObj l L a alpha beta V .four hm np sp an) l where
  l_eq := rfl
  np := ⟨np, rfl⟩
  h := ⟨_, rfl, rfl⟩
  u := ⟨_, rfl, rfl⟩
  s := by rintro x ⟨⟩; rfl
  dipole := by rintro x ⟨⟩; exact ⟨Nat.one_pos, rfl⟩
  spf := by rintro x ⟨⟩; exact ⟨[l], rfl, rfl⟩
  bra := by rintro x ⟨⟩; exact ⟨[l], rfl, rfl⟩
  braNeedsSpf := by intro h; cases h
  tb := by intro x h; cases h

theorem sincObj_noSpin {l : ℕ} (L a alpha beta : ℝ) (V : ℝ → ℝ) (repr : URepr) (hm : Bool) (np : Module)
    (sp an : Bool) : NoSpinOps (sincObj l L a alpha beta V repr hm np sp an) := ⟨rfl, rfl, rfl, rfl⟩

/-- **C60** The constructor makes the same interaction in both representations, the shielded Coulomb
interaction at the grid points, and after any change of basis the two objects are the same. -/
theorem C60_constructor {l : ℕ} (h2 : 2 ≤ l) (L a alpha beta : ℝ) (_ha : a ≠ 0) (V : ℝ → ℝ) (hm : Bool)
    (np : Module) (sp an : Bool) :
    ∃ b2 b4 u2 u4, odSincDvr l L a alpha beta V .two hm np sp an = .ok b2 ∧
      odSincDvr l L a alpha beta V .four hm np sp an = .ok b4 ∧ b2.u = some u2 ∧ b4.u = some u4 ∧
      b4 = { b2 with u := some u4 } ∧ SameInteraction l u2 u4 ∧
      (∀ p < l, ∀ q < l, u2.get [p, q] = ((alpha / Real.sqrt
        (((p : ℝ) * (2 * L / ((l : ℝ) - 1)) - q * (2 * L / ((l : ℝ) - 1))) ^ 2 + a ^ 2) : ℝ) : ℂ)) ∧
      ∀ (C : NDArray ℂ) (Ct : Option (NDArray ℂ)) (n : ℕ), C.shape = [l, n] →
        (Ct.getD C.conj.T).shape = [n, l] → (BasisSet.changeBasis C Ct).run b2 = (BasisSet.changeBasis C Ct).run b4 := by
  refine ⟨_, _, sincU l L alpha a .complex128 .two, sincU l L alpha a .complex128 .four,
    odSincDvr_ok h2 L a alpha beta V (by simp) hm np sp an,
    odSincDvr_ok h2 L a alpha beta V (by simp) hm np sp an, rfl, rfl, rfl, sincU_same .., ?_, ?_⟩
  · intro p hp q hq
    unfold sincU
    rw [if_pos rfl, ofFn_get_of (by exact ⟨hp, hq, trivial⟩)]
    simp only [List.getD_cons_zero, List.getD_cons_succ, pairU, SincDvr.shieldedCoulomb]
    rw [linspace_spacing, linspace_spacing, add_sub_add_left_eq_sub]
    rfl
  · intro C Ct n hC hCt
    exact changeBasis_sinc rfl rfl (sincU_same ..) rfl (sincObj_wf L a alpha beta V hm np sp an)
      ((sincObj_noSpin ..).spinShaped l) hC hCt

/-- Two points at distance 2 and a transformation to one orbital. -/
example : ∃ b2 b', odSincDvr 2 1 1 1 0 (fun _ => 0) .two = .ok b2 ∧
    (BasisSet.changeBasis (ofFn .complex128 [2, 1] (fun _ => 1)) (some (ofFn .complex128 [1, 2] (fun _ => 1)))).run b2
      = (.ok (), b') ∧
      b'.uRepr = .four := by
  obtain ⟨b2, b4, u2, u4, h1, h3, h4, h5, h6, h7, h8, h9⟩ := C60_constructor (l := 2) le_rfl 1 1 1 0 one_ne_zero
    (fun _ => 0) false 0 false false
  have hwf : WellFormed b4 2 := by
    have := odSincDvr_ok (l := 2) le_rfl 1 1 1 0 (fun _ => 0) (repr := .four) (by simp) false 0 false false
    rw [h3] at this
    rw [Except.ok.inj this]
    exact sincObj_wf ..
  have hns : NoSpinOps b4 := by
    have := odSincDvr_ok (l := 2) le_rfl 1 1 1 0 (fun _ => 0) (repr := .four) (by simp) false 0 false false
    rw [h3] at this
    rw [Except.ok.inj this]
    exact sincObj_noSpin ..
  have hr := changeBasis_run (n := 1) (C := ofFn .complex128 [2, 1] (fun _ => 1))
    (Ct := ofFn .complex128 [1, 2] (fun _ => 1)) hwf
    (hns.spinShaped 2) rfl rfl
  refine ⟨b2, _, h1, (h9 _ (some _) 1 rfl rfl).trans hr, ?_⟩
  obtain ⟨u, hu, _⟩ := hwf.u
  simp [uRepr, changed, hu, ndim, twoBodyArr]

/-! ## C61 -/

/-- **C61** as stated: `set_u_repr` makes the representation the requested one and keeps the interaction. -/
def C61_statement : Prop :=
  ∀ (b b' : BasisSet ℂ) (u : NDArray ℂ) (l : ℕ) (new : URepr), b.cls = .sincDVR → b.l = l → b.u = some u →
    new ≠ .unknown → (u.shape = [l, l] ∨ ∃ u2, SameInteraction l u2 u) →
    (setURepr new).run b = (.ok (), b') →
    ∃ u', b'.u = some u' ∧ b'.uRepr = new ∧
      (new = .two → u.shape = [l, l, l, l] → SameInteraction l u' u) ∧
      (new = .four → u.shape = [l, l] → SameInteraction l u u')

/-- **C61** What the code does: `set_u_repr` never changes the object, whatever the value; a value that is neither "2d" nor
"4d" nor the current representation raises `ValueError`. -/
theorem C61_actual {K : Type} [PyScalar K] (b : BasisSet K) (new : URepr) :
    ((setURepr new).run b).2 = b ∧ (b.u.isSome → new ≠ .unknown → (setURepr new).run b = (.ok (), b)) ∧
      (new = .unknown → b.uRepr ≠ .unknown → (setURepr new).run b = (.error .value, b)) := by
  unfold setURepr
  simp only [PyM.run_bind, run_get]
  by_cases h : new = b.uRepr
  · rw [if_pos h]
    exact ⟨rfl, fun _ _ => rfl, fun h1 h2 => absurd (h.symm.trans h1) h2⟩
  · rw [if_neg h]
    rcases hu : b.u with _ | u
    · cases new <;> exact ⟨rfl, fun h => by simp at h, fun h1 _ => by first | rfl | cases h1⟩
    · cases new <;> first
        | exact ⟨rfl, fun _ _ => rfl, fun h1 _ => by cases h1⟩
        | exact ⟨rfl, fun _ h => absurd rfl h, fun _ _ => rfl⟩

/-- **C61** is false: after `set_u_repr("4d")` a new object is still in the 2d representation. -/
theorem C61_false : ¬ C61_statement := by
  intro h
  obtain ⟨u', _, h2, _⟩ := h (sincObj 2 1 1 1 0 (fun _ => 0) .two false 0 false false) _
    (sincU 2 1 1 1 .complex128 .two) 2 .four rfl rfl rfl (by simp) (.inl rfl)
    ((C61_actual _ .four).2.1 rfl (by simp))
  simp [uRepr, sincObj, ndim, sincU] at h2

/-- **C61** when the representation is the requested one already.  Missing: the two switches, for which the
claim is false. -/
theorem C61_partial {K : Type} [PyScalar K] (b : BasisSet K) (new : URepr) (h : b.uRepr = new) :
    (setURepr new).run b = (.ok (), b) ∧ b.uRepr = new := by
  refine ⟨?_, h⟩
  unfold setURepr
  simp only [PyM.run_bind, run_get]
  rw [if_pos h.symm]
  rfl

example : (setURepr .two).run (sincObj 2 1 1 1 0 (fun _ => 0) .two false 0 false false)
    = (.ok (), sincObj 2 1 1 1 0 (fun _ => 0) .two false 0 false false) :=
  (C61_partial (sincObj 2 1 1 1 0 (fun _ => 0) .two false 0 false false) .two
    (by simp [uRepr, sincObj, sincU, ndim])).1

/-! ## C62 -/

/-- **C62** as stated: (1) `GeneralOrbitalSystem(n, basis_set)` accepts every sinc-DVR object with at least `n`
general orbitals; (2) after `change_to_general_orbital_basis(anti_symmetrize=True)`, whenever the object says
that its elements are anti-symmetrised, they are. -/
def C62_statement : Prop :=
  (∀ (T : Type) (w : World ℂ T) (r n : ℕ) (l : ℕ) (L a alpha beta : ℝ) (V : ℝ → ℝ) (repr : URepr) (b : BasisSet ℂ),
    2 ≤ l → 0 < L → a ≠ 0 → n ≤ 2 * l → odSincDvr l L a alpha beta V repr = .ok b → w.bases[r]? = some b →
    ∃ g w', (generalInit n r [1, 0] [0, 1] true).run w = (.ok g, w')) ∧
  (∀ (l : ℕ) (L a alpha beta : ℝ) (V : ℝ → ℝ) (repr : URepr) (b b' : BasisSet ℂ) (x : Bool),
    2 ≤ l → 0 < L → a ≠ 0 → odSincDvr l L a alpha beta V repr = .ok b →
    (changeToGeneralSinc true).run b = (.ok x, b') → b'.antiSym = true →
    ∃ u, b'.u = some u ∧ u.shape = [2 * l, 2 * l, 2 * l, 2 * l] ∧ AntiKet (2 * l) u)

/-- **C62** What the code does: `GeneralOrbitalSystem(n, basis_set)` raises `TypeError` for every sinc-DVR object
of spatial orbitals and leaves it as it is. -/
theorem C62_actual_system {K T : Type} [PyScalar K] (w : World K T) (r n : ℕ) (a b : List K) (anti : Bool)
    (x : BasisSet K) (hx : w.bases[r]? = some x) (hc : x.cls = .sincDVR) (hs : x.includesSpin = false) :
    (generalInit n r a b anti).run w = (.error .type, w) := by
  unfold generalInit
  rw [PyM.run_bind, getBasis_run hx]
  simp only [hs, Bool.not_false, if_true, PyM.run_bind]
  rw [onBasis_run hx]
  simp only [changeToGeneralAB, PyM.run_bind, run_get, hc, run_raise]
  rw [set_same hx]

/-- **C62** What the code does with an object in the 2d representation: the elements stay two-index elements of
the interaction without anti-symmetrisation, and the flag says that they are anti-symmetrised. -/
theorem C62_actual {K : Type} [PyScalar K] {b : BasisSet K} {u2 u4 ov : NDArray K} {l : ℕ}
    (hc : b.cls = .sincDVR) (hu2 : b.u = some u2) (hu : SameInteraction l u2 u4)
    (hb : WellFormed { b with u := some u4 } l) (hsp : b.includesSpin = false) (hs : b.s = some ov) :
    ∃ b' u' x4, (changeToGeneralSinc true).run b = (.ok true, b') ∧ b'.antiSym = true ∧ b'.u = some u' ∧
      b'.uRepr = .two ∧ addSpinTwoBodyBase (some 0) (some u4) = .ok x4 ∧ SameInteraction (2 * l) u' x4 ∧
      (b.spinZ = none → b'.spinZ = none) := by
  refine ⟨_, (dblPair u2 l).toComplex, dbl2 u4 l, changeToGeneralSinc_two hc hu2 hu.two hb hsp hs, ?_, ?_, ?_, ?_,
    ⟨rfl, rfl, (dblPair_same hu).same⟩, ?_⟩
  · simp [generalPair, casted]
  · simp [generalPair, casted]
  · simp [generalPair, casted, uRepr, ndim, dblPair]
  · exact addSpinTwoBody_eq (c := .plain) hu.four
  · intro h
    simp [generalPair, casted, h]

/-- **C62** is false, and so are both parts of it. -/
theorem C62_false : ¬ C62_statement := by
  rintro ⟨h, _⟩
  obtain ⟨g, w', h1⟩ := h Unit ⟨[sincObj 2 1 1 1 0 (fun _ => 0) .two false 0 false false], [], []⟩ 0 0 2 1 1 1 0
    (fun _ => 0) .two _ le_rfl one_pos one_ne_zero (by norm_num)
    (odSincDvr_ok le_rfl 1 1 1 0 _ (by simp) false 0 false false) rfl
  rw [C62_actual_system _ 0 0 _ _ _ _ rfl rfl rfl] at h1
  cases h1

/-- The second part of **C62** alone is false too. -/
theorem C62_false_elements : ¬ (∀ (l : ℕ) (L a alpha beta : ℝ) (V : ℝ → ℝ) (repr : URepr) (b b' : BasisSet ℂ)
    (x : Bool), 2 ≤ l → 0 < L → a ≠ 0 → odSincDvr l L a alpha beta V repr = .ok b →
    (changeToGeneralSinc true).run b = (.ok x, b') → b'.antiSym = true →
    ∃ u, b'.u = some u ∧ u.shape = [2 * l, 2 * l, 2 * l, 2 * l] ∧ AntiKet (2 * l) u) := by
  intro h
  have hw := sincObj_wf (l := 2) 1 1 1 0 (fun _ => 0) false 0 false false
  obtain ⟨b', u', x4, h1, h2, h3, h4, _⟩ := C62_actual
    (b := sincObj 2 1 1 1 0 (fun _ => 0) .two false 0 false false)
    rfl rfl (sincU_same 2 1 1 1 .complex128) hw rfl rfl
  obtain ⟨u, h5, h6, _⟩ := h 2 1 1 1 0 (fun _ => 0) .two _ b' true le_rfl one_pos one_ne_zero
    (odSincDvr_ok le_rfl 1 1 1 0 _ (by simp) false 0 false false) h1 h2
  simp [uRepr, h5, ndim, h6] at h4

/-- **C62** for objects in the 4d representation: `change_to_general_orbital_basis(anti_symmetrize=True)` makes
the anti-symmetrised elements.  Missing: systems of general orbitals and objects in the 2d representation, for
which the claim is false. -/
theorem C62_partial {l : ℕ} (h2 : 2 ≤ l) (L a alpha beta : ℝ) (V : ℝ → ℝ) (hm : Bool) (np : Module) :
    ∃ b b' u, odSincDvr l L a alpha beta V .four hm np = .ok b ∧
      (changeToGeneralSinc true).run b = (.ok true, b') ∧ b'.antiSym = true ∧ b'.u = some u ∧
      u.shape = [2 * l, 2 * l, 2 * l, 2 * l] ∧ AntiKet (2 * l) u ∧ GeneralOf b b' l true := by
  have hw := sincObj_wf (l := l) L a alpha beta V hm np false false
  obtain ⟨b', hb'⟩ := C16_succeeds (a₀ := (1 : ℂ)) (a₁ := 0) (b₀ := 0) (b₁ := 1) true hw rfl rfl
    ⟨by simp [spinor], by simp [spinor], by simp [spinor]⟩
  have hrun : (changeToGeneralSinc true).run (sincObj l L a alpha beta V .four hm np false false)
      = (.ok true, b') := by
    rw [← hb']
    have : (sincObj l L a alpha beta V .four hm np false false).uRepr ≠ .two := by
      simp [uRepr, sincObj, sincU, ndim]
    simp only [changeToGeneralSinc, PyM.run_bind, run_get, this, decide_false, Bool.and_false,
      Bool.false_eq_true, if_false, run_pure]
  obtain ⟨-, hg, hw', -⟩ := C16_sinc hw rfl hrun
  obtain ⟨u, hu, hus⟩ := hw'.u
  have hgu := hg.u
  rw [if_pos ⟨rfl, rfl⟩] at hgu
  refine ⟨_, b', u, odSincDvr_ok h2 L a alpha beta V (by simp) hm np false false, hrun, hg.antiSym, hu, hus, ?_, hg⟩
  rw [hu] at hgu
  intro p hp q hq r hr s hs
  have e : ∀ k, k = 2 * (k / 2) + k % 2 := fun k => by omega
  have key := hgu.2
  rw [e p, e q, e r, e s,
    key _ (by omega) _ (by omega) _ (by omega) _ (by omega) _ (by omega) _ (by omega) _ (by omega) _ (by omega),
    key _ (by omega) _ (by omega) _ (by omega) _ (by omega) _ (by omega) _ (by omega) _ (by omega) _ (by omega)]
  ring

end QS.Props
