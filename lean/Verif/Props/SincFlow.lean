import Verif.Spec.SincFlow
import Verif.Props.Continuity
import Verif.Props.SincDvr
import Verif.Lemmas.SincMomentum
import Verif.Lemmas.SumRule

/-!
# Property C157: electrons between the points of a sinc-DVR grid
-/

namespace QS.Props

open SincDvr NDArray Spec BasisSet Finset World

theorem densityMatrix_hop {N l : ℕ} (Ψ : Wave ℂ N (2 * l)) {i j : ℕ} (hi : i < l) (hj : j < l) :
    (densityMatrix l Ψ).get [j, i] = meanOne (hop l i j) Ψ := by
  unfold densityMatrix
  rw [ofFn_get_of (by exact ⟨hj, hi, trivial⟩)]
  rfl

/-- The numbers of electrons at the points of a grid, for elements that are local up to a one-body part. -/
theorem point_flow {N l : ℕ} {H U : ℝ → NDArray ℂ} (hh : ∀ t, HermMat l (H t)) (hu : ∀ t, HermU l (U t))
    (loc : ∀ t, ∀ p < l, ∀ q < l, ∀ r < l, ∀ s < l, ¬(p = r ∧ q = s) → (U t).get [p, q, r, s] = 0)
    {Ψ : ℝ → Wave ℂ N (2 * l)} (ev : Evolves (fun t => spinOne l (H t)) (fun t => spinTwo l (U t)) Ψ) (t : ℝ) {i : ℕ} (hi : i < l) :
    HasDerivAt (fun t => (densityMatrix l (Ψ t)).get [i, i]) (∑ q ∈ range l, Complex.I *
      ((densityMatrix l (Ψ t)).get [i, q] * (H t).get [q, i] - (densityMatrix l (Ψ t)).get [q, i] * (H t).get [i, q])) t := by
  have key := ev.diagonal ⟨fun t => spinOne_herm (hh t), fun t => spinTwo_herm (hu t)⟩ (t := t)
    (fun p q r s => spinTwo_local (loc t) p q r s) fun a => if a.1 / 2 = i then 1 else 0
  have e1 : (fun p q : Fin (2 * l) => if p = q then (if p.1 / 2 = i then (1 : ℂ) else 0) else 0) = hop l i i := by
    funext a b
    unfold hop
    by_cases e : a = b
    · subst e
      simp
    · rw [if_neg e, if_neg fun h => e (Fin.ext (by omega))]
  rw [e1] at key
  rw [show (fun t => (densityMatrix l (Ψ t)).get [i, i]) = fun t => meanOne (hop l i i) (Ψ t) from
    funext fun t => densityMatrix_hop _ hi hi]
  refine key.congr_deriv ?_
  have e2 := densityMatrix_sum (Ψ t) fun p q => Complex.I * (((if q = i then 1 else 0) - (if p = i then 1 else 0)) * (H t).get [p, q])
  have e3 : (fun p q : Fin (2 * l) => Complex.I * (((if q.1 / 2 = i then 1 else 0) - (if p.1 / 2 = i then 1 else 0)) *
      spinOne l (H t) p q)) = fun a b => if a.1 % 2 = b.1 % 2 then Complex.I * (((if b.1 / 2 = i then 1 else 0) -
        (if a.1 / 2 = i then 1 else 0)) * (H t).get [a.1 / 2, b.1 / 2]) else 0 := by
    funext a b
    unfold spinOne
    split_ifs <;> simp
  rw [e3, ← e2]
  have e4 : ∀ p q : ℕ, (densityMatrix l (Ψ t)).get [q, p] * (Complex.I * (((if q = i then 1 else 0) - (if p = i then 1 else 0)) *
      (H t).get [p, q])) = (if q = i then Complex.I * ((densityMatrix l (Ψ t)).get [q, p] * (H t).get [p, q]) else 0) -
        (if p = i then Complex.I * ((densityMatrix l (Ψ t)).get [q, p] * (H t).get [p, q]) else 0) := fun p q => by
    split_ifs <;> ring
  simp only [e4, sum_sub_distrib]
  rw [sum_comm (f := fun p q => if p = i then Complex.I * ((densityMatrix l (Ψ t)).get [q, p] * (H t).get [p, q]) else 0)]
  simp only [sum_ite_eq', mem_range, hi, if_true, mul_sub, sum_sub_distrib]

theorem sincH_off {l : ℕ} (L : ℝ) (V : ℝ → ℝ) {p q : ℕ} (hp : p < l) (hq : q < l) (hne : p ≠ q) : (sincH l L V).get [p, q] =
    (((-1 : ℝ) ^ ((p : ℤ) - q) / (spacing l L ^ 2 * ((p : ℝ) - q) ^ 2) : ℝ) : ℂ) := by
  rw [sincH, ofFn_get_of (by exact ⟨hp, hq, trivial⟩)]
  simp only [List.getD_cons_zero, List.getD_cons_succ]
  rw [if_neg hne]

theorem sincDip_get {l : ℕ} (L beta : ℝ) {p q : ℕ} (hp : p < l) (hq : q < l) : (sincDip l L beta).get [0, p, q] = if p = q then
    ((TwoDim.linspace (-L) L l p + beta * TwoDim.linspace (-L) L l p ^ 2 : ℝ) : ℂ) else 0 := by
  rw [sincDip, ofFn_get_of (by exact ⟨Nat.one_pos, hp, hq, trivial⟩)]
  rfl

theorem sincU_get {l : ℕ} (L alpha a : ℝ) {p q r s : ℕ} (hp : p < l) (hq : q < l) (hr : r < l) (hs : s < l) :
    (sincU l L alpha a .complex128 .four).get [p, q, r, s] = if p = r ∧ q = s then pairU l L alpha a p q else 0 := by
  rw [show sincU l L alpha a .complex128 .four = ofFn .complex128 [l, l, l, l] (fun i => if i.getD 0 0 = i.getD 2 0 ∧
      i.getD 1 0 = i.getD 3 0 then pairU l L alpha a (i.getD 0 0) (i.getD 1 0) else 0) from if_neg (by decide),
    ofFn_get_of (by exact ⟨hp, hq, hr, hs, trivial⟩)]
  rfl

theorem alternating_symm (p q : ℕ) : (-1 : ℝ) ^ ((q : ℤ) - p) = (-1 : ℝ) ^ ((p : ℤ) - q) := by
  rw [← neg_sub (p : ℤ) q, zpow_neg, ← inv_zpow]
  norm_num

theorem sincH_symm {l : ℕ} (L : ℝ) (V : ℝ → ℝ) {p q : ℕ} (hp : p < l) (hq : q < l) (hne : p ≠ q) :
    (sincH l L V).get [q, p] = (sincH l L V).get [p, q] := by
  rw [sincH_off L V hp hq hne, sincH_off L V hq hp (Ne.symm hne), alternating_symm p q,
    show ((q : ℝ) - p) ^ 2 = ((p : ℝ) - q) ^ 2 by ring]

/-- The elements in a real field and with a real strength of the interaction are Hermitian. -/
theorem sinc_herm {l : ℕ} {L a alpha beta : ℝ} {V : ℝ → ℝ} {H U : ℝ → NDArray ℂ} {F c : ℝ → ℂ} (hF : ∀ t, star (F t) = F t)
    (hc : ∀ t, star (c t) = c t)
    (hH : ∀ t, ∀ p < l, ∀ q < l, (H t).get [p, q] = (sincH l L V).get [p, q] + F t * (sincDip l L beta).get [0, p, q])
    (hU : ∀ t, ∀ p < l, ∀ q < l, ∀ r < l, ∀ s < l,
      (U t).get [p, q, r, s] = c t * (sincU l L alpha a .complex128 .four).get [p, q, r, s]) :
    (∀ t, HermMat l (H t)) ∧ ∀ t, HermU l (U t) := by
  have Hh : ∀ t, HermMat l (H t) := fun t p hp q hq => by
    rw [hH t p hp q hq, hH t q hq p hp, sincDip_get L beta hp hq, sincDip_get L beta hq hp]
    by_cases e : p = q
    · subst e
      rw [if_pos rfl, star_add, star_mul', hF, Complex.star_def, Complex.conj_ofReal]
      congr 1
      rw [sincH, ofFn_get_of (by exact ⟨hp, hp, trivial⟩)]
      simp only [List.getD_cons_zero, List.getD_cons_succ, if_true]
      rw [← Complex.ofReal_add, Complex.conj_ofReal]
    · rw [if_neg e, if_neg (Ne.symm e), mul_zero, add_zero, add_zero, sincH_symm L V hp hq e, sincH_off L V hp hq e, Complex.star_def,
        Complex.conj_ofReal]
  have Hu : ∀ t, HermU l (U t) := fun t p hp q hq r hr s hs => by
    rw [hU t p hp q hq r hr s hs, hU t r hr s hs p hp q hq, sincU_get L alpha a hp hq hr hs, sincU_get L alpha a hr hs hp hq, star_mul', hc]
    by_cases e : p = r ∧ q = s
    · obtain ⟨rfl, rfl⟩ := e
      rw [if_pos ⟨rfl, rfl⟩, pairU, Complex.star_def, Complex.conj_ofReal]
    · rw [if_neg e, if_neg fun e' => e ⟨e'.1.symm, e'.2.symm⟩, star_zero]
  exact ⟨Hh, Hu⟩

/-- **C157** Electrons in the basis of `ODSincDVR`: the density that `compute_particle_density` gives changes by currents between the
points, which do not depend on the potential, the interaction and the field. -/
theorem C157_flows {l : ℕ} (h2 : 2 ≤ l) {L : ℝ} (hL : 0 < L) {a alpha beta : ℝ} {V : ℝ → ℝ} {hm : Bool} {np : Module} {sp an : Bool}
    {b : BasisSet ℂ} {h u d : NDArray ℂ} (run : odSincDvr l L a alpha beta V .four hm np sp an = .ok b) (hh : b.h = some h)
    (hu : b.u = some u) (hd : b.dipole = some d) {H U : ℝ → NDArray ℂ} {F c : ℝ → ℂ} (hF : ∀ t, star (F t) = F t)
    (hc : ∀ t, star (c t) = c t) (hH : ∀ t, ∀ p < l, ∀ q < l, (H t).get [p, q] = h.get [p, q] + F t * d.get [0, p, q])
    (hU : ∀ t, ∀ p < l, ∀ q < l, ∀ r < l, ∀ s < l, (U t).get [p, q, r, s] = c t * u.get [p, q, r, s]) (N : ℕ) :
    SincFlows N l L beta b (fun t => spinOne l (H t)) fun t => spinTwo l (U t) := by
  obtain rfl := Except.ok.inj (run.symm.trans (odSincDvr_ok h2 L a alpha beta V (by decide) hm np sp an))
  obtain rfl : sincH l L V = h := Option.some.inj hh
  obtain rfl : sincU l L alpha a .complex128 .four = u := Option.some.inj hu
  obtain rfl : sincDip l L beta = d := Option.some.inj hd
  have hsp := spacing_pos h2 hL
  obtain ⟨Hh, Hu⟩ := sinc_herm hF hc hH hU
  have loc : ∀ t, ∀ p < l, ∀ q < l, ∀ r < l, ∀ s < l, ¬(p = r ∧ q = s) → (U t).get [p, q, r, s] = 0 :=
    fun t p hp q hq r hr s hs hne => by rw [hU t p hp q hq r hr s hs, sincU_get L alpha a hp hq hr hs, if_neg hne, mul_zero]
  have flow : ∀ Ψ : ℝ → Wave ℂ N (2 * l), Evolves (fun t => spinOne l (H t)) (fun t => spinTwo l (U t)) Ψ → ∀ t, ∀ i < l,
      HasDerivAt (fun t => (densityMatrix l (Ψ t)).get [i, i])
        (∑ q ∈ range l, sincCurrent (spacing l L) (densityMatrix l (Ψ t)) q i) t := fun Ψ ev t i hi => by
    refine (point_flow Hh Hu loc ev t hi).congr_deriv (sum_congr rfl fun q hq => ?_)
    have hq' := mem_range.1 hq
    unfold sincCurrent
    by_cases e : q = i
    · subst e
      rw [if_pos rfl, sub_self, mul_zero]
    · rw [if_neg e, hH t q hq' i hi, hH t i hi q hq', sincDip_get L beta hq' hi, sincDip_get L beta hi hq', if_neg e, if_neg (Ne.symm e), mul_zero, add_zero,
        add_zero, sincH_symm L V hi hq' (Ne.symm e), sincH_off L V hi hq' (Ne.symm e)]
      ring
  have anti : ∀ Ψ : Wave ℂ N (2 * l), ∀ i q : ℕ,
      sincCurrent (spacing l L) (densityMatrix l Ψ) i q = -sincCurrent (spacing l L) (densityMatrix l Ψ) q i := fun Ψ i q => by
    unfold sincCurrent
    by_cases e : q = i
    · rw [if_pos e, if_pos e.symm, neg_zero]
    · rw [if_neg e, if_neg (Ne.symm e), alternating_symm i q, show ((q : ℝ) - i) ^ 2 = ((i : ℝ) - q) ^ 2 by ring]
      ring
  refine ⟨fun Ψ => ?_, flow, fun Ψ i hi q hq => ⟨?_, anti Ψ i q⟩, ⟨_, rfl, fun Ψ ev t => ?_⟩⟩
  · obtain ⟨n, run, sn, gn⟩ := C27_density (b := sincObj l L a alpha beta V .four hm np sp an) (rho := densityMatrix l Ψ)
      (x := sincSpf l L) (y := (sincSpf l L).conj) (l := l) (g := [l]) rfl rfl rfl rfl rfl rfl rfl rfl
    refine ⟨n, by rw [run], sn, fun i hi => ?_⟩
    rw [gn [i] (by exact ⟨hi, trivial⟩)]
    have hs2 : (Real.sqrt (spacing l L) : ℂ) * Real.sqrt (spacing l L) = (spacing l L : ℂ) := by
      rw [← Complex.ofReal_mul, Real.mul_self_sqrt hsp.le]
    have hs : (Real.sqrt (spacing l L) : ℂ) ≠ 0 := by exact_mod_cast (Real.sqrt_pos.2 hsp).ne'
    unfold densityAt
    rw [sum_eq_single i, sum_eq_single i]
    · rw [conj_get, sincSpf_get h2 hL hi hi, if_pos rfl, Complex.star_def, Complex.conj_ofReal,
        show 2 * L / ((l : ℝ) - 1) = spacing l L from rfl, ← hs2]
      push_cast
      field_simp
    · exact fun q hq hne => by rw [sincSpf_get h2 hL (mem_range.1 hq) hi, if_neg hne, mul_zero]
    · exact fun e => absurd (mem_range.2 hi) e
    · exact fun p hp hne => sum_eq_zero fun q _ => by
        rw [conj_get, sincSpf_get h2 hL (mem_range.1 hp) hi, if_neg hne, star_zero]; ring
    · exact fun e => absurd (mem_range.2 hi) e
  · rw [show 2 * L / ((l : ℝ) - 1) = spacing l L from rfl]
    unfold sincCurrent
    split_ifs with e
    · rfl
    · rw [densityMatrix_hop Ψ hq hi, densityMatrix_hop Ψ hi hq, ← hop_star q i]
      simp [Complex.mul_im, Complex.sub_im, Complex.sub_re, -Complex.ofReal_div, -Complex.ofReal_mul]
  · rw [show 2 * L / ((l : ℝ) - 1) = spacing l L from rfl]
    set δ : ℕ → ℝ := fun i => -L + i * spacing l L + beta * (-L + i * spacing l L) ^ 2 with hδ
    have hlin : ∀ i : ℕ, TwoDim.linspace (-L) L l i = -L + i * spacing l L := fun i => by
      unfold TwoDim.linspace spacing
      ring
    have e1 : (fun t => ∑ p ∈ range l, ∑ q ∈ range l, (densityMatrix l (Ψ t)).get [q, p] * (sincDip l L beta).get [0, p, q]) =
        fun t => ∑ i ∈ range l, (δ i : ℂ) * (densityMatrix l (Ψ t)).get [i, i] := by
      funext t
      refine sum_congr rfl fun p hp => ?_
      rw [sum_eq_single p]
      · rw [sincDip_get L beta (mem_range.1 hp) (mem_range.1 hp), if_pos rfl, hlin, mul_comm]
      · exact fun q hq hne => by rw [sincDip_get L beta (mem_range.1 hp) (mem_range.1 hq), if_neg (Ne.symm hne), mul_zero]
      · exact fun e => absurd hp e
    rw [e1]
    have e2 := HasDerivAt.fun_sum (u := range l) fun i hi => (flow Ψ ev t i (mem_range.1 hi)).const_mul (δ i : ℂ)
    refine e2.congr_deriv ?_
    set J := fun q i => sincCurrent (spacing l L) (densityMatrix l (Ψ t)) q i with hJ
    have e3 : ∑ i ∈ range l, ∑ q ∈ range l, ((δ i : ℂ) - δ q) * J q i = 2 * ∑ i ∈ range l, (δ i : ℂ) * ∑ q ∈ range l, J q i := by
      simp only [sub_mul, sum_sub_distrib]
      rw [sum_comm (f := fun i q => (δ q : ℂ) * J q i)]
      have : ∑ q ∈ range l, ∑ i ∈ range l, (δ q : ℂ) * J q i = -∑ q ∈ range l, ∑ i ∈ range l, (δ q : ℂ) * J i q := by
        rw [← sum_neg_distrib]
        refine sum_congr rfl fun q _ => ?_
        rw [← sum_neg_distrib]
        refine sum_congr rfl fun i _ => ?_
        rw [show J q i = -J i q from anti (Ψ t) q i]
        ring
      rw [this, sub_neg_eq_add, two_mul]
      simp only [mul_sum]
    have e4 : ∀ i q : ℕ, ((δ i - δ q : ℝ) : ℂ) = (δ i : ℂ) - δ q := fun i q => by push_cast; ring
    calc _ = 1 / 2 * (2 * ∑ i ∈ range l, (δ i : ℂ) * ∑ q ∈ range l, J q i) := by ring
      _ = _ := by
        rw [← e3]
        congr 1
        refine sum_congr rfl fun i _ => sum_congr rfl fun q _ => ?_
        rw [← e4]

/-- **C157** The same for a system and its `LaserField`: whatever is read in between, `h_t` and `u_t` lead to such electrons. -/
theorem C157_laser {l : ℕ} (h2 : 2 ≤ l) {L : ℝ} (hL : 0 < L) {a alpha beta : ℝ} {V : ℝ → ℝ} {hm : Bool} {np : Module} {sp an : Bool}
    {b : BasisSet ℂ} (run : odSincDvr l L a alpha beta V .four hm np sp an = .ok b)
    {w w' : World ℂ ℝ} {s o : ℕ} {x : Sys} {y : TEOp ℂ ℝ}
    {pulse : Attr ℂ ℝ} {pol : Option (Attr ℂ ℝ)} {f : ℝ → Val ℂ} {c : ℝ → ℂ} {e : ℝ → ℕ → ℂ}
    (ok : SysOK w s x b) (hy : w.ops[o]? = some y)
    (hk : y.kind = .laser pulse pol) (hp : Given pulse f) (hf : ∀ t, IsNumber (f t) (c t))
    (hpol : GivenPol pol b.dim e)
    (callable : IsCallable pulse ∨ ∃ a, pol = some a ∧ IsCallable a)
    (hset : (setTimeEvolutionOperator s (some o)).run w = (.ok (), w'))
    (hc : ∀ t, star (c t) = c t) (hee : ∀ t, star (e t 0) = e t 0) :
    (∃ H U, Answered w' s o H U) ∧ ∀ H U, Answered w' s o H U → ∀ N,
      SincFlows N l L beta b (fun t => spinOne l (H t)) fun t => spinTwo l (U t) := by
  have run' := odSincDvr_ok h2 L a alpha beta V (show URepr.four ≠ .unknown by decide) hm np sp an
  obtain rfl := Except.ok.inj (run.symm.trans run')
  have LA := C36_partial ok rfl hy hk hp hf hpol callable hset
  refine ⟨laser_answered LA rfl, fun H U A N => ?_⟩
  have an' := answered_laser LA rfl rfl rfl A
  exact C157_flows h2 hL run' rfl rfl rfl (F := fun t => c t * e t 0) (c := fun _ => 1)
    (fun t => by rw [star_mul', hc, hee]) (fun t => star_one _)
    (fun t p hp q hq => by
      rw [(an' t).1.get p hp q hq, show (sincObj l L a alpha beta V .four hm np sp an).dim = 1 from rfl, sum_range_one]; ring)
    (fun t p hp q hq r hr s hs => by rw [(an' t).2, one_mul]) N

/-- **C157** The same while `AdiabaticSwitching` changes the interaction. -/
theorem C157_switching {l : ℕ} (h2 : 2 ≤ l) {L : ℝ} (hL : 0 < L) {a alpha beta : ℝ} {V : ℝ → ℝ} {hm : Bool} {np : Module}
    {sp an : Bool} {b : BasisSet ℂ} (run : odSincDvr l L a alpha beta V .four hm np sp an = .ok b)
    {w w' : World ℂ ℝ} {s o : ℕ} {x : Sys} {v : Attr ℂ ℝ} {f : ℝ → Val ℂ} {c : ℝ → ℂ} (ok : SysOK w s x b)
    (hy : w.ops[o]? = some (adiabaticSwitching v)) (hp : Given v f) (hf : ∀ t, IsNumber (f t) (c t))
    (hset : (setTimeEvolutionOperator s (some o)).run w = (.ok (), w')) (hc : ∀ t, star (c t) = c t) :
    (∃ H U, Answered w' s o H U) ∧ ∀ H U, Answered w' s o H U → ∀ N,
      SincFlows N l L beta b (fun t => spinOne l (H t)) fun t => spinTwo l (U t) := by
  have run' := odSincDvr_ok h2 L a alpha beta V (show URepr.four ≠ .unknown by decide) hm np sp an
  obtain rfl := Except.ok.inj (run.symm.trans run')
  have SA := C37_switching ok hy hp hf hset
  refine ⟨switching_answered SA rfl, fun H U A N => ?_⟩
  have an' := answered_switching SA rfl rfl rfl A
  exact C157_flows h2 hL run' rfl rfl rfl (F := fun _ => 0) (c := c) (fun t => star_zero _) hc
    (fun t p hp q hq => by rw [(an' t).1, zero_mul, add_zero])
    (fun t p hp q hq r hr s hs => (an' t).2 p hp q hq r hr s hs) N

/-- The velocity of the mean position is the mean of the momentum matrix. -/
theorem velocity_mom {N l : ℕ} (L : ℝ) {dx : ℝ} (hdx : 0 < dx) (s : ℝ) (Ψ : Wave ℂ N (2 * l)) :
    (s * dx : ℂ) * (1 / 2 * ∑ i ∈ range l, ∑ q ∈ range l, (((-L + i * dx + 0 * (-L + i * dx) ^ 2) -
      (-L + q * dx + 0 * (-L + q * dx) ^ 2) : ℝ) : ℂ) * sincCurrent dx (densityMatrix l Ψ) q i) =
      meanOne (fun a b => if a.1 % 2 = b.1 % 2 then s * SincKinetic.mom (a.1 / 2) (b.1 / 2) else 0) Ψ := by
  rw [← densityMatrix_sum Ψ fun p q => s * SincKinetic.mom p q]
  have e : ∀ i q : ℕ, (s * dx : ℂ) * ((((-L + i * dx + 0 * (-L + i * dx) ^ 2) - (-L + q * dx + 0 * (-L + q * dx) ^ 2) : ℝ) : ℂ) *
      sincCurrent dx (densityMatrix l Ψ) q i) = (densityMatrix l Ψ).get [i, q] * (s * SincKinetic.mom q i) +
        (densityMatrix l Ψ).get [q, i] * (s * SincKinetic.mom i q) := fun i q => by
    unfold sincCurrent SincKinetic.mom
    by_cases e : q = i
    · subst e
      simp
    · have h1 : (i : ℂ) - q ≠ 0 := sub_ne_zero.2 fun h => e (by exact_mod_cast h.symm)
      have h2 : (q : ℂ) - i ≠ 0 := sub_ne_zero.2 fun h => e (by exact_mod_cast h)
      have h3 : (dx : ℂ) ≠ 0 := by exact_mod_cast hdx.ne'
      rw [if_neg e, if_neg e, if_neg (Ne.symm e), alternating_symm i q]
      have h4 : ((q : ℂ) - i) = -((i : ℂ) - q) := by ring
      push_cast
      rw [h4, div_neg]
      field_simp
      ring
  have e2 : ∑ i ∈ range l, ∑ q ∈ range l, (densityMatrix l Ψ).get [i, q] * (s * SincKinetic.mom q i) =
      ∑ p ∈ range l, ∑ q ∈ range l, (densityMatrix l Ψ).get [q, p] * (s * SincKinetic.mom p q) := sum_comm
  calc _ = 1 / 2 * ∑ i ∈ range l, ∑ q ∈ range l, (s * dx : ℂ) * ((((-L + i * dx + 0 * (-L + i * dx) ^ 2) -
        (-L + q * dx + 0 * (-L + q * dx) ^ 2) : ℝ) : ℂ) * sincCurrent dx (densityMatrix l Ψ) q i) := by
        simp only [← mul_sum]
        ring
    _ = _ := by
        simp only [e, sum_add_distrib]
        rw [e2]
        ring

/-- **C157** A speed limit: with `beta = 0` the mean position of `N` electrons, in any potential, interaction and field, moves with at
most `π` over the spacing for each electron. -/
theorem C157_speed {N l : ℕ} (h2 : 2 ≤ l) {L : ℝ} (hL : 0 < L) {b : BasisSet ℂ} {h : ℝ → Fin (2 * l) → Fin (2 * l) → ℂ}
    {u : ℝ → Fin (2 * l) → Fin (2 * l) → Fin (2 * l) → Fin (2 * l) → ℂ} (S : SincFlows N l L 0 b h u) :
    ∃ d, b.dipole = some d ∧ ∀ Ψ : ℝ → Wave ℂ N (2 * l), Evolves h u Ψ → ∀ t, ∃ v : ℝ,
      HasDerivAt (fun t => ∑ p ∈ range l, ∑ q ∈ range l, (densityMatrix l (Ψ t)).get [q, p] * d.get [0, p, q]) (v : ℂ) t ∧
      |v| ≤ N * (Real.pi / (2 * L / ((l : ℝ) - 1))) * ∑ x, ‖Ψ t x‖ ^ 2 := by
  obtain ⟨d, hd, D⟩ := S.dipole
  refine ⟨d, hd, fun Ψ ev t => ?_⟩
  have hdx : 0 < 2 * L / ((l : ℝ) - 1) := spacing_pos h2 hL
  have key := D Ψ ev t
  have cur := S.current (Ψ t)
  have vel := fun s => velocity_mom L hdx s (Ψ t)
  generalize 2 * L / ((l : ℝ) - 1) = dx at *
  set z : ℂ := 1 / 2 * ∑ i ∈ range l, ∑ q ∈ range l, (((-L + i * dx + 0 * (-L + i * dx) ^ 2) -
    (-L + q * dx + 0 * (-L + q * dx) ^ 2) : ℝ) : ℂ) * sincCurrent dx (densityMatrix l (Ψ t)) q i with hz
  have hre : ((z.re : ℝ) : ℂ) = z := by
    refine Complex.ext rfl ?_
    rw [Complex.ofReal_im, hz, show (1 / 2 : ℂ) = ((1 / 2 : ℝ) : ℂ) by norm_num, Complex.im_ofReal_mul, Complex.im_sum,
      sum_eq_zero fun i hi => ?_, mul_zero]
    rw [Complex.im_sum]
    refine sum_eq_zero fun q hq => ?_
    rw [Complex.im_ofReal_mul, (cur i (mem_range.1 hi) q (mem_range.1 hq)).1, mul_zero]
  refine ⟨z.re, by rw [hre]; exact key, ?_⟩
  have bound : ∀ s : ℝ, |s| ≤ 1 → s * dx * z.re ≤ N * Real.pi * ∑ x, ‖Ψ t x‖ ^ 2 := fun s hs => by
    have m := meanOne_le (fun v => SincKinetic.mom_le l hs v) (Ψ t)
    rw [← vel s, ← Complex.ofReal_mul, Complex.re_ofReal_mul] at m
    exact m
  have b1 := bound 1 (by norm_num)
  have b2 := bound (-1) (by norm_num)
  have e : N * (Real.pi / dx) * ∑ x, ‖Ψ t x‖ ^ 2 = (N * Real.pi * ∑ x, ‖Ψ t x‖ ^ 2) / dx := by ring
  rw [e, le_div_iff₀ hdx, ← abs_of_pos hdx, ← abs_mul, abs_le]
  exact ⟨by linarith, by linarith⟩

/-- The electron with the amplitudes `1` and `i` at two points has the momentum `2 / 2`, less than `π`. -/
example : ∑ p : Fin (2 * 2), ∑ q : Fin (2 * 2), star (![1, 0, Complex.I, 0] p) * (if p.1 % 2 = q.1 % 2 then
    ((1 : ℝ) : ℂ) * SincKinetic.mom (p.1 / 2) (q.1 / 2) else 0) * ![1, 0, Complex.I, 0] q = 2 := by
  simp [Fin.sum_univ_four, SincKinetic.mom]
  norm_num

/-- One electron with the amplitudes `1` and `i` at two neighbouring points (distance `1`) flows from the first point to the second
with the current `2`. -/
example : sincCurrent 1
    (densityMatrix 2 (fun x : Fin 1 → Fin (2 * 2) => if x 0 = 0 then 1 else if x 0 = 2 then Complex.I else 0)) 0 1 = 2 := by
  have hr : ∀ p < 2, ∀ q < 2, (densityMatrix 2 (fun x : Fin 1 → Fin (2 * 2) => if x 0 = 0 then 1 else if x 0 = 2 then Complex.I else 0)).get
      [q, p] = (if p = 0 then 1 else -Complex.I) * (if q = 0 then 1 else Complex.I) := fun p hp q hq => by
    unfold densityMatrix
    rw [ofFn_get_of (by exact ⟨hq, hp, trivial⟩)]
    unfold meanOne waveInner oneBodyOp
    rw [Fintype.sum_equiv (Equiv.funUnique (Fin 1) (Fin (2 * 2))) _ (fun j : Fin (2 * 2) => star (if j = 0 then (1 : ℂ) else if j = 2 then
      Complex.I else 0) * ∑ k : Fin (2 * 2), (if j.1 % 2 = k.1 % 2 ∧ j.1 / 2 = p ∧ k.1 / 2 = q then 1 else 0) *
        (if k = 0 then (1 : ℂ) else if k = 2 then Complex.I else 0)) fun x => by simp]
    interval_cases p <;> interval_cases q <;> simp [Fin.sum_univ_four]
  unfold sincCurrent
  rw [hr 0 (by omega) 1 (by omega), hr 1 (by omega) 0 (by omega)]
  simp [mul_add]
  norm_num

end QS.Props
