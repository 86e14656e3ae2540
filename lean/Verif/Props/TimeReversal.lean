import Verif.Lemmas.TimeReversal
import Verif.Props.EighChoice
import Verif.Props.Magnetic
import Verif.Props.Evolution
import Verif.Lemmas.SincDvr

/-!
# Electrons in reversed pulses (C151)
-/

namespace QS.Props

open OneDim NDArray Spec BasisSet Finset World SincDvr TwoDim Idx

/-! ## The motion -/

/-- **C151** A system with a `LaserField` whose elements are reversible, and a system with the same elements and with the pulse run
backwards in time (and with the signs `σ_k` for the components of the dipole moment): if the electrons move in the first one, the
complex conjugate wave function, backwards in time, is a motion in the second one. -/
theorem C151_laser {γ : ℕ → ℂ} {σ : ℕ → ℝ} {b : BasisSet ℂ} {h u d : NDArray ℂ} (hh : b.h = some h) (hu : b.u = some u)
    (hd : b.dipole = some d) (R : Reversible γ σ b.l b.dim h u d) {w w' : World ℂ ℝ} {s o s' o' : ℕ} {c c' : ℝ → ℂ}
    {e e' : ℝ → ℕ → ℂ} (LA : LaserAnswers w s o b c e) (LA' : LaserAnswers w' s' o' b c' e')
    (back : ∀ t, ∀ k < b.dim, c' t * e' t k = σ k * star (c (-t) * e (-t) k))
    {H U H' U' : ℝ → NDArray ℂ} (A : Answered w s o H U) (A' : Answered w' s' o' H' U') {N : ℕ} {Ψ : ℝ → Wave ℂ N (2 * b.l)}
    (S : Evolves (fun t => spinOne b.l (H t)) (fun t => spinTwo b.l (U t)) Ψ) :
    Evolves (fun t => spinOne b.l (H' t)) (fun t => spinTwo b.l (U' t))
      fun t => reversedWave (fun p => γ (p.1 / 2)) (Ψ (-t)) := by
  have an := answered_laser LA hh hu hd A
  have an' := answered_laser LA' hh hu hd A'
  refine Evolves.reversed (fun p => R.unit _) (fun t => spin_one_reversed fun p hp q hq => ?_)
    (fun t => spin_two_reversed fun p hp q hq r hr s hs => ?_) S
  · rw [(an (-t)).1.get p hp q hq, (an' t).1.get p hp q hq, star_add, R.one p hp q hq, star_mul', star_sum, mul_sum, mul_sum, mul_add,
      add_mul, mul_sum, sum_mul]
    congr 1
    refine sum_congr rfl fun k hk => ?_
    have hk := mem_range.1 hk
    have b1 := back t k hk
    rw [star_mul'] at b1
    rw [star_mul', R.dipole k hk p hp q hq]
    linear_combination (-star (γ p) * d.get [k, p, q] * γ q) * b1
  · rw [(an (-t)).2, (an' t).2]
    exact R.two p hp q hq r hr s hs

/-- **C151** The same for `AdiabaticSwitching`: the switching function backwards in time. -/
theorem C151_switching {γ : ℕ → ℂ} {σ : ℕ → ℝ} {b : BasisSet ℂ} {h u d : NDArray ℂ} {n : ℕ} (hh : b.h = some h) (hu : b.u = some u)
    (su : u.shape = [b.l, b.l, b.l, b.l]) (R : Reversible γ σ b.l n h u d) {w w' : World ℂ ℝ} {s o s' o' : ℕ} {c c' : ℝ → ℂ}
    (SA : SwitchingAnswers w s o b c) (SA' : SwitchingAnswers w' s' o' b c') (back : ∀ t, c' t = star (c (-t)))
    {H U H' U' : ℝ → NDArray ℂ} (A : Answered w s o H U) (A' : Answered w' s' o' H' U') {N : ℕ} {Ψ : ℝ → Wave ℂ N (2 * b.l)}
    (S : Evolves (fun t => spinOne b.l (H t)) (fun t => spinTwo b.l (U t)) Ψ) :
    Evolves (fun t => spinOne b.l (H' t)) (fun t => spinTwo b.l (U' t))
      fun t => reversedWave (fun p => γ (p.1 / 2)) (Ψ (-t)) := by
  have an := answered_switching SA hh hu su A
  have an' := answered_switching SA' hh hu su A'
  refine Evolves.reversed (fun p => R.unit _) (fun t => spin_one_reversed fun p hp q hq => ?_)
    (fun t => spin_two_reversed fun p hp q hq r hr s hs => ?_) S
  · rw [(an (-t)).1, (an' t).1]
    exact R.one p hp q hq
  · rw [(an (-t)).2 p hp q hq r hr s hs, (an' t).2 p hp q hq r hr s hs, star_mul', R.two p hp q hq r hr s hs, back]
    ring

/-- **C151** Hence the probabilities of transitions and of the reversed transitions are the same: electrons that start in `Ψ(s)`
are found in `Χ` at the time `T` as often as electrons that start, at the time `-T` and with the reversed pulse, in the reversed `Χ`
are found in the reversed `Ψ(s)` at the time `-s`. -/
theorem C151_transitions {N L : ℕ} {h' : ℝ → Fin L → Fin L → ℂ} {u' : ℝ → Fin L → Fin L → Fin L → Fin L → ℂ}
    {γ : Fin L → ℂ} (hγ : ∀ p, star (γ p) * γ p = 1) {Ψ Ψ' : ℝ → Wave ℂ N L} (herm : HermitianElements h' u')
    (S : Evolves h' u' fun t => reversedWave γ (Ψ (-t))) (S' : Evolves h' u' Ψ') (s T : ℝ) (Χ : Wave ℂ N L)
    (start : Ψ' (-T) = reversedWave γ Χ) :
    ‖waveInner (reversedWave γ (Ψ s)) (Ψ' (-s))‖ = ‖waveInner Χ (Ψ T)‖ := by
  have k := evolves_inner herm S S' (-s) (-T)
  simp only [neg_neg] at k
  rw [k, start, reversedWave_inner hγ, norm_star]
  unfold waveInner
  rw [← norm_star, star_sum]
  congr 1
  refine sum_congr rfl fun x _ => ?_
  rw [star_mul', star_star, mul_comm]

/-! ## One-dimensional dots -/

theorem trapezoid_star (n : ℕ) (x : ℕ → ℝ) (f : ℕ → ℂ) : star (trapezoid n x f) = trapezoid n x fun i => star (f i) := by
  unfold trapezoid
  rw [star_sum]
  refine sum_congr rfl fun i _ => ?_
  simp [Complex.conj_ofReal]

theorem coulombSum_star (num : ℕ) (x : ℕ → ℝ) (φ : ℕ → ℕ → ℂ) (alpha a : ℝ) (p q r s : ℕ) :
    star (coulombSum num x φ alpha a p q r s) = coulombSum num x (fun p j => star (φ p j)) alpha a p q r s := by
  unfold coulombSum
  rw [trapezoid_star]
  refine trapezoid_congr' fun i _ => ?_
  rw [trapezoid_star]
  refine trapezoid_congr' fun j _ => ?_
  simp only [star_mul', Complex.star_def, Complex.conj_ofReal]

/-- **C151** The elements of `ODQD`, whatever phases the eigenvalue solver gives to the eigenvectors. -/
theorem C151_odqd {eigh : NDArray ℂ → Except PyErr (NDArray ℂ × NDArray ℂ)} (he : IsEigh eigh) {l num : ℕ} {L : ℝ} (hL : 0 < L)
    (h3 : 3 ≤ num) (hl : l ≤ num - 2) (a alpha beta : ℝ) (V : ℝ → ℝ) (hm : Bool) (np : Module) (sp an : Bool) :
    ∃ b h u d γ, odqd eigh l L num a alpha beta V hm np sp an = .ok b ∧ b.h = some h ∧ b.u = some u ∧ b.dipole = some d ∧
      b.l = l ∧ b.dim = 1 ∧ Reversible γ (fun _ => 1) l 1 h u d := by
  obtain ⟨b, H, w, v, run, hH, -, F, O, hh, hd⟩ := odqd_ok' he L h3 hl a alpha beta V hm np sp an
  have F' : EighOK (num - 2) H w v.conj := by
    refine ⟨F.w_shape, F.v_shape, F.real, F.sorted, fun i j hi hj => ?_, fun i j hi hj => ?_⟩
    · have e := congrArg star (F.orthonormal i j hi hj)
      rw [star_sum] at e
      simp only [conj_get]
      convert e using 1
      · exact sum_congr rfl fun k _ => by simp
      · split_ifs <;> simp
    · have e := congrArg star (F.eigen i j hi hj)
      rw [star_sum, star_mul'] at e
      simp only [conj_get]
      rw [show star (w.get [i]) = w.get [i] from Complex.conj_eq_iff_im.2 (F.real _)] at e
      rw [← e]
      refine sum_congr rfl fun k hk => ?_
      rw [star_mul', hH, ofFn_get_of (by exact ⟨hj, mem_range.1 hk, trivial⟩)]
      simp [Complex.conj_ofReal]
  obtain ⟨-, -, hp⟩ := C133_eigenvectors F F'
  have ex : ∀ p, ∃ c : ℂ, ‖c‖ = 1 ∧ (p < num - 2 → ∀ k < num - 2, v.conj.get [k, p] = c * v.get [k, p]) := fun p => by
    by_cases hpn : p < num - 2
    · obtain ⟨c, hc, h⟩ := hp p hpn fun i hi hip => odqd_distinct hL h3 he hH F hi hpn hip
      exact ⟨c, hc, fun _ => h⟩
    · exact ⟨1, by simp, fun h => absurd h hpn⟩
  choose γ hc hv using ex
  have hu1 : ∀ p, star (γ p) * γ p = 1 := fun p => conj_mul_self_of_unit (hc p)
  set dx := (L - -L) / ((num : ℝ) - 1)
  have hspf : ∀ p < l, ∀ j < num, star ((odqdSpf l num dx v).get [p, j]) = γ p * (odqdSpf l num dx v).get [p, j] :=
    fun p hp j hj => by
    rw [odqdSpf, ofFn_get_of (by exact ⟨hp, hj, trivial⟩)]
    simp only [List.getD_cons_zero, List.getD_cons_succ]
    split_ifs with hi
    · have := hv p (by omega) (j - 1) (by omega)
      rw [conj_get] at this
      rw [star_div₀, this, Complex.star_def, Complex.conj_ofReal]
      ring
    · simp
  refine ⟨b, _, _, _, γ, run, hh, O.u_eq, hd, O.l_eq, O.dim_eq, hu1, fun p hp q hq => ?_, fun p hp q hq r hr s hs => ?_,
    fun k hk p hp q hq => ?_⟩
  · rw [ofFn_get_of (by exact ⟨hp, hq, trivial⟩)]
    simp only [List.getD_cons_zero, List.getD_cons_succ]
    split_ifs with hpq
    · subst hpq
      rw [show star (w.get [p]) = w.get [p] from Complex.conj_eq_iff_im.2 (F.real _)]
      linear_combination (-w.get [p]) * hu1 p
    · simp
  · rw [ofFn_get_of (by exact ⟨hp, hq, hr, hs, trivial⟩)]
    simp only [List.getD_cons_zero, List.getD_cons_succ]
    rw [coulombSum_star, coulombSum_phase (c := γ) fun k hk j hj => hspf k ?_ j hj]
    · simp only [map_mul, Complex.star_def]
      ring
    · simp only [List.mem_cons, List.not_mem_nil, or_false] at hk
      rcases hk with rfl | rfl | rfl | rfl <;> assumption
  · rw [ofFn_get_of (by exact ⟨hk, hp, hq, trivial⟩)]
    simp only [List.getD_cons_zero, List.getD_cons_succ]
    rw [trapezoid_star, Complex.ofReal_one, one_mul, mul_right_comm, ← trapezoid_mul]
    refine trapezoid_congr' fun j hj => ?_
    have e1 := hspf p hp j hj
    have e2 := hspf q hq j hj
    have e3 := congrArg star e1
    rw [star_star, star_mul'] at e3
    simp only [star_mul', Complex.star_def, Complex.conj_ofReal, Complex.conj_conj] at e1 e2 e3 ⊢
    rw [e2]
    linear_combination (((TwoDim.linspace (-L) L num j + beta * TwoDim.linspace (-L) L num j ^ 2 : ℝ) : ℂ) *
      (γ q * (odqdSpf l num dx v).get [q, j])) * e3

/-- Elements that are real, and dipole moments that are real or imaginary. -/
theorem reversible_real {σ : ℕ → ℝ} {l dim : ℕ} {h u d : NDArray ℂ} (one : ∀ p < l, ∀ q < l, star (h.get [p, q]) = h.get [p, q])
    (two : ∀ p < l, ∀ q < l, ∀ r < l, ∀ s < l, star (u.get [p, q, r, s]) = u.get [p, q, r, s])
    (dip : ∀ k < dim, ∀ p < l, ∀ q < l, star (d.get [k, p, q]) = σ k * d.get [k, p, q]) :
    Reversible (fun _ => 1) σ l dim h u d := by
  refine ⟨fun _ => by simp, fun p hp q hq => ?_, fun p hp q hq r hr s hs => ?_, fun k hk p hp q hq => ?_⟩
  · rw [one p hp q hq, star_one, one_mul, mul_one]
  · rw [two p hp q hq r hr s hs]
    simp
  · rw [dip k hk p hp q hq, star_one, one_mul, mul_one]

/-- **C151** The elements of `ODHO`. -/
theorem C151_odho (l : ℕ) (L : ℝ) {num : ℕ} (h2 : 2 ≤ num) (omega a alpha beta : ℝ) (np : Module) (sp an : Bool) :
    ∃ b h u d, odho l L num omega a alpha beta np sp an = .ok b ∧ b.h = some h ∧ b.u = some u ∧ b.dipole = some d ∧
      b.l = l ∧ b.dim = 1 ∧ Reversible (fun _ => 1) (fun _ => 1) l 1 h u d := by
  obtain ⟨b, run, O, hh, hd⟩ := odho_ok l L h2 omega a alpha beta np sp an
  refine ⟨b, _, _, _, run, hh, O.u_eq, hd, O.l_eq, O.dim_eq, reversible_real (fun p hp q hq => ?_)
    (fun p hp q hq r hr s hs => ?_) fun k hk p hp q hq => ?_⟩
  · rw [ofFn_get_of (by exact ⟨hp, hq, trivial⟩)]
    split_ifs <;> simp [Complex.conj_ofReal]
  · rw [ofFn_get_of (by exact ⟨hp, hq, hr, hs, trivial⟩), coulombSum_star]
    congr 1
    funext p j
    rw [odhoSpf, ofFn_get]
    split_ifs
    · exact Complex.conj_ofReal _
    · exact star_zero _
  · rw [ofFn_get_of (by exact ⟨hk, hp, hq, trivial⟩), Complex.ofReal_one, one_mul]
    split_ifs
    · exact Complex.conj_ofReal _
    · exact Complex.conj_ofReal _
    · exact star_zero _

/-- **C151** The elements of `ODSincDVR`. -/
theorem C151_sinc {l : ℕ} (h2 : 2 ≤ l) (L a alpha beta : ℝ) (V : ℝ → ℝ) (hm : Bool) (np : Module) (sp an : Bool) :
    ∃ b h u d, odSincDvr l L a alpha beta V .four hm np sp an = .ok b ∧ b.h = some h ∧ b.u = some u ∧ b.dipole = some d ∧
      b.l = l ∧ b.dim = 1 ∧ Reversible (fun _ => 1) (fun _ => 1) l 1 h u d := by
  refine ⟨_, _, _, _, odSincDvr_ok h2 L a alpha beta V (by simp) hm np sp an, rfl, rfl, rfl, rfl, rfl,
    reversible_real (fun p hp q hq => ?_) (fun p hp q hq r hr s hs => ?_) fun k hk p hp q hq => ?_⟩
  · rw [sincH, ofFn_get_of (by exact ⟨hp, hq, trivial⟩)]
    split_ifs
    · rw [star_add, Complex.star_def, Complex.conj_ofReal, Complex.conj_ofReal]
    · exact Complex.conj_ofReal _
  · rw [sincU, if_neg (by simp), ofFn_get_of (by exact ⟨hp, hq, hr, hs, trivial⟩)]
    split_ifs
    · exact Complex.conj_ofReal _
    · exact star_zero _
  · rw [sincDip, ofFn_get_of (by exact ⟨hk, hp, hq, trivial⟩), Complex.ofReal_one, one_mul]
    split_ifs
    · exact Complex.conj_ofReal _
    · exact star_zero _

/-! ## Two-dimensional dots -/

/-- The dipole elements along x are real and those along y imaginary. -/
theorem dipoleEntry_star (nm : ℕ → ℤ × ℤ) (omega mass : ℝ) {k : ℕ} (hk : k < 2) (p q : ℕ) :
    star (dipoleEntry nm omega mass k p q) = ((if k = 0 then 1 else -1 : ℝ) : ℂ) * dipoleEntry nm omega mass k p q := by
  unfold dipoleEntry theta1 theta2
  obtain rfl | rfl : k = 0 ∨ k = 1 := by omega
  · simp only [if_true]
    split_ifs
    · simp only [star_mul', Complex.star_def, Complex.conj_ofReal, Complex.ofReal_one, one_mul]
    · simp
  · simp only [if_neg one_ne_zero]
    split_ifs
    · simp only [star_mul', Complex.star_def, Complex.conj_ofReal, map_neg, map_sub, map_mul, Complex.conj_I, map_intCast]
      push_cast
      ring
    · simp

/-- **C151** The elements of `TwoDimensionalHarmonicOscillator`: the field along y changes its sign. -/
theorem C151_tdho (l num : ℕ) (radiusLength omega mass : ℝ) (np : Module) :
    ∃ b h u d, tdho (Coulomb.getCoulombElementsRaw l) l num radiusLength omega mass np = .ok b ∧ b.h = some h ∧ b.u = some u ∧
      b.dipole = some d ∧ b.l = l ∧ b.dim = 2 ∧ Reversible (fun _ => 1) (fun k => if k = 0 then 1 else -1) l 2 h u d := by
  rw [Coulomb.getCoulombElementsRaw_eq]
  obtain ⟨b, run, O, hh⟩ := tdho_ok _ l num radiusLength omega mass np
  refine ⟨b, _, _, _, run, hh, O.u_eq, O.dipole_eq, O.l_eq, O.dim_eq, reversible_real (fun p hp q hq => ?_)
    (fun p hp q hq r hr s hs => ?_) fun k hk p hp q hq => ?_⟩
  · rw [oscillatorH, NDArray.smul_get, ofFn_get_of (by exact ⟨hp, hq, trivial⟩)]
    split_ifs <;> simp [Complex.conj_ofReal]
  · rw [NDArray.smul_get, ofFn_get_of (by exact ⟨hp, hq, hr, hs, trivial⟩), star_mul', Complex.star_def, Complex.conj_ofReal,
      Complex.conj_ofReal]
  · rw [ofFn_get_of (by exact ⟨hk, hp, hq, trivial⟩)]
    exact dipoleEntry_star _ _ _ hk p q

/-- **C151** The elements of `TwoDimensionalDoubleWell`. -/
theorem C151_double_well (l num : ℕ) (radiusLength omega mass barrier : ℝ) (axis : ℕ) (np : Module) :
    ∃ b h u d, doubleWell (Coulomb.getCoulombElementsRaw l) l num radiusLength omega mass barrier axis np = .ok b ∧
      b.h = some h ∧ b.u = some u ∧ b.dipole = some d ∧ b.l = l ∧ b.dim = 2 ∧
      Reversible (fun _ => 1) (fun k => if k = 0 then 1 else -1) l 2 h u d := by
  rw [Coulomb.getCoulombElementsRaw_eq]
  obtain ⟨b, run, O, hh⟩ := doubleWell_ok _ l num radiusLength omega mass barrier axis np
  refine ⟨b, _, _, _, run, hh, O.u_eq, O.dipole_eq, O.l_eq, O.dim_eq, reversible_real (fun p hp q hq => ?_)
    (fun p hp q hq r hr s hs => ?_) fun k hk p hp q hq => ?_⟩
  · rw [ofFn_get_of (by exact ⟨hp, hq, trivial⟩)]
    exact Complex.conj_ofReal _
  · rw [NDArray.smul_get, ofFn_get_of (by exact ⟨hp, hq, hr, hs, trivial⟩), star_mul', Complex.star_def, Complex.conj_ofReal,
      Complex.conj_ofReal]
  · rw [ofFn_get_of (by exact ⟨hk, hp, hq, trivial⟩)]
    exact dipoleEntry_star _ _ _ hk p q

/-- **C151** The elements of `TwoDimHarmonicOscB`, with any magnetic field: it is not reversed, because the motion is mirrored at the
x axis. -/
theorem C151_magnetic {l num : ℕ} {radiusLength omega0 mass omegaC : ℝ} {np : Module} {b : BasisSet ℂ} {df : List Row}
    (run : oscB l num radiusLength omega0 mass omegaC np = .ok (b, df)) :
    ∃ h u d, b.h = some h ∧ b.u = some u ∧ b.dipole = some d ∧ b.l = l ∧ b.dim = 2 ∧
      Reversible (fun _ => 1) (fun k => if k = 0 then 1 else -1) l 2 h u d := by
  obtain ⟨hd, h, hh, -, he⟩ := C51_one_body run
  obtain ⟨b₁, x₁, u₁, r₁, -, u1, hl, hdim, -, -, -, u2, -, u4⟩ := oscB_ok hd num radiusLength mass np
  rw [r₁] at run
  cases run
  rw [getCoulombElementsB_eq] at u1
  cases u1
  refine ⟨h, _, _, hh, u2, u4, hl, hdim, reversible_real (fun p hp q hq => ?_)
    (fun p hp q hq r hr s hs => ?_) fun k hk p hp q hq => ?_⟩
  · rw [he p q hp hq]
    split_ifs
    · exact Complex.conj_ofReal _
    · exact star_zero _
  · rw [toComplex_get, NDArray.smul_get, ofFn_get_of (by exact ⟨hp, hq, hr, hs, trivial⟩), star_mul', Complex.star_def,
      Complex.conj_ofReal, Complex.conj_ofReal]
  · rw [toComplex_get, ofFn_get_of (by exact ⟨hk, hp, hq, trivial⟩)]
    exact dipoleEntry_star _ _ _ hk p q

/-- An electron in a level with the energy `2`: the phase turns in the same direction in the reversed motion. -/
example : Evolves (N := 1) (L := 1) (fun _ _ _ => 2) (fun _ _ _ _ _ => 0) (fun t _ => Complex.exp (-Complex.I * (2 * t))) ∧
    ∀ t : ℝ, reversedWave (N := 1) (L := 1) (fun _ => 1) (fun _ => Complex.exp (-Complex.I * (2 * (-t)))) =
      fun _ => Complex.exp (-Complex.I * (2 * t)) := by
  refine ⟨fun t x => ?_, fun t => ?_⟩
  · have h1 : HasDerivAt (fun t : ℝ => -Complex.I * (2 * (t : ℂ))) (-Complex.I * (2 * 1)) t :=
      ((Complex.ofRealCLM.hasDerivAt (x := t)).const_mul 2).const_mul (-Complex.I)
    refine h1.cexp.congr_deriv ?_
    simp [hamiltonOp, oneBodyOp, twoBodyOp]
    ring
  · funext x
    simp [reversedWave, ← Complex.exp_conj, show (starRingEnd ℂ) 2 = 2 from Complex.conj_ofReal 2]

/-- Three orbitals with `ω₀ = 4` and `ω_c = 6`: the elements along y change their sign. -/
example : ∃ b df h u d, oscB 3 5 4 4 1 6 = .ok (b, df) ∧ b.h = some h ∧ b.u = some u ∧ b.dipole = some d ∧
    Reversible (fun _ => 1) (fun k => if k = 0 then 1 else -1) 3 2 h u d ∧ star (d.get [1, 0, 1]) = -d.get [1, 0, 1] := by
  have hfreq : 2 / 10 ^ 6 ≤ omegaB 4 6 := by
    unfold omegaB
    rw [show (4 : ℝ) ^ 2 + 6 ^ 2 / 4 = 5 ^ 2 by norm_num, Real.sqrt_sq (by norm_num)]
    norm_num
  obtain ⟨df, hdf⟩ := dataframeB_succeeds (l := 3) (by norm_num) hfreq
  obtain ⟨b, -, -, run, -⟩ := oscB_ok hdf 5 4 1 0
  obtain ⟨h, u, d, h1, h2, h4, -, -, R⟩ := C151_magnetic run
  have y := R.dipole 1 (by norm_num) 0 (by norm_num) 1 (by norm_num)
  refine ⟨b, df, h, u, d, run, h1, h2, h4, R, ?_⟩
  rw [y]
  simp

end QS.Props
