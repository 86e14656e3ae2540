import Verif.Spec.SincMirror
import Verif.Props.SincFlow

/-!
# Property C158: mirror images of electrons on a sinc-DVR grid
-/

namespace QS.Props

open SincDvr NDArray Spec BasisSet Finset World

theorem oneBodyOp_renamed {N M : ℕ} (e : Equiv.Perm (Fin M)) {a a' : Fin M → Fin M → ℂ} (ha : ∀ p q, a' p q = a (e p) (e q))
    (Ψ : Wave ℂ N M) (x : Fin N → Fin M) : oneBodyOp a' (fun x => Ψ (e ∘ x)) x = oneBodyOp a Ψ (e ∘ x) := by
  unfold oneBodyOp
  refine sum_congr rfl fun i _ => Fintype.sum_equiv e _ _ fun y => ?_
  dsimp only
  rw [ha, Function.comp_update]
  rfl

theorem twoBodyOp_renamed {N M : ℕ} (e : Equiv.Perm (Fin M)) {u u' : Fin M → Fin M → Fin M → Fin M → ℂ}
    (hu : ∀ p q r s, u' p q r s = u (e p) (e q) (e r) (e s)) (Ψ : Wave ℂ N M) (x : Fin N → Fin M) :
    twoBodyOp u' (fun x => Ψ (e ∘ x)) x = twoBodyOp u Ψ (e ∘ x) := by
  unfold twoBodyOp
  refine sum_congr rfl fun i _ => sum_congr rfl fun j _ => Fintype.sum_equiv e _ _ fun y => Fintype.sum_equiv e _ _ fun z => ?_
  dsimp only
  rw [hu, Function.comp_update, Function.comp_update]
  rfl

theorem hamiltonOp_renamed {N M : ℕ} (e : Equiv.Perm (Fin M)) {h h' : Fin M → Fin M → ℂ} {u u' : Fin M → Fin M → Fin M → Fin M → ℂ}
    (hh : ∀ p q, h' p q = h (e p) (e q)) (hu : ∀ p q r s, u' p q r s = u (e p) (e q) (e r) (e s)) (Ψ : Wave ℂ N M)
    (x : Fin N → Fin M) : hamiltonOp h' u' (fun x => Ψ (e ∘ x)) x = hamiltonOp h u Ψ (e ∘ x) := by
  unfold hamiltonOp
  rw [oneBodyOp_renamed e hh, twoBodyOp_renamed e hu]

theorem meanOne_renamed {N M : ℕ} (e : Equiv.Perm (Fin M)) {a a' : Fin M → Fin M → ℂ} (ha : ∀ p q, a' p q = a (e p) (e q))
    (Ψ : Wave ℂ N M) : meanOne a' (fun x => Ψ (e ∘ x)) = meanOne a Ψ := by
  unfold meanOne waveInner
  refine Fintype.sum_equiv (Equiv.piCongrRight fun _ => e) _ _ fun x => ?_
  rw [oneBodyOp_renamed e ha]
  rfl

theorem mirrorOrbital_twice (l : ℕ) : Function.Involutive (mirrorOrbital l) := fun p => Fin.ext (by
  have := p.2
  unfold mirrorOrbital
  dsimp only
  omega)

theorem mirrorOrbital_point {l : ℕ} (p : Fin (2 * l)) : (mirrorOrbital l p).1 / 2 = l - 1 - p.1 / 2 := by
  unfold mirrorOrbital
  dsimp only
  omega

theorem mirrorOrbital_spin {l : ℕ} (p : Fin (2 * l)) : (mirrorOrbital l p).1 % 2 = p.1 % 2 := by
  unfold mirrorOrbital
  dsimp only
  omega

/-- The mirror as a permutation. -/
def mirrorPerm (l : ℕ) : Equiv.Perm (Fin (2 * l)) := (mirrorOrbital_twice l).toPerm

theorem mirroredWave_twice {N l : ℕ} (Ψ : Wave ℂ N (2 * l)) : mirroredWave (mirroredWave Ψ) = Ψ := by
  funext x
  unfold mirroredWave
  simp only [mirrorOrbital_twice l _]

theorem Evolves.mirrored {N l : ℕ} {h h' : ℝ → Fin (2 * l) → Fin (2 * l) → ℂ}
    {u u' : ℝ → Fin (2 * l) → Fin (2 * l) → Fin (2 * l) → Fin (2 * l) → ℂ}
    (hh : ∀ t p q, h' t p q = h t (mirrorOrbital l p) (mirrorOrbital l q))
    (hu : ∀ t p q r s, u' t p q r s = u t (mirrorOrbital l p) (mirrorOrbital l q) (mirrorOrbital l r) (mirrorOrbital l s))
    {Ψ : ℝ → Wave ℂ N (2 * l)} (S : Evolves h u Ψ) : Evolves h' u' fun t => mirroredWave (Ψ t) := fun t x => by
  have k := hamiltonOp_renamed (mirrorPerm l) (hh t) (hu t) (Ψ t) x
  exact (S t fun i => mirrorOrbital l (x i)).congr_deriv (congrArg (-Complex.I * ·) k.symm)

theorem waveInner_mirrored {N l : ℕ} (Φ Ψ : Wave ℂ N (2 * l)) : waveInner (mirroredWave Φ) (mirroredWave Ψ) = waveInner Φ Ψ :=
  Fintype.sum_equiv (Equiv.piCongrRight fun _ => mirrorPerm l) _ _ fun _ => rfl

theorem antisymmetric_mirrored {N l : ℕ} {Ψ : Wave ℂ N (2 * l)} (A : Antisymmetric Ψ) : Antisymmetric (mirroredWave Ψ) := fun σ x =>
  A σ fun i => mirrorOrbital l (x i)

theorem Spectrum.mirrored {N l : ℕ} {h h' : Fin (2 * l) → Fin (2 * l) → ℂ}
    {u u' : Fin (2 * l) → Fin (2 * l) → Fin (2 * l) → Fin (2 * l) → ℂ}
    (hh : ∀ p q, h' p q = h (mirrorOrbital l p) (mirrorOrbital l q))
    (hu : ∀ p q r s, u' p q r s = u (mirrorOrbital l p) (mirrorOrbital l q) (mirrorOrbital l r) (mirrorOrbital l s))
    {D : ℕ} {E : ℕ → ℝ} {Ψ : ℕ → Wave ℂ N (2 * l)} (S : Spectrum h u D E Ψ) : Spectrum h' u' D E fun i => mirroredWave (Ψ i) := by
  refine ⟨S.sorted, fun i hi => antisymmetric_mirrored (S.anti i hi), fun i hi => funext fun x => ?_, fun i hi j hj => ?_,
    fun Φ A x => ?_⟩
  · exact (hamiltonOp_renamed (mirrorPerm l) hh hu (Ψ i) x).trans (congrFun (S.eigen i hi) _)
  · rw [waveInner_mirrored, S.orth i hi j hj]
  · have k := S.complete _ (antisymmetric_mirrored A) fun i => mirrorOrbital l (x i)
    rw [show mirroredWave Φ (fun i => mirrorOrbital l (x i)) = Φ x from congrFun (mirroredWave_twice Φ) x] at k
    rw [k]
    refine sum_congr rfl fun i _ => ?_
    rw [← waveInner_mirrored (Ψ i), mirroredWave_twice]
    rfl

theorem meanOne_factor {N M : ℕ} (a : Fin M → Fin M → ℂ) (Ψ : Wave ℂ N M) {ε : ℂ} (hε : star ε * ε = 1) :
    meanOne a (fun x => ε * Ψ x) = meanOne a Ψ := by
  unfold meanOne waveInner oneBodyOp
  refine sum_congr rfl fun x _ => ?_
  rw [star_mul']
  simp only [mul_sum]
  refine sum_congr rfl fun j _ => sum_congr rfl fun y _ => ?_
  linear_combination (star (Ψ x) * Ψ (Function.update x j y) * a (x j) y) * hε

theorem densityMatrix_factor {N l : ℕ} (Ψ : Wave ℂ N (2 * l)) {ε : ℂ} (hε : star ε * ε = 1) :
    densityMatrix l (fun x => ε * Ψ x) = densityMatrix l Ψ := by
  unfold densityMatrix
  congr 1
  funext i
  exact meanOne_factor _ Ψ hε

theorem densityMatrix_mirrored {N l : ℕ} (Ψ : Wave ℂ N (2 * l)) {p q : ℕ} (hp : p < l) (hq : q < l) :
    (densityMatrix l (mirroredWave Ψ)).get [q, p] = (densityMatrix l Ψ).get [l - 1 - q, l - 1 - p] := by
  rw [densityMatrix_hop _ hp hq, densityMatrix_hop _ (by omega) (by omega)]
  refine meanOne_renamed (mirrorPerm l) (fun a b => ?_) Ψ
  unfold hop
  refine if_congr ?_ rfl rfl
  have e1 : (mirrorPerm l a).1 / 2 = l - 1 - a.1 / 2 := mirrorOrbital_point a
  have e2 : (mirrorPerm l b).1 / 2 = l - 1 - b.1 / 2 := mirrorOrbital_point b
  have e3 : (mirrorPerm l a).1 % 2 = a.1 % 2 := mirrorOrbital_spin a
  have e4 : (mirrorPerm l b).1 % 2 = b.1 % 2 := mirrorOrbital_spin b
  rw [e1, e2, e3, e4]
  have := a.2
  have := b.2
  omega

theorem linspace_mirror {l : ℕ} (h2 : 2 ≤ l) (L : ℝ) {p : ℕ} (hp : p < l) :
    TwoDim.linspace (-L) L l (l - 1 - p) = -TwoDim.linspace (-L) L l p := by
  have h1 : ((l : ℝ) - 1) ≠ 0 := by
    have : (2 : ℝ) ≤ l := by exact_mod_cast h2
    linarith
  have hc : ((l - 1 - p : ℕ) : ℝ) = (l : ℝ) - 1 - p := by
    rw [Nat.sub_sub, Nat.cast_sub (by omega)]
    push_cast
    ring
  unfold TwoDim.linspace
  rw [hc]
  field_simp
  ring

/-- **C158** The elements and functions that `ODSincDVR` stores for an even potential are mirror images of themselves; the linear
part of the dipole moment changes its sign. -/
theorem C158_elements {l : ℕ} (h2 : 2 ≤ l) {L : ℝ} (hL : 0 < L) {a alpha beta : ℝ} {V : ℝ → ℝ} (even : ∀ x, V (-x) = V x)
    {repr : URepr} (hr : repr ≠ .unknown) {hm : Bool} {np : Module} {sp an : Bool} {b : BasisSet ℂ}
    (run : odSincDvr l L a alpha beta V repr hm np sp an = .ok b) :
    ∃ h u d f, b.h = some h ∧ b.u = some u ∧ b.dipole = some d ∧ b.spf = some f ∧
      (∀ p < l, ∀ q < l, h.get [l - 1 - p, l - 1 - q] = h.get [p, q]) ∧
      (repr = .two → ∀ p < l, ∀ q < l, u.get [l - 1 - p, l - 1 - q] = u.get [p, q]) ∧
      (repr = .four → ∀ p < l, ∀ q < l, ∀ r < l, ∀ s < l,
        u.get [l - 1 - p, l - 1 - q, l - 1 - r, l - 1 - s] = u.get [p, q, r, s]) ∧
      (∀ p < l, ∀ i < l, f.get [l - 1 - p, l - 1 - i] = f.get [p, i]) ∧
      (∀ p < l, ∀ q < l, d.get [0, l - 1 - p, l - 1 - q] = -d.get [0, p, q] +
        if p = q then ((2 * beta * (-L + p * (2 * L / ((l : ℝ) - 1))) ^ 2 : ℝ) : ℂ) else 0) := by
  obtain rfl := Except.ok.inj (run.symm.trans (odSincDvr_ok h2 L a alpha beta V hr hm np sp an))
  have m : ∀ {p q : ℕ}, p < l → q < l → (l - 1 - p = l - 1 - q ↔ p = q) := fun hp hq => by omega
  have pair : ∀ p < l, ∀ q < l, pairU l L alpha a (l - 1 - p) (l - 1 - q) = pairU l L alpha a p q := fun p hp q hq => by
    unfold pairU shieldedCoulomb
    rw [linspace_mirror h2 L hp, linspace_mirror h2 L hq]
    congr 4
    ring
  refine ⟨sincH l L V, sincU l L alpha a .complex128 repr, sincDip l L beta, sincSpf l L, rfl, rfl, rfl, rfl, fun p hp q hq => ?_, ?_,
    ?_, fun p hp i hi => ?_, fun p hp q hq => ?_⟩
  · rw [sincH, ofFn_get_of (by exact ⟨by omega, by omega, trivial⟩), ofFn_get_of (by exact ⟨hp, hq, trivial⟩)]
    simp only [List.getD_cons_zero, List.getD_cons_succ, m hp hq, linspace_mirror h2 L hp, even]
    have e1 : ((l - 1 - p : ℕ) : ℤ) - (l - 1 - q : ℕ) = -((p : ℤ) - q) := by omega
    have e2 : ((l - 1 - p : ℕ) : ℝ) - (l - 1 - q : ℕ) = -((p : ℝ) - q) := by exact_mod_cast congrArg (Int.cast : ℤ → ℝ) e1
    rw [e1, e2, neg_sq, zpow_neg, ← inv_zpow]
    norm_num
  · rintro rfl p hp q hq
    rw [show sincU l L alpha a .complex128 .two = ofFn .complex128 [l, l] (fun i => pairU l L alpha a (i.getD 0 0) (i.getD 1 0)) from
      if_pos rfl, ofFn_get_of (by exact ⟨by omega, by omega, trivial⟩), ofFn_get_of (by exact ⟨hp, hq, trivial⟩)]
    exact pair p hp q hq
  · rintro rfl p hp q hq r hr s hs
    rw [show sincU l L alpha a .complex128 .four = ofFn .complex128 [l, l, l, l] (fun i => if i.getD 0 0 = i.getD 2 0 ∧
        i.getD 1 0 = i.getD 3 0 then pairU l L alpha a (i.getD 0 0) (i.getD 1 0) else 0) from if_neg (by decide),
      ofFn_get_of (by exact ⟨by omega, by omega, by omega, by omega, trivial⟩), ofFn_get_of (by exact ⟨hp, hq, hr, hs, trivial⟩)]
    simp only [List.getD_cons_zero, List.getD_cons_succ, m hp hr, m hq hs, pair p hp q hq]
  · rw [sincSpf_get h2 hL (by omega) (by omega), sincSpf_get h2 hL hp hi]
    simp only [m hp hi]
  · rw [sincDip, ofFn_get_of (by exact ⟨Nat.one_pos, by omega, by omega, trivial⟩), ofFn_get_of (by exact ⟨Nat.one_pos, hp, hq, trivial⟩)]
    simp only [List.getD_cons_zero, List.getD_cons_succ, m hp hq, linspace_mirror h2 L hp]
    split_ifs
    · rw [show -L + p * (2 * L / ((l : ℝ) - 1)) = TwoDim.linspace (-L) L l p by unfold TwoDim.linspace; ring]
      push_cast
      ring
    · simp

/-- **C158** Electrons in an even potential with the field `F`, seen in a mirror, move with the field `-F` (for a linear dipole
moment, or without a field). -/
theorem C158_mirror {l : ℕ} (h2 : 2 ≤ l) {L : ℝ} (hL : 0 < L) {a alpha beta : ℝ} {V : ℝ → ℝ} (even : ∀ x, V (-x) = V x) {hm : Bool}
    {np : Module} {sp an : Bool} {b : BasisSet ℂ} {h u d : NDArray ℂ}
    (run : odSincDvr l L a alpha beta V .four hm np sp an = .ok b) (hh : b.h = some h) (hu : b.u = some u) (hd : b.dipole = some d)
    {H U H' U' : ℝ → NDArray ℂ} {F F' c : ℝ → ℂ} (opposite : ∀ t, F' t = -F t) (linear : beta = 0 ∨ ∀ t, F t = 0)
    (hH : ∀ t, ∀ p < l, ∀ q < l, (H t).get [p, q] = h.get [p, q] + F t * d.get [0, p, q])
    (hH' : ∀ t, ∀ p < l, ∀ q < l, (H' t).get [p, q] = h.get [p, q] + F' t * d.get [0, p, q])
    (hU : ∀ t, ∀ p < l, ∀ q < l, ∀ r < l, ∀ s < l, (U t).get [p, q, r, s] = c t * u.get [p, q, r, s])
    (hU' : ∀ t, ∀ p < l, ∀ q < l, ∀ r < l, ∀ s < l, (U' t).get [p, q, r, s] = c t * u.get [p, q, r, s]) (N : ℕ) :
    SincMirrors N l b (fun t => spinOne l (H t)) (fun t => spinOne l (H' t)) (fun t => spinTwo l (U t)) fun t => spinTwo l (U' t) := by
  obtain ⟨h0, u0, d0, f0, h1, u1, d1, f1, mh, -, mu, -, md⟩ := C158_elements h2 hL even (by decide) run
  obtain rfl := Option.some.inj (hh.symm.trans h1)
  obtain rfl := Option.some.inj (hu.symm.trans u1)
  obtain rfl := Option.some.inj (hd.symm.trans d1)
  have one : ∀ t, ∀ p < l, ∀ q < l, (H' t).get [p, q] = (H t).get [l - 1 - p, l - 1 - q] := fun t p hp q hq => by
    rw [hH' t p hp q hq, hH t _ (by omega) _ (by omega), mh p hp q hq, md p hp q hq, opposite]
    rcases linear with e | e
    · rw [e]
      simp
    · rw [e]
      simp
  have one' : ∀ t, ∀ p q : Fin (2 * l), spinOne l (H' t) p q = spinOne l (H t) (mirrorOrbital l p) (mirrorOrbital l q) :=
    fun t p q => by
    unfold spinOne
    rw [mirrorOrbital_point, mirrorOrbital_point, mirrorOrbital_spin, mirrorOrbital_spin, one t _ (by omega) _ (by omega)]
  have two' : ∀ t, ∀ p q r s : Fin (2 * l), spinTwo l (U' t) p q r s =
      spinTwo l (U t) (mirrorOrbital l p) (mirrorOrbital l q) (mirrorOrbital l r) (mirrorOrbital l s) := fun t p q r s => by
    unfold spinTwo
    simp only [mirrorOrbital_point, mirrorOrbital_spin]
    rw [hU' t _ (by omega) _ (by omega) _ (by omega) _ (by omega), hU t _ (by omega) _ (by omega) _ (by omega) _ (by omega),
      mu rfl _ (by omega) _ (by omega) _ (by omega) _ (by omega)]
  refine ⟨fun Ψ => ⟨fun S => Evolves.mirrored one' two' S, fun S => ?_⟩,
    fun t D E Ψ => ⟨fun S => Spectrum.mirrored (one' t) (two' t) S, fun S => ?_⟩, fun Ψ => ⟨antisymmetric_mirrored, fun A => ?_⟩, fun Ψ => ?_⟩
  · have k := Evolves.mirrored (h' := fun t => spinOne l (H t)) (u' := fun t => spinTwo l (U t))
      (fun t p q => by rw [one', mirrorOrbital_twice, mirrorOrbital_twice])
      (fun t p q r s => by rw [two', mirrorOrbital_twice, mirrorOrbital_twice, mirrorOrbital_twice, mirrorOrbital_twice]) S
    simpa only [mirroredWave_twice] using k
  · have k := Spectrum.mirrored (h' := spinOne l (H t)) (u' := spinTwo l (U t))
      (fun p q => by rw [one', mirrorOrbital_twice, mirrorOrbital_twice])
      (fun p q r s => by rw [two', mirrorOrbital_twice, mirrorOrbital_twice, mirrorOrbital_twice, mirrorOrbital_twice]) S
    simpa only [mirroredWave_twice] using k
  · have k := antisymmetric_mirrored A
    rwa [mirroredWave_twice] at k
  · have D := (C157_flows h2 hL run hh hu hd (H := fun _ => h) (U := fun _ => u) (F := fun _ => 0) (c := fun _ => 1)
      (fun _ => star_zero _) (fun _ => star_one _) (fun t p _ q _ => by rw [zero_mul, add_zero])
      (fun t p _ q _ r _ s _ => by rw [one_mul]) N).density
    obtain ⟨n, r, sh, g⟩ := D Ψ
    obtain ⟨n', r', sh', g'⟩ := D (mirroredWave Ψ)
    exact ⟨n, n', r, r', sh, sh', fun i hi => by rw [g' i hi, g _ (by omega), densityMatrix_mirrored Ψ hi hi]⟩

/-- **C158** The dipole moment of the mirrored wave function is the opposite one (without the quadratic term). -/
theorem C158_dipole {l : ℕ} (h2 : 2 ≤ l) {L : ℝ} (hL : 0 < L) {a alpha : ℝ} {V : ℝ → ℝ} (even : ∀ x, V (-x) = V x) {repr : URepr}
    (hr : repr ≠ .unknown) {hm : Bool} {np : Module} {sp an : Bool} {b : BasisSet ℂ}
    (run : odSincDvr l L a alpha 0 V repr hm np sp an = .ok b) {d : NDArray ℂ} (hd : b.dipole = some d) {N : ℕ}
    (Ψ : Wave ℂ N (2 * l)) : meanOne (spinDipole l d 0) (mirroredWave Ψ) = -meanOne (spinDipole l d 0) Ψ := by
  obtain ⟨h0, u0, d0, f0, h1, u1, d1, f1, -, -, -, -, md⟩ := C158_elements h2 hL even hr run
  obtain rfl := Option.some.inj (hd.symm.trans d1)
  have k := meanOne_renamed (mirrorPerm l) (a := fun p q => -1 * spinDipole l d 0 p q) (a' := spinDipole l d 0) (fun p q => ?_) Ψ
  · rw [meanOne_const, neg_one_mul] at k
    exact k
  · have e := md (p.1 / 2) (by omega) (q.1 / 2) (by omega)
    rw [mul_zero, zero_mul, Complex.ofReal_zero, ite_self, add_zero] at e
    unfold spinDipole
    rw [show (mirrorPerm l p).1 / 2 = l - 1 - p.1 / 2 from mirrorOrbital_point p,
      show (mirrorPerm l q).1 / 2 = l - 1 - q.1 / 2 from mirrorOrbital_point q,
      show (mirrorPerm l p).1 % 2 = p.1 % 2 from mirrorOrbital_spin p,
      show (mirrorPerm l q).1 % 2 = q.1 % 2 from mirrorOrbital_spin q, e]
    split_ifs <;> simp

/-- **C158** Two systems with such a basis set and opposite laser fields: the electrons of one are mirror images of the electrons of
the other. -/
theorem C158_laser {l : ℕ} (h2 : 2 ≤ l) {L : ℝ} (hL : 0 < L) {a alpha : ℝ} {V : ℝ → ℝ} (even : ∀ x, V (-x) = V x) {hm : Bool}
    {np : Module} {sp an : Bool} {b : BasisSet ℂ} (run : odSincDvr l L a alpha 0 V .four hm np sp an = .ok b)
    {w w' : World ℂ ℝ} {s o s' o' : ℕ} {c c' : ℝ → ℂ} {e e' : ℝ → ℕ → ℂ} (LA : LaserAnswers w s o b c e)
    (LA' : LaserAnswers w' s' o' b c' e') (opposite : ∀ t, c' t * e' t 0 = -(c t * e t 0))
    {H U H' U' : ℝ → NDArray ℂ} (A : Answered w s o H U) (A' : Answered w' s' o' H' U') (N : ℕ) :
    SincMirrors N l b (fun t => spinOne l (H t)) (fun t => spinOne l (H' t)) (fun t => spinTwo l (U t)) fun t => spinTwo l (U' t) := by
  have run' := odSincDvr_ok h2 L a alpha 0 V (show URepr.four ≠ .unknown by decide) hm np sp an
  obtain rfl := Except.ok.inj (run.symm.trans run')
  have k := answered_laser LA rfl rfl rfl A
  have k' := answered_laser LA' rfl rfl rfl A'
  have one : (sincObj l L a alpha 0 V .four hm np sp an).dim = 1 := rfl
  exact C158_mirror h2 hL even run' rfl rfl rfl (F := fun t => c t * e t 0) (F' := fun t => c' t * e' t 0) (c := fun _ => 1) opposite
    (.inl rfl) (fun t p hp q hq => by rw [(k t).1.get p hp q hq, one, sum_range_one]; ring)
    (fun t p hp q hq => by rw [(k' t).1.get p hp q hq, one, sum_range_one]; ring)
    (fun t p hp q hq r hr s hs => by rw [(k t).2, one_mul]) (fun t p hp q hq r hr s hs => by rw [(k' t).2, one_mul]) N

/-- **C158** A system with `AdiabaticSwitching`: mirror images move in the same way, also with the quadratic term of the dipole
moment. -/
theorem C158_switching {l : ℕ} (h2 : 2 ≤ l) {L : ℝ} (hL : 0 < L) {a alpha beta : ℝ} {V : ℝ → ℝ} (even : ∀ x, V (-x) = V x) {hm : Bool}
    {np : Module} {sp an : Bool} {b : BasisSet ℂ} (run : odSincDvr l L a alpha beta V .four hm np sp an = .ok b)
    {w : World ℂ ℝ} {s o : ℕ} {c : ℝ → ℂ} (SA : SwitchingAnswers w s o b c) {H U : ℝ → NDArray ℂ} (A : Answered w s o H U) (N : ℕ) :
    SincMirrors N l b (fun t => spinOne l (H t)) (fun t => spinOne l (H t)) (fun t => spinTwo l (U t)) fun t => spinTwo l (U t) := by
  have run' := odSincDvr_ok h2 L a alpha beta V (show URepr.four ≠ .unknown by decide) hm np sp an
  obtain rfl := Except.ok.inj (run.symm.trans run')
  have k := answered_switching SA rfl rfl rfl A
  have g : ∀ t, ∀ p < l, ∀ q < l, (H t).get [p, q] = (sincH l L V).get [p, q] + 0 * (sincDip l L beta).get [0, p, q] :=
    fun t p hp q hq => by rw [(k t).1, zero_mul, add_zero]
  have g2 : ∀ t, ∀ p < l, ∀ q < l, ∀ r < l, ∀ s < l,
      (U t).get [p, q, r, s] = c t * (sincU l L alpha a .complex128 .four).get [p, q, r, s] :=
    fun t p hp q hq r hr s hs => (k t).2 p hp q hq r hr s hs
  exact C158_mirror h2 hL even run' rfl rfl rfl (F := fun _ => 0) (F' := fun _ => 0) (c := c) (fun _ => neg_zero.symm)
    (.inr fun _ => rfl) g g g2 g2 N

/-- **C158** With `AdiabaticSwitching` (real factor) the parity is conserved: electrons that are their own mirror image, up to a factor,
at one time are so at all times, and their density is symmetric. -/
theorem C158_parity {l : ℕ} (h2 : 2 ≤ l) {L : ℝ} (hL : 0 < L) {a alpha beta : ℝ} {V : ℝ → ℝ} (even : ∀ x, V (-x) = V x) {hm : Bool}
    {np : Module} {sp an : Bool} {b : BasisSet ℂ} (run : odSincDvr l L a alpha beta V .four hm np sp an = .ok b)
    {w : World ℂ ℝ} {s o : ℕ} {c : ℝ → ℂ} (hc : ∀ t, star (c t) = c t) (SA : SwitchingAnswers w s o b c) {H U : ℝ → NDArray ℂ}
    (A : Answered w s o H U) {N : ℕ} {Ψ : ℝ → Wave ℂ N (2 * l)}
    (S : Evolves (fun t => spinOne l (H t)) (fun t => spinTwo l (U t)) Ψ) {ε : ℂ} {t₀ : ℝ}
    (start : ∀ x, mirroredWave (Ψ t₀) x = ε * Ψ t₀ x) :
    (∀ t x, mirroredWave (Ψ t) x = ε * Ψ t x) ∧ (star ε * ε = 1 → ∀ t, ∃ n,
      ((computeParticleDensity (densityMatrix l (Ψ t)) none none).run b).1 = .ok n ∧ n.shape = [l] ∧
        ∀ i < l, n.get [i] = n.get [l - 1 - i]) := by
  have M := C158_switching h2 hL even run SA A N
  have run' := odSincDvr_ok h2 L a alpha beta V (show URepr.four ≠ .unknown by decide) hm np sp an
  obtain rfl := Except.ok.inj (run.symm.trans run')
  have k := answered_switching SA rfl rfl rfl A
  obtain ⟨Hh, Hu⟩ := sinc_herm (l := l) (L := L) (a := a) (alpha := alpha) (beta := beta) (V := V) (H := H) (U := U) (F := fun _ => 0)
    (c := c) (fun _ => star_zero _) hc (fun t p hp q hq => by rw [(k t).1, zero_mul, add_zero])
    (fun t p hp q hq r hr s hs => (k t).2 p hp q hq r hr s hs)
  have e := evolves_unique ⟨fun t => spinOne_herm (Hh t), fun t => spinTwo_herm (Hu t)⟩ ((M.motion Ψ).1 S) (evolves_smul S ε) (s := t₀)
    (funext start)
  have e' : ∀ t x, mirroredWave (Ψ t) x = ε * Ψ t x := fun t x => congrFun (congrFun e t) x
  refine ⟨e', fun hε t => ?_⟩
  obtain ⟨n, n', r, r', sh, sh', g⟩ := M.density (Ψ t)
  have same : densityMatrix l (mirroredWave (Ψ t)) = densityMatrix l (Ψ t) := by
    rw [show mirroredWave (Ψ t) = fun x => ε * Ψ t x from funext (e' t), densityMatrix_factor _ hε]
  rw [same] at r'
  obtain rfl : n = n' := by
    rw [r] at r'
    exact Except.ok.inj r'
  exact ⟨n, r, sh, g⟩

/-- **C158** States of `N` electrons without a field: a state whose energy occurs only once is even or odd, its density is symmetric,
and it has no dipole moment (without the quadratic term). -/
theorem C158_states {l : ℕ} (h2 : 2 ≤ l) {L : ℝ} (hL : 0 < L) {a alpha beta : ℝ} {V : ℝ → ℝ} (even : ∀ x, V (-x) = V x) {hm : Bool}
    {np : Module} {sp an : Bool} {b : BasisSet ℂ} {h u d : NDArray ℂ}
    (run : odSincDvr l L a alpha beta V .four hm np sp an = .ok b) (hh : b.h = some h) (hu : b.u = some u) (hd : b.dipole = some d)
    {N D : ℕ} {E : ℕ → ℝ} {Ψ : ℕ → Wave ℂ N (2 * l)} (S : Spectrum (spinOne l h) (spinTwo l u) D E Ψ) {i : ℕ} (hi : i < D)
    (hE : ∀ j < D, j ≠ i → E j ≠ E i) :
    (mirroredWave (Ψ i) = Ψ i ∨ mirroredWave (Ψ i) = fun x => -Ψ i x) ∧
      (∃ n, ((computeParticleDensity (densityMatrix l (Ψ i)) none none).run b).1 = .ok n ∧ n.shape = [l] ∧
        ∀ k < l, n.get [k] = n.get [l - 1 - k]) ∧ (beta = 0 → meanOne (spinDipole l d 0) (Ψ i) = 0) := by
  have gH : ∀ _ : ℝ, ∀ p < l, ∀ q < l, h.get [p, q] = h.get [p, q] + 0 * d.get [0, p, q] := fun _ p _ q _ => by
    rw [zero_mul, add_zero]
  have gU : ∀ _ : ℝ, ∀ p < l, ∀ q < l, ∀ r < l, ∀ s < l, u.get [p, q, r, s] = 1 * u.get [p, q, r, s] :=
    fun _ p _ q _ r _ s _ => (one_mul _).symm
  have M := C158_mirror h2 hL even run hh hu hd (H := fun _ => h) (H' := fun _ => h) (U := fun _ => u) (U' := fun _ => u)
    (F := fun _ => 0) (F' := fun _ => 0) (c := fun _ => 1) (fun _ => neg_zero.symm) (.inr fun _ => rfl) gH gH gU gU N
  have herm : HermMat l h ∧ HermU l u := by
    obtain rfl := Except.ok.inj (run.symm.trans (odSincDvr_ok h2 L a alpha beta V (by decide) hm np sp an))
    obtain rfl := Option.some.inj hh
    obtain rfl := Option.some.inj hu
    obtain rfl := Option.some.inj hd
    have k := sinc_herm (fun _ => star_zero ℂ) (fun _ => star_one ℂ) gH gU
    exact ⟨k.1 0, k.2 0⟩
  have S' := (M.energies 0 D E Ψ).1 S
  obtain ⟨ε, hε⟩ : ∃ ε : ℂ, ∀ x, mirroredWave (Ψ i) x = ε * Ψ i x := by
    refine ⟨waveInner (Ψ i) (mirroredWave (Ψ i)), fun x => ?_⟩
    rw [S.complete _ (S'.anti i hi) x, sum_eq_single i]
    · intro j hj hji
      rw [inner_energies (spinOne_herm herm.1) (spinTwo_herm herm.2) (S.eigen j (mem_range.1 hj)) (S'.eigen i hi)
        (hE j (mem_range.1 hj) hji), zero_mul]
    · exact fun e => absurd (mem_range.2 hi) e
  obtain ⟨x, hx⟩ : ∃ x, Ψ i x ≠ 0 := by
    by_contra hcon
    push Not at hcon
    have h1 := S.orth i hi i hi
    rw [if_pos rfl, show waveInner (Ψ i) (Ψ i) = 0 from sum_eq_zero fun x _ => by rw [hcon x, mul_zero]] at h1
    exact zero_ne_one h1
  have sq : (ε - 1) * (ε + 1) = 0 := by
    have k := congrFun (mirroredWave_twice (Ψ i)) x
    rw [show mirroredWave (mirroredWave (Ψ i)) x = ε * (ε * Ψ i x) from
      (hε fun j => mirrorOrbital l (x j)).trans (congrArg (ε * ·) (hε x))] at k
    have : (ε - 1) * (ε + 1) * Ψ i x = 0 := by linear_combination k
    exact (mul_eq_zero.1 this).resolve_right hx
  have cases : ε = 1 ∨ ε = -1 := (mul_eq_zero.1 sq).imp sub_eq_zero.1 eq_neg_of_add_eq_zero_left
  have unit : star ε * ε = 1 := by rcases cases with e | e <;> rw [e] <;> simp
  have fn : mirroredWave (Ψ i) = fun x => ε * Ψ i x := funext hε
  refine ⟨?_, ?_, fun hb => ?_⟩
  · rcases cases with e | e
    · left
      rw [fn, e]
      simp
    · right
      rw [fn, e]
      simp
  · obtain ⟨n, n', r, r', sh, sh', g⟩ := M.density (Ψ i)
    rw [fn, densityMatrix_factor _ unit, r] at r'
    obtain rfl := Except.ok.inj r'
    exact ⟨n, r, sh, g⟩
  · subst hb
    have k := C158_dipole h2 hL even (by decide) run hd (Ψ i)
    rw [fn, meanOne_factor _ _ unit] at k
    linear_combination k / 2

/-- **C158** A stronger field lowers the sum of the `m` lowest energies of `N` electrons in an even potential. -/
theorem C158_lowered {l : ℕ} (h2 : 2 ≤ l) {L : ℝ} (hL : 0 < L) {a alpha : ℝ} {V : ℝ → ℝ} (even : ∀ x, V (-x) = V x) {hm : Bool}
    {np : Module} {sp an : Bool} {b : BasisSet ℂ} {h u d : NDArray ℂ}
    (run : odSincDvr l L a alpha 0 V .four hm np sp an = .ok b) (hh : b.h = some h) (hu : b.u = some u) (hd : b.dipole = some d)
    {F₁ F₂ : ℝ} (hF : |F₁| ≤ |F₂|) {H₁ H₂ : NDArray ℂ} (hH₁ : ∀ p < l, ∀ q < l, H₁.get [p, q] = h.get [p, q] + F₁ * d.get [0, p, q])
    (hH₂ : ∀ p < l, ∀ q < l, H₂.get [p, q] = h.get [p, q] + F₂ * d.get [0, p, q]) {N D₁ D₂ : ℕ} {E₁ E₂ : ℕ → ℝ}
    {Ψ₁ Ψ₂ : ℕ → Wave ℂ N (2 * l)} (S₁ : Spectrum (spinOne l H₁) (spinTwo l u) D₁ E₁ Ψ₁)
    (S₂ : Spectrum (spinOne l H₂) (spinTwo l u) D₂ E₂ Ψ₂) {m : ℕ} (hm : m ≤ D₁) : ∑ i ∈ range m, E₂ i ≤ ∑ i ∈ range m, E₁ i := by
  obtain ⟨y, hy, ey⟩ : ∃ y : ℝ, |y| ≤ 1 ∧ F₁ = y * F₂ := by
    by_cases z : F₂ = 0
    · rw [z, abs_zero] at hF
      exact ⟨0, by simp, by rw [abs_nonpos_iff.1 hF, zero_mul]⟩
    · refine ⟨F₁ / F₂, ?_, (div_mul_cancel₀ _ z).symm⟩
      rw [abs_div]
      exact div_le_one_of_le₀ hF (abs_nonneg _)
  set H' : NDArray ℂ := ofFn .complex128 [l, l] fun i => h.get i + ((-F₂ : ℝ) : ℂ) * d.get (0 :: i) with hH'
  have g' : ∀ p < l, ∀ q < l, H'.get [p, q] = h.get [p, q] + ((-F₂ : ℝ) : ℂ) * d.get [0, p, q] := fun p hp q hq => by
    rw [hH', ofFn_get_of (by exact ⟨hp, hq, trivial⟩)]
  have gU : ∀ _ : ℝ, ∀ p < l, ∀ q < l, ∀ r < l, ∀ s < l, u.get [p, q, r, s] = 1 * u.get [p, q, r, s] :=
    fun _ p _ q _ r _ s _ => (one_mul _).symm
  have M := C158_mirror h2 hL even run hh hu hd (H := fun _ => H₂) (H' := fun _ => H') (U := fun _ => u) (U' := fun _ => u)
    (F := fun _ => F₂) (F' := fun _ => ((-F₂ : ℝ) : ℂ)) (c := fun _ => 1) (fun _ => Complex.ofReal_neg _) (.inl rfl) (fun _ => hH₂)
    (fun _ => g') gU gU N
  have T := (M.energies 0 D₂ E₂ Ψ₂).1 S₂
  have k := C134_concave (lam := (1 - y) / 2) (by linarith [(abs_le.1 hy).2]) (by linarith [(abs_le.1 hy).1]) (fun p q => ?_)
    (fun p q r s => ?_) S₂ T S₁ hm
  · linarith
  · unfold spinOne
    split_ifs
    · rw [hH₁ _ (by omega) _ (by omega), hH₂ _ (by omega) _ (by omega), g' _ (by omega) _ (by omega), ey]
      push_cast
      ring
    · simp
  · push_cast
    ring

/-- **C158** The same for the arrays that a system with a `LaserField` (real field) returns at two times: the energies are not higher
when the field is stronger, and equal when it has the same strength, whatever its direction is. -/
theorem C158_stark {l : ℕ} (h2 : 2 ≤ l) {L : ℝ} (hL : 0 < L) {a alpha : ℝ} {V : ℝ → ℝ} (even : ∀ x, V (-x) = V x) {hm : Bool}
    {np : Module} {sp an : Bool} {b : BasisSet ℂ} (run : odSincDvr l L a alpha 0 V .four hm np sp an = .ok b)
    {w : World ℂ ℝ} {s o : ℕ} {c : ℝ → ℂ} {e : ℝ → ℕ → ℂ} (LA : LaserAnswers w s o b c e) {F : ℝ → ℝ}
    (hF : ∀ t, c t * e t 0 = F t) {H U : ℝ → NDArray ℂ} (A : Answered w s o H U) {t₁ t₂ : ℝ} (stronger : |F t₁| ≤ |F t₂|)
    {N : ℕ} {E₁ E₂ : ℕ → ℝ} (S₁ : ElectronEnergies l (H t₁) (U t₁) N E₁) (S₂ : ElectronEnergies l (H t₂) (U t₂) N E₂) :
    (∀ m ≤ (2 * l).choose N, ∑ i ∈ range m, E₂ i ≤ ∑ i ∈ range m, E₁ i) ∧
      (|F t₁| = |F t₂| → ∀ i < (2 * l).choose N, E₁ i = E₂ i) := by
  have run' := odSincDvr_ok h2 L a alpha 0 V (show URepr.four ≠ .unknown by decide) hm np sp an
  obtain rfl := Except.ok.inj (run.symm.trans run')
  have k := answered_laser LA rfl rfl rfl A
  have one : (sincObj l L a alpha 0 V .four hm np sp an).dim = 1 := rfl
  have g : ∀ t, ∀ p < l, ∀ q < l, (H t).get [p, q] = (sincH l L V).get [p, q] + F t * (sincDip l L 0).get [0, p, q] :=
    fun t p hp q hq => by
    rw [(k t).1.get p hp q hq, one, sum_range_one, ← hF]
    ring
  obtain ⟨Ψ₁, S₁⟩ := S₁
  obtain ⟨Ψ₂, S₂⟩ := S₂
  rw [(k t₁).2] at S₁
  rw [(k t₂).2] at S₂
  have le : ∀ m ≤ (2 * l).choose N, ∑ i ∈ range m, E₂ i ≤ ∑ i ∈ range m, E₁ i := fun m hm' =>
    C158_lowered h2 hL even run' rfl rfl rfl stronger (g t₁) (g t₂) S₁ S₂ hm'
  refine ⟨le, fun same i hi => ?_⟩
  have ge : ∀ m ≤ (2 * l).choose N, ∑ i ∈ range m, E₁ i ≤ ∑ i ∈ range m, E₂ i := fun m hm' =>
    C158_lowered h2 hL even run' rfl rfl rfl same.ge (g t₂) (g t₁) S₂ S₁ hm'
  have e0 := le_antisymm (le i hi.le) (ge i hi.le)
  have e1 := le_antisymm (le (i + 1) hi) (ge (i + 1) hi)
  rw [sum_range_succ, sum_range_succ, e0] at e1
  linarith

/-- A parabola is such a potential. -/
example {b : BasisSet ℂ} (run : odSincDvr 3 1 1 1 0 (fun x => 1 / 2 * x ^ 2) .four false 0 false false = .ok b) :
    ∃ h, b.h = some h ∧ h.get [2, 1] = h.get [0, 1] := by
  obtain ⟨h, u, d, f, hh, -, -, -, m, -⟩ := C158_elements (by decide) one_pos (fun x => by ring) (by decide) run
  exact ⟨h, hh, m 0 (by decide) 1 (by decide)⟩

/-- The electron with spin up at the first of three points is seen at the last one, and an uneven potential is not its mirror image. -/
example : mirrorOrbital 3 0 = 4 ∧ mirrorOrbital 3 3 = 3 ∧
    (sincH 2 1 fun x => x).get [2 - 1 - 0, 2 - 1 - 0] ≠ (sincH 2 1 fun x => x).get [0, 0] := by
  refine ⟨rfl, rfl, fun e => ?_⟩
  rw [sincH, ofFn_get_of (by exact ⟨by omega, by omega, trivial⟩), ofFn_get_of (by exact ⟨by omega, by omega, trivial⟩)] at e
  simp only [List.getD_cons_zero, List.getD_cons_succ, if_true] at e
  have e' := add_left_cancel e
  rw [linspace_mirror le_rfl 1 (by omega)] at e'
  have e'' := Complex.ofReal_injective e'
  unfold TwoDim.linspace at e''
  norm_num at e''

end QS.Props
