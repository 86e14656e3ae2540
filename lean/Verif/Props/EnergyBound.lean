import Verif.Props.Positive
import Verif.Props.Energy

/-!
# C93, C94: the energies and Fock matrices of repulsive systems
-/

namespace QS.Props

open NDArray BasisSet Idx Spec TwoDim OneDim SincDvr Coulomb PyM Finset

variable {T : Type}

/-! ## C93 -/

theorem Physical.at_size {m : ℝ} {b : BasisSet ℂ} {l l' : ℕ} (h : Physical m b l) (hw : WellFormed b l') :
    Physical m b l' := by
  obtain rfl : l = l' := h.wf.l_eq.symm.trans hw.l_eq
  exact h

theorem HermMat.diag_real {l : ℕ} {h : NDArray ℂ} (hh : HermMat l h) {p : ℕ} (hp : p < l) : (h.get [p, p]).im = 0 := by
  have := congrArg Complex.im (hh p hp p hp)
  change _ = ((starRingEnd ℂ) _).im at this
  rw [Complex.conj_im] at this
  linarith

/-- **C93** The reference energy of a system with a repulsive interaction is real, and not below the one-body
energy of its occupied orbitals.  For doubly occupied orbitals also the direct repulsion `Σ u_ijij` is a lower
bound on what the interaction adds.  The basis set may have gone through any history of `Ordinary` operations. -/
theorem C93_energy {w : World ℂ T} {s : ℕ} {x : Sys} {m : ℝ} {b₀ b : BasisSet ℂ} {l₀ : ℕ} {ops : List (Op ℂ)}
    (hb : Physical m b₀ l₀) (hist : History (fun _ op => Ordinary op) b₀ ops b) (ok : SysOK w s x b) :
    ∃ r h u S, (World.referenceEnergy s).run w = (.ok r, w) ∧ b.h = some h ∧ b.u = some u ∧ b.s = some S ∧
      r.shape = [] ∧ (r.get []).im = 0 ∧
      (x.kind = .general → ∑ i ∈ range x.n, (h.get [i, i]).re ≤ (r.get []).re ∧
        m * ∑ i ∈ range x.n, (S.get [i, i]).re ≤ (r.get []).re) ∧
      (x.kind = .spatial → 2 * ∑ i ∈ range x.n, (h.get [i, i]).re
          + ∑ i ∈ range x.n, ∑ j ∈ range x.n, (u.get [i, j, i, j]).re ≤ (r.get []).re ∧
        2 * (m * ∑ i ∈ range x.n, (S.get [i, i]).re) ≤ (r.get []).re) := by
  obtain ⟨l', hb'⟩ := C92_history hb hist
  have hb' := Physical.at_size hb' ok.wf
  obtain ⟨h, S, hh, hS, Hh, B⟩ := hb'.one
  obtain ⟨u, hu, P, E⟩ := hb'.two
  obtain ⟨r, h1, h2, h3⟩ := World.referenceEnergy_run ok hh hu
  have hn := ok.size.le
  have hsum : m * ∑ i ∈ range x.n, (S.get [i, i]).re ≤ ∑ i ∈ range x.n, (h.get [i, i]).re := by
    rw [mul_sum]
    exact sum_le_sum fun i hi => B.diag (by have := mem_range.1 hi; omega)
  have him : (∑ i ∈ range x.n, h.get [i, i]).im = 0 := by
    rw [Complex.im_sum]
    exact sum_eq_zero fun i hi => HermMat.diag_real Hh (by have := mem_range.1 hi; omega)
  refine ⟨r, h, u, S, h1, hh, hu, hS, h2, ?_, fun hk => ?_, fun hk => ?_⟩
  · rw [h3]
    cases x.kind with
    | general =>
      change (energyGeneral x.n h u).im = 0
      unfold energyGeneral
      rw [Complex.add_im, him, show (1 / 2 : ℂ) = ((1 / 2 : ℝ) : ℂ) by norm_num, Complex.im_ofReal_mul,
        Complex.im_sum, sum_eq_zero fun i hi => ?_]
      · ring
      · rw [Complex.im_sum]
        refine sum_eq_zero fun j hj => ?_
        have := mem_range.1 hi
        have := mem_range.1 hj
        exact (P.direct (by omega) (by omega)).1
    | spatial =>
      change (energySpatial x.n h u).im = 0
      unfold energySpatial
      rw [Complex.add_im, show (2 : ℂ) = ((2 : ℝ) : ℂ) by norm_num, Complex.im_ofReal_mul, him, Complex.im_sum,
        sum_eq_zero fun i hi => ?_]
      · ring
      · rw [Complex.im_sum]
        refine sum_eq_zero fun j hj => ?_
        have := mem_range.1 hi
        have := mem_range.1 hj
        rw [Complex.sub_im, Complex.im_ofReal_mul, (P.direct (by omega) (by omega)).1,
          (P.exchange E (by omega) (by omega)).1]
        ring
  · have := energyGeneral_ge (h := h) hn P
    rw [h3, hk]
    exact ⟨this, hsum.trans this⟩
  · have := energySpatial_ge (h := h) hn P E
    rw [h3, hk]
    refine ⟨this, ?_⟩
    have h0 : 0 ≤ ∑ i ∈ range x.n, ∑ j ∈ range x.n, (u.get [i, j, i, j]).re := by
      refine sum_nonneg fun i hi => sum_nonneg fun j hj => ?_
      have := mem_range.1 hi
      have := mem_range.1 hj
      exact (P.direct (by omega) (by omega)).2
    change _ ≤ (energySpatial x.n h u).re
    linarith

/-- **C93** With normalised occupied orbitals, every particle contributes at least `m`: `n` particles for a general
system, `2 n` for a spatial one. -/
theorem C93_per_particle {w : World ℂ T} {s : ℕ} {x : Sys} {m : ℝ} {b₀ b : BasisSet ℂ} {l₀ : ℕ} {ops : List (Op ℂ)}
    (hb : Physical m b₀ l₀) (hist : History (fun _ op => Ordinary op) b₀ ops b) (ok : SysOK w s x b)
    (hs : ∀ S, b.s = some S → ∀ i < x.n, S.get [i, i] = 1) :
    ∃ r, (World.referenceEnergy s).run w = (.ok r, w) ∧ (r.get []).im = 0 ∧
      (x.kind = .general → x.n * m ≤ (r.get []).re) ∧ (x.kind = .spatial → (2 * x.n) * m ≤ (r.get []).re) := by
  obtain ⟨r, h, u, S, h1, -, -, hS, -, h3, h4, h5⟩ := C93_energy hb hist ok
  have e : ∑ i ∈ range x.n, (S.get [i, i]).re = x.n := by
    rw [sum_congr rfl fun i hi => by rw [hs S hS i (mem_range.1 hi), Complex.one_re]]
    simp
  rw [e] at h4 h5
  refine ⟨r, h1, h3, fun hk => ?_, fun hk => ?_⟩
  · rw [mul_comm]; exact (h4 hk).2
  · have := (h5 hk).2
    linarith

/-- **C93** Quantum dots: any system on the oscillator basis, whatever was done to it, has at least the zero-point
energy of its particles as long as its occupied orbitals are normalised. -/
theorem C93_tdho (l num : ℕ) (radiusLength : ℝ) {omega mass : ℝ} (ho : 0 < omega) (hm : 0 < mass) (np : Module) :
    ∃ b₀, tdho (getCoulombElementsRaw l) l num radiusLength omega mass np = .ok b₀ ∧
      ∀ (b : BasisSet ℂ) (ops : List (Op ℂ)) (w : World ℂ T) (s : ℕ) (x : Sys),
        History (fun _ op => Ordinary op) b₀ ops b → SysOK w s x b →
        (∀ S, b.s = some S → ∀ i < x.n, S.get [i, i] = 1) →
        ∃ r, (World.referenceEnergy s).run w = (.ok r, w) ∧ (r.get []).im = 0 ∧
          (x.kind = .general → x.n * omega ≤ (r.get []).re) ∧
          (x.kind = .spatial → (2 * x.n) * omega ≤ (r.get []).re) := by
  obtain ⟨b₀, h, hb⟩ := C92_tdho l num radiusLength ho hm np
  exact ⟨b₀, h, fun b ops w s x hist ok hs => C93_per_particle hb hist ok hs⟩

/-- Six spin orbitals (made from three) of a quantum dot with `ω = 1/2`, two of them occupied: the reference energy
is at least one. -/
example : ∃ b₀ b r, tdho (getCoulombElementsRaw 3) 3 5 4 (1 / 2) 1 0 = .ok b₀ ∧
    (changeToGeneralBase [1, 0] [0, 1] true).run b₀ = (.ok true, b) ∧
    (World.referenceEnergy (T := ℝ) 0).run ⟨[b], [World.newSys .general 0 2 6 (some 0)], []⟩
      = (.ok r, ⟨[b], [World.newSys .general 0 2 6 (some 0)], []⟩) ∧ 1 ≤ (r.get []).re := by
  obtain ⟨b₀, h, H⟩ := C93_tdho (T := ℝ) 3 5 4 (one_half_pos (α := ℝ)) one_pos 0
  obtain ⟨b₁, h', hb⟩ := C91_tdho 3 5 4 (1 / 2) 1 0
  rw [h] at h'
  cases h'
  obtain ⟨S, hs, es⟩ := hb.s
  obtain ⟨b, e⟩ := C16_succeeds (b := b₀) (a₀ := 1) (a₁ := 0) (b₀ := 0) (b₁ := 1) true hb.wf hb.spin_eq
    (by rw [hs]; rfl) (by constructor <;> simp [spinor])
  obtain ⟨-, G, g, -⟩ := C16_general hb.wf hb.spin_eq e
  have hist : History (fun _ op => Ordinary op) b₀ [Op.toGeneral [1, 0] [0, 1] true] b :=
    .cons trivial (by
      change (changeToGeneralBase [1, 0] [0, 1] true >>= fun _ => pure ()).run b₀ = _
      rw [PyM.run_bind, e]; rfl) (.nil b)
  have ok : SysOK (T := ℝ) ⟨[b], [World.newSys .general 0 2 6 (some 0)], []⟩ 0 (World.newSys .general 0 2 6 (some 0)) b :=
    ⟨rfl, rfl, g, by rw [G.rest.2.2.2, hb.np_eq]; rfl, World.newSys_sized (by omega)⟩
  obtain ⟨r, h1, -, h2, -⟩ := H b _ _ _ _ hist ok fun S' hS' i hi => by
    have hd := G.s
    rw [hs, hS'] at hd
    have hi' : i < 2 * 1 := hi
    obtain ⟨p, a, hp, ha, rfl⟩ := parity_cases i hi'
    have := hd.2 p (by omega) p (by omega) a ha a ha
    rw [this, if_pos rfl, es p (by omega) p (by omega), if_pos rfl]
  refine ⟨b₀, b, r, h, e, h1, ?_⟩
  have := h2 rfl
  change ((2 : ℕ) : ℝ) * (1 / 2) ≤ _ at this
  norm_num at this
  exact this

/-! ## C94 -/

theorem pairForm_at {l i : ℕ} (hi : i < l) (u : NDArray ℂ) (v : ℕ → ℂ) :
    pairForm l u (fun p => if p.2 = i then v p.1 else 0)
      = ∑ p ∈ range l, ∑ q ∈ range l, star (v p) * u.get [p, i, q, i] * v q := by
  unfold pairForm
  rw [sum_product]
  refine sum_congr rfl fun p _ => ?_
  rw [sum_eq_single_of_mem i (mem_range.2 hi) fun j _ hj => by
    refine sum_eq_zero fun r _ => ?_
    dsimp only
    rw [if_neg hj, star_zero, zero_mul, zero_mul], sum_product]
  refine sum_congr rfl fun q _ => ?_
  rw [sum_eq_single_of_mem i (mem_range.2 hi) fun j _ hj => by dsimp only; rw [if_neg hj, mul_zero]]
  dsimp only
  rw [if_pos rfl, if_pos rfl]

theorem oneForm_add_sum {l n : ℕ} {F h : NDArray ℂ} {g : ℕ → ℕ → ℕ → ℂ}
    (hF : ∀ p < l, ∀ q < l, F.get [p, q] = h.get [p, q] + ∑ i ∈ range n, g i p q) (v : ℕ → ℂ) :
    oneForm l F v = oneForm l h v
      + ∑ i ∈ range n, ∑ p ∈ range l, ∑ q ∈ range l, star (v p) * g i p q * v q := by
  unfold oneForm
  rw [sum_comm (s := range n), ← sum_add_distrib]
  refine sum_congr rfl fun p hp => ?_
  rw [sum_comm (s := range n), ← sum_add_distrib]
  refine sum_congr rfl fun q hq => ?_
  rw [hF p (mem_range.1 hp) q (mem_range.1 hq), mul_add, add_mul, mul_sum, sum_mul]

/-- The mean field of a repulsive interaction is repulsive. -/
theorem meanField_nonneg {l n : ℕ} (hn : n ≤ l) {u : NDArray ℂ} (P : PosU l u) (E : ExchU l u) (v : ℕ → ℂ) :
    (0 ≤ (∑ i ∈ range n, ∑ p ∈ range l, ∑ q ∈ range l, star (v p) * u.get [p, i, q, i] * v q).re) ∧
    0 ≤ (∑ i ∈ range n, ∑ p ∈ range l, ∑ q ∈ range l,
      star (v p) * (2 * u.get [p, i, q, i] - u.get [p, i, i, q]) * v q).re := by
  have h1 : ∀ i < l, 0 ≤ (∑ p ∈ range l, ∑ q ∈ range l, star (v p) * u.get [p, i, q, i] * v q).re := fun i hi => by
    rw [← pairForm_at hi]
    exact (P _).2
  have h2 : ∀ i < l, 0 ≤ (∑ p ∈ range l, ∑ q ∈ range l,
      star (v p) * (u.get [p, i, q, i] - u.get [p, i, i, q]) * v q).re := fun i hi => by
    let y : NDArray ℂ := ofFn .complex128 [l, l, l, l] (fun k => u.get [k.getD 0 0, k.getD 1 0, k.getD 2 0, k.getD 3 0]
      - u.get [k.getD 0 0, k.getD 1 0, k.getD 3 0, k.getD 2 0])
    have hy : IsAntiSymmetrised l u y := ⟨rfl, fun p hp q hq r hr s hs =>
      ofFn_get_of (by exact ⟨hp, hq, hr, hs, trivial⟩)⟩
    have := (P.anti E hy fun p => if p.2 = i then v p.1 else 0).2
    rw [pairForm_at hi] at this
    refine this.trans_eq (congrArg Complex.re (sum_congr rfl fun p hp => sum_congr rfl fun q hq => ?_))
    rw [hy.2 p (mem_range.1 hp) i hi q (mem_range.1 hq) i hi]
  rw [Complex.re_sum, Complex.re_sum]
  refine ⟨sum_nonneg fun i hi => h1 i (by have := mem_range.1 hi; omega), sum_nonneg fun i hi => ?_⟩
  have hi : i < l := by have := mem_range.1 hi; omega
  have e : ∑ p ∈ range l, ∑ q ∈ range l, star (v p) * (2 * u.get [p, i, q, i] - u.get [p, i, i, q]) * v q
      = (∑ p ∈ range l, ∑ q ∈ range l, star (v p) * u.get [p, i, q, i] * v q)
        + ∑ p ∈ range l, ∑ q ∈ range l, star (v p) * (u.get [p, i, q, i] - u.get [p, i, i, q]) * v q := by
    rw [← sum_add_distrib]
    refine sum_congr rfl fun p _ => ?_
    rw [← sum_add_distrib]
    refine sum_congr rfl fun q _ => ?_
    ring
  rw [e, Complex.add_re]
  exact add_nonneg (h1 i hi) (h2 i hi)

/-- **C94** The Fock matrix of a system with a repulsive interaction is Hermitian, and as an operator not below the
one-body Hamiltonian, hence not below `m` times the overlap: with or without a buffer, general and spatial. -/
theorem C94_fock {x : Sys} {mem : Mem ℂ} {h u l : ℕ} {f : Option ℕ} {H U S : NDArray ℂ} {np : Module} {m : ℝ}
    {b : BasisSet ℂ} (hb : Physical m b l) (eh : b.h = some H) (eu : b.u = some U) (es : b.s = some S)
    (hx : x.np = some np) (ho : x.o = (0, x.n)) (hn : x.n ≤ l)
    (hh : mem[h]? = some H) (hu : mem[u]? = some U) (hf : GoodBuffer mem h u l f)
    (dh : (outDtype mem H f).promote H.dtype = outDtype mem H f)
    (du : (outDtype mem H f).promote U.dtype = outDtype mem H f) :
    ∃ r mem' F, (World.constructFock x h u f).run mem = (.ok r, mem') ∧ mem'[r]? = some F ∧ F.shape = [l, l] ∧
      HermMat l F ∧ ∀ v, (oneForm l H v).re ≤ (oneForm l F v).re ∧ m * (oneForm l S v).re ≤ (oneForm l F v).re := by
  obtain ⟨H', S', eh', es', Hh, B⟩ := hb.one
  obtain ⟨U', eu', P, E⟩ := hb.two
  rw [eh] at eh'; cases eh'
  rw [es] at es'; cases es'
  rw [eu] at eu'; cases eu'
  obtain ⟨H', eh', sh⟩ := hb.wf.h
  rw [eh] at eh'; cases eh'
  obtain ⟨U', eu', su⟩ := hb.wf.u
  rw [eu] at eu'; cases eu'
  obtain ⟨r, mem', F, run, hF, -, -, -, -, -, sF, -, ent⟩ := C26_fock hx ho hn hh hu sh su hf dh du
  obtain ⟨r', mem'', F', run', hF', HF⟩ := C26_hermitian hx ho hn hh hu sh su hf dh du Hh P.herm fun _ => E
  rw [run] at run'
  cases run'
  rw [hF] at hF'
  cases hF'
  refine ⟨r, mem', F, run, hF, sF, HF, fun v => ?_⟩
  have key : (oneForm l H v).re ≤ (oneForm l F v).re := by
    cases hk : x.kind with
    | general =>
      rw [oneForm_add_sum (h := H) (n := x.n) (fun p hp q hq => (ent p hp q hq).1 hk), Complex.add_re]
      exact le_add_of_nonneg_right (meanField_nonneg hn P E v).1
    | spatial =>
      rw [oneForm_add_sum (h := H) (n := x.n) (fun p hp q hq => (ent p hp q hq).2 hk), Complex.add_re]
      exact le_add_of_nonneg_right (meanField_nonneg hn P E v).2
  exact ⟨key, (B v).trans key⟩

/-- Two doubly occupied orbitals out of four of the one-dimensional oscillator with `ω = 3`: no orbital has a
Fock energy below `3/2`. -/
example : ∃ b H U r mem' F, odho 4 5 11 3 1 1 0 0 false false = .ok b ∧ b.h = some H ∧ b.u = some U ∧
    (World.constructFock (World.newSys .spatial 0 2 4 (some 0)) 0 1 none).run [H, U] = (.ok r, mem') ∧
    mem'[r]? = some F ∧ ∀ p < 4, 3 / 2 ≤ (F.get [p, p]).re := by
  obtain ⟨b, h1, hb⟩ := C92_odho 4 (L := 5) (by norm_num) (num := 11) (by omega) (omega := 3) (by norm_num) 1
    (alpha := 1) (by norm_num) 0 0 false false
  obtain ⟨b', g1, G, hh, -⟩ := odho_ok 4 5 (num := 11) (by omega) 3 1 1 0 0 false false
  rw [h1] at g1
  cases g1
  obtain ⟨r, mem', F, run, hF, -, -, B⟩ := C94_fock (mem := [_, _]) (h := 0) (u := 1) (f := none) (np := 0)
    (x := World.newSys .spatial 0 2 4 (some 0)) hb hh G.u_eq G.s_eq rfl rfl (by decide) rfl rfl
    (by intro r hr; cases hr) rfl rfl
  refine ⟨b, _, _, r, mem', F, h1, hh, G.u_eq, run, hF, fun p hp => ?_⟩
  have h2 := BoundedBelow.diag (fun v => (B v).2) hp
  rw [eye_entry 4 p hp p hp, if_pos rfl, Complex.one_re, mul_one] at h2
  exact h2

/-- **C94** Orbital energies: if `F v = ε S v` with `v* S v > 0`, then `ε` is real and at least `m`. -/
theorem C94_orbital_energies {m : ℝ} {l : ℕ} {F S : NDArray ℂ} (hF : HermMat l F)
    (hS : HermMat l S) (hm : ∀ v, m * (oneForm l S v).re ≤ (oneForm l F v).re) {v : ℕ → ℂ} {ε : ℂ}
    (hv : ∀ p < l, ∑ q ∈ range l, F.get [p, q] * v q = ε * ∑ q ∈ range l, S.get [p, q] * v q)
    (hp : 0 < (oneForm l S v).re) : ε.im = 0 ∧ m ≤ ε.re := by
  have im0 : ∀ {x : NDArray ℂ}, HermMat l x → (oneForm l x v).im = 0 := by
    intro x hx
    have : star (oneForm l x v) = oneForm l x v := by
      unfold oneForm
      rw [star_sum, sum_comm]
      refine (sum_congr rfl fun p hp => ?_)
      rw [star_sum]
      refine sum_congr rfl fun q hq => ?_
      rw [star_mul', star_mul', star_star, ← hx q (mem_range.1 hq) p (mem_range.1 hp)]
      ring
    have := congrArg Complex.im this
    change ((starRingEnd ℂ) _).im = _ at this
    rw [Complex.conj_im] at this
    linarith
  have e : oneForm l F v = ε * oneForm l S v := by
    unfold oneForm
    rw [mul_sum]
    refine sum_congr rfl fun p hp => ?_
    have := congrArg (star (v p) * ·) (hv p (mem_range.1 hp))
    simp only [mul_sum] at this ⊢
    refine Eq.trans (sum_congr rfl fun q _ => by ring) (this.trans (sum_congr rfl fun q _ => by ring))
  have h1 := im0 hF
  have h2 := im0 hS
  have h3 := hm v
  rw [e, Complex.mul_im, h2] at h1
  rw [e, Complex.mul_re, h2] at h3
  have h4 : ε.im = 0 := by
    rcases mul_eq_zero.1 (by linarith : ε.im * (oneForm l S v).re = 0) with h | h
    · exact h
    · linarith
  refine ⟨h4, ?_⟩
  rw [mul_zero, sub_zero] at h3
  exact le_of_mul_le_mul_right h3 hp

end QS.Props
