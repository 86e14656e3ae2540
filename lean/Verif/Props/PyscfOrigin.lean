import Verif.Spec.PyscfOrigin
import Verif.Props.Pyscf
import Verif.Props.Evolution
import Mathlib.MeasureTheory.Integral.IntervalIntegral.FundThmCalculus

/-!
# The origin of the dipole moment (C132)
-/

namespace QS.Props

open NDArray BasisSet World PyM Pyscf Finset Spec OneDim

variable {K : Type} [PyScalar K] {T : Type}

/-- **C132** The point that the RHF constructor takes as origin is the one and only point about which the nuclei have no dipole
moment. -/
theorem C132_center {a : ℕ} {m : Molecule K} (hn : Nuclei a m) :
    ∃ c, chargeCenter m.charges m.coords = .ok c ∧ c.shape = [3] ∧
      ∀ (R : ℕ → K) (k : ℕ), k < 3 → (nuclearDipole a m R k = 0 ↔ R k = c.get [k]) := by
  unfold chargeCenter
  rw [hn.charges, hn.coords]
  simp only [if_true]
  refine ⟨_, rfl, rfl, fun R k hk => ?_⟩
  rw [ofFn_get_of (by simp [hk])]
  simp only [List.getD_cons_zero, nuclearDipole, mul_sub, sum_sub_distrib, ← sum_mul]
  rw [eq_div_iff hn.total, sub_eq_zero, mul_comm (R k)]
  exact eq_comm

/-- **C132** The origin moves with the molecule. -/
theorem C132_moves {a : ℕ} {v : ℕ → K} {m m' : Molecule K} (hn : Nuclei a m) (hn' : Nuclei a m') (mv : Moved a v m m') :
    ∃ c c', chargeCenter m.charges m.coords = .ok c ∧ chargeCenter m'.charges m'.coords = .ok c' ∧
      ∀ k < 3, c'.get [k] = c.get [k] + v k := by
  obtain ⟨c, h1, -, h2⟩ := C132_center hn
  obtain ⟨c', h1', -, h2'⟩ := C132_center hn'
  refine ⟨c, c', h1, h1', fun k hk => ((h2' (fun k => c.get [k] + v k) k hk).1 ?_).symm⟩
  rw [← (h2 (fun k => c.get [k]) k hk).2 rfl]
  unfold nuclearDipole
  refine sum_congr rfl fun z hz => ?_
  rw [mv.charges, mv.coords z (mem_range.1 hz) k hk]
  ring

/-- The orbitals of the basis set `b` are the RHF orbitals of the molecule, and its dipole moment is taken about the point `R`. -/
structure RhfAbout (m : Molecule K) (n : ℕ) (R : ℕ → K) (b : BasisSet K) : Prop where
  orbitals : ∃ R' : NDArray K, HoldsRhf (m.about R') n b
  dipole : ∃ d, b.dipole = some d ∧ d.shape = [3, n, n] ∧ ∀ k < 3, ∀ p < n, ∀ q < n, d.get [k, p, q] =
    (∑ i ∈ range m.mole.nao, ∑ j ∈ range m.mole.nao, m.mole.moCoeff.get [i, p] *
      (m.rAt (NDArray.zeros .float64 [3])).get [k, i, j] * m.mole.moCoeff.get [j, q]) - if p = q then R k else 0

theorem rhfAbout {m : Molecule K} (ho : OriginShifts m) {n : ℕ} (hr : RealOrtho m.mole.nao n m.mole.ovlp m.mole.moCoeff)
    {R : NDArray K} (hR : R.shape = [3]) {b : BasisSet K} (hb : HoldsRhf (m.about R) n b) :
    RhfAbout m n (fun k => R.get [k]) b := by
  obtain ⟨d, h1, h2, h3⟩ := hb.dipole
  refine ⟨⟨R, hb⟩, d, h1, h2, fun k hk p hp q hq => ?_⟩
  rw [h3 k hk p hp q hq]
  have e : (if p = q then R.get [k] else 0) = R.get [k] * ∑ i ∈ range m.mole.nao, ∑ j ∈ range m.mole.nao,
      m.mole.moCoeff.get [i, p] * m.mole.ovlp.get [i, j] * m.mole.moCoeff.get [j, q] := by
    rw [hr.ortho p hp q hq]
    split_ifs <;> simp
  rw [e, mul_sum, ← sum_sub_distrib]
  refine sum_congr rfl fun i hi => ?_
  rw [mul_sum, ← sum_sub_distrib]
  refine sum_congr rfl fun j hj => ?_
  show m.mole.moCoeff.get [i, p] * (m.rAt R).get [k, i, j] * m.mole.moCoeff.get [j, q] = _
  rw [ho.get R hR k hk i (mem_range.1 hi) j (mem_range.1 hj)]
  ring

theorem about_shaped {m : Molecule K} (hm : m.mole.Shaped) (ho : OriginShifts m) {R : NDArray K} (hR : R.shape = [3]) :
    (m.about R).Shaped := ⟨hm.hcore, hm.ovlp, hm.eri, ho.shape R hR⟩

/-- **C132** `construct_pyscf_system_rhf(…, add_spin=False)`: the stored dipole moment is that of the RHF orbitals about the point about
which the nuclei have no dipole moment. -/
theorem C132_rhf (m : Molecule K) (hm : m.mole.Shaped) (ho : OriginShifts m) {a : ℕ} (hn : Nuclei a m)
    (he : m.mole.nelectron % 2 = 0) (hl : m.mole.nelectron / 2 ≤ m.mole.nao) {n : ℕ}
    (hC : m.mole.moCoeff.shape = [m.mole.nao, n]) (hln : m.mole.nelectron / 2 ≤ n)
    (hr : RealOrtho m.mole.nao n m.mole.ovlp m.mole.moCoeff) (anti : Bool) (np : Module) (w : World K T) :
    ∃ g w' x b R, (constructRhfOf m false anti np).run w = (.ok g, w') ∧ SysOK w' g x b ∧ x.kind = .spatial ∧
      2 * x.n = m.mole.nelectron ∧ RhfAbout m n R b ∧ ∀ k < 3, nuclearDipole a m R k = 0 := by
  obtain ⟨c, hc, hs, hz⟩ := C132_center hn
  obtain ⟨g, w', x, b, h1, h2, h3, h4, h5⟩ := C68_rhf (m.about c) (about_shaped hm ho hs) he hl hC hln hr anti np w
  refine ⟨g, w', x, b, fun k => c.get [k], ?_, h2, h3, h4, rhfAbout ho hr hs h5, fun k hk => (hz _ k hk).2 rfl⟩
  unfold constructRhfOf
  have ha : (PyM.assert (decide (m.mole.nelectron % 2 = 0)) : PyM (World K T) Unit).run w = (.ok (), w) := by
    rw [he]; rfl
  rw [run_bind_ok ha, hc, run_bind_ok (run_liftM ..)]
  exact h1

/-- **C132** With `add_spin=True`: the spin-doubled version of that basis set. -/
theorem C132_rhf_spin (m : Molecule K) (hm : m.mole.Shaped) (ho : OriginShifts m) {a : ℕ} (hn : Nuclei a m)
    (he : m.mole.nelectron % 2 = 0) (hl : m.mole.nelectron / 2 ≤ m.mole.nao) {n : ℕ}
    (hC : m.mole.moCoeff.shape = [m.mole.nao, n]) (hln : m.mole.nelectron / 2 ≤ n)
    (hr : RealOrtho m.mole.nao n m.mole.ovlp m.mole.moCoeff) (anti : Bool) (np : Module) (w : World K T) :
    ∃ g w' x b b' R, (constructRhfOf m true anti np).run w = (.ok g, w') ∧ SysOK w' g x b' ∧ x.kind = .general ∧
      x.n = m.mole.nelectron ∧ GeneralOf b b' n anti ∧ RhfAbout m n R b ∧ ∀ k < 3, nuclearDipole a m R k = 0 := by
  obtain ⟨c, hc, hs, hz⟩ := C132_center hn
  obtain ⟨g, w', x, b, b', s, h1, h2, h3, h4, h5, h6, -⟩ :=
    C68_rhf_spin (m.about c) (about_shaped hm ho hs) he hl hC hln hr anti np w
  refine ⟨g, w', x, b, b', fun k => c.get [k], ?_, h2, h3, h4, h6, rhfAbout ho hr hs h5, fun k hk => (hz _ k hk).2 rfl⟩
  unfold constructRhfOf
  have ha : (PyM.assert (decide (m.mole.nelectron % 2 = 0)) : PyM (World K T) Unit).run w = (.ok (), w) := by
    rw [he]; rfl
  rw [run_bind_ok ha, hc, run_bind_ok (run_liftM ..)]
  exact h1

/-- **C132** Moving the molecule does not change the dipole moment of its RHF system. -/
theorem C132_moved {a n : ℕ} {v R R' : ℕ → K} {m m' : Molecule K} (hn : Nuclei a m) (hn' : Nuclei a m') (mv : Moved a v m m')
    {b b' : BasisSet K} (hr : RealOrtho m.mole.nao n m.mole.ovlp m.mole.moCoeff)
    (hb : RhfAbout m n R b) (hR : ∀ k < 3, nuclearDipole a m R k = 0)
    (hb' : RhfAbout m' n R' b') (hR' : ∀ k < 3, nuclearDipole a m' R' k = 0) :
    ∃ d d', b.dipole = some d ∧ b'.dipole = some d' ∧ d'.shape = d.shape ∧
      ∀ k < 3, ∀ p < n, ∀ q < n, d'.get [k, p, q] = d.get [k, p, q] := by
  obtain ⟨d, h1, h2, h3⟩ := hb.dipole
  obtain ⟨d', h1', h2', h3'⟩ := hb'.dipole
  obtain ⟨c, c', k1, k1', k2⟩ := C132_moves hn hn' mv
  obtain ⟨_, l1, -, l2⟩ := C132_center hn
  obtain rfl := Except.ok.inj (k1.symm.trans l1)
  obtain ⟨_, l1', -, l2'⟩ := C132_center hn'
  obtain rfl := Except.ok.inj (k1'.symm.trans l1')
  refine ⟨d, d', h1, h1', h2'.trans h2.symm, fun k hk p hp q hq => ?_⟩
  rw [h3 k hk p hp q hq, h3' k hk p hp q hq, mv.nao, mv.mo, (l2' R' k hk).1 (hR' k hk), (l2 R k hk).1 (hR k hk), k2 k hk]
  have e : (if p = q then v k else 0) = v k * ∑ i ∈ range m.mole.nao, ∑ j ∈ range m.mole.nao,
      m.mole.moCoeff.get [i, p] * m.mole.ovlp.get [i, j] * m.mole.moCoeff.get [j, q] := by
    rw [hr.ortho p hp q hq]
    split_ifs <;> simp
  have s : ∑ i ∈ range m.mole.nao, ∑ j ∈ range m.mole.nao, m.mole.moCoeff.get [i, p] *
        (m'.rAt (NDArray.zeros .float64 [3])).get [k, i, j] * m.mole.moCoeff.get [j, q] =
      (∑ i ∈ range m.mole.nao, ∑ j ∈ range m.mole.nao, m.mole.moCoeff.get [i, p] *
        (m.rAt (NDArray.zeros .float64 [3])).get [k, i, j] * m.mole.moCoeff.get [j, q]) + if p = q then v k else 0 := by
    rw [e, mul_sum, ← sum_add_distrib]
    refine sum_congr rfl fun i hi => ?_
    rw [mul_sum, ← sum_add_distrib]
    refine sum_congr rfl fun j hj => ?_
    rw [mv.r k hk i (mem_range.1 hi) j (mem_range.1 hj)]
    ring
  rw [s]
  split_ifs <;> ring

/-! ## The motion in a laser field -/

section

variable {N L : ℕ}

/-- A multiple of the identity counts the particles. -/
theorem oneBodyOp_identity (c : ℂ) (Ψ : Wave ℂ N L) (x) :
    oneBodyOp (fun p q => if p = q then c else 0) Ψ x = N * c * Ψ x := by
  unfold oneBodyOp
  simp only [ite_mul, zero_mul, sum_ite_eq, mem_univ, if_true, Function.update_eq_self, sum_const, card_univ, Fintype.card_fin,
    nsmul_eq_mul]
  ring

theorem hamiltonOp_shift {h h' : Fin L → Fin L → ℂ} {c : ℂ} (hh : ∀ p q, h' p q = h p q - if p = q then c else 0)
    (u : Fin L → Fin L → Fin L → Fin L → ℂ) (Ψ : Wave ℂ N L) (x) : hamiltonOp h' u Ψ x = hamiltonOp h u Ψ x - N * c * Ψ x := by
  have : oneBodyOp h' Ψ x = oneBodyOp h Ψ x - oneBodyOp (fun p q => if p = q then c else 0) Ψ x := by
    unfold oneBodyOp
    simp only [hh, sub_mul, sum_sub_distrib]
  unfold hamiltonOp
  rw [this, oneBodyOp_identity]
  ring

/-- Energies that depend on the time only give a phase. -/
theorem evolves_phase {h h' : ℝ → Fin L → Fin L → ℂ} {u u' : ℝ → Fin L → Fin L → Fin L → Fin L → ℂ} {c θ : ℝ → ℝ}
    (hθ : ∀ t, HasDerivAt θ (N * c t) t) (hh : ∀ t p q, h' t p q = h t p q - if p = q then (c t : ℂ) else 0)
    (hu : ∀ t, u' t = u t) {Ψ : ℝ → Wave ℂ N L} (hΨ : Evolves h u Ψ) :
    Evolves h' u' fun t x => Complex.exp (Complex.I * θ t) * Ψ t x := by
  intro t x
  have d1 : HasDerivAt (fun t => Complex.exp (Complex.I * θ t)) (Complex.exp (Complex.I * θ t) * (Complex.I * (N * c t : ℝ))) t :=
    (((hθ t).ofReal_comp).const_mul Complex.I).cexp
  refine (d1.mul (hΨ t x)).congr_deriv ?_
  rw [hu, hamiltonOp_smul, hamiltonOp_shift (hh t)]
  push_cast
  ring

theorem sameMeasured {Ψ Ψ' : ℝ → Wave ℂ N L} (h : SameUpToPhase Ψ Ψ') : SameMeasured Ψ Ψ' := by
  obtain ⟨θ, hθ⟩ := h
  have e : ∀ t, Ψ' t = fun x => Complex.exp (Complex.I * θ t) * Ψ t x := fun t => funext (hθ t)
  have n1 : ∀ t : ℝ, ‖Complex.exp (Complex.I * θ t)‖ = 1 := fun t => by
    rw [mul_comm]; exact Complex.norm_exp_ofReal_mul_I _
  refine ⟨fun t Φ => ?_, fun t A hA => ?_⟩
  · rw [e, waveInner_smul, norm_mul, n1, one_mul]
  · rw [e, hA, waveInner_smul, waveInner_smul_left, ← mul_assoc, ← starRingEnd_apply, Complex.mul_conj, Complex.normSq_eq_norm_sq, n1]
    simp

end

/-- **C132** The dipole moment of a neutral molecule (of its nuclei and of `N` electrons with a normalised wave function in its RHF
orbitals) does not depend on the origin; about the origin of the RHF constructor it is that of the electrons alone. -/
theorem C132_total {a n N : ℕ} {R R' : ℕ → ℂ} {m : Molecule ℂ} {b b' : BasisSet ℂ} (hb : RhfAbout m n R b) (hb' : RhfAbout m n R' b')
    (neutral : ∑ z ∈ range a, m.charges.get [z] = N) {Ψ : Wave ℂ N (2 * n)} (hΨ : waveInner Ψ Ψ = 1) :
    ∃ d d', b.dipole = some d ∧ b'.dipole = some d' ∧ ∀ k < 3,
      nuclearDipole a m R k - meanOne (spinDipole n d k) Ψ = nuclearDipole a m R' k - meanOne (spinDipole n d' k) Ψ ∧
      (nuclearDipole a m R k = 0 → nuclearDipole a m R' k - meanOne (spinDipole n d' k) Ψ = -meanOne (spinDipole n d k) Ψ) := by
  obtain ⟨d, h1, -, h3⟩ := hb.dipole
  obtain ⟨d', h1', -, h3'⟩ := hb'.dipole
  have key : ∀ k < 3, nuclearDipole a m R k - meanOne (spinDipole n d k) Ψ =
      nuclearDipole a m R' k - meanOne (spinDipole n d' k) Ψ := by
    intro k hk
    have e : ∀ p q, spinDipole n d' k p q = spinDipole n d k p q - if p = q then R' k - R k else 0 := by
      intro p q
      unfold spinDipole
      by_cases hs : p.1 % 2 = q.1 % 2
      · rw [if_pos hs, if_pos hs, h3 k hk _ (by omega) _ (by omega), h3' k hk _ (by omega) _ (by omega)]
        by_cases hpq : p = q
        · simp only [hpq, if_true]; ring
        · have : ¬ p.1 / 2 = q.1 / 2 := fun h => hpq (Fin.ext (by omega))
          simp [hpq, this]
      · rw [if_neg hs, if_neg hs, if_neg (fun h => hs (by rw [h])), sub_zero]
    have e2 : meanOne (spinDipole n d' k) Ψ = meanOne (spinDipole n d k) Ψ - N * (R' k - R k) := by
      have : ∀ x, oneBodyOp (spinDipole n d' k) Ψ x = oneBodyOp (spinDipole n d k) Ψ x - N * (R' k - R k) * Ψ x := fun x => by
        have := hamiltonOp_shift e (fun _ _ _ _ => 0) Ψ x
        simpa [hamiltonOp, twoBodyOp] using this
      have s : waveInner Ψ (oneBodyOp (spinDipole n d' k) Ψ) =
          waveInner Ψ (oneBodyOp (spinDipole n d k) Ψ) - N * (R' k - R k) * waveInner Ψ Ψ := by
        rw [funext this]
        unfold waveInner
        rw [mul_sum, ← sum_sub_distrib]
        exact sum_congr rfl fun x _ => by ring
      unfold meanOne
      rw [s, hΨ, mul_one]
    rw [e2]
    unfold nuclearDipole
    simp only [mul_sub, sum_sub_distrib, ← sum_mul, neutral]
    ring
  exact ⟨d, d', h1, h1', fun k hk => ⟨key k hk, fun h => by rw [← key k hk, h, zero_sub]⟩⟩

/-- **C132** Two systems with the same elements whose dipole moments are taken about different points, in the same laser field (with a
callable pulse or polarisation, see C36): any number of electrons that start with the same wave function stay the same up to a phase, so
that nothing that can be measured depends on the origin. -/
theorem C132_laser {w₁ w₁' w₂ w₂' : World ℂ ℝ} {s₁ s₂ o₁ o₂ l dim : ℕ} {x₁ x₂ : Sys} {b₁ b₂ : BasisSet ℂ} {y₁ y₂ : TEOp ℂ ℝ}
    {R : ℕ → ℝ} {pulse : Attr ℂ ℝ} {pol : Option (Attr ℂ ℝ)} {f : ℝ → Val ℂ} {c : ℝ → ℂ} {e : ℝ → ℕ → ℂ}
    (ok₁ : SysOK w₁ s₁ x₁ b₁) (ok₂ : SysOK w₂ s₂ x₂ b₂) (hb : OtherOrigin l dim R b₁ b₂)
    (hy₁ : w₁.ops[o₁]? = some y₁) (hy₂ : w₂.ops[o₂]? = some y₂) (hk₁ : y₁.kind = .laser pulse pol)
    (hk₂ : y₂.kind = .laser pulse pol) (hp : Given pulse f) (hf : ∀ t, IsNumber (f t) (c t)) (he : GivenPol pol dim e)
    (callable : IsCallable pulse ∨ ∃ a, pol = some a ∧ IsCallable a)
    (hset₁ : (setTimeEvolutionOperator s₁ (some o₁)).run w₁ = (.ok (), w₁'))
    (hset₂ : (setTimeEvolutionOperator s₂ (some o₂)).run w₂ = (.ok (), w₂'))
    (Hh : OnSome (HermMat l) b₁.h) (Hu : OnSome (HermU l) b₁.u) (Hd : OnSome (HermDip dim l) b₁.dipole)
    (hc : ∀ t, star (c t) = c t) (hcc : Continuous c) (hee : ∀ t, ∀ k < dim, star (e t k) = e t k)
    (hec : ∀ k < dim, Continuous fun t => e t k) :
    (∃ H U, Answered w₁' s₁ o₁ H U) ∧ (∃ H U, Answered w₂' s₂ o₂ H U) ∧
    ∀ H U H' U', Answered w₁' s₁ o₁ H U → Answered w₂' s₂ o₂ H' U' → ∀ (N : ℕ) (t₀ : ℝ),
      (∀ Ψ Ψ' : ℝ → Wave ℂ N (2 * l), Evolves (fun t => spinOne l (H t)) (fun t => spinTwo l (U t)) Ψ →
        Evolves (fun t => spinOne l (H' t)) (fun t => spinTwo l (U' t)) Ψ' → Ψ t₀ = Ψ' t₀ →
        SameUpToPhase Ψ Ψ' ∧ SameMeasured Ψ Ψ') ∧
      (∀ Ψ Ψ' : ℝ → Wave ℂ N l, Evolves (fun t => arrayOne l (H t)) (fun t => arrayTwo l (U t)) Ψ →
        Evolves (fun t => arrayOne l (H' t)) (fun t => arrayTwo l (U' t)) Ψ' → Ψ t₀ = Ψ' t₀ →
        SameUpToPhase Ψ Ψ' ∧ SameMeasured Ψ Ψ') := by
  obtain ⟨⟨l1, l2, dm1, dm2⟩, ⟨h, h', e1, e2, e3⟩, ⟨u, u', e4, e5, e6⟩, ⟨d, d', e7, e8, e9⟩⟩ := hb
  have LA := C36_partial ok₁ (by rw [e7]; rfl) hy₁ hk₁ hp hf (dm1.symm ▸ he) callable hset₁
  have LB := C36_partial ok₂ (by rw [e8]; rfl) hy₂ hk₂ hp hf (dm2.symm ▸ he) callable hset₂
  refine ⟨?_, ?_, ?_⟩
  · choose h₀ d₀ r k1 k2 k3 k4 k5 using LA [] (by simp)
    exact ⟨r, fun _ => u, fun t => ⟨[], by simp, k3 t, by rw [k5 t, e4]⟩⟩
  · choose h₀ d₀ r k1 k2 k3 k4 k5 using LB [] (by simp)
    exact ⟨r, fun _ => u', fun t => ⟨[], by simp, k3 t, by rw [k5 t, e5]⟩⟩
  intro H U H' U' A B N t₀
  have el : ∀ t, IsLaser h d l dim (c t) (e t) (H t) ∧ U t = u := fun t => by
    obtain ⟨ops, ho, a1, a2⟩ := A t
    obtain ⟨h₀, d₀, r, k1, k2, k3, k4, k5⟩ := LA ops ho t
    obtain rfl := Option.some.inj (e1.symm.trans k1)
    obtain rfl := Option.some.inj (e7.symm.trans k2)
    rw [a1] at k3
    obtain rfl : H t = r := by simpa using k3
    rw [a2, e4] at k5
    rw [l1, dm1] at k4
    exact ⟨k4, by simpa using k5⟩
  have el' : ∀ t, IsLaser h' d' l dim (c t) (e t) (H' t) ∧ U' t = u' := fun t => by
    obtain ⟨ops, ho, a1, a2⟩ := B t
    obtain ⟨h₀, d₀, r, k1, k2, k3, k4, k5⟩ := LB ops ho t
    obtain rfl := Option.some.inj (e2.symm.trans k1)
    obtain rfl := Option.some.inj (e8.symm.trans k2)
    rw [a1] at k3
    obtain rfl : H' t = r := by simpa using k3
    rw [a2, e5] at k5
    rw [l2, dm2] at k4
    exact ⟨k4, by simpa using k5⟩
  -- the energy of one electron in the field at the point `R`
  let F : ℝ → ℝ := fun t => ∑ k ∈ range dim, (c t * e t k).re * R k
  have Fc : Continuous F := continuous_finsetSum _ fun k hk =>
    (Complex.continuous_re.comp (hcc.mul (hec k (mem_range.1 hk)))).mul continuous_const
  have Fe : ∀ t, ((F t : ℝ) : ℂ) = c t * ∑ k ∈ range dim, e t k * R k := fun t => by
    simp only [F, Complex.ofReal_sum, Complex.ofReal_mul, mul_sum]
    refine sum_congr rfl fun k hk => ?_
    have : ((c t * e t k).re : ℂ) = c t * e t k := Complex.conj_eq_iff_re.1 (by
      rw [map_mul, starRingEnd_apply, starRingEnd_apply, hc, hee t k (mem_range.1 hk)])
    rw [this]; ring
  have el2 : ∀ t, ∀ p < l, ∀ q < l, (H' t).get [p, q] = (H t).get [p, q] - if p = q then (F t : ℂ) else 0 := by
    intro t p hp q hq
    rw [(el t).1.get p hp q hq, (el' t).1.get p hp q hq, e3 p hp q hq, sum_congr rfl fun k hk => by
      rw [e9 k (mem_range.1 hk) p hp q hq, mul_sub], sum_sub_distrib, Fe]
    by_cases hpq : p = q
    · simp only [hpq, if_true]; ring
    · simp [hpq]
  let θ : ℝ → ℝ := fun t => ∫ τ in t₀..t, N * F τ
  have hθ : ∀ t, HasDerivAt θ (N * F t) t := fun t =>
    intervalIntegral.integral_hasDerivAt_right ((continuous_const.mul Fc).intervalIntegrable _ _)
      (continuous_const.mul Fc).stronglyMeasurable.stronglyMeasurableAtFilter (continuous_const.mul Fc).continuousAt
  have θ0 : θ t₀ = 0 := intervalIntegral.integral_same
  have herm : ∀ t, HermMat l (H t) := fun t p hp q hq => by
    rw [(el t).1.get p hp q hq, (el t).1.get q hq p hp, star_add, star_mul', star_sum, hc, Hh h e1 p hp q hq]
    congr 2
    refine sum_congr rfl fun k hk => ?_
    rw [star_mul', hee t k (mem_range.1 hk), Hd d e7 k (mem_range.1 hk) p hp q hq]
  have herm' : ∀ t, HermMat l (H' t) := fun t p hp q hq => by
    rw [el2 t p hp q hq, el2 t q hq p hp, star_sub, herm t p hp q hq]
    congr 1
    by_cases hpq : p = q
    · simp [hpq]
    · rw [if_neg hpq, if_neg (Ne.symm hpq), star_zero]
  have hermU' : ∀ t, HermU l (U' t) := fun t p hp q hq r hr s hs => by
    rw [(el' t).2, e6 p hp q hq r hr s hs, e6 r hr s hs p hp q hq]
    exact Hu u e4 p hp q hq r hr s hs
  refine ⟨fun Ψ Ψ' hΨ hΨ' h0 => ?_, fun Ψ Ψ' hΨ hΨ' h0 => ?_⟩
  · have ev := evolves_phase (h' := fun t => spinOne l (H' t)) (u' := fun t => spinTwo l (U' t)) hθ (fun t p q => by
      simp only [spinOne]
      by_cases hs : p.1 % 2 = q.1 % 2
      · rw [if_pos hs, if_pos hs, el2 t _ (by omega) _ (by omega)]
        congr 1
        by_cases hpq : p = q
        · simp [hpq]
        · rw [if_neg hpq, if_neg (fun h => hpq (Fin.ext (by omega)))]
      · rw [if_neg hs, if_neg hs, if_neg (fun h => hs (by rw [h])), sub_zero]) (fun t => by
      funext p q r s
      simp only [spinTwo, (el t).2, (el' t).2]
      split_ifs
      · exact e6 _ (by omega) _ (by omega) _ (by omega) _ (by omega)
      · rfl) hΨ
    have := evolves_unique ⟨fun t => spinOne_herm (herm' t), fun t => spinTwo_herm (hermU' t)⟩ hΨ' ev (s := t₀) (by
      funext x; simp [θ0, h0])
    have ph : SameUpToPhase Ψ Ψ' := ⟨θ, fun t x => by rw [this]⟩
    exact ⟨ph, sameMeasured ph⟩
  · have ev := evolves_phase (h' := fun t => arrayOne l (H' t)) (u' := fun t => arrayTwo l (U' t)) hθ (fun t p q => by
      simp only [arrayOne]
      rw [el2 t _ p.2 _ q.2]
      simp [Fin.ext_iff]) (fun t => by
      funext p q r s
      simp only [arrayTwo, (el t).2, (el' t).2]
      exact e6 _ p.2 _ q.2 _ r.2 _ s.2) hΨ
    have := evolves_unique ⟨fun t => arrayOne_herm (herm' t), fun t => arrayTwo_herm (hermU' t)⟩ hΨ' ev (s := t₀) (by
      funext x; simp [θ0, h0])
    have ph : SameUpToPhase Ψ Ψ' := ⟨θ, fun t x => by rw [this]⟩
    exact ⟨ph, sameMeasured ph⟩

/-- **C132** So it is for the RHF orbitals of a molecule with the dipole moment about the origin of the constructor and about any other
point: their elements are related as C132_laser asks. -/
theorem C132_origins {n : ℕ} {R R' : ℕ → ℝ} {m : Molecule ℂ} {b b' : BasisSet ℂ} (hb : RhfAbout m n (fun k => (R k : ℂ)) b)
    (hb' : RhfAbout m n (fun k => (R' k : ℂ)) b') : OtherOrigin n 3 (fun k => R' k - R k) b b' := by
  obtain ⟨⟨_, o⟩, d, d1, -, d3⟩ := hb
  obtain ⟨⟨_, o'⟩, d', d1', -, d3'⟩ := hb'
  obtain ⟨h, h1, h2⟩ := o.h
  obtain ⟨h', h1', h2'⟩ := o'.h
  obtain ⟨u, u1, u2, -⟩ := o.u
  obtain ⟨u', u1', u2', -⟩ := o'.u
  refine ⟨⟨o.size, o'.size, o.rest.1, o'.rest.1⟩, ⟨h, h', h1, h1', fun p hp q hq => ?_⟩, ⟨u, u', u1, u1', fun p hp q hq r hr s hs => ?_⟩,
    ⟨d, d', d1, d1', fun k hk p hp q hq => ?_⟩⟩
  · rw [h2 p hp q hq, h2' p hp q hq]
    rfl
  · rw [u2 p hp q hq r hr s hs, u2' p hp q hq r hr s hs]
    rfl
  · rw [d3 k hk p hp q hq, d3' k hk p hp q hq]
    split_ifs
    · push_cast; ring
    · simp

/-! ## Examples -/

/-- The molecule of the example of C68 with nuclei of the charges 1 and 3 at the points 0 and `(4, 0, 0)`. -/
def demoMolecule : Molecule GaussQ :=
  { mole := demoMole
    charges := ofFn .int64 [2] fun i => match i with
      | [0] => 1
      | _ => ⟨3, 0⟩
    coords := ofFn .float64 [2, 3] fun i => match i with
      | [1, 0] => ⟨4, 0⟩
      | _ => 0
    rAt := fun R => ofFn .float64 [3, 2, 2] fun i => match i with
      | [k, i, j] => (if k = 0 then ⟨(i * j : ℕ), 0⟩ else 0) - R.get [k] * demoMole.ovlp.get [i, j]
      | _ => 0 }

theorem demoMolecule_shifts : OriginShifts demoMolecule := by
  refine ⟨fun R _ => rfl, fun R _ k hk i hi j hj => ?_⟩
  have hi' : i < 2 := hi
  have hj' : j < 2 := hj
  unfold demoMolecule
  rw [ofFn_get_of (by simp [hk, hi', hj']), ofFn_get_of (by simp [hk, hi', hj'])]
  simp only [zeros_get]
  ring

theorem demoMolecule_nuclei : Nuclei 2 demoMolecule := ⟨rfl, rfl, by decide +kernel⟩

/-- The origin is `(3, 0, 0)`, and the dipole moment of the second RHF orbital is `25/16 - 3`. -/
example : ∃ g w' x b d, (constructRhfOf demoMolecule false true 0).run (⟨[], [], []⟩ : World GaussQ ℤ) = (.ok g, w') ∧
    SysOK w' g x b ∧ b.dipole = some d ∧ d.get [0, 1, 1] = ⟨25 / 16 - 3, 0⟩ := by
  obtain ⟨g, w', x, b, R, h1, h2, -, -, h5, h6⟩ := C132_rhf demoMolecule demoMole_shaped demoMolecule_shifts demoMolecule_nuclei rfl
    (by decide) (n := 2) rfl (by decide) demoMole_ortho true 0 (⟨[], [], []⟩ : World GaussQ ℤ)
  obtain ⟨d, hd1, hd2, hd3⟩ := h5.dipole
  refine ⟨g, w', x, b, d, h1, h2, hd1, ?_⟩
  obtain ⟨c, hc1, hc2, hc3⟩ := C132_center demoMolecule_nuclei
  rw [hd3 0 (by decide) 1 (by decide) 1 (by decide), (hc3 R 0 (by decide)).1 (h6 0 (by decide))]
  obtain rfl := Except.ok.inj (Eq.trans (by rfl) hc1)
  decide +kernel

/-- The dipole moment about another point. -/
noncomputable def moveOrigin (b : BasisSet ℂ) (l : ℕ) (d : NDArray ℂ) (R : ℝ) : BasisSet ℂ :=
  { b with dipole := some (ofFn .complex128 [1, l, l] fun i => match i with
      | [k, p, q] => d.get [k, p, q] - if p = q then (R : ℂ) else 0
      | _ => 0) }

/-- Electrons in a one-dimensional dot of ten functions with the pulse `cos t`, and the dipole moment about 0 and about 5. -/
example : ∃ b d, odho 10 8 401 1 (1 / 4) 1 0 0 = .ok b ∧ b.dipole = some d ∧
    ∃ w₁ w₂ : World ℂ ℝ, (setTimeEvolutionOperator 0 (some 0)).run (cosWorld b) = (.ok (), w₁) ∧
    (setTimeEvolutionOperator 0 (some 0)).run (cosWorld (moveOrigin b 10 d 5)) = (.ok (), w₂) ∧
    ∀ H U H' U', Answered w₁ 0 0 H U → Answered w₂ 0 0 H' U' → ∀ Ψ Ψ' : ℝ → Wave ℂ 3 20,
      Evolves (fun t => spinOne 10 (H t)) (fun t => spinTwo 10 (U t)) Ψ →
      Evolves (fun t => spinOne 10 (H' t)) (fun t => spinTwo 10 (U' t)) Ψ' → Ψ 0 = Ψ' 0 → SameMeasured Ψ Ψ' := by
  obtain ⟨b, hb, cons⟩ := C91_odho 10 8 (num := 401) (by norm_num) 1 (1 / 4) 1 0 0 false false
  have hl := cons.wf.l_eq
  obtain ⟨h, hh, Hh⟩ := cons.h
  obtain ⟨u, hu, Hu, -⟩ := cons.u
  obtain ⟨d, hd, Hd⟩ := cons.dipole
  have hdim := cons.dim_eq
  have wf := cons.wf
  have wf' : WellFormed (moveOrigin b 10 d 5) 10 :=
    ⟨wf.l_eq, wf.np, wf.h, wf.u, wf.s, fun x hx => by
      obtain rfl := Option.some.inj hx
      exact ⟨(wf.dipole d hd).1, by show [1, 10, 10] = [b.dim, 10, 10]; rw [hdim]⟩, wf.spf, wf.bra, wf.braNeedsSpf, wf.tb⟩
  have ok : SysOK (cosWorld b) 0 ⟨.spatial, 0, some 0, 1, 10, 9, (0, 1), (1, 10), none⟩ b :=
    ⟨rfl, rfl, wf, cons.np_eq.symm, ⟨by decide, rfl, rfl, rfl⟩⟩
  have ok' : SysOK (cosWorld (moveOrigin b 10 d 5)) 0 ⟨.spatial, 0, some 0, 1, 10, 9, (0, 1), (1, 10), none⟩ (moveOrigin b 10 d 5) :=
    ⟨rfl, rfl, wf', cons.np_eq.symm, ⟨by decide, rfl, rfl, rfl⟩⟩
  obtain ⟨w₁, hw₁, -⟩ := C38_set (o := 0) ok rfl
  obtain ⟨w₂, hw₂, -⟩ := C38_set (o := 0) ok' rfl
  refine ⟨b, d, hb, hd, w₁, w₂, hw₁, hw₂, fun H U H' U' A B Ψ Ψ' hΨ hΨ' h0 => ?_⟩
  have oo : OtherOrigin 10 1 (fun _ => 5) b (moveOrigin b 10 d 5) := by
    refine ⟨⟨hl, hl, hdim, hdim⟩, ⟨h, h, hh, hh, fun _ _ _ _ => rfl⟩, ⟨u, u, hu, hu, fun _ _ _ _ _ _ _ _ => rfl⟩,
      ⟨d, _, hd, rfl, fun k hk p hp q hq => ?_⟩⟩
    rw [ofFn_get_of (by simp [hk, hp, hq])]
  obtain ⟨-, -, all⟩ := C132_laser (pol := none) (c := fun t => (Real.cos t : ℝ)) (e := fun _ k => if k = 0 then 1 else 0)
    ok ok' oo rfl rfl rfl rfl (.inl rfl) (fun t => ⟨_, rfl⟩) (fun _ _ => rfl) (.inl ⟨_, rfl⟩) hw₁ hw₂
    (fun z hz => by rw [← Option.some.inj (hh.symm.trans hz)]; exact Hh)
    (fun z hz => by rw [← Option.some.inj (hu.symm.trans hz)]; exact Hu)
    (fun z hz => by rw [← Option.some.inj (hd.symm.trans hz)]; exact Hd)
    (fun t => Complex.conj_ofReal _) (Complex.continuous_ofReal.comp Real.continuous_cos)
    (fun t k _ => by split_ifs <;> simp) (fun k _ => continuous_const)
  exact ((all H U H' U' A B 3 0).1 Ψ Ψ' hΨ hΨ' h0).2

end QS.Props
