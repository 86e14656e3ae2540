import Verif.Props.Evolution
import Verif.Props.Adiabatic
import Verif.Props.Stark
import Verif.Lemmas.EvolutionNear

/-!
# C136: weak pulses
-/

namespace QS.Props

open NDArray BasisSet World Idx Spec TwoDim OneDim Coulomb PyM Finset Function QS.Adiabatic

variable {N L : ℕ}

/-- **C136** Two evolutions with different (Hermitian) elements: if the one-body elements differ at most by `ε(t)` and the two-body
elements by `δ(t)`, the wave functions differ at the time `b` at most by their difference at the time `a` and by the integral of
`N L ε(t) + N (N - 1) / 2 L² δ(t)`. -/
theorem C136_near {h h' : ℝ → Fin L → Fin L → ℂ} {u u' : ℝ → Fin L → Fin L → Fin L → Fin L → ℂ} (hh : HermitianElements h u)
    (hc : ContinuousElements h u) (hh' : HermitianElements h' u') {ε δ : ℝ → ℝ} (hε : Continuous ε) (hδ : Continuous δ)
    (ε0 : ∀ t, 0 ≤ ε t) (δ0 : ∀ t, 0 ≤ δ t) {a b : ℝ} (hab : a ≤ b) (h1 : ∀ t ∈ Set.Icc a b, ∀ p q, ‖h t p q - h' t p q‖ ≤ ε t)
    (h2 : ∀ t ∈ Set.Icc a b, ∀ p q r s, ‖u t p q r s - u' t p q r s‖ ≤ δ t) {Ψ Ψ' : ℝ → Wave ℂ N L} (hΨ : Evolves h u Ψ)
    (hΨ' : Evolves h' u' Ψ') (anti : Antisymmetric (Ψ a)) (anti' : Antisymmetric (Ψ' a)) (norm : waveInner (Ψ' a) (Ψ' a) = 1) :
    stateDistance (Ψ b) (Ψ' b) ≤ stateDistance (Ψ a) (Ψ' a) + ∫ t in a..b, (N * L * ε t + N * (N - 1 : ℕ) / 2 * L ^ 2 * δ t) := by
  have := evolves_near hh hc hh' hε hδ ε0 δ0 hab h1 h2 hΨ hΨ' anti anti'
  rwa [waveNorm_eq_one norm, mul_one] at this

/-- The distance of a normalised wave function from a multiple of another one bounds the overlap from below. -/
theorem population_ge {Φ Ψ : Wave ℂ N L} (hΦ : waveInner Φ Φ = 1) (hΨ : waveInner Ψ Ψ = 1) {c : ℂ} (hc : ‖c‖ = 1) {ε : ℝ}
    (h : stateDistance Ψ (fun x => c * Φ x) ≤ ε) : 1 - ε ^ 2 ≤ population Φ Ψ := by
  have h0 := waveNorm_nonneg fun x => Ψ x - c * Φ x
  set z := waveInner Φ Ψ with hz
  have hz' : waveInner Ψ Φ = star z := by
    rw [hz]
    unfold waveInner
    rw [star_sum]
    exact sum_congr rfl fun x _ => by rw [star_mul', star_star, mul_comm]
  have e := waveNorm_sq fun x => Ψ x - c * Φ x
  rw [waveInner_sub_right, waveInner_sub_left, waveInner_sub_left, hΨ] at e
  have e2 : waveInner (fun x => c * Φ x) Ψ = star c * z := waveInner_smul_left _ _ _
  have e3 : waveInner Ψ (fun x => c * Φ x) = c * star z := by rw [waveInner_smul, hz']
  have e4 : waveInner (fun x => c * Φ x) (fun x => c * Φ x) = 1 := by
    rw [waveInner_smul, waveInner_smul_left, hΦ, mul_one]
    have : c * star c = (‖c‖ : ℂ) ^ 2 := Complex.mul_conj' c
    rw [this, hc]
    norm_num
  rw [e2, e3, e4] at e
  have e5 : 2 - 2 * (star c * z).re = waveNorm (fun x => Ψ x - c * Φ x) ^ 2 := by
    have := congrArg Complex.re e
    rw [Complex.ofReal_re] at this
    rw [← this]
    have k : (c * star z).re = (star c * z).re := by
      rw [show c * star z = star (star c * z) by rw [star_mul', star_star], Complex.star_def, Complex.conj_re]
    simp only [Complex.sub_re, Complex.one_re, k]
    ring
  have e6 : (star c * z).re ≤ ‖z‖ := by
    refine (Complex.re_le_norm _).trans (le_of_eq ?_)
    rw [norm_mul, norm_star, hc, one_mul]
  have hd : waveNorm (fun x => Ψ x - c * Φ x) ≤ ε := h
  unfold population
  rw [← hz]
  nlinarith [sq_nonneg (1 - ‖z‖), norm_nonneg z]

/-- **C136** Real and continuous forces on `N` particles: the particles leave a state of given energy at most with a probability of
second order in the integrated forces. -/
theorem C136_driven {h : ℝ → Fin L → Fin L → ℂ} {u : ℝ → Fin L → Fin L → Fin L → Fin L → ℂ} {n : ℕ} {h₀ : Fin L → Fin L → ℂ}
    {u₀ : Fin L → Fin L → Fin L → Fin L → ℂ} {F : ℕ → ℝ → ℝ} {d : ℕ → Fin L → Fin L → ℂ} (hh₀ : ∀ p q, star (h₀ p q) = h₀ q p)
    (hu₀ : ∀ p q r s, star (u₀ p q r s) = u₀ r s p q) (hd : ∀ k < n, ∀ p q, star (d k p q) = d k q p)
    (hF : ∀ k < n, Continuous (F k)) (eh : ∀ t p q, h t p q = h₀ p q + ∑ k ∈ range n, F k t * d k p q) (eu : ∀ t, u t = u₀)
    (N : ℕ) : WeakPulses N n h u h₀ u₀ F d := by
  have H : HermitianElements h u := by
    refine ⟨fun t p q => ?_, fun t p q r s => ?_⟩
    · rw [eh, eh, star_add, star_sum, hh₀]
      congr 1
      refine sum_congr rfl fun k hk => ?_
      rw [star_mul', hd k (mem_range.1 hk), Complex.star_def, Complex.conj_ofReal]
    · rw [eu, hu₀]
  have C : ContinuousElements h u := by
    refine ⟨fun p q => ?_, fun p q r s => ?_⟩
    · simp only [eh]
      exact continuous_const.add (continuous_finsetSum _ fun k hk =>
        (Complex.continuous_ofReal.comp (hF k (mem_range.1 hk))).mul continuous_const)
    · simp only [eu]
      exact continuous_const
  have H₀ : HermitianElements (fun _ : ℝ => h₀) (fun _ => u₀) := ⟨fun _ => hh₀, fun _ => hu₀⟩
  have free : ∀ δ : ℕ → ℝ, (∀ k < n, ∀ p q, ‖d k p q‖ ≤ δ k) → (∀ k < n, 0 ≤ δ k) → ∀ Ψ Φ : ℝ → Wave ℂ N L, Evolves h u Ψ →
      Evolves (fun _ => h₀) (fun _ => u₀) Φ → ∀ a b, a ≤ b → Antisymmetric (Ψ a) → Antisymmetric (Φ a) →
      waveInner (Φ a) (Φ a) = 1 →
      stateDistance (Ψ b) (Φ b) ≤ stateDistance (Ψ a) (Φ a) + N * L * ∑ k ∈ range n, δ k * ∫ t in a..b, |F k t| := by
    intro δ hδ δ0 Ψ Φ hΨ hΦ a b hab aΨ aΦ nΦ
    have Fc : ∀ k ∈ range n, Continuous fun t => δ k * |F k t| := fun k hk => continuous_const.mul (hF k (mem_range.1 hk)).abs
    have key := C136_near H C H₀ (ε := fun t => ∑ k ∈ range n, δ k * |F k t|) (δ := fun _ => 0) (continuous_finsetSum _ Fc)
      continuous_const (fun t => sum_nonneg fun k hk => mul_nonneg (δ0 k (mem_range.1 hk)) (abs_nonneg _)) (fun _ => le_rfl) hab
      (fun t _ p q => by
        rw [eh, add_sub_cancel_left]
        refine (norm_sum_le _ _).trans (sum_le_sum fun k hk => ?_)
        rw [norm_mul, Complex.norm_real, Real.norm_eq_abs, mul_comm]
        exact mul_le_mul_of_nonneg_right (hδ k (mem_range.1 hk) p q) (abs_nonneg _))
      (fun t _ p q r s => by rw [eu, sub_self, norm_zero]) hΨ hΦ aΨ aΦ nΦ
    refine key.trans (le_of_eq ?_)
    congr 1
    simp only [mul_zero, add_zero]
    rw [intervalIntegral.integral_const_mul, intervalIntegral.integral_finset_sum fun k hk => (Fc k hk).intervalIntegrable _ _]
    congr 1
    exact sum_congr rfl fun k _ => intervalIntegral.integral_const_mul _ _
  refine ⟨free, fun δ hδ δ0 Ψ hΨ a b hab i hi => ?_⟩
  obtain ⟨anti, nrm⟩ := levelState_norm hi
  obtain ⟨D, E, P, S, hiD, hP⟩ := hi
  have st : Evolves (fun _ => h₀) (fun _ => u₀) (fun t x => Complex.exp (-Complex.I * (E i * (t - a) : ℝ)) * Ψ a x) := fun t x => by
    rw [hamiltonOp_smul, ← hP, S.eigen i hiD]
    have h1 : HasDerivAt (fun τ : ℝ => E i * (τ - a)) (E i) t := by
      simpa using ((hasDerivAt_id t).sub_const a).const_mul (E i)
    refine ((h1.ofReal_comp.const_mul (-Complex.I)).cexp.mul_const (P i x)).congr_deriv ?_
    ring
  have e0 : (fun x => Complex.exp (-Complex.I * (E i * (a - a) : ℝ)) * Ψ a x) = Ψ a := by
    funext x
    rw [sub_self, mul_zero, Complex.ofReal_zero, mul_zero, Complex.exp_zero, one_mul]
  have key := free δ hδ δ0 Ψ _ hΨ st a b hab anti (by rw [e0]; exact anti) (by rw [e0]; exact nrm)
  rw [e0] at key
  have z : stateDistance (Ψ a) (Ψ a) = 0 := by
    unfold stateDistance
    simp
  rw [z, zero_add] at key
  refine population_ge nrm ?_ (c := Complex.exp (-Complex.I * (E i * (b - a) : ℝ))) ?_ key
  · rw [← nrm]
    exact evolves_inner H hΨ hΨ b a
  · rw [show -Complex.I * ((E i * (b - a) : ℝ) : ℂ) = ((-(E i * (b - a)) : ℝ) : ℂ) * Complex.I by push_cast; ring]
    exact Complex.norm_exp_ofReal_mul_I _

/-! ## The systems -/

/-- The arrays that a system with a laser returns. -/
theorem laser_elements {w w' : World ℂ ℝ} {s o : ℕ} {x : Sys} {b : BasisSet ℂ} {y : TEOp ℂ ℝ}
    {pulse : Attr ℂ ℝ} {pol : Option (Attr ℂ ℝ)} {f : ℝ → Val ℂ} {c : ℝ → ℂ} {e : ℝ → ℕ → ℂ} {F : ℕ → ℝ → ℝ}
    (ok : SysOK w s x b) (hy : w.ops[o]? = some y)
    (hk : y.kind = .laser pulse pol) (hp : Given pulse f) (hf : ∀ t, IsNumber (f t) (c t))
    (he : GivenPol pol b.dim e)
    (callable : IsCallable pulse ∨ ∃ a, pol = some a ∧ IsCallable a)
    (hset : (setTimeEvolutionOperator s (some o)).run w = (.ok (), w')) (hF : ∀ t, ∀ k < b.dim, c t * e t k = F k t)
    {h u d : NDArray ℂ} (hh : b.h = some h) (hu : b.u = some u) (hd : b.dipole = some d) :
    (∃ H U, Answered w' s o H U) ∧ ∀ H U, Answered w' s o H U →
      (∀ t (p q : Fin (2 * b.l)), spinOne b.l (H t) p q = spinOne b.l h p q + ∑ k ∈ range b.dim, F k t * spinDipole b.l d k p q) ∧
      (∀ t (p q : Fin b.l), arrayOne b.l (H t) p q = arrayOne b.l h p q + ∑ k ∈ range b.dim, F k t * d.get [k, p, q]) ∧
      (∀ t, spinTwo b.l (U t) = spinTwo b.l u) ∧ ∀ t, arrayTwo b.l (U t) = arrayTwo b.l u := by
  have LA := C36_partial ok (by rw [hd]; rfl) hy hk hp hf he callable hset
  refine ⟨?_, fun H U A => ?_⟩
  · choose h' d' r h1 h2 h3 h4 h5 using LA [] (by simp)
    exact ⟨r, fun _ => u, fun t => ⟨[], by simp, h3 t, by rw [h5 t, hu]⟩⟩
  have el : ∀ t, (∀ p < b.l, ∀ q < b.l, (H t).get [p, q] = h.get [p, q] + ∑ k ∈ range b.dim, F k t * d.get [k, p, q]) ∧
      U t = u := fun t => by
    obtain ⟨ops, ho, a1, a2⟩ := A t
    obtain ⟨h', d', r, h1, h2, h3, h4, h5⟩ := LA ops ho t
    obtain rfl := Option.some.inj (hh.symm.trans h1)
    obtain rfl := Option.some.inj (hd.symm.trans h2)
    rw [a1] at h3
    obtain rfl : H t = r := by simpa using h3
    rw [a2, hu] at h5
    refine ⟨fun p hp q hq => ?_, by simpa using h5⟩
    rw [h4.get p hp q hq, mul_sum]
    congr 1
    refine sum_congr rfl fun k hk => ?_
    rw [← hF t k (mem_range.1 hk)]
    ring
  refine ⟨fun t p q => ?_, fun t p q => (el t).1 _ p.2 _ q.2, fun t => by rw [(el t).2], fun t => by rw [(el t).2]⟩
  simp only [spinOne, spinDipole]
  split_ifs
  · exact (el t).1 _ (by omega) _ (by omega)
  · simp

/-- **C136** A system with a laser with the real field `F`, whatever is read from it in between: `N` electrons (spin orbitals) and `N`
particles in the functions of the basis leave a state of given energy at most with a probability of second order in the integrated
field. -/
theorem C136_laser {w w' : World ℂ ℝ} {s o : ℕ} {x : Sys} {b : BasisSet ℂ} {y : TEOp ℂ ℝ}
    {pulse : Attr ℂ ℝ} {pol : Option (Attr ℂ ℝ)} {f : ℝ → Val ℂ} {c : ℝ → ℂ} {e : ℝ → ℕ → ℂ} {F : ℕ → ℝ → ℝ}
    (ok : SysOK w s x b) (hd : b.dipole.isSome = true) (hy : w.ops[o]? = some y)
    (hk : y.kind = .laser pulse pol) (hp : Given pulse f) (hf : ∀ t, IsNumber (f t) (c t))
    (he : GivenPol pol b.dim e)
    (callable : IsCallable pulse ∨ ∃ a, pol = some a ∧ IsCallable a)
    (hset : (setTimeEvolutionOperator s (some o)).run w = (.ok (), w'))
    (Hh : OnSome (HermMat b.l) b.h) (Hu : OnSome (HermU b.l) b.u) (Hd : OnSome (HermDip b.dim b.l) b.dipole)
    (hF : ∀ t, ∀ k < b.dim, c t * e t k = F k t) (hFc : ∀ k < b.dim, Continuous (F k)) :
    ∃ h u d, b.h = some h ∧ b.u = some u ∧ b.dipole = some d ∧ (∃ H U, Answered w' s o H U) ∧
      ∀ H U, Answered w' s o H U → ∀ N,
        WeakPulses N b.dim (fun t => spinOne b.l (H t)) (fun t => spinTwo b.l (U t)) (spinOne b.l h) (spinTwo b.l u) F
          (spinDipole b.l d) ∧
        WeakPulses N b.dim (fun t => arrayOne b.l (H t)) (fun t => arrayTwo b.l (U t)) (arrayOne b.l h) (arrayTwo b.l u) F
          (fun k p q => d.get [k, p, q]) := by
  obtain ⟨h, hh, -⟩ := ok.wf.h
  obtain ⟨u, hu, -⟩ := ok.wf.u
  obtain ⟨d, hd⟩ := Option.isSome_iff_exists.1 hd
  obtain ⟨ex, el⟩ := laser_elements ok hy hk hp hf he callable hset hF hh hu hd
  refine ⟨h, u, d, hh, hu, hd, ex, fun H U A N => ?_⟩
  obtain ⟨s1, a1, s2, a2⟩ := el H U A
  exact ⟨C136_driven (spinOne_herm (Hh h hh)) (spinTwo_herm (Hu u hu)) (fun k hk => spinDipole_herm (Hd d hd) hk) hFc s1 s2 N,
    C136_driven (arrayOne_herm (Hh h hh)) (arrayTwo_herm (Hu u hu)) (fun k hk p q => (Hd d hd k hk q q.2 p p.2).symm) hFc a1 a2 N⟩

/-- The arrays that a system with a `CustomOneBodyOperator` returns. -/
theorem custom_elements {w w' : World ℂ ℝ} {s o : ℕ} {x : Sys} {b : BasisSet ℂ} {a : Attr ℂ ℝ}
    {A : NDArray ℂ} {f : ℝ → Val ℂ} {c : ℝ → ℝ} (ok : SysOK w s x b)
    (hy : w.ops[o]? = some (customOneBodyOperator a A)) (hp : Given a f)
    (hf : ∀ t, IsNumber (f t) (c t : ℂ)) (hA : A.shape = [b.l, b.l])
    (hset : (setTimeEvolutionOperator s (some o)).run w = (.ok (), w'))
    {h u : NDArray ℂ} (hh : b.h = some h) (hu : b.u = some u) :
    (∃ H U, Answered w' s o H U) ∧ ∀ H U, Answered w' s o H U →
      (∀ t (p q : Fin (2 * b.l)), spinOne b.l (H t) p q = spinOne b.l h p q + ∑ k ∈ range 1, (c t : ℂ) * spinOne b.l A p q) ∧
      (∀ t (p q : Fin b.l), arrayOne b.l (H t) p q = arrayOne b.l h p q + ∑ k ∈ range 1, (c t : ℂ) * arrayOne b.l A p q) ∧
      (∀ t, spinTwo b.l (U t) = spinTwo b.l u) ∧ ∀ t, arrayTwo b.l (U t) = arrayTwo b.l u := by
  have CA := C37_custom ok hy hp hf hA hset
  refine ⟨?_, fun H U B => ?_⟩
  · choose h' r h1 h2 h3 h4 h5 using CA [] (by simp)
    exact ⟨r, fun _ => u, fun t => ⟨[], by simp, h2 t, by rw [h5 t, hu]⟩⟩
  have el : ∀ t, (∀ p < b.l, ∀ q < b.l, (H t).get [p, q] = h.get [p, q] + c t * A.get [p, q]) ∧ U t = u := fun t => by
    obtain ⟨ops, ho, a1, a2⟩ := B t
    obtain ⟨h', r, h1, h2, h3, h4, h5⟩ := CA ops ho t
    obtain rfl := Option.some.inj (hh.symm.trans h1)
    rw [a1] at h2
    obtain rfl : H t = r := by simpa using h2
    rw [a2, hu] at h5
    exact ⟨h4, by simpa using h5⟩
  refine ⟨fun t p q => ?_, fun t p q => ?_, fun t => by rw [(el t).2], fun t => by rw [(el t).2]⟩
  · rw [sum_range_one]
    simp only [spinOne]
    split_ifs
    · exact (el t).1 _ (by omega) _ (by omega)
    · simp
  · rw [sum_range_one]
    exact (el t).1 _ p.2 _ q.2

/-- **C136** A system with a `CustomOneBodyOperator` with the Hermitian array `A` and real values `c t`. -/
theorem C136_custom {w w' : World ℂ ℝ} {s o : ℕ} {x : Sys} {b : BasisSet ℂ} {a : Attr ℂ ℝ}
    {A : NDArray ℂ} {f : ℝ → Val ℂ} {c : ℝ → ℝ} (ok : SysOK w s x b)
    (hy : w.ops[o]? = some (customOneBodyOperator a A)) (hp : Given a f)
    (hf : ∀ t, IsNumber (f t) (c t : ℂ)) (hA : A.shape = [b.l, b.l]) (HA : HermMat b.l A)
    (hset : (setTimeEvolutionOperator s (some o)).run w = (.ok (), w'))
    (Hh : OnSome (HermMat b.l) b.h) (Hu : OnSome (HermU b.l) b.u) (hc : Continuous c) :
    ∃ h u, b.h = some h ∧ b.u = some u ∧ (∃ H U, Answered w' s o H U) ∧ ∀ H U, Answered w' s o H U → ∀ N,
      WeakPulses N 1 (fun t => spinOne b.l (H t)) (fun t => spinTwo b.l (U t)) (spinOne b.l h) (spinTwo b.l u) (fun _ => c)
        (fun _ => spinOne b.l A) ∧
      WeakPulses N 1 (fun t => arrayOne b.l (H t)) (fun t => arrayTwo b.l (U t)) (arrayOne b.l h) (arrayTwo b.l u) (fun _ => c)
        (fun _ => arrayOne b.l A) := by
  obtain ⟨h, hh, -⟩ := ok.wf.h
  obtain ⟨u, hu, -⟩ := ok.wf.u
  obtain ⟨ex, el⟩ := custom_elements ok hy hp hf hA hset hh hu
  refine ⟨h, u, hh, hu, ex, fun H U B N => ?_⟩
  obtain ⟨s1, a1, s2, a2⟩ := el H U B
  exact ⟨C136_driven (spinOne_herm (Hh h hh)) (spinTwo_herm (Hu u hu)) (fun _ _ => spinOne_herm HA) (fun _ _ => hc) s1 s2 N,
    C136_driven (arrayOne_herm (Hh h hh)) (arrayTwo_herm (Hu u hu)) (fun _ _ => arrayOne_herm HA) (fun _ _ => hc) a1 a2 N⟩

/-! ## Example -/

/-- Two electrons in a one-dimensional oscillator of ten functions in the field `cos t`: up to the time `b` they leave a state of
given energy at most with the probability `(120 b)²`. -/
example : ∃ b h u, odho 10 8 401 1 (1 / 4) 1 0 0 = .ok b ∧ b.h = some h ∧ b.u = some u ∧
    ∃ w' : World ℂ ℝ, (setTimeEvolutionOperator 0 (some 0)).run (cosWorld b) = (.ok (), w') ∧
    (∃ H U, Answered w' 0 0 H U) ∧ ∀ H U, Answered w' 0 0 H U →
      ∀ Ψ : ℝ → Wave ℂ 2 20, Evolves (fun t => spinOne 10 (H t)) (fun t => spinTwo 10 (U t)) Ψ →
        ∀ i, LevelState (spinOne 10 h) (spinTwo 10 u) i (Ψ 0) → ∀ t ≥ 0, 1 - (120 * t) ^ 2 ≤ population (Ψ 0) (Ψ t) := by
  obtain ⟨b, hb, cons⟩ := C91_odho 10 8 (num := 401) (by norm_num) 1 (1 / 4) 1 0 0 false false
  obtain ⟨b', hb', -, -, hd'⟩ := odho_ok 10 8 (num := 401) (by norm_num) 1 (1 / 4) 1 0 0 false false
  obtain rfl : b = b' := by simpa using hb.symm.trans hb'
  have hl := cons.wf.l_eq
  obtain ⟨h, hh, Hh⟩ := cons.h
  obtain ⟨u, hu, Hu, -⟩ := cons.u
  obtain ⟨d, hd, Hd⟩ := cons.dipole
  have hdim := cons.dim_eq
  have ok : SysOK (cosWorld b) 0 ⟨.spatial, 0, some 0, 1, 10, 9, (0, 1), (1, 10), none⟩ b :=
    ⟨rfl, rfl, cons.wf, cons.np_eq.symm, ⟨by decide, rfl, rfl, rfl⟩⟩
  obtain ⟨w', hw', -⟩ := C38_set (o := 0) ok rfl
  obtain ⟨h', u', d', e1, e2, e3, ex, all⟩ := C136_laser (pol := none) (c := fun t => (Real.cos t : ℝ))
    (e := fun _ k => if k = 0 then 1 else 0) (F := fun _ t => Real.cos t)
    ok (by rw [hd]; rfl) rfl rfl (.inl rfl) (fun t => ⟨_, rfl⟩) (fun _ _ => rfl) (.inl ⟨_, rfl⟩) hw'
    (fun z hz => by rw [hl, ← Option.some.inj (hh.symm.trans hz)]; exact Hh)
    (fun z hz => by rw [hl, ← Option.some.inj (hu.symm.trans hz)]; exact Hu)
    (fun z hz => by rw [hl, hdim, ← Option.some.inj (hd.symm.trans hz)]; exact Hd)
    (fun t k hk => by
      rw [hdim] at hk
      obtain rfl : k = 0 := by omega
      rw [if_pos rfl, mul_one]) (fun _ _ => Real.continuous_cos)
  refine ⟨b, h', u', hb, e1, e2, w', hw', ex, fun H U A Ψ hΨ i hi t ht => ?_⟩
  obtain ⟨W, -⟩ := all H U A 2
  rw [hl, hdim] at W
  have bd : ∀ k < 1, ∀ p q : Fin 20, ‖spinDipole 10 d' k p q‖ ≤ 3 := by
    intro k hk p q
    obtain rfl : k = 0 := by omega
    have dip : ∀ n < 9, ‖(odhoDip 1 n : ℂ)‖ ≤ 3 := fun n hn => by
      have hn : (n : ℝ) ≤ 9 := by exact_mod_cast hn.le
      rw [Complex.norm_real, Real.norm_eq_abs, odhoDip_eq one_pos, abs_of_nonneg (Real.sqrt_nonneg _)]
      exact Real.sqrt_le_iff.2 ⟨by norm_num, by linarith⟩
    rw [← Option.some.inj (hd'.symm.trans e3)]
    simp only [spinDipole]
    split_ifs
    · rw [ofFn_get_of (by exact ⟨by omega, by omega, by omega, trivial⟩)]
      simp only [List.getD_cons_zero, List.getD_cons_succ]
      split_ifs
      · exact dip _ (by omega)
      · exact dip _ (by omega)
      · simp
    · simp
  have key := W.stays (fun _ => 3) bd (fun _ _ => by norm_num) Ψ hΨ 0 t ht i hi
  have I1 : ∫ τ in (0 : ℝ)..t, |Real.cos τ| ≤ t := by
    have := intervalIntegral.integral_mono_on ht (Real.continuous_cos.abs.intervalIntegrable 0 t) (continuous_const.intervalIntegrable (μ := MeasureTheory.volume) 0 t)
      fun τ _ => Real.abs_cos_le_one τ
    simpa using this
  have I0 : 0 ≤ ∫ τ in (0 : ℝ)..t, |Real.cos τ| := intervalIntegral.integral_nonneg ht fun τ _ => abs_nonneg _
  rw [sum_range_one] at key
  push_cast at key
  refine le_trans ?_ key
  nlinarith

end QS.Props
