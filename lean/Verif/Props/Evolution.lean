import Verif.Lemmas.Evolution
import Verif.Props.TimeEvolution
import Verif.Props.Sectors
import Verif.Props.ManyBodyChange
import Verif.Lemmas.ManyBodyPositive
import Mathlib.Analysis.SpecialFunctions.ExpDeriv

/-!
# The time evolution of `N` electrons with the elements that `h_t` and `u_t` return (C127)
-/

namespace QS.Props

open NDArray BasisSet World TwoDim OneDim SincDvr Idx Coulomb Spec PyM Finset

variable {N L : ℕ} {h : ℝ → Fin L → Fin L → ℂ} {u : ℝ → Fin L → Fin L → Fin L → Fin L → ℂ}

/-- **C127** With elements that are Hermitian at all times and continuous in time, the Schrödinger equation has exactly one
solution for all times from every wave function at every time, and it conserves inner products and the antisymmetry. -/
theorem C127_unitary (hh : HermitianElements h u) (hc : ContinuousElements h u) (N : ℕ) : UnitaryEvolution N h u := by
  refine ⟨fun t₀ Ψ₀ => ?_, fun Φ Ψ hΦ hΨ => evolves_inner hh hΦ hΨ, fun Ψ hΨ s ha => evolves_fermions hh hΨ ha⟩
  obtain ⟨Ψ, h1, h2⟩ := evolves_exists hh hc t₀ Ψ₀
  exact ⟨Ψ, ⟨h1, h2⟩, fun Φ hΦ => evolves_unique hh hΦ.1 h1 (hΦ.2.trans h2.symm)⟩

/-- **C127** A total quantum number that the elements conserve at all times does not change in time. -/
theorem C127_totals (hh : HermitianElements h u) {G : Type} [AddCommMonoid G] {g : Fin L → G}
    (hc : ∀ t, ConservesTotal g (h t) (u t)) (N : ℕ) : KeepsTotal N g h u :=
  fun _ hΨ _ _ hs t => evolves_total hh hc hΨ hs t

/-- **C127** The mean value of any (time-dependent) operator with one-body elements `a` and two-body elements `v` changes by the
derivative of the operator and by `i` times the mean value of its commutator with the Hamilton operator. -/
theorem C127_ehrenfest {a : ℝ → Fin L → Fin L → ℂ} {v : ℝ → Fin L → Fin L → Fin L → Fin L → ℂ} {a' : Fin L → Fin L → ℂ}
    {v' : Fin L → Fin L → Fin L → Fin L → ℂ} {Ψ : ℝ → Wave ℂ N L} (hΨ : Evolves h u Ψ) {t : ℝ}
    (hh : HermitianElements h u)
    (ha : ∀ p q, HasDerivAt (fun t => a t p q) (a' p q) t)
    (hv : ∀ p q r s, HasDerivAt (fun t => v t p q r s) (v' p q r s) t) :
    HasDerivAt (fun t => meanEnergy (a t) (v t) (Ψ t)) (meanEnergy a' v' (Ψ t) +
      Complex.I * (waveInner (Ψ t) (hamiltonOp (h t) (u t) (hamiltonOp (a t) (v t) (Ψ t))) -
        waveInner (Ψ t) (hamiltonOp (a t) (v t) (hamiltonOp (h t) (u t) (Ψ t))))) t := by
  rw [← hamiltonOp_symm (hh.one t) (hh.two t)]
  exact mean_deriv hΨ ha hv

/-- **C127** The mean energy changes at the rate of the mean value of the derivative of the Hamilton operator. -/
theorem C127_energy {h' : Fin L → Fin L → ℂ} {u' : Fin L → Fin L → Fin L → Fin L → ℂ} {Ψ : ℝ → Wave ℂ N L}
    (hΨ : Evolves h u Ψ) (hh : HermitianElements h u) {t : ℝ} (h1 : ∀ p q, HasDerivAt (fun t => h t p q) (h' p q) t)
    (u1 : ∀ p q r s, HasDerivAt (fun t => u t p q r s) (u' p q r s) t) :
    HasDerivAt (fun t => meanEnergy (h t) (u t) (Ψ t)) (meanEnergy h' u' (Ψ t)) t := by
  refine (C127_ehrenfest hΨ hh h1 u1).congr_deriv ?_
  rw [sub_self, mul_zero, add_zero]

/-! ## Overlaps with states of given energy -/

theorem waveInner_smul (Φ Ψ : Wave ℂ N L) (c : ℂ) : waveInner Φ (fun x => c * Ψ x) = c * waveInner Φ Ψ := by
  unfold waveInner
  rw [mul_sum]
  exact sum_congr rfl fun x _ => by ring

theorem waveInner_smul_left (Φ Ψ : Wave ℂ N L) (c : ℂ) : waveInner (fun x => c * Φ x) Ψ = star c * waveInner Φ Ψ := by
  unfold waveInner
  rw [mul_sum]
  exact sum_congr rfl fun x _ => by rw [star_mul']; ring

theorem overlap_deriv (hh : HermitianElements h u) {Ψ : ℝ → Wave ℂ N L} (hΨ : Evolves h u Ψ) {Φ : Wave ℂ N L} {E t : ℝ}
    (hE : hamiltonOp (h t) (u t) Φ = fun x => (E : ℂ) * Φ x) :
    HasDerivAt (fun t => waveInner Φ (Ψ t)) (-Complex.I * (E * waveInner Φ (Ψ t))) t := by
  have h1 := HasDerivAt.fun_sum (u := univ) fun (x : Fin N → Fin L) _ => (hΨ t x).const_mul (star (Φ x))
  refine h1.congr_deriv ?_
  have h2 : waveInner Φ (hamiltonOp (h t) (u t) (Ψ t)) = E * waveInner Φ (Ψ t) := by
    rw [← hamiltonOp_symm (hh.one t) (hh.two t), hE, waveInner_smul_left]
    congr 1
    exact Complex.conj_ofReal E
  rw [← h2]
  unfold waveInner
  rw [mul_sum]
  exact sum_congr rfl fun x _ => by ring

/-- **C127** While the Hamilton operator has the state `Φ` with energy `E`, the overlap with it only turns its phase. -/
theorem C127_overlap (hh : HermitianElements h u) {Ψ : ℝ → Wave ℂ N L} (hΨ : Evolves h u Ψ) {Φ : Wave ℂ N L} {E t₁ : ℝ}
    (hE : ∀ t ≥ t₁, hamiltonOp (h t) (u t) Φ = fun x => (E : ℂ) * Φ x) {t : ℝ} (ht : t ≥ t₁) :
    waveInner Φ (Ψ t) = Complex.exp (-Complex.I * (E * (t - t₁) : ℝ)) * waveInner Φ (Ψ t₁) := by
  have key : ∀ τ ∈ Set.Ici t₁, HasDerivWithinAt (fun τ : ℝ => Complex.exp (Complex.I * (E * (τ - t₁) : ℝ)) * waveInner Φ (Ψ τ))
      0 (Set.Ici t₁) τ := fun τ hτ => by
    have h1 : HasDerivAt (fun τ : ℝ => E * (τ - t₁)) E τ := by
      simpa using ((hasDerivAt_id τ).sub_const t₁).const_mul E
    have h2 := (h1.ofReal_comp.const_mul Complex.I).cexp.mul (overlap_deriv hh hΨ (hE τ hτ))
    refine (h2.congr_deriv ?_).hasDerivWithinAt
    ring
  have h3 := (convex_Ici t₁).norm_image_sub_le_of_norm_hasDerivWithin_le (C := 0) key (fun _ _ => by rw [norm_zero])
    Set.self_mem_Ici ht
  rw [zero_mul] at h3
  have h4 := sub_eq_zero.1 (norm_le_zero_iff.1 h3)
  simp only [sub_self, mul_zero, Complex.ofReal_zero, Complex.exp_zero, one_mul] at h4
  rw [← h4, ← mul_assoc, ← Complex.exp_add]
  rw [show -Complex.I * ((E * (t - t₁) : ℝ) : ℂ) + Complex.I * ((E * (t - t₁) : ℝ) : ℂ) = 0 by ring, Complex.exp_zero, one_mul]

/-- **C127** Without time dependence the states of given energy evolve by phases, and every evolution of fermions is the sum of
the states with the phases of their energies. -/
theorem C127_stationary {h₀ : Fin L → Fin L → ℂ} {u₀ : Fin L → Fin L → Fin L → Fin L → ℂ}
    (hh : ∀ p q, star (h₀ p q) = h₀ q p) (hu : ∀ p q r s, star (u₀ p q r s) = u₀ r s p q) {D : ℕ} {E : ℕ → ℝ}
    {Φ : ℕ → Wave ℂ N L} (S : Spectrum h₀ u₀ D E Φ) {Ψ : ℝ → Wave ℂ N L} {t₁ : ℝ} (ha : Antisymmetric (Ψ t₁)) :
    Evolves (fun _ => h₀) (fun _ => u₀) Ψ ↔ ∀ t x, Ψ t x =
      ∑ i ∈ range D, waveInner (Φ i) (Ψ t₁) * (Complex.exp (-Complex.I * (E i * (t - t₁) : ℝ)) * Φ i x) := by
  have H : HermitianElements (fun _ => h₀) (fun _ => u₀) := ⟨fun _ => hh, fun _ => hu⟩
  have st : ∀ i < D, Evolves (fun _ => h₀) (fun _ => u₀)
      (fun t x => Complex.exp (-Complex.I * (E i * (t - t₁) : ℝ)) * Φ i x) := fun i hi t x => by
    rw [hamiltonOp_smul, S.eigen i hi]
    have h1 : HasDerivAt (fun τ : ℝ => E i * (τ - t₁)) (E i) t := by
      simpa using ((hasDerivAt_id t).sub_const t₁).const_mul (E i)
    refine ((h1.ofReal_comp.const_mul (-Complex.I)).cexp.mul_const (Φ i x)).congr_deriv ?_
    ring
  have sm := evolves_sum (range D) (fun i => waveInner (Φ i) (Ψ t₁)) fun i hi => st i (mem_range.1 hi)
  constructor
  · intro hΨ t x
    have e := evolves_unique H hΨ sm (s := t₁) (funext fun x => by
      rw [S.complete _ ha x]
      exact sum_congr rfl fun i _ => by simp)
    exact congrFun (congrFun e t) x
  · intro e
    have e' : (fun t x => ∑ i ∈ range D, waveInner (Φ i) (Ψ t₁) *
        (Complex.exp (-Complex.I * (E i * (t - t₁) : ℝ)) * Φ i x)) = Ψ := funext fun t => funext fun x => (e t x).symm
    rwa [e'] at sm

/-! ## Forces and switched interactions -/

theorem meanEnergy_one (a : Fin L → Fin L → ℂ) (Ψ : Wave ℂ N L) : meanEnergy a (fun _ _ _ _ => 0) Ψ = meanOne a Ψ := by
  unfold meanEnergy meanOne
  rw [waveInner_hamiltonOp]
  have : twoBodyOp (fun _ _ _ _ => (0 : ℂ)) Ψ = fun _ => 0 := by
    funext x
    simp [twoBodyOp]
  rw [this]
  simp [waveInner]

theorem meanEnergy_two (v : Fin L → Fin L → Fin L → Fin L → ℂ) (Ψ : Wave ℂ N L) :
    meanEnergy (fun _ _ => 0) v Ψ = meanTwo v Ψ := by
  unfold meanEnergy meanTwo
  rw [waveInner_hamiltonOp]
  have : oneBodyOp (fun _ _ => (0 : ℂ)) Ψ = fun _ => 0 := by
    funext x
    simp [oneBodyOp]
  rw [this]
  simp [waveInner]

theorem oneBodyOp_lin (n : ℕ) (F : ℕ → ℂ) (d : ℕ → Fin L → Fin L → ℂ) (Ψ : Wave ℂ N L) (x) :
    oneBodyOp (fun p q => ∑ k ∈ range n, F k * d k p q) Ψ x = ∑ k ∈ range n, F k * oneBodyOp (d k) Ψ x := by
  unfold oneBodyOp
  simp only [sum_mul, mul_sum]
  rw [sum_comm' (s := range n) (t := fun _ => univ) (t' := univ) (s' := fun _ => range n) (by simp [and_comm])]
  refine sum_congr rfl fun i _ => ?_
  rw [sum_comm]
  exact sum_congr rfl fun k _ => sum_congr rfl fun y _ => by ring

theorem meanOne_lin (n : ℕ) (F : ℕ → ℂ) (d : ℕ → Fin L → Fin L → ℂ) (Ψ : Wave ℂ N L) :
    meanOne (fun p q => ∑ k ∈ range n, F k * d k p q) Ψ = ∑ k ∈ range n, F k * meanOne (d k) Ψ := by
  unfold meanOne
  have : oneBodyOp (fun p q => ∑ k ∈ range n, F k * d k p q) Ψ = fun x => ∑ k ∈ range n, F k * oneBodyOp (d k) Ψ x :=
    funext fun x => oneBodyOp_lin n F d Ψ x
  rw [this, waveInner_comb]

theorem hamiltonOp_split (h₀ a : Fin L → Fin L → ℂ) (v : Fin L → Fin L → Fin L → Fin L → ℂ) (Ψ : Wave ℂ N L) :
    hamiltonOp (fun p q => h₀ p q + a p q) v Ψ = fun x => hamiltonOp h₀ v Ψ x + oneBodyOp a Ψ x := by
  funext x
  unfold hamiltonOp oneBodyOp
  simp only [add_mul, sum_add_distrib]
  ring

theorem waveInner_add (Φ Ψ Χ : Wave ℂ N L) : waveInner Φ (fun x => Ψ x + Χ x) = waveInner Φ Ψ + waveInner Φ Χ := by
  unfold waveInner
  rw [← sum_add_distrib]
  exact sum_congr rfl fun x _ => by ring

/-- **C127** Particles under one-body forces. -/
theorem C127_driven {n : ℕ} {h₀ : Fin L → Fin L → ℂ} {u₀ : Fin L → Fin L → Fin L → Fin L → ℂ} {F : ℕ → ℝ → ℂ}
    {d : ℕ → Fin L → Fin L → ℂ} (hh₀ : ∀ p q, star (h₀ p q) = h₀ q p)
    (hu₀ : ∀ p q r s, star (u₀ p q r s) = u₀ r s p q) (hd : ∀ k < n, ∀ p q, star (d k p q) = d k q p)
    (hF : ∀ k < n, ∀ t, star (F k t) = F k t) (hFc : ∀ k < n, Continuous (F k))
    (eh : ∀ t p q, h t p q = h₀ p q + ∑ k ∈ range n, F k t * d k p q) (eu : ∀ t, u t = u₀) (N : ℕ) :
    DrivenEvolution N n h u h₀ u₀ F d := by
  have H : HermitianElements h u := by
    refine ⟨fun t p q => ?_, fun t p q r s => ?_⟩
    · rw [eh, eh, star_add, star_sum, hh₀]
      congr 1
      refine sum_congr rfl fun k hk => ?_
      rw [star_mul', hF k (mem_range.1 hk), hd k (mem_range.1 hk)]
    · rw [eu, hu₀]
  have C : ContinuousElements h u := by
    refine ⟨fun p q => ?_, fun p q r s => ?_⟩
    · simp only [eh]
      exact continuous_const.add (continuous_finsetSum _ fun k hk => (hFc k (mem_range.1 hk)).mul continuous_const)
    · simp only [eu]
      exact continuous_const
  have cu : ∀ t p q r s, HasDerivAt (fun t => u t p q r s) 0 t := fun t p q r s => by
    simp only [eu]
    exact hasDerivAt_const t _
  refine ⟨C127_unitary H C N, fun Ψ hΨ t F' hF' => ?_, fun Ψ hΨ t => ?_, fun Ψ hΨ t₁ hF0 D E Φ S i hi t ht => ?_⟩
  · have h1 : ∀ p q, HasDerivAt (fun t => h t p q) (∑ k ∈ range n, F' k * d k p q) t := fun p q => by
      simp only [eh]
      exact (HasDerivAt.fun_sum fun k hk => (hF' k (mem_range.1 hk)).mul_const _).const_add _
    have := C127_energy hΨ H h1 (fun p q r s => cu t p q r s)
    rwa [meanEnergy_one, meanOne_lin] at this
  · have z1 : ∀ a : Fin L → Fin L → ℂ, HasDerivAt (fun t => meanOne a (Ψ t)) (Complex.I *
        (waveInner (hamiltonOp (h t) (u t) (Ψ t)) (oneBodyOp a (Ψ t)) -
          waveInner (Ψ t) (oneBodyOp a (hamiltonOp (h t) (u t) (Ψ t))))) t := fun a => by
      have := mean_deriv hΨ (a := fun _ => a) (v := fun _ _ _ _ _ => 0) (t := t) (a' := fun _ _ => 0)
        (v' := fun _ _ _ _ => 0) (fun p q => hasDerivAt_const t _) (fun p q r s => hasDerivAt_const t _)
      simp only [meanEnergy_one] at this
      refine this.congr_deriv ?_
      have e : ∀ Χ : Wave ℂ N L, hamiltonOp a (fun _ _ _ _ => 0) Χ = oneBodyOp a Χ := fun Χ => by
        funext x
        simp [hamiltonOp, twoBodyOp]
      have e0 : meanOne (fun _ _ => 0) (Ψ t) = 0 := by simp [meanOne, oneBodyOp, waveInner]
      rw [e, e, e0, zero_add]
    refine ⟨_, fun k _ => z1 (d k), ?_⟩
    have h2 := mean_deriv hΨ (a := fun _ => h₀) (v := fun _ => u₀) (t := t) (a' := fun _ _ => 0)
      (v' := fun _ _ _ _ => 0) (fun p q => hasDerivAt_const t _) (fun p q r s => hasDerivAt_const t _)
    refine h2.congr_deriv ?_
    have e0 : meanEnergy (fun _ _ => 0) (fun _ _ _ _ => 0) (Ψ t) = 0 := by
      rw [meanEnergy_one]
      simp [meanOne, oneBodyOp, waveInner]
    have split : ∀ Χ : Wave ℂ N L, hamiltonOp (h t) (u t) Χ =
        fun x => hamiltonOp h₀ u₀ Χ x + ∑ k ∈ range n, F k t * oneBodyOp (d k) Χ x := fun Χ => by
      rw [show h t = fun p q => h₀ p q + ∑ k ∈ range n, F k t * d k p q from funext fun p => funext fun q => eh t p q, eu,
        hamiltonOp_split]
      funext x
      rw [oneBodyOp_lin]
    have a1 : ∀ Φ Χ : Wave ℂ N L, waveInner Φ (hamiltonOp (h t) (u t) Χ) = waveInner Φ (hamiltonOp h₀ u₀ Χ) +
        ∑ k ∈ range n, F k t * waveInner Φ (oneBodyOp (d k) Χ) := fun Φ Χ => by
      rw [split, waveInner_add, waveInner_comb]
    have b1 := a1 (hamiltonOp (h t) (u t) (Ψ t)) (Ψ t)
    have b2 := a1 (Ψ t) (hamiltonOp (h t) (u t) (Ψ t))
    rw [hamiltonOp_symm (H.one t) (H.two t), b2] at b1
    rw [e0, zero_add]
    have c1 : ∑ k ∈ range n, F k t * (Complex.I * (waveInner (hamiltonOp (h t) (u t) (Ψ t)) (oneBodyOp (d k) (Ψ t)) -
          waveInner (Ψ t) (oneBodyOp (d k) (hamiltonOp (h t) (u t) (Ψ t))))) =
        Complex.I * (∑ k ∈ range n, F k t * waveInner (hamiltonOp (h t) (u t) (Ψ t)) (oneBodyOp (d k) (Ψ t)) -
          ∑ k ∈ range n, F k t * waveInner (Ψ t) (oneBodyOp (d k) (hamiltonOp (h t) (u t) (Ψ t)))) := by
      rw [← sum_sub_distrib, mul_sum]
      exact sum_congr rfl fun k _ => by ring
    rw [c1]
    linear_combination (-Complex.I) * b1
  · refine C127_overlap H hΨ (fun τ hτ => ?_) ht
    rw [← S.eigen i hi, eu]
    congr 1
    funext p q
    rw [eh, sum_eq_zero fun k hk => by rw [hF0 τ hτ k (mem_range.1 hk), zero_mul], add_zero]

/-- **C127** Particles with an interaction that is switched on. -/
theorem C127_switched {h₀ : Fin L → Fin L → ℂ} {u₀ : Fin L → Fin L → Fin L → Fin L → ℂ} {f : ℝ → ℂ}
    (hh₀ : ∀ p q, star (h₀ p q) = h₀ q p) (hu₀ : ∀ p q r s, star (u₀ p q r s) = u₀ r s p q)
    (hf : ∀ t, star (f t) = f t) (hfc : Continuous f) (eh : ∀ t, h t = h₀)
    (eu : ∀ t p q r s, u t p q r s = f t * u₀ p q r s) (N : ℕ) :
    SwitchedEvolution N h u h₀ u₀ f ∧
      ∀ {G : Type} [AddCommMonoid G] (g : Fin L → G), ConservesTotal g h₀ u₀ → KeepsTotal N g h u := by
  have H : HermitianElements h u := by
    refine ⟨fun t p q => by rw [eh, hh₀], fun t p q r s => ?_⟩
    rw [eu, eu, star_mul', hf, hu₀]
  have C : ContinuousElements h u := by
    refine ⟨fun p q => ?_, fun p q r s => ?_⟩
    · simp only [eh]
      exact continuous_const
    · simp only [eu]
      exact hfc.mul continuous_const
  refine ⟨⟨C127_unitary H C N, fun Ψ hΨ t f' hf' => ?_, fun Ψ hΨ t₁ hf1 D E Φ S i hi t ht => ?_⟩, fun g hc => ?_⟩
  · have h1 : ∀ p q, HasDerivAt (fun t => h t p q) 0 t := fun p q => by
      simp only [eh]
      exact hasDerivAt_const t _
    have u1 : ∀ p q r s, HasDerivAt (fun t => u t p q r s) (f' * u₀ p q r s) t := fun p q r s => by
      simp only [eu]
      exact hf'.mul_const _
    have := C127_energy hΨ H h1 u1
    rw [meanEnergy_two] at this
    refine this.congr_deriv ?_
    unfold meanTwo
    have e : twoBodyOp (fun p q r s => f' * u₀ p q r s) (Ψ t) = fun x => f' * twoBodyOp u₀ (Ψ t) x := by
      funext x
      unfold twoBodyOp
      simp only [mul_sum, mul_assoc]
    rw [e, waveInner_smul]
    ring
  · refine C127_overlap H hΨ (fun τ hτ => ?_) ht
    rw [← S.eigen i hi, eh]
    congr 1
    funext p q r s
    rw [eu, hf1 τ hτ, one_mul]
  · refine C127_totals H (fun t => ⟨fun p q hne => ?_, fun p q r s hne => ?_⟩) N
    · rw [eh]
      exact hc.one p q hne
    · rw [eu, hc.two p q r s hne, mul_zero]

/-! ## The elements of a system -/

theorem arrayOne_herm {l : ℕ} {H : NDArray ℂ} (hh : HermMat l H) (p q : Fin l) :
    star (arrayOne l H p q) = arrayOne l H q p :=
  (hh q q.2 p p.2).symm

theorem arrayTwo_herm {l : ℕ} {U : NDArray ℂ} (hu : HermU l U) (p q r s : Fin l) :
    star (arrayTwo l U p q r s) = arrayTwo l U r s p q :=
  (hu r r.2 s s.2 p p.2 q q.2).symm

theorem spinDipole_herm {dim l : ℕ} {d : NDArray ℂ} (hd : HermDip dim l d) {k : ℕ} (hk : k < dim) (p q : Fin (2 * l)) :
    star (spinDipole l d k p q) = spinDipole l d k q p := by
  unfold spinDipole
  by_cases h : p.1 % 2 = q.1 % 2
  · rw [if_pos h, if_pos h.symm]
    exact (hd k hk _ (by omega) _ (by omega)).symm
  · rw [if_neg h, if_neg (Ne.symm h), star_zero]

/-- Elements that do not act on the spins conserve the number of electrons with the second spin. -/
theorem conserves_spins (l : ℕ) (H U : NDArray ℂ) :
    ConservesTotal (fun p : Fin (2 * l) => p.1 % 2) (spinOne l H) (spinTwo l U) :=
  ⟨fun _ _ hne => if_neg hne, fun _ _ _ _ hne => if_neg fun h => hne (by rw [h.1, h.2])⟩

/-- The arrays that `h_t` and `u_t` return with a `LaserField`. -/
theorem answered_laser {w : World ℂ ℝ} {s o : ℕ} {b : BasisSet ℂ} {c : ℝ → ℂ} {e : ℝ → ℕ → ℂ} {h u d : NDArray ℂ}
    {H U : ℝ → NDArray ℂ} (LA : LaserAnswers w s o b c e) (hh : b.h = some h) (hu : b.u = some u) (hd : b.dipole = some d)
    (A : Answered w s o H U) (t : ℝ) : IsLaser h d b.l b.dim (c t) (e t) (H t) ∧ U t = u := by
  obtain ⟨ops, ho, a1, a2⟩ := A t
  obtain ⟨h', d', r, h1, h2, h3, h4, h5⟩ := LA ops ho t
  obtain rfl := Option.some.inj (hh.symm.trans h1)
  obtain rfl := Option.some.inj (hd.symm.trans h2)
  rw [a1] at h3
  obtain rfl : H t = r := by simpa using h3
  rw [a2, hu] at h5
  exact ⟨h4, by simpa using h5⟩

theorem laser_answered {w : World ℂ ℝ} {s o : ℕ} {b : BasisSet ℂ} {c : ℝ → ℂ} {e : ℝ → ℕ → ℂ} {u : NDArray ℂ}
    (LA : LaserAnswers w s o b c e) (hu : b.u = some u) : ∃ H U, Answered w s o H U := by
  choose h' d' r h1 h2 h3 h4 h5 using LA [] (by simp)
  exact ⟨r, fun _ => u, fun t => ⟨[], by simp, h3 t, by rw [h5 t, hu]⟩⟩

/-- The arrays that `h_t` and `u_t` return with an `AdiabaticSwitching`. -/
theorem answered_switching {w : World ℂ ℝ} {s o : ℕ} {b : BasisSet ℂ} {c : ℝ → ℂ} {h u : NDArray ℂ}
    {H U : ℝ → NDArray ℂ} (SA : SwitchingAnswers w s o b c) (hh : b.h = some h) (hu : b.u = some u)
    (su : u.shape = [b.l, b.l, b.l, b.l]) (A : Answered w s o H U) (t : ℝ) :
    H t = h ∧ ∀ p < b.l, ∀ q < b.l, ∀ r < b.l, ∀ s < b.l, (U t).get [p, q, r, s] = c t * u.get [p, q, r, s] := by
  obtain ⟨ops, ho, a1, a2⟩ := A t
  obtain ⟨u', r, h1, h2, h3, h4, h5⟩ := SA ops ho t
  obtain rfl := Option.some.inj (hu.symm.trans h1)
  rw [a2] at h2
  obtain rfl : U t = r := by simpa using h2
  rw [a1, hh] at h5
  exact ⟨by simpa using h5, fun p hp q hq r hr s hs => h4 _ (by rw [su]; simp [InRange, hp, hq, hr, hs])⟩

theorem switching_answered {w : World ℂ ℝ} {s o : ℕ} {b : BasisSet ℂ} {c : ℝ → ℂ} {h : NDArray ℂ}
    (SA : SwitchingAnswers w s o b c) (hh : b.h = some h) : ∃ H U, Answered w s o H U := by
  choose u' r h1 h2 h3 h4 h5 using SA [] (by simp)
  exact ⟨fun _ => h, r, fun t => ⟨[], by simp, by rw [h5 t, hh], h2 t⟩⟩

/-- The arrays that `h_t` and `u_t` return with a `CustomOneBodyOperator`. -/
theorem answered_custom {w : World ℂ ℝ} {s o : ℕ} {b : BasisSet ℂ} {c : ℝ → ℂ} {h u A : NDArray ℂ}
    {H U : ℝ → NDArray ℂ} (CA : CustomAnswers w s o b c A) (hh : b.h = some h) (hu : b.u = some u)
    (B : Answered w s o H U) (t : ℝ) :
    (∀ p < b.l, ∀ q < b.l, (H t).get [p, q] = h.get [p, q] + c t * A.get [p, q]) ∧ U t = u := by
  obtain ⟨ops, ho, a1, a2⟩ := B t
  obtain ⟨h', r, h1, h2, h3, h4, h5⟩ := CA ops ho t
  obtain rfl := Option.some.inj (hh.symm.trans h1)
  rw [a1] at h2
  obtain rfl : H t = r := by simpa using h2
  rw [a2, hu] at h5
  exact ⟨h4, by simpa using h5⟩

theorem custom_answered {w : World ℂ ℝ} {s o : ℕ} {b : BasisSet ℂ} {c : ℝ → ℂ} {u A : NDArray ℂ}
    (CA : CustomAnswers w s o b c A) (hu : b.u = some u) : ∃ H U, Answered w s o H U := by
  choose h' r h1 h2 h3 h4 h5 using CA [] (by simp)
  exact ⟨r, fun _ => u, fun t => ⟨[], by simp, h2 t, by rw [h5 t, hu]⟩⟩

/-- **C127** A system with a `LaserField` (with a callable pulse or polarisation, see C36) and Hermitian elements: whatever is read
from the system in between, the arrays that `h_t` and `u_t` return let any number `N` of electrons in its orbitals (and of
particles in its functions as they are) evolve as driven by the forces `c(t) e_k(t)` on the dipole moment, and the numbers of
electrons with each spin do not change. -/
theorem C127_laser {w w' : World ℂ ℝ} {s o : ℕ} {x : Sys} {b : BasisSet ℂ} {y : TEOp ℂ ℝ}
    {pulse : Attr ℂ ℝ} {pol : Option (Attr ℂ ℝ)} {f : ℝ → Val ℂ} {c : ℝ → ℂ} {e : ℝ → ℕ → ℂ}
    (ok : SysOK w s x b) (hd : b.dipole.isSome = true) (hy : w.ops[o]? = some y)
    (hk : y.kind = .laser pulse pol) (hp : Given pulse f) (hf : ∀ t, IsNumber (f t) (c t))
    (he : GivenPol pol b.dim e)
    (callable : IsCallable pulse ∨ ∃ a, pol = some a ∧ IsCallable a)
    (hset : (setTimeEvolutionOperator s (some o)).run w = (.ok (), w'))
    (Hh : OnSome (HermMat b.l) b.h) (Hu : OnSome (HermU b.l) b.u) (Hd : OnSome (HermDip b.dim b.l) b.dipole)
    (hc : ∀ t, star (c t) = c t) (hcc : Continuous c) (hee : ∀ t, ∀ k < b.dim, star (e t k) = e t k)
    (hec : ∀ k < b.dim, Continuous fun t => e t k) :
    ∃ h u d, b.h = some h ∧ b.u = some u ∧ b.dipole = some d ∧ (∃ H U, Answered w' s o H U) ∧
      ∀ H U, Answered w' s o H U → ∀ N,
        DrivenEvolution N b.dim (fun t => spinOne b.l (H t)) (fun t => spinTwo b.l (U t)) (spinOne b.l h) (spinTwo b.l u)
          (fun k t => c t * e t k) (spinDipole b.l d) ∧
        KeepsTotal N (fun p : Fin (2 * b.l) => p.1 % 2) (fun t => spinOne b.l (H t)) (fun t => spinTwo b.l (U t)) ∧
        DrivenEvolution N b.dim (fun t => arrayOne b.l (H t)) (fun t => arrayTwo b.l (U t)) (arrayOne b.l h)
          (arrayTwo b.l u) (fun k t => c t * e t k) (fun k p q => d.get [k, p, q]) := by
  have LA := C36_partial ok hd hy hk hp hf he callable hset
  obtain ⟨h, hh, -⟩ := ok.wf.h
  obtain ⟨u, hu, -⟩ := ok.wf.u
  obtain ⟨d, hd⟩ := Option.isSome_iff_exists.1 hd
  refine ⟨h, u, d, hh, hu, hd, ?_, fun H U A N => ?_⟩
  · exact laser_answered LA hu
  · have el := answered_laser LA hh hu hd A
    have F1 : ∀ k < b.dim, ∀ t, star (c t * e t k) = c t * e t k := fun k hk t => by rw [star_mul', hc, hee t k hk]
    have F2 : ∀ k < b.dim, Continuous fun t => c t * e t k := fun k hk => hcc.mul (hec k hk)
    have D1 := C127_driven (h := fun t => spinOne b.l (H t)) (u := fun t => spinTwo b.l (U t)) (n := b.dim)
      (spinOne_herm (Hh h hh)) (spinTwo_herm (Hu u hu)) (fun k hk => spinDipole_herm (Hd d hd) hk) F1 F2
      (fun t p q => by
        simp only [spinOne, spinDipole]
        split_ifs
        · rw [(el t).1.get _ (by omega) _ (by omega), mul_sum]
          congr 1
          exact sum_congr rfl fun k _ => by ring
        · simp) (fun t => by rw [(el t).2]) N
    refine ⟨D1, ?_, ?_⟩
    · refine C127_totals ⟨fun t => ?_, fun t => ?_⟩ (fun t => conserves_spins _ _ _) N
      · refine spinOne_herm fun p hp q hq => ?_
        rw [(el t).1.get p hp q hq, (el t).1.get q hq p hp, star_add, star_mul', star_sum, hc, Hh h hh p hp q hq]
        congr 2
        refine sum_congr rfl fun k hk => ?_
        rw [star_mul', hee t k (mem_range.1 hk), Hd d hd k (mem_range.1 hk) p hp q hq]
      · rw [(el t).2]
        exact spinTwo_herm (Hu u hu)
    · exact C127_driven (n := b.dim) (arrayOne_herm (Hh h hh)) (arrayTwo_herm (Hu u hu))
        (fun k hk p q => (Hd d hd k hk q q.2 p p.2).symm) F1 F2
        (fun t p q => by
          unfold arrayOne
          rw [(el t).1.get _ p.2 _ q.2, mul_sum]
          congr 1
          exact sum_congr rfl fun k _ => by ring) (fun t => by rw [(el t).2]) N

/-- **C127** A system with an `AdiabaticSwitching` operator and Hermitian elements: the electrons evolve with the interaction
`f(t) u`, and every quantum number that the elements of the basis set conserve, and the numbers of electrons with each spin, do
not change. -/
theorem C127_switching {w w' : World ℂ ℝ} {s o : ℕ} {x : Sys} {b : BasisSet ℂ} {a : Attr ℂ ℝ}
    {f : ℝ → Val ℂ} {c : ℝ → ℂ} (ok : SysOK w s x b)
    (hy : w.ops[o]? = some (adiabaticSwitching a)) (hp : Given a f) (hf : ∀ t, IsNumber (f t) (c t))
    (hset : (setTimeEvolutionOperator s (some o)).run w = (.ok (), w'))
    (Hh : OnSome (HermMat b.l) b.h) (Hu : OnSome (HermU b.l) b.u)
    (hc : ∀ t, star (c t) = c t) (hcc : Continuous c) :
    ∃ h u, b.h = some h ∧ b.u = some u ∧ (∃ H U, Answered w' s o H U) ∧
      ∀ H U, Answered w' s o H U → ∀ N,
        SwitchedEvolution N (fun t => spinOne b.l (H t)) (fun t => spinTwo b.l (U t)) (spinOne b.l h) (spinTwo b.l u) c ∧
        (∀ {G : Type} [AddCommMonoid G] (g : ℕ → G), Conserves g b.l h u →
          KeepsTotal N (spinLabel g b.l) (fun t => spinOne b.l (H t)) (fun t => spinTwo b.l (U t))) ∧
        SwitchedEvolution N (fun t => arrayOne b.l (H t)) (fun t => arrayTwo b.l (U t)) (arrayOne b.l h)
          (arrayTwo b.l u) c := by
  have SA := C37_switching ok hy hp hf hset
  obtain ⟨h, hh, -⟩ := ok.wf.h
  obtain ⟨u, hu, su⟩ := ok.wf.u
  rw [← ok.wf.l_eq] at su
  refine ⟨h, u, hh, hu, ?_, fun H U A N => ?_⟩
  · exact switching_answered SA hh
  · have el := answered_switching SA hh hu su A
    have D1 := C127_switched (h := fun t => spinOne b.l (H t)) (u := fun t => spinTwo b.l (U t))
      (spinOne_herm (Hh h hh)) (spinTwo_herm (Hu u hu)) hc hcc (fun t => by rw [(el t).1])
      (fun t p q r s => by
        simp only [spinTwo]
        split_ifs
        · exact (el t).2 _ (by omega) _ (by omega) _ (by omega) _ (by omega)
        · simp) N
    exact ⟨D1.1, fun g hg => D1.2 _ (conserves_spin hg), (C127_switched (arrayOne_herm (Hh h hh)) (arrayTwo_herm (Hu u hu))
      hc hcc (fun t => by rw [(el t).1]) (fun t p q r s => (el t).2 _ p.2 _ q.2 _ r.2 _ s.2) N).1⟩

/-- **C127** A system with a `CustomOneBodyOperator` with a Hermitian matrix, and Hermitian elements. -/
theorem C127_custom {w w' : World ℂ ℝ} {s o : ℕ} {x : Sys} {b : BasisSet ℂ} {a : Attr ℂ ℝ}
    {A : NDArray ℂ} {f : ℝ → Val ℂ} {c : ℝ → ℂ} (ok : SysOK w s x b)
    (hy : w.ops[o]? = some (customOneBodyOperator a A)) (hp : Given a f)
    (hf : ∀ t, IsNumber (f t) (c t)) (hA : A.shape = [b.l, b.l])
    (hset : (setTimeEvolutionOperator s (some o)).run w = (.ok (), w'))
    (Hh : OnSome (HermMat b.l) b.h) (Hu : OnSome (HermU b.l) b.u) (HA : HermMat b.l A)
    (hc : ∀ t, star (c t) = c t) (hcc : Continuous c) :
    ∃ h u, b.h = some h ∧ b.u = some u ∧ (∃ H U, Answered w' s o H U) ∧
      ∀ H U, Answered w' s o H U → ∀ N,
        DrivenEvolution N 1 (fun t => spinOne b.l (H t)) (fun t => spinTwo b.l (U t)) (spinOne b.l h) (spinTwo b.l u)
          (fun _ => c) (fun _ => spinOne b.l A) ∧
        DrivenEvolution N 1 (fun t => arrayOne b.l (H t)) (fun t => arrayTwo b.l (U t)) (arrayOne b.l h)
          (arrayTwo b.l u) (fun _ => c) (fun _ => arrayOne b.l A) := by
  have CA := C37_custom ok hy hp hf hA hset
  obtain ⟨h, hh, -⟩ := ok.wf.h
  obtain ⟨u, hu, -⟩ := ok.wf.u
  refine ⟨h, u, hh, hu, ?_, fun H U B N => ?_⟩
  · exact custom_answered CA hu
  · have el := answered_custom CA hh hu B
    refine ⟨C127_driven (spinOne_herm (Hh h hh)) (spinTwo_herm (Hu u hu)) (fun _ _ => spinOne_herm HA) (fun _ _ => hc)
      (fun _ _ => hcc) (fun t p q => ?_) (fun t => by rw [(el t).2]) N,
      C127_driven (arrayOne_herm (Hh h hh)) (arrayTwo_herm (Hu u hu)) (fun _ _ => arrayOne_herm HA) (fun _ _ => hc)
      (fun _ _ => hcc) (fun t p q => ?_) (fun t => by rw [(el t).2]) N⟩
    · rw [sum_range_one]
      simp only [spinOne]
      split_ifs
      · exact (el t).1 _ (by omega) _ (by omega)
      · simp
    · rw [sum_range_one]
      exact (el t).1 _ p.2 _ q.2

/-- **C127** The equations of motion in two bases: with `C_tilde C = 1`, a wave function evolves with the transformed elements if
and only if its expansion in the old basis evolves with the old elements. -/
theorem C127_change {N l : ℕ} {C Ct : NDArray ℂ} {H H' U U' : ℝ → NDArray ℂ} (hh : ∀ t, IsOneBody C Ct l l (H t) (H' t))
    (hu : ∀ t, IsTwoBody C Ct l l (U t) (U' t))
    (inv : ∀ p < l, ∀ q < l, ∑ a ∈ range l, Ct.get [p, a] * C.get [a, q] = kd p q) (Ψ : ℝ → Wave ℂ N l) :
    Evolves (fun t => arrayOne l (H' t)) (fun t => arrayTwo l (U' t)) Ψ ↔
      Evolves (fun t => arrayOne l (H t)) (fun t => arrayTwo l (U t)) fun t => liftWave (arrayMat l l C) (Ψ t) := by
  have i1 := matrix_inverse inv
  have i2 := mul_eq_one_comm.1 i1
  have back : ∀ Χ : Wave ℂ N l, liftWave (arrayMat l l C) (liftWave (arrayMat l l Ct) Χ) = Χ := fun Χ => by
    rw [liftWave_eq, liftWave_eq, prodOp_inverse i2]
  have forth : ∀ Χ : Wave ℂ N l, liftWave (arrayMat l l Ct) (liftWave (arrayMat l l C) Χ) = Χ := fun Χ => by
    rw [liftWave_eq, liftWave_eq, prodOp_inverse i1]
  have key : ∀ t (Χ : Wave ℂ N l), hamiltonOp (arrayOne l (H t)) (arrayTwo l (U t)) (liftWave (arrayMat l l C) Χ) =
      liftWave (arrayMat l l C) (hamiltonOp (arrayOne l (H' t)) (arrayTwo l (U' t)) Χ) := fun t Χ => by
    rw [← hamilton_changed (hh t) (hu t) inv, back]
  have lin : ∀ (B : NDArray ℂ) (Φ : ℝ → Wave ℂ N l) (Φ' : Wave ℂ N l) (t : ℝ), (∀ x, HasDerivAt (fun t => Φ t x)
      (-Complex.I * Φ' x) t) → ∀ x, HasDerivAt (fun t => liftWave (arrayMat l l B) (Φ t) x)
      (-Complex.I * liftWave (arrayMat l l B) Φ' x) t := fun B Φ Φ' t hΦ x => by
    rw [liftWave_eq]
    unfold liftWave prodOp
    rw [mul_sum]
    refine (HasDerivAt.fun_sum fun y _ => (hΦ y).const_mul _).congr_deriv ?_
    exact sum_congr rfl fun y _ => by
      simp only [Matrix.of_apply]
      ring
  constructor
  · intro hΨ t x
    have := lin C Ψ _ t (hΨ t) x
    rwa [← key] at this
  · intro hΨ t x
    have := lin Ct _ _ t (hΨ t) x
    simp only [key, forth] at this
    exact this

theorem oneBody_congr {l n : ℕ} {C Ct H R H' : NDArray ℂ} (h : IsOneBody C Ct l n R H')
    (e : ∀ p < l, ∀ q < l, H.get [p, q] = R.get [p, q]) : IsOneBody C Ct l n H H' := by
  refine ⟨h.1, fun p hp q hq => ?_⟩
  rw [h.2 p hp q hq]
  exact sum_congr rfl fun i hi => sum_congr rfl fun j hj => by rw [e i (mem_range.1 hi) j (mem_range.1 hj)]

/-- **C127** With a laser field, the motion does not depend on whether the basis is changed before or during it: with the arrays
`H`, `U` that the system returns before `change_basis(C, C_tilde)` and `H'`, `U'` that it returns afterwards, a wave function in
the new functions evolves with `H'`, `U'` if and only if the same wave function in the old functions evolves with `H`, `U`. -/
theorem C127_change_laser {w w₁ w₂ : World ℂ ℝ} {s o : ℕ} {x : Sys} {b : BasisSet ℂ} {y : TEOp ℂ ℝ}
    {pulse : Attr ℂ ℝ} {pol : Option (Attr ℂ ℝ)} {f : ℝ → Val ℂ} {c : ℝ → ℂ} {e : ℝ → ℕ → ℂ}
    {before : List (SOp ℂ ℝ)} {C : NDArray ℂ} {Ct : Option (NDArray ℂ)}
    (ok : SysOK w s x b) (hd : b.dipole.isSome = true) (hy : w.ops[o]? = some y)
    (hk : y.kind = .laser pulse pol) (hp : Given pulse f) (hf : ∀ t, IsNumber (f t) (c t))
    (he : GivenPol pol b.dim e)
    (callable : IsCallable pulse ∨ ∃ a, pol = some a ∧ IsCallable a)
    (hset : (setTimeEvolutionOperator s (some o)).run w = (.ok (), w₁))
    (hbef : ∀ op ∈ before, Reading o op)
    (hc : (World.changeBasis s C Ct).run (afterReading w₁ s before) = (.ok (), w₂)) (hC : C.shape = [b.l, b.l])
    (inv : ∀ p < b.l, ∀ q < b.l, ∑ a ∈ range b.l, (Ct.getD C.conj.T).get [p, a] * C.get [a, q] = kd p q)
    {H U H' U' : ℝ → NDArray ℂ} (A : Answered w₁ s o H U) (A' : Answered w₂ s o H' U') (N : ℕ) (Ψ : ℝ → Wave ℂ N b.l) :
    Evolves (fun t => arrayOne b.l (H' t)) (fun t => arrayTwo b.l (U' t)) Ψ ↔
      Evolves (fun t => arrayOne b.l (H t)) (fun t => arrayTwo b.l (U t)) fun t => liftWave (arrayMat b.l b.l C) (Ψ t) := by
  have LA := C36_partial ok hd hy hk hp hf he callable hset
  have hl := ok.wf.l_eq
  refine C127_change (fun t => ?_) (fun t => ?_) inv Ψ
  · obtain ⟨ops, ho, a1, -⟩ := A t
    obtain ⟨ops', ho', a1', -⟩ := A' t
    obtain ⟨n, r, r', hn, hr, hr', hO⟩ := C39_partial ok hd hy hk hp hf he callable hset hbef ho' hc t
    obtain rfl : b.l = n := by
      rw [hC] at hn
      simp only [List.cons.injEq, and_true] at hn
      exact hn.2
    rw [a1'] at hr'
    obtain rfl : H' t = r' := by simpa using hr'
    obtain ⟨h1, d1, r1, e1, e2, e3, e4, -⟩ := LA ops ho t
    obtain ⟨h2, d2, r2, f1, f2, f3, f4, -⟩ := LA before hbef t
    obtain rfl := Option.some.inj (e1.symm.trans f1)
    obtain rfl := Option.some.inj (e2.symm.trans f2)
    rw [a1] at e3
    obtain rfl : H t = r1 := by simpa using e3
    rw [hr] at f3
    obtain rfl : r = r2 := by simpa using f3
    rw [← hl] at hO
    exact oneBody_congr hO fun p hp q hq => by rw [e4.get p hp q hq, f4.get p hp q hq]
  · obtain ⟨d, hd⟩ := Option.isSome_iff_exists.1 hd
    obtain ⟨P, hP, hv⟩ := given_laserState hk hp he callable (some s)
    obtain ⟨w1, h1, hB⟩ := setOperator_bound (P := fun y => LaserState b.dim y f P) ok hy hP
    obtain rfl : w1 = w₁ := congrArg Prod.snd (h1.symm.trans hset)
    obtain ⟨hd0, hds⟩ := ok.wf.dipole d hd
    obtain ⟨m, hm⟩ := ok.wf.np
    have hstep : ∀ y t, LaserState b.dim y f P → LaserState b.dim (evalHT x.np b y t).2 f P := by
      intro y t hy
      rw [ok.np, hm]
      exact (laser_step hy hd (by rw [hds]; rfl) (by omega) t).2
    obtain ⟨b', hb', hB'⟩ := bound_history (x := { x with op := some o }) hstep hB hbef
    obtain ⟨n, hn, hB2⟩ := bound_changeBasis hB' hc
    obtain rfl : b.l = n := by
      have hn' : C.shape = [x.l, n] := hn
      rw [hC] at hn'
      simp only [List.cons.injEq, and_true] at hn'
      exact hn'.2
    have ch : BasisChanged b' (changed b' C (Ct.getD C.conj.T) x.l b.l) C (Ct.getD C.conj.T) x.l b.l :=
      changed_isChanged hB'.ok.wf
    have hdim : b'.dim = b.dim := by rcases hb' with rfl | rfl <;> rfl
    have hd' : b'.dipole = some d := by rcases hb' with rfl | rfl <;> exact hd
    have hdd := ch.dipole
    rw [hd'] at hdd
    rcases hd2 : (changed b' C (Ct.getD C.conj.T) x.l b.l).dipole with _ | d2
    · rw [hd2] at hdd; exact hdd.elim
    have hdim2 : (changed b' C (Ct.getD C.conj.T) x.l b.l).dim = b.dim := ch.rest.2.2.2.2.1.trans hdim
    have a2 := bound_laser (c := c) (e := e) (b := changed b' C (Ct.getD C.conj.T) x.l b.l)
      (by rw [hdim2]; exact hB2) hd2 hf (by rw [hdim2]; exact hv)
    obtain ⟨ops, ho, -, a1⟩ := A t
    obtain ⟨ops', ho', -, a1'⟩ := A' t
    obtain ⟨-, -, -, -, -, -, -, e5⟩ := LA ops ho t
    obtain ⟨-, -, -, -, -, -, -, f5⟩ := a2 ops' ho' t
    rw [a1] at e5
    rw [a1'] at f5
    have e5 : some (U t) = b.u := by simpa using e5
    have f5 : some (U' t) = (changed b' C (Ct.getD C.conj.T) x.l b.l).u := by simpa using f5
    have hu := ch.u
    have hu' : b'.u = some (U t) := by rcases hb' with rfl | rfl <;> exact e5.symm
    rw [hu', ← f5, ← hl] at hu
    exact hu

/-- **C127** In the two-dimensional dot with an interaction that is switched on, the total angular momentum and the numbers of
electrons with each spin do not change. -/
theorem C127_tdho {l num : ℕ} {radiusLength omega mass : ℝ} {np : Module} {b : BasisSet ℂ}
    (hb : tdho (getCoulombElementsRaw l) l num radiusLength omega mass np = .ok b) {w w' : World ℂ ℝ} {s o : ℕ} {x : Sys}
    {a : Attr ℂ ℝ} {f : ℝ → Val ℂ} {c : ℝ → ℂ} (ok : SysOK w s x b)
    (hy : w.ops[o]? = some (adiabaticSwitching a)) (hp : Given a f) (hf : ∀ t, IsNumber (f t) (c t))
    (hset : (setTimeEvolutionOperator s (some o)).run w = (.ok (), w')) (hc : ∀ t, star (c t) = c t) (hcc : Continuous c) :
    (∃ H U, Answered w' s o H U) ∧ ∀ H U, Answered w' s o H U → ∀ N,
      UnitaryEvolution N (fun t => spinOne l (H t)) (fun t => spinTwo l (U t)) ∧
      KeepsTotal N (spinLabel (fun p => (getIndicesNm p).2) l) (fun t => spinOne l (H t)) (fun t => spinTwo l (U t)) := by
  obtain ⟨b', h, u, h1, hh, hu, hcons⟩ := C100_tdho l num radiusLength omega mass np false false
  obtain rfl : b = b' := by simpa using hb.symm.trans h1
  obtain ⟨b', h1', cons⟩ := C91_tdho l num radiusLength omega mass np
  obtain rfl : b = b' := by simpa using hb.symm.trans h1'
  have hl := cons.wf.l_eq
  obtain ⟨h', hh', Hh⟩ := cons.h
  obtain rfl := Option.some.inj (hh.symm.trans hh')
  obtain ⟨u', hu', Hu, -⟩ := cons.u
  obtain rfl := Option.some.inj (hu.symm.trans hu')
  obtain ⟨h', u', e1, e2, ex, all⟩ := C127_switching ok hy hp hf hset
    (fun z hz => by rw [hl, ← Option.some.inj (hh.symm.trans hz)]; exact Hh)
    (fun z hz => by rw [hl, ← Option.some.inj (hu.symm.trans hz)]; exact Hu) hc hcc
  obtain rfl := Option.some.inj (hh.symm.trans e1)
  obtain rfl := Option.some.inj (hu.symm.trans e2)
  subst hl
  exact ⟨ex, fun H U A N => ⟨(all H U A N).1.unitary, (all H U A N).2.1 _ hcons⟩⟩

/-! ## Examples -/

/-- A one-dimensional dot of ten functions with one pair of electrons and a laser with the pulse `cos t`. -/
noncomputable def cosWorld (b : BasisSet ℂ) : World ℂ ℝ :=
  { bases := [b]
    systems := [⟨.spatial, 0, some 0, 1, 10, 9, (0, 1), (1, 10), none⟩]
    ops := [laserField (.fn fun t => .scalar .float64 (Real.cos t : ℝ)) none] }

/-- Two electrons in a one-dimensional dot of ten functions, driven by the pulse `cos t`: the energy changes at the rate
`-sin t` times the dipole moment. -/
example : ∃ b h u d, odho 10 8 401 1 (1 / 4) 1 0 0 = .ok b ∧ b.h = some h ∧ b.u = some u ∧ b.dipole = some d ∧
    ∃ w' : World ℂ ℝ, (setTimeEvolutionOperator 0 (some 0)).run (cosWorld b) = (.ok (), w') ∧
    (∃ H U, Answered w' 0 0 H U) ∧ ∀ H U, Answered w' 0 0 H U →
      ∀ Ψ₀ : Wave ℂ 2 20, Antisymmetric Ψ₀ → ∃ Ψ : ℝ → Wave ℂ 2 20,
        Evolves (fun t => spinOne 10 (H t)) (fun t => spinTwo 10 (U t)) Ψ ∧ Ψ 0 = Ψ₀ ∧ (∀ t, Antisymmetric (Ψ t)) ∧
        (∀ t, waveInner (Ψ t) (Ψ t) = waveInner Ψ₀ Ψ₀) ∧
        ∀ t, HasDerivAt (fun t => meanEnergy (spinOne 10 (H t)) (spinTwo 10 (U t)) (Ψ t))
          (-(Real.sin t : ℝ) * meanOne (spinDipole 10 d 0) (Ψ t)) t := by
  obtain ⟨b, hb, cons⟩ := C91_odho 10 8 (num := 401) (by norm_num) 1 (1 / 4) 1 0 0 false false
  have hl := cons.wf.l_eq
  obtain ⟨h, hh, Hh⟩ := cons.h
  obtain ⟨u, hu, Hu, -⟩ := cons.u
  obtain ⟨d, hd, Hd⟩ := cons.dipole
  have hdim := cons.dim_eq
  have ok : SysOK (cosWorld b) 0 ⟨.spatial, 0, some 0, 1, 10, 9, (0, 1), (1, 10), none⟩ b :=
    ⟨rfl, rfl, cons.wf, cons.np_eq.symm, ⟨by decide, rfl, rfl, rfl⟩⟩
  obtain ⟨w', hw', -⟩ := C38_set (o := 0) ok rfl
  obtain ⟨h', u', d', e1, e2, e3, ex, all⟩ := C127_laser (pol := none) (c := fun t => (Real.cos t : ℝ)) (e := fun _ k => if k = 0 then 1 else 0)
    ok (by rw [hd]; rfl) rfl rfl (.inl rfl) (fun t => ⟨_, rfl⟩) (fun _ _ => rfl) (.inl ⟨_, rfl⟩) hw'
    (fun z hz => by rw [hl, ← Option.some.inj (hh.symm.trans hz)]; exact Hh)
    (fun z hz => by rw [hl, ← Option.some.inj (hu.symm.trans hz)]; exact Hu)
    (fun z hz => by rw [hl, hdim, ← Option.some.inj (hd.symm.trans hz)]; exact Hd)
    (fun t => Complex.conj_ofReal _) (Complex.continuous_ofReal.comp Real.continuous_cos)
    (fun t k _ => by split_ifs <;> simp) (fun k _ => continuous_const)
  obtain rfl := Option.some.inj (hd.symm.trans e3)
  refine ⟨b, h, u, d, hb, hh, hu, hd, w', hw', ex, fun H U A Ψ₀ hΨ₀ => ?_⟩
  obtain ⟨D, -, -⟩ := all H U A 2
  rw [hl, hdim] at D
  obtain ⟨Ψ, ⟨h1, h2⟩, -⟩ := D.unitary.start 0 Ψ₀
  refine ⟨Ψ, h1, h2, D.unitary.fermions Ψ h1 0 (by rw [h2]; exact hΨ₀), fun t => ?_, fun t => ?_⟩
  · rw [D.unitary.inner Ψ Ψ h1 h1 t 0, h2]
  · have := D.balance Ψ h1 t (fun _ => (-(Real.sin t) : ℝ)) fun k hk => by
      obtain rfl : k = 0 := by omega
      simp only [if_true, mul_one]
      exact (Real.hasDerivAt_cos t).ofReal_comp
    rw [sum_range_one] at this
    simpa using this

end QS.Props
