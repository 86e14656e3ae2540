import Verif.Lemmas.Concave
import Verif.Props.LevelBounds
import Verif.Props.Evolution

/-!
# Property C134: the energies of `N` electrons in a field
-/

namespace QS.Props

open NDArray BasisSet World TwoDim OneDim SincDvr Idx Coulomb Spec PyM Finset

variable {N L : ℕ}

/-- **C134** The sum of the `m` lowest energies of `N` particles is a concave function of the elements. -/
theorem C134_concave {h₁ h₂ h : Fin L → Fin L → ℂ} {u₁ u₂ u : Fin L → Fin L → Fin L → Fin L → ℂ} {D₁ D₂ D : ℕ}
    {E₁ E₂ E : ℕ → ℝ} {Ψ₁ Ψ₂ Ψ : ℕ → Wave ℂ N L} {lam : ℝ} (h0 : 0 ≤ lam) (h1 : lam ≤ 1)
    (eh : ∀ p q, h p q = (1 - lam : ℝ) * h₁ p q + lam * h₂ p q)
    (eu : ∀ p q r s, u p q r s = (1 - lam : ℝ) * u₁ p q r s + lam * u₂ p q r s)
    (S₁ : Spectrum h₁ u₁ D₁ E₁ Ψ₁) (S₂ : Spectrum h₂ u₂ D₂ E₂ Ψ₂) (S : Spectrum h u D E Ψ) {m : ℕ} (hm : m ≤ D) :
    (1 - lam) * ∑ i ∈ range m, E₁ i + lam * ∑ i ∈ range m, E₂ i ≤ ∑ i ∈ range m, E i := by
  have k1 := S₁.kyFan S (by rwa [S₁.count S] : m ≤ D₁)
  have k2 := S₂.kyFan S (by rwa [S₂.count S] : m ≤ D₂)
  have e : ∑ i ∈ range m, E i = (1 - lam) * ∑ i ∈ range m, (waveInner (Ψ i) (hamiltonOp h₁ u₁ (Ψ i))).re +
      lam * ∑ i ∈ range m, (waveInner (Ψ i) (hamiltonOp h₂ u₂ (Ψ i))).re := by
    rw [mul_sum, mul_sum, ← sum_add_distrib]
    refine sum_congr rfl fun i hi => ?_
    rw [← S.mean (by have := mem_range.1 hi; omega), meanEnergy_affine h h₁ h₂ u u₁ u₂ eh eu]
  rw [e]
  exact add_le_add (mul_le_mul_of_nonneg_left k1 (by linarith)) (mul_le_mul_of_nonneg_left k2 h0)

theorem mean_driven {h₀ h : Fin L → Fin L → ℂ} {u : Fin L → Fin L → Fin L → Fin L → ℂ} {n : ℕ} {F : ℕ → ℝ}
    {d : ℕ → Fin L → Fin L → ℂ} (eh : ∀ p q, h p q = h₀ p q + ∑ k ∈ range n, F k * d k p q) (Φ : Wave ℂ N L) :
    (waveInner Φ (hamiltonOp h u Φ)).re =
      (waveInner Φ (hamiltonOp h₀ u Φ)).re + ∑ k ∈ range n, F k * (meanOne (d k) Φ).re := by
  have e1 : oneBodyOp h Φ = fun x => oneBodyOp h₀ Φ x + ∑ k ∈ range n, F k * oneBodyOp (d k) Φ x := by
    funext x
    unfold oneBodyOp
    simp only [eh, add_mul, sum_add_distrib, sum_mul, mul_sum]
    congr 1
    rw [sum_congr rfl fun i _ => sum_comm, sum_comm]
    exact sum_congr rfl fun k _ => sum_congr rfl fun i _ => sum_congr rfl fun y _ => by ring
  have e2 : waveInner Φ (oneBodyOp h Φ) = waveInner Φ (oneBodyOp h₀ Φ) + ∑ k ∈ range n, F k * meanOne (d k) Φ := by
    rw [e1]
    unfold meanOne
    rw [← waveInner_comb]
    unfold waveInner
    rw [← sum_add_distrib]
    exact sum_congr rfl fun x _ => by ring
  rw [waveInner_hamiltonOp, waveInner_hamiltonOp, e2]
  simp only [Complex.add_re, Complex.re_sum, Complex.re_ofReal_mul]
  ring

variable {h : ℝ → Fin L → Fin L → ℂ} {u : ℝ → Fin L → Fin L → Fin L → Fin L → ℂ}

/-- **C134** Particles under forces on one-body elements. -/
theorem C134_field {n : ℕ} {h₀ : Fin L → Fin L → ℂ} {u₀ : Fin L → Fin L → Fin L → Fin L → ℂ} {F : ℕ → ℝ → ℝ}
    {d : ℕ → Fin L → Fin L → ℂ} (eh : ∀ t p q, h t p q = h₀ p q + ∑ k ∈ range n, F k t * d k p q) (eu : ∀ t, u t = u₀) (N : ℕ) :
    FieldLevels N n h u F d := by
  have lowest : ∀ t₀ t D₀ E₀ D E, ∀ Ψ₀ Ψ : ℕ → Wave ℂ N L, Spectrum (h t₀) (u t₀) D₀ E₀ Ψ₀ → Spectrum (h t) (u t) D E Ψ → 0 < D →
      E 0 ≤ E₀ 0 + ∑ k ∈ range n, (F k t - F k t₀) * (meanOne (d k) (Ψ₀ 0)).re := fun t₀ t D₀ E₀ D E Ψ₀ Ψ S₀ S hD => by
    have k1 := S.kyFan S₀ (m := 1) hD
    rw [sum_range_one, sum_range_one, mean_driven (eh t), eu] at k1
    have k2 := S₀.mean (by rwa [S₀.count S] : 0 < D₀)
    rw [mean_driven (eh t₀), eu] at k2
    have k3 : ∑ k ∈ range n, (F k t - F k t₀) * (meanOne (d k) (Ψ₀ 0)).re =
        ∑ k ∈ range n, F k t * (meanOne (d k) (Ψ₀ 0)).re - ∑ k ∈ range n, F k t₀ * (meanOne (d k) (Ψ₀ 0)).re := by
      rw [← sum_sub_distrib]
      exact sum_congr rfl fun k _ => by ring
    rw [k3]
    linarith
  refine ⟨fun t₁ t₂ t lam h0 h1 hF D₁ E₁ D₂ E₂ D E Ψ₁ Ψ₂ Ψ S₁ S₂ S m hm => ?_, lowest,
    fun D E Ψ S hD t E' F' hE hF => ?_, fun t₁ t₂ D₁ E₁ D₂ E₂ Ψ₁ Ψ₂ S₁ S₂ δ hδ i hi => ?_⟩
  · refine C134_concave h0 h1 (fun p q => ?_) (fun p q r s => ?_) S₁ S₂ S hm
    · rw [eh, eh, eh, mul_add, mul_add, mul_sum, mul_sum, add_add_add_comm, ← sum_add_distrib]
      congr 1
      · push_cast
        ring
      · refine sum_congr rfl fun k hk => ?_
        rw [hF k (mem_range.1 hk)]
        push_cast
        ring
    · rw [eu, eu, eu]
      push_cast
      ring
  · set G : ℝ → ℝ := fun s => E s 0 - ∑ k ∈ range n, F k s * (meanOne (d k) (Ψ t 0)).re with hG
    have hd : HasDerivAt G (E' - ∑ k ∈ range n, F' k * (meanOne (d k) (Ψ t 0)).re) t :=
      hE.sub (HasDerivAt.fun_sum fun k hk => (hF k (mem_range.1 hk)).mul_const _)
    have hmax : IsLocalMax G t := Filter.Eventually.of_forall fun s => by
      have := lowest t s D (E t) D (E s) (Ψ t) (Ψ s) (S t) (S s) hD
      have e : ∑ k ∈ range n, (F k s - F k t) * (meanOne (d k) (Ψ t 0)).re =
          ∑ k ∈ range n, F k s * (meanOne (d k) (Ψ t 0)).re - ∑ k ∈ range n, F k t * (meanOne (d k) (Ψ t 0)).re := by
        rw [← sum_sub_distrib]
        exact sum_congr rfl fun k _ => by ring
      rw [e] at this
      show E s 0 - _ ≤ E t 0 - _
      linarith
    linarith [hmax.hasDerivAt_eq_zero hd]
  · have := S₁.near S₂ (ε := ∑ k ∈ range n, |F k t₁ - F k t₂| * δ k) (δ := 0) (fun p q => ?_) (fun p q r s => by simp [eu]) hi
    · simpa using this
    · have e : h t₁ p q - h t₂ p q = ∑ k ∈ range n, ((F k t₁ - F k t₂ : ℝ) : ℂ) * d k p q := by
        rw [eh, eh, add_sub_add_left_eq_sub, ← sum_sub_distrib]
        exact sum_congr rfl fun k _ => by push_cast; ring
      rw [e]
      refine (norm_sum_le _ _).trans (sum_le_sum fun k hk => ?_)
      rw [norm_mul, Complex.norm_real, Real.norm_eq_abs]
      exact mul_le_mul_of_nonneg_left (hδ k (mem_range.1 hk) p q) (abs_nonneg _)

/-- The sign of a parity. -/
noncomputable def paritySign (x : ZMod 2) : ℂ := if x = 0 then 1 else -1

theorem paritySign_cases (x : ZMod 2) : x = 0 ∧ paritySign x = 1 ∨ x = 1 ∧ paritySign x = -1 := by
  have z : ∀ x : ZMod 2, x = 0 ∨ x = 1 := by decide
  rcases z x with rfl | rfl
  · exact .inl ⟨rfl, if_pos rfl⟩
  · exact .inr ⟨rfl, if_neg one_ne_zero⟩

theorem paritySign_add (x y : ZMod 2) : paritySign (x + y) = paritySign x * paritySign y := by
  rcases paritySign_cases x with ⟨rfl, hx⟩ | ⟨rfl, hx⟩ <;> rcases paritySign_cases y with ⟨rfl, hy⟩ | ⟨rfl, hy⟩
  · rw [zero_add, hx, one_mul]
  · rw [zero_add, hx, one_mul]
  · rw [add_zero, hy, mul_one]
  · rw [hx, show (1 : ZMod 2) + 1 = 0 from rfl, paritySign, if_pos rfl]
    norm_num

theorem paritySign_sq (x : ZMod 2) : paritySign x * paritySign x = 1 := by
  rcases paritySign_cases x with ⟨-, hx⟩ | ⟨-, hx⟩ <;> rw [hx] <;> norm_num

theorem paritySign_star (x : ZMod 2) : star (paritySign x) = paritySign x := by
  rcases paritySign_cases x with ⟨-, hx⟩ | ⟨-, hx⟩ <;> rw [hx] <;> simp

/-- The mirrored states. -/
theorem mirrored_spectrum {g : Fin L → ZMod 2} {h h' : Fin L → Fin L → ℂ} {u : Fin L → Fin L → Fin L → Fin L → ℂ} {D : ℕ}
    {E : ℕ → ℝ} {Ψ : ℕ → Wave ℂ N L} (S : Spectrum h u D E Ψ)
    (hh : ∀ p q, h' p q = paritySign (g p) * paritySign (g q) * h p q)
    (hu : ∀ p q r s, g p + g q ≠ g r + g s → u p q r s = 0) : ∃ Ψ', Spectrum (N := N) h' u D E Ψ' := by
  have hC : (Matrix.diagonal fun p => paritySign (g p)).conjTranspose * (Matrix.diagonal fun p => paritySign (g p)) = 1 := by
    rw [Matrix.diagonal_conjTranspose, Matrix.diagonal_mul_diagonal, ← Matrix.diagonal_one]
    congr 1
    funext p
    show star (paritySign (g p)) * _ = 1
    rw [paritySign_star, paritySign_sq]
  obtain ⟨Ψ', T⟩ : ∃ Ψ', Spectrum (N := N) _ _ D E Ψ' := ⟨_, S.transport hC⟩
  refine ⟨Ψ', ?_⟩
  convert T using 1
  · funext p q
    rw [Matrix.diagonal_conjTranspose, Matrix.mul_diagonal, Matrix.diagonal_mul, hh]
    simp only [Matrix.of_apply, Pi.star_apply, paritySign_star]
    ring
  · funext p q r s
    simp only [Matrix.diagonal_conjTranspose, Matrix.diagonal_apply, Pi.star_apply, ite_mul, mul_ite, zero_mul, mul_zero,
      sum_ite_eq, sum_ite_eq', mem_univ, if_true, paritySign_star]
    by_cases hg : g p + g q = g r + g s
    · have e : paritySign (g p) * paritySign (g q) * (paritySign (g r) * paritySign (g s)) = 1 := by
        rw [← paritySign_add, ← paritySign_add, hg, paritySign_sq]
      linear_combination (-u p q r s) * e
    · rw [hu p q r s hg]
      simp

/-- **C134** Particles in a symmetric well under forces on a dipole moment. -/
theorem C134_symmetric {n : ℕ} {h₀ : Fin L → Fin L → ℂ} {u₀ : Fin L → Fin L → Fin L → Fin L → ℂ} {F : ℕ → ℝ → ℝ}
    {d : ℕ → Fin L → Fin L → ℂ} {g : Fin L → ZMod 2}
    (eh : ∀ t p q, h t p q = h₀ p q + ∑ k ∈ range n, F k t * d k p q) (eu : ∀ t, u t = u₀)
    (hc : ConservesTotal g h₀ u₀) (hd : ∀ k < n, ∀ p q, g p = g q → d k p q = 0) (N : ℕ) :
    SymmetricLevels N n h u F := by
  have flip : ∀ t {D E}, ∀ {Ψ : ℕ → Wave ℂ N L}, Spectrum (h t) (u t) D E Ψ →
      ∃ Ψ', Spectrum (N := N) (fun p q => h₀ p q + ∑ k ∈ range n, ((-F k t : ℝ) : ℂ) * d k p q) u₀ D E Ψ' := fun t {D E Ψ} S => by
    rw [eu] at S
    refine mirrored_spectrum (g := g) S (fun p q => ?_) hc.two
    rw [eh]
    have e0 : ∑ k ∈ range n, ((-F k t : ℝ) : ℂ) * d k p q = -∑ k ∈ range n, (F k t : ℂ) * d k p q := by
      rw [← sum_neg_distrib]
      exact sum_congr rfl fun k _ => by push_cast; ring
    rw [e0]
    rcases paritySign_cases (g p) with ⟨hp, sp⟩ | ⟨hp, sp⟩ <;> rcases paritySign_cases (g q) with ⟨hq, sq⟩ | ⟨hq, sq⟩ <;>
      rw [sp, sq]
    · rw [sum_eq_zero fun k hk => by rw [hd k (mem_range.1 hk) p q (hp.trans hq.symm), mul_zero]]
      ring
    · rw [hc.one p q (by rw [hp, hq]; decide)]
      ring
    · rw [hc.one p q (by rw [hp, hq]; decide)]
      ring
    · rw [sum_eq_zero fun k hk => by rw [hd k (mem_range.1 hk) p q (hp.trans hq.symm), mul_zero]]
      ring
  refine ⟨fun t₁ t₂ hF D₁ E₁ D₂ E₂ Ψ₁ Ψ₂ S₁ S₂ i hi => ?_, fun t₁ t₂ a ha hF D₁ E₁ D₂ E₂ Ψ₁ Ψ₂ S₁ S₂ m hm => ?_⟩
  · obtain ⟨Ψ', T⟩ := flip t₁ S₁
    have e : (fun p q => h₀ p q + ∑ k ∈ range n, ((-F k t₁ : ℝ) : ℂ) * d k p q) = h t₂ := by
      funext p q
      rw [eh]
      congr 1
      exact sum_congr rfl fun k hk => by rw [hF k (mem_range.1 hk)]
    rw [e, ← eu t₂] at T
    exact T.unique S₂ hi
  obtain ⟨Ψ', T⟩ := flip t₂ S₂
  set h' : Fin L → Fin L → ℂ := fun p q => h₀ p q + ∑ k ∈ range n, ((-F k t₂ : ℝ) : ℂ) * d k p q with hh'
  have k := C134_concave (h₁ := h t₂) (u₁ := u t₂) (h₂ := h') (u₂ := u₀) (h := h t₁) (u := u t₁) (lam := (1 - a) / 2)
    (by linarith [(abs_le.1 ha).2]) (by linarith [(abs_le.1 ha).1]) (fun p q => ?_) (fun p q r s => ?_) S₂ T S₁ hm
  · linarith
  · rw [eh, eh, hh']
    simp only [mul_add, mul_sum]
    rw [add_add_add_comm, ← sum_add_distrib]
    congr 1
    · push_cast
      ring
    · refine sum_congr rfl fun k hk => ?_
      rw [hF k (mem_range.1 hk)]
      push_cast
      ring
  · rw [eu, eu]
    push_cast
    ring

/-- **C134** Particles with a repulsive interaction that is multiplied by a number. -/
theorem C134_switched {h₀ : Fin L → Fin L → ℂ} {u₀ : Fin L → Fin L → Fin L → Fin L → ℂ} {f : ℝ → ℝ} (eh : ∀ t, h t = h₀)
    (eu : ∀ t p q r s, u t p q r s = f t * u₀ p q r s)
    (hu : ∀ v : Fin L → Fin L → ℂ, 0 ≤ (∑ p, ∑ q, ∑ r, ∑ s, star (v p q) * u₀ p q r s * v r s).re) (N : ℕ) :
    SwitchedLevels N h u f := by
  refine ⟨fun t₁ t₂ t lam h0 h1 hF D₁ E₁ D₂ E₂ D E Ψ₁ Ψ₂ Ψ S₁ S₂ S m hm => ?_,
    fun t₁ t₂ hf D₁ E₁ D₂ E₂ Ψ₁ Ψ₂ S₁ S₂ i hi => ?_⟩
  · refine C134_concave h0 h1 (fun p q => ?_) (fun p q r s => ?_) S₁ S₂ S hm
    · rw [eh, eh, eh]
      push_cast
      ring
    · rw [eu, eu, eu, hF]
      push_cast
      ring
  · refine S₁.mono S₂ (fun v => by simp [eh]) (fun v => ?_) hi
    have e : ∑ p, ∑ q, ∑ r, ∑ s, star (v p q) * (u t₂ p q r s - u t₁ p q r s) * v r s =
        ((f t₂ - f t₁ : ℝ) : ℂ) * ∑ p, ∑ q, ∑ r, ∑ s, star (v p q) * u₀ p q r s * v r s := by
      simp only [mul_sum]
      refine sum_congr rfl fun p _ => sum_congr rfl fun q _ => sum_congr rfl fun r _ => sum_congr rfl fun s _ => ?_
      rw [eu, eu]
      push_cast
      ring
    rw [e, Complex.re_ofReal_mul]
    exact mul_nonneg (by linarith) (hu v)

/-! ## The elements of a system -/

theorem parity_spin {g : ℕ → ZMod 2} {l n : ℕ} {h u d : NDArray ℂ} (hg : HasParity g l n h u d) :
    ConservesTotal (fun p : Fin (2 * l) => g (p.1 / 2)) (spinOne l h) (spinTwo l u) ∧
      ∀ k < n, ∀ p q : Fin (2 * l), g (p.1 / 2) = g (q.1 / 2) → spinDipole l d k p q = 0 := by
  refine ⟨⟨fun p q hne => ?_, fun p q r s hne => ?_⟩, fun k hk p q h => ?_⟩
  · unfold spinOne
    rw [hg.one _ (by omega) _ (by omega) hne, ite_self]
  · unfold spinTwo
    rw [hg.two _ (by omega) _ (by omega) _ (by omega) _ (by omega) hne, ite_self]
  · unfold spinDipole
    rw [hg.dipole k hk _ (by omega) _ (by omega) h, ite_self]

theorem parity_array {g : ℕ → ZMod 2} {l n : ℕ} {h u d : NDArray ℂ} (hg : HasParity g l n h u d) :
    ConservesTotal (fun p : Fin l => g p) (arrayOne l h) (arrayTwo l u) ∧
      ∀ k < n, ∀ p q : Fin l, g p = g q → d.get [k, p, q] = 0 :=
  ⟨⟨fun p q hne => hg.one p p.2 q q.2 hne, fun p q r s hne => hg.two p p.2 q q.2 r r.2 s s.2 hne⟩,
    fun k hk p q h => hg.dipole k hk p p.2 q q.2 h⟩

/-- **C134** A system with a `LaserField` (with a callable pulse or polarisation, see C36), Hermitian elements and the real forces
`F k t`: whatever is read from the system in between, the energies of `N` electrons in the orbitals of the system (and of
particles in its functions as they are) with the arrays that `h_t` and `u_t` return exist at every time and depend on the forces
as energies in a field do, and if the functions have a parity as energies in a symmetric well do. -/
theorem C134_laser {w w' : World ℂ ℝ} {s o : ℕ} {x : Sys} {b : BasisSet ℂ} {y : TEOp ℂ ℝ}
    {pulse : Attr ℂ ℝ} {pol : Option (Attr ℂ ℝ)} {f : ℝ → Val ℂ} {c : ℝ → ℂ} {e : ℝ → ℕ → ℂ} {F : ℕ → ℝ → ℝ}
    (ok : SysOK w s x b) (hd : b.dipole.isSome = true) (hy : w.ops[o]? = some y)
    (hk : y.kind = .laser pulse pol) (hp : Given pulse f) (hf : ∀ t, IsNumber (f t) (c t))
    (he : GivenPol pol b.dim e)
    (callable : IsCallable pulse ∨ ∃ a, pol = some a ∧ IsCallable a)
    (hset : (setTimeEvolutionOperator s (some o)).run w = (.ok (), w'))
    (Hh : OnSome (HermMat b.l) b.h) (Hu : OnSome (HermU b.l) b.u) (Hd : OnSome (HermDip b.dim b.l) b.dipole)
    (hF : ∀ t, ∀ k < b.dim, c t * e t k = F k t) :
    ∃ h u d, b.h = some h ∧ b.u = some u ∧ b.dipole = some d ∧ (∃ H U, Answered w' s o H U) ∧
      ∀ H U, Answered w' s o H U → ∀ N,
        (∀ t, ∃ E, ElectronEnergies b.l (H t) (U t) N E) ∧
        FieldLevels N b.dim (fun t => spinOne b.l (H t)) (fun t => spinTwo b.l (U t)) F (spinDipole b.l d) ∧
        FieldLevels N b.dim (fun t => arrayOne b.l (H t)) (fun t => arrayTwo b.l (U t)) F (fun k p q => d.get [k, p, q]) ∧
        ∀ g, HasParity g b.l b.dim h u d →
          SymmetricLevels N b.dim (fun t => spinOne b.l (H t)) (fun t => spinTwo b.l (U t)) F ∧
          SymmetricLevels N b.dim (fun t => arrayOne b.l (H t)) (fun t => arrayTwo b.l (U t)) F := by
  have LA := C36_partial ok hd hy hk hp hf he callable hset
  obtain ⟨h, hh, -⟩ := ok.wf.h
  obtain ⟨u, hu, -⟩ := ok.wf.u
  obtain ⟨d, hd⟩ := Option.isSome_iff_exists.1 hd
  refine ⟨h, u, d, hh, hu, hd, ?_, fun H U A N => ?_⟩
  · choose h' d' r h1 h2 h3 h4 h5 using LA [] (by simp)
    exact ⟨r, fun _ => u, fun t => ⟨[], by simp, h3 t, by rw [h5 t, hu]⟩⟩
  have el : ∀ t, (∀ p < b.l, ∀ q < b.l, (H t).get [p, q] = h.get [p, q] + ∑ k ∈ range b.dim, F k t * d.get [k, p, q]) ∧
      U t = u := fun t => by
    obtain ⟨ops, ho, a1, a2⟩ := A t
    obtain ⟨h', d', r, h1, h2, h3, h4, h5⟩ := LA ops ho t
    obtain rfl := Option.some.inj (hh.symm.trans h1)
    obtain rfl := Option.some.inj (hd.symm.trans h2)
    rw [a1] at h3
    obtain rfl : H t = r := by simpa using h3
    rw [a2, hu] at h5
    refine ⟨fun p hp q hq => ?_, by simpa using h5⟩
    rw [h4.get p hp q hq, mul_sum]
    congr 1
    refine sum_congr rfl fun k hk => ?_
    rw [← hF t k (mem_range.1 hk)]
    ring
  have s1 : ∀ t (p q : Fin (2 * b.l)), spinOne b.l (H t) p q =
      spinOne b.l h p q + ∑ k ∈ range b.dim, F k t * spinDipole b.l d k p q := fun t p q => by
    simp only [spinOne, spinDipole]
    split_ifs
    · exact (el t).1 _ (by omega) _ (by omega)
    · simp
  have a1 : ∀ t (p q : Fin b.l), arrayOne b.l (H t) p q =
      arrayOne b.l h p q + ∑ k ∈ range b.dim, F k t * d.get [k, p, q] := fun t p q => (el t).1 _ p.2 _ q.2
  have s2 : ∀ t, spinTwo b.l (U t) = spinTwo b.l u := fun t => by rw [(el t).2]
  have a2 : ∀ t, arrayTwo b.l (U t) = arrayTwo b.l u := fun t => by rw [(el t).2]
  refine ⟨fun t => ?_, C134_field s1 s2 N, C134_field a1 a2 N, fun g hg => ⟨?_, ?_⟩⟩
  · obtain ⟨-, ⟨E, Ψ, S⟩, -⟩ := C120_exist (H := H t) (U := U t) (l := b.l) (fun p hp q hq => by
      rw [(el t).1 p hp q hq, (el t).1 q hq p hp, star_add, star_sum, Hh h hh p hp q hq]
      congr 1
      refine sum_congr rfl fun k hk => ?_
      rw [star_mul', Hd d hd k (mem_range.1 hk) p hp q hq]
      congr 1
      exact (Complex.conj_ofReal _).symm) (by rw [(el t).2]; exact Hu u hu) N
    exact ⟨E, Ψ, S⟩
  · exact C134_symmetric s1 s2 (parity_spin hg).1 (parity_spin hg).2 N
  · exact C134_symmetric a1 a2 (parity_array hg).1 (parity_array hg).2 N

/-- **C134** A system with a `CustomOneBodyOperator` with the real values `c t`: the energies depend on `c t` as on a force. -/
theorem C134_custom {w w' : World ℂ ℝ} {s o : ℕ} {x : Sys} {b : BasisSet ℂ} {a : Attr ℂ ℝ}
    {A : NDArray ℂ} {f : ℝ → Val ℂ} {c : ℝ → ℝ} (ok : SysOK w s x b)
    (hy : w.ops[o]? = some (customOneBodyOperator a A)) (hp : Given a f)
    (hf : ∀ t, IsNumber (f t) (c t : ℂ)) (hA : A.shape = [b.l, b.l])
    (hset : (setTimeEvolutionOperator s (some o)).run w = (.ok (), w')) :
    (∃ H U, Answered w' s o H U) ∧ ∀ H U, Answered w' s o H U → ∀ N,
      FieldLevels N 1 (fun t => spinOne b.l (H t)) (fun t => spinTwo b.l (U t)) (fun _ => c) (fun _ => spinOne b.l A) ∧
      FieldLevels N 1 (fun t => arrayOne b.l (H t)) (fun t => arrayTwo b.l (U t)) (fun _ => c) (fun _ => arrayOne b.l A) := by
  have CA := C37_custom ok hy hp hf hA hset
  obtain ⟨h, hh, -⟩ := ok.wf.h
  obtain ⟨u, hu, -⟩ := ok.wf.u
  refine ⟨?_, fun H U B N => ?_⟩
  · choose h' r h1 h2 h3 h4 h5 using CA [] (by simp)
    exact ⟨r, fun _ => u, fun t => ⟨[], by simp, h2 t, by rw [h5 t, hu]⟩⟩
  have el : ∀ t, (∀ p < b.l, ∀ q < b.l, (H t).get [p, q] = h.get [p, q] + c t * A.get [p, q]) ∧ U t = u := fun t => by
    obtain ⟨ops, ho, a1, a2⟩ := B t
    obtain ⟨h', r, h1, h2, h3, h4, h5⟩ := CA ops ho t
    obtain rfl := Option.some.inj (hh.symm.trans h1)
    rw [a1] at h2
    obtain rfl : H t = r := by simpa using h2
    rw [a2, hu] at h5
    exact ⟨h4, by simpa using h5⟩
  have s1 : ∀ t (p q : Fin (2 * b.l)), spinOne b.l (H t) p q =
      spinOne b.l h p q + ∑ k ∈ range 1, c t * spinOne b.l A p q := fun t p q => by
    rw [sum_range_one]
    simp only [spinOne]
    split_ifs
    · exact (el t).1 _ (by omega) _ (by omega)
    · simp
  have a1 : ∀ t (p q : Fin b.l), arrayOne b.l (H t) p q = arrayOne b.l h p q + ∑ k ∈ range 1, c t * arrayOne b.l A p q :=
    fun t p q => by
      rw [sum_range_one]
      exact (el t).1 _ p.2 _ q.2
  have s2 : ∀ t, spinTwo b.l (U t) = spinTwo b.l u := fun t => by rw [(el t).2]
  have a2 : ∀ t, arrayTwo b.l (U t) = arrayTwo b.l u := fun t => by rw [(el t).2]
  exact ⟨C134_field s1 s2 N, C134_field a1 a2 N⟩

/-- **C134** A system with an `AdiabaticSwitching` operator with the real values `c t` and a repulsive interaction. -/
theorem C134_switching {w w' : World ℂ ℝ} {s o : ℕ} {x : Sys} {b : BasisSet ℂ} {a : Attr ℂ ℝ}
    {f : ℝ → Val ℂ} {c : ℝ → ℝ} (ok : SysOK w s x b)
    (hy : w.ops[o]? = some (adiabaticSwitching a)) (hp : Given a f) (hf : ∀ t, IsNumber (f t) (c t : ℂ))
    (hset : (setTimeEvolutionOperator s (some o)).run w = (.ok (), w')) (Pu : OnSome (PosU b.l) b.u) :
    (∃ H U, Answered w' s o H U) ∧ ∀ H U, Answered w' s o H U → ∀ N,
      SwitchedLevels N (fun t => spinOne b.l (H t)) (fun t => spinTwo b.l (U t)) c ∧
      SwitchedLevels N (fun t => arrayOne b.l (H t)) (fun t => arrayTwo b.l (U t)) c := by
  have SA := C37_switching ok hy hp hf hset
  obtain ⟨h, hh, -⟩ := ok.wf.h
  obtain ⟨u, hu, su⟩ := ok.wf.u
  rw [← ok.wf.l_eq] at su
  refine ⟨?_, fun H U A N => ?_⟩
  · choose u' r h1 h2 h3 h4 h5 using SA [] (by simp)
    exact ⟨fun _ => h, r, fun t => ⟨[], by simp, by rw [h5 t, hh], h2 t⟩⟩
  · have el : ∀ t, H t = h ∧ ∀ p < b.l, ∀ q < b.l, ∀ r < b.l, ∀ s < b.l, (U t).get [p, q, r, s] = c t * u.get [p, q, r, s] :=
      fun t => by
        obtain ⟨ops, ho, a1, a2⟩ := A t
        obtain ⟨u', r, h1, h2, h3, h4, h5⟩ := SA ops ho t
        obtain rfl := Option.some.inj (hu.symm.trans h1)
        rw [a2] at h2
        obtain rfl : U t = r := by simpa using h2
        rw [a1, hh] at h5
        exact ⟨by simpa using h5, fun p hp q hq r hr s hs => h4 _ (by rw [su]; simp [InRange, hp, hq, hr, hs])⟩
    have s2 : ∀ t (p q r s : Fin (2 * b.l)), spinTwo b.l (U t) p q r s = c t * spinTwo b.l u p q r s := fun t p q r s => by
      simp only [spinTwo]
      split_ifs
      · exact (el t).2 _ (by omega) _ (by omega) _ (by omega) _ (by omega)
      · simp
    have a2 : ∀ t (p q r s : Fin b.l), arrayTwo b.l (U t) p q r s = c t * arrayTwo b.l u p q r s :=
      fun t p q r s => (el t).2 _ p.2 _ q.2 _ r.2 _ s.2
    exact ⟨C134_switched (h₀ := spinOne b.l h) (fun t => by rw [(el t).1]) s2 (posU_spin (Pu u hu)) N,
      C134_switched (h₀ := arrayOne b.l h) (fun t => by rw [(el t).1]) a2 (posU_array (Pu u hu)) N⟩

/-! ## Symmetric wells -/

theorem parity_odd {a b : ℤ} (h : (a : ZMod 2) = b) : |a - b| ≠ 1 := fun habs => by
  have h1 : ((a - b : ℤ) : ZMod 2) = 0 := by rw [Int.cast_sub, h, sub_self]
  have h2 := (ZMod.intCast_zmod_eq_zero_iff_dvd _ 2).1 h1
  rcases (abs_eq zero_le_one).1 habs with h | h <;> rw [h] at h2 <;> norm_num at h2

/-- **C134** The functions of the two-dimensional oscillator have a parity. -/
theorem C134_tdho (l num : ℕ) (radiusLength : ℝ) {omega mass : ℝ} (ho : 0 < omega) (hm : 0 < mass) (np : Module) :
    ∃ b h u d, tdho (getCoulombElementsRaw l) l num radiusLength omega mass np = .ok b ∧ b.h = some h ∧ b.u = some u ∧
      b.dipole = some d ∧ HasParity (fun p => ((getIndicesNm p).2 : ZMod 2)) l 2 h u d := by
  obtain ⟨b, h, u, h1, hh, hu, hc⟩ := C100_tdho l num radiusLength omega mass np false false
  obtain ⟨u0, hu0, -⟩ := C45_table l
  obtain ⟨b'', d, h1'', hd, -, hz⟩ := C103_dipole u0 l num radiusLength hm ho np
  have h1' := h1
  rw [hu0] at h1'
  obtain rfl : b = b'' := by simpa using h1'.symm.trans h1''
  refine ⟨b, h, u, d, h1, hh, hu, hd, fun p hp q hq hne => hc.one p hp q hq fun h => hne (by rw [h]),
    fun p hp q hq r hr s hs hne => hc.two p hp q hq r hr s hs fun h => hne (by exact_mod_cast congrArg (Int.cast : ℤ → ZMod 2) h),
    fun k hk p hp q hq h => ?_⟩
  have h2 := (hz p hp q hq _ _ _ _ rfl rfl).1 (parity_odd h)
  rcases (show k = 0 ∨ k = 1 by omega) with rfl | rfl
  · exact h2.1
  · exact h2.2

/-- **C134** The functions of the double well have a parity. -/
theorem C134_double_well (l num : ℕ) (radiusLength : ℝ) {omega mass : ℝ} (ho : 0 < omega) (hm : 0 < mass) (barrier : ℝ)
    (axis : ℕ) (np : Module) :
    ∃ b h u d, doubleWell (getCoulombElementsRaw l) l num radiusLength omega mass barrier axis np = .ok b ∧ b.h = some h ∧
      b.u = some u ∧ b.dipole = some d ∧ HasParity (fun p => ((getIndicesNm p).2 : ZMod 2)) l 2 h u d := by
  obtain ⟨b, h, u, h1, hh, hu, hc⟩ := C100_double_well l num radiusLength omega mass barrier axis np false false
  obtain ⟨u0, hu0, -⟩ := C45_table l
  obtain ⟨bt, d, ht, hd, -, hz⟩ := C103_dipole u0 l num radiusLength hm ho np
  obtain ⟨bt', b'', d', ht', h1'', hdt, hd'⟩ := C103_double_well u0 l num radiusLength hm ho barrier axis np
  obtain rfl : bt = bt' := by simpa using ht.symm.trans ht'
  obtain rfl := Option.some.inj (hd.symm.trans hdt)
  have h1' := h1
  rw [hu0] at h1'
  obtain rfl : b = b'' := by simpa using h1'.symm.trans h1''
  refine ⟨b, h, u, d, h1, hh, hu, hd', hc.one, hc.two, fun k hk p hp q hq h => ?_⟩
  have h2 := (hz p hp q hq _ _ _ _ rfl rfl).1 (parity_odd h)
  rcases (show k = 0 ∨ k = 1 by omega) with rfl | rfl
  · exact h2.1
  · exact h2.2

/-- **C134** The functions of the two-dimensional oscillator in a magnetic field have a parity. -/
theorem C134_magnetic {l num : ℕ} {radiusLength omega0 mass omegaC : ℝ} {np : Module} {b : BasisSet ℂ}
    {df : List Row} (h : oscB l num radiusLength omega0 mass omegaC np = .ok (b, df)) (hm : 0 < mass)
    (ho : omega0 ≠ 0 ∨ omegaC ≠ 0) :
    ∃ x u d, b.h = some x ∧ b.u = some u ∧ b.dipole = some d ∧
      HasParity (fun p => ((indicesNmB df p).2 : ZMod 2)) l 2 x u d := by
  obtain ⟨x, u, hh, hu, hc⟩ := C100_magnetic h
  obtain ⟨d, hd, -, hz⟩ := C103_magnetic h hm ho
  refine ⟨x, u, d, hh, hu, hd, fun p hp q hq hne => hc.one p hp q hq fun h => hne (by rw [h]),
    fun p hp q hq r hr s hs hne => hc.two p hp q hq r hr s hs fun h => hne (by exact_mod_cast congrArg (Int.cast : ℤ → ZMod 2) h),
    fun k hk p hp q hq h => ?_⟩
  have h2 := (hz p hp q hq _ _ _ _ rfl rfl).1 (parity_odd h)
  rcases (show k = 0 ∨ k = 1 by omega) with rfl | rfl
  · exact h2.1
  · exact h2.2

/-- **C134** The functions of the one-dimensional oscillator have a parity. -/
theorem C134_odho (l : ℕ) (L : ℝ) {num : ℕ} (h2 : 2 ≤ num) (omega : ℝ) {a : ℝ} (h0 : a ≠ 0) (alpha beta : ℝ)
    (np : Module) (sp an : Bool) :
    ∃ b h u d, odho l L num omega a alpha beta np sp an = .ok b ∧ b.h = some h ∧ b.u = some u ∧ b.dipole = some d ∧
      HasParity (fun p => (p : ZMod 2)) l 1 h u d := by
  obtain ⟨b, h, u, h1, hh, hu, hc⟩ := C100_odho l L h2 omega h0 alpha beta np sp an
  obtain ⟨b'', h1'', -, -, hd⟩ := odho_ok l L h2 omega a alpha beta np sp an
  obtain rfl : b = b'' := by simpa using h1.symm.trans h1''
  refine ⟨b, h, u, _, h1, hh, hu, hd, hc.one, hc.two, fun k hk p hp q hq h => ?_⟩
  rw [ofFn_get_of (by exact ⟨by omega, hp, hq, trivial⟩)]
  simp only [List.getD_cons_zero, List.getD_cons_succ]
  rw [if_neg, if_neg]
  · intro e
    rw [← e, Nat.cast_add, Nat.cast_one] at h
    simp at h
  · intro e
    rw [← e, Nat.cast_add, Nat.cast_one] at h
    simp at h

/-- **C134** The functions of a symmetric one-dimensional dot with a dipole moment without a shift have a parity. -/
theorem C134_odqd {eigh : NDArray ℂ → Except PyErr (NDArray ℂ × NDArray ℂ)} (he : IsEigh eigh)
    {l num : ℕ} {L : ℝ} (hL : 0 < L) (h3 : 3 ≤ num) (hl : l ≤ num - 2) {a : ℝ} (h0 : a ≠ 0) (alpha : ℝ)
    {V : ℝ → ℝ} (hV : ∀ y, V (-y) = V y) (hm : Bool) (np : Module) (sp an : Bool) :
    ∃ b h u d g, odqd eigh l L num a alpha 0 V hm np sp an = .ok b ∧ b.h = some h ∧ b.u = some u ∧ b.dipole = some d ∧
      HasParity g l 1 h u d := by
  obtain ⟨b, f, h, d, u, h1, hf, hh, hd, hu, g, hc, hg, hz⟩ := odqd_parity he hL h3 hl h0 alpha 0 hV hm np sp an
  refine ⟨b, h, u, d, g, h1, hh, hu, hd, hc.one, hc.two, fun k hk p hp q hq h => ?_⟩
  obtain rfl : k = 0 := by omega
  exact hz rfl p hp q hq h

/-- Two electrons in a one-dimensional oscillator of ten functions in the field `cos t`: the energies at the times `0` and `π`
agree, and at every time the lowest energy is at most that without the field, at the time `π / 2`. -/
example : ∃ b, odho 10 8 401 1 (1 / 4) 1 0 0 = .ok b ∧
    ∃ w' : World ℂ ℝ, (setTimeEvolutionOperator 0 (some 0)).run (cosWorld b) = (.ok (), w') ∧
    (∃ H U, Answered w' 0 0 H U) ∧ ∀ H U, Answered w' 0 0 H U →
      ∃ E : ℝ → ℕ → ℝ, (∀ t, ElectronEnergies 10 (H t) (U t) 2 (E t)) ∧ (∀ i < 190, E 0 i = E Real.pi i) ∧
        ∀ t, E t 0 ≤ E (Real.pi / 2) 0 := by
  obtain ⟨b, hb, cons⟩ := C91_odho 10 8 (num := 401) (by norm_num) 1 (1 / 4) 1 0 0 false false
  have hl := cons.wf.l_eq
  obtain ⟨h, hh, Hh⟩ := cons.h
  obtain ⟨u, hu, Hu, -⟩ := cons.u
  obtain ⟨d, hd, Hd⟩ := cons.dipole
  have hdim := cons.dim_eq
  have ok : SysOK (cosWorld b) 0 ⟨.spatial, 0, some 0, 1, 10, 9, (0, 1), (1, 10), none⟩ b :=
    ⟨rfl, rfl, cons.wf, cons.np_eq.symm, ⟨by decide, rfl, rfl, rfl⟩⟩
  obtain ⟨w', hw', -⟩ := C38_set (o := 0) ok rfl
  obtain ⟨h', u', d', e1, e2, e3, ex, all⟩ := C134_laser (pol := none) (c := fun t => (Real.cos t : ℝ))
    (e := fun _ k => if k = 0 then 1 else 0) (F := fun _ t => Real.cos t)
    ok (by rw [hd]; rfl) rfl rfl (.inl rfl) (fun t => ⟨_, rfl⟩) (fun _ _ => rfl) (.inl ⟨_, rfl⟩) hw'
    (fun z hz => by rw [hl, ← Option.some.inj (hh.symm.trans hz)]; exact Hh)
    (fun z hz => by rw [hl, ← Option.some.inj (hu.symm.trans hz)]; exact Hu)
    (fun z hz => by rw [hl, hdim, ← Option.some.inj (hd.symm.trans hz)]; exact Hd)
    (fun t k hk => by
      rw [hdim] at hk
      obtain rfl : k = 0 := by omega
      rw [if_pos rfl, mul_one])
  refine ⟨b, hb, w', hw', ex, fun H U A => ?_⟩
  obtain ⟨en, -, -, sym⟩ := all H U A 2
  obtain ⟨b', h'', u'', d'', hb', f1, f2, f3, par⟩ := C134_odho 10 8 (num := 401) (by norm_num) 1 (a := 1 / 4) (by norm_num) 1 0 0
    false false
  obtain rfl : b = b' := by simpa using hb.symm.trans hb'
  obtain rfl := Option.some.inj (e1.symm.trans f1)
  obtain rfl := Option.some.inj (e2.symm.trans f2)
  obtain rfl := Option.some.inj (e3.symm.trans f3)
  rw [hl] at en
  choose E Ψ S using en
  obtain ⟨sym, -⟩ := sym _ (by rw [hl, hdim]; exact par)
  rw [hl] at sym
  have c1 : (2 * 10).choose 2 = 190 := rfl
  refine ⟨E, fun t => ⟨Ψ t, S t⟩, fun i hi => ?_, fun t => ?_⟩
  · exact sym.opposite 0 Real.pi (fun _ _ => by simp) _ _ _ _ _ _ (S 0) (S Real.pi) i (by rwa [c1])
  · have := sym.stronger (Real.pi / 2) t 0 (by simp) (fun _ _ => by simp) _ _ _ _ _ _ (S _) (S t) 1 (by rw [c1]; norm_num)
    simpa using this

end QS.Props
