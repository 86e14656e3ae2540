import Verif.Props.Pulses

/-!
# C137: slow pulses
-/

namespace QS.Props

open NDArray BasisSet World Idx Spec TwoDim OneDim Coulomb PyM Finset Function QS.Adiabatic

variable {N L n : ℕ} {h₀ : Fin L → Fin L → ℂ} {u₀ : Fin L → Fin L → Fin L → Fin L → ℂ} {d : ℕ → Fin L → Fin L → ℂ}

theorem forcedOne_herm (hh : ∀ p q, star (h₀ p q) = h₀ q p) (hd : ∀ k < n, ∀ p q, star (d k p q) = d k q p) (F : ℕ → ℝ) (p q : Fin L) :
    star (forcedOne n h₀ d F p q) = forcedOne n h₀ d F q p := by
  unfold forcedOne
  rw [star_add, star_sum, hh]
  congr 1
  refine sum_congr rfl fun k hk => ?_
  rw [star_mul', hd k (mem_range.1 hk), Complex.star_def, Complex.conj_ofReal]

theorem forcedOne_zero (h₀ : Fin L → Fin L → ℂ) (d : ℕ → Fin L → Fin L → ℂ) {F : ℕ → ℝ} (hF : ∀ k < n, F k = 0) :
    forcedOne n h₀ d F = h₀ := by
  funext p q
  unfold forcedOne
  rw [sum_eq_zero fun k hk => by rw [hF k (mem_range.1 hk), Complex.ofReal_zero, zero_mul], add_zero]

/-- **C137** Slow forces `F_k(t / T)`: particles that start with the `k`-th energy in the forces `F_k(0)` have the `k`-th energy in
the forces `F_k(1)` at the time `T` up to a probability `C / T`, if the `k`-th energy is not degenerate in between. -/
theorem C137_field (hh : ∀ p q, star (h₀ p q) = h₀ q p) (hu : ∀ p q r s, star (u₀ p q r s) = u₀ r s p q)
    (hd : ∀ k < n, ∀ p q, star (d k p q) = d k q p) {F : ℕ → ℝ → ℝ} (hF : ∀ k < n, ContDiffOn ℝ 2 (F k) (Set.Icc 0 1)) {i : ℕ}
    (simple : ∀ s ∈ Set.Icc (0 : ℝ) 1, SimpleLevel N (forcedOne n h₀ d fun k => F k s) u₀ i) :
    ∃ C, ∀ T > 0, ∀ Ψ : ℝ → Wave ℂ N L, Evolves (fun t => forcedOne n h₀ d fun k => F k (t / T)) (fun _ => u₀) Ψ →
      LevelState (forcedOne n h₀ d fun k => F k 0) u₀ i (Ψ 0) →
      ∀ Φ, LevelState (forcedOne n h₀ d fun k => F k 1) u₀ i Φ → 1 - C / T ≤ population Φ (Ψ T) :=
  C128_slow (N := N) (h := fun s => forcedOne n h₀ d fun k => F k s) (u := fun _ => u₀)
    ⟨fun s => forcedOne_herm hh hd fun k => F k s, fun _ => hu⟩
    (fun p q => contDiffOn_const.add (ContDiffOn.sum fun k hk =>
      (Complex.ofRealCLM.contDiff.comp_contDiffOn (hF k (mem_range.1 hk))).mul contDiffOn_const))
    (fun p q r s => contDiffOn_const) simple

/-- **C137** A level that remains simple: if without the forces all other energies are at least `g` away from the `i`-th, they
remain at least `g - 2 N L ∑_k |F_k| δ_k` away, where `δ_k` bounds the elements of `d_k`. -/
theorem C137_weak (hh : ∀ p q, star (h₀ p q) = h₀ q p) (hu : ∀ p q r s, star (u₀ p q r s) = u₀ r s p q)
    (hd : ∀ k < n, ∀ p q, star (d k p q) = d k q p) {i : ℕ} {g : ℝ}
    (gap : ∀ D E (Φ : ℕ → Wave ℂ N L), Spectrum h₀ u₀ D E Φ → i < D ∧ ∀ j < D, j ≠ i → g ≤ |E j - E i|)
    {δ : ℕ → ℝ} (hδ : ∀ k < n, ∀ p q, ‖d k p q‖ ≤ δ k) (F : ℕ → ℝ) :
    (∀ D E (Φ : ℕ → Wave ℂ N L), Spectrum (forcedOne n h₀ d F) u₀ D E Φ →
      ∀ j < D, j ≠ i → g - 2 * (N * L * ∑ k ∈ range n, |F k| * δ k) ≤ |E j - E i|) ∧
    (2 * (N * L * ∑ k ∈ range n, |F k| * δ k) < g → SimpleLevel N (forcedOne n h₀ d F) u₀ i) := by
  have levels := C134_field (n := n) (h := fun t => forcedOne n h₀ d fun k => t * F k) (u := fun _ => u₀) (h₀ := h₀) (u₀ := u₀)
    (F := fun k t => t * F k) (d := d) (fun t p q => rfl) (fun _ => rfl) N
  have key : ∀ D E (Φ : ℕ → Wave ℂ N L), Spectrum (forcedOne n h₀ d F) u₀ D E Φ →
      i < D ∧ ∀ j < D, j ≠ i → g - 2 * (N * L * ∑ k ∈ range n, |F k| * δ k) ≤ |E j - E i| := by
    intro D E Φ S
    obtain ⟨D₀, E₀, Φ₀, S₀⟩ := Spectrum.exists hh hu N
    obtain ⟨hi, far⟩ := gap D₀ E₀ Φ₀ S₀
    obtain rfl : D = D₀ := S.count S₀
    have near : ∀ j < D, |E₀ j - E j| ≤ N * L * ∑ k ∈ range n, |F k| * δ k := fun j hj => by
      have := levels.change 0 1 D E₀ D E Φ₀ Φ (by
        show Spectrum (forcedOne n h₀ d fun k => 0 * F k) u₀ D E₀ Φ₀
        rwa [forcedOne_zero h₀ d fun k _ => zero_mul _]) (by
        show Spectrum (forcedOne n h₀ d fun k => 1 * F k) u₀ D E Φ
        simpa only [one_mul] using S) δ hδ j hj
      refine this.trans (le_of_eq ?_)
      congr 1
      refine sum_congr rfl fun k _ => ?_
      rw [zero_mul, one_mul, zero_sub, abs_neg]
    refine ⟨hi, fun j hj hji => ?_⟩
    have h1 := far j hj hji
    have h2 := near j hj
    have h3 := near i hi
    have h4 : |E₀ j - E₀ i| ≤ |E₀ j - E j| + |E j - E i| + |E₀ i - E i| := by
      rw [abs_sub_comm (E₀ i)]
      calc |E₀ j - E₀ i| = |(E₀ j - E j) + (E j - E i) + (E i - E₀ i)| := by ring_nf
        _ ≤ _ := abs_add_three _ _ _
    linarith
  refine ⟨fun D E Φ S => (key D E Φ S).2, fun hlt D E Φ S => ?_⟩
  obtain ⟨hi, far⟩ := key D E Φ S
  refine ⟨hi, fun j hj hji heq => ?_⟩
  have := far j hj hji
  rw [heq, sub_self, abs_zero] at this
  linarith

/-- **C137** Slow and weak forces that begin and end with zero: the particles return to the state with the `i`-th energy. -/
theorem C137_returns (hh : ∀ p q, star (h₀ p q) = h₀ q p) (hu : ∀ p q r s, star (u₀ p q r s) = u₀ r s p q)
    (hd : ∀ k < n, ∀ p q, star (d k p q) = d k q p) {F : ℕ → ℝ → ℝ} (hF : ∀ k < n, ContDiffOn ℝ 2 (F k) (Set.Icc 0 1))
    (F0 : ∀ k < n, F k 0 = 0) (F1 : ∀ k < n, F k 1 = 0) {i : ℕ} {g : ℝ}
    (gap : ∀ D E (Φ : ℕ → Wave ℂ N L), Spectrum h₀ u₀ D E Φ → i < D ∧ ∀ j < D, j ≠ i → g ≤ |E j - E i|)
    {δ : ℕ → ℝ} (hδ : ∀ k < n, ∀ p q, ‖d k p q‖ ≤ δ k)
    (weak : ∀ s ∈ Set.Icc (0 : ℝ) 1, 2 * (N * L * ∑ k ∈ range n, |F k s| * δ k) < g) :
    ∃ C, ∀ T > 0, ∀ Ψ : ℝ → Wave ℂ N L, Evolves (fun t => forcedOne n h₀ d fun k => F k (t / T)) (fun _ => u₀) Ψ →
      LevelState h₀ u₀ i (Ψ 0) → 1 - C / T ≤ population (Ψ 0) (Ψ T) := by
  obtain ⟨C, hC⟩ := C137_field (N := N) hh hu hd hF (i := i) fun s hs => (C137_weak hh hu hd gap hδ fun k => F k s).2 (weak s hs)
  rw [forcedOne_zero h₀ d F0, forcedOne_zero h₀ d F1] at hC
  exact ⟨C, fun T hT Ψ hΨ h0 => hC T hT Ψ hΨ h0 _ h0⟩

/-- **C137** The same with a bound: `(4 κ₁ / g² + 2 κ₂ / g² + 20 κ₁² / g³) / T`, where `κ₁` and `κ₂` bound `N L ∑_k |F_k'| δ_k` and
`N L ∑_k |F_k''| δ_k` and all other energies remain at least `g` away from the `i`-th. -/
theorem C137_bound (hh : ∀ p q, star (h₀ p q) = h₀ q p) (hu : ∀ p q r s, star (u₀ p q r s) = u₀ r s p q)
    (hd : ∀ k < n, ∀ p q, star (d k p q) = d k q p) {F F₁ F₂ : ℕ → ℝ → ℝ} {δ : ℕ → ℝ} {κ₁ κ₂ g : ℝ}
    (d1 : ∀ k < n, ∀ s ∈ Set.Icc (0 : ℝ) 1, HasDerivWithinAt (F k) (F₁ k s) (Set.Icc 0 1) s)
    (d2 : ∀ k < n, ∀ s ∈ Set.Icc (0 : ℝ) 1, HasDerivWithinAt (F₁ k) (F₂ k s) (Set.Icc 0 1) s)
    (hδ : ∀ k < n, ∀ p q, ‖d k p q‖ ≤ δ k) (δ0 : ∀ k < n, 0 ≤ δ k)
    (b1 : ∀ s ∈ Set.Icc (0 : ℝ) 1, N * L * ∑ k ∈ range n, |F₁ k s| * δ k ≤ κ₁)
    (b2 : ∀ s ∈ Set.Icc (0 : ℝ) 1, N * L * ∑ k ∈ range n, |F₂ k s| * δ k ≤ κ₂) (hg : 0 < g) {i : ℕ}
    (gap : ∀ s ∈ Set.Icc (0 : ℝ) 1, ∀ D E (Φ : ℕ → Wave ℂ N L), Spectrum (forcedOne n h₀ d fun k => F k s) u₀ D E Φ →
      ∀ j < D, j ≠ i → g ≤ |E j - E i|) {T : ℝ} (hT : 0 < T) {Ψ : ℝ → Wave ℂ N L}
    (hΨ : Evolves (fun t => forcedOne n h₀ d fun k => F k (t / T)) (fun _ => u₀) Ψ)
    (h0 : LevelState (forcedOne n h₀ d fun k => F k 0) u₀ i (Ψ 0)) {Φ : Wave ℂ N L}
    (hΦ : LevelState (forcedOne n h₀ d fun k => F k 1) u₀ i Φ) :
    1 - (4 * κ₁ / g ^ 2 + 2 * κ₂ / g ^ 2 + 20 * κ₁ ^ 2 / g ^ 3) / T ≤ population Φ (Ψ T) := by
  have nrm : ∀ {c : ℕ → ℝ} {κ : ℝ}, N * L * ∑ k ∈ range n, |c k| * δ k ≤ κ →
      ‖hamL N L ((forcedOne n (fun _ _ => 0) d c, fun _ _ _ _ => 0) : Elements L)‖ ≤ κ := fun {c κ} hc => by
    have := hamL_norm (N := N) (z := ((forcedOne n (fun _ _ => 0) d c, fun _ _ _ _ => 0) : Elements L))
      ⟨forcedOne_herm (fun _ _ => star_zero _) hd c, fun _ _ _ _ => star_zero _⟩ (ε := ∑ k ∈ range n, |c k| * δ k)
      (sum_nonneg fun k hk => mul_nonneg (abs_nonneg _) (δ0 k (mem_range.1 hk))) (le_refl (0 : ℝ)) (fun p q => by
        show ‖0 + ∑ k ∈ range n, (c k : ℂ) * d k p q‖ ≤ _
        rw [zero_add]
        refine (norm_sum_le _ _).trans (sum_le_sum fun k hk => ?_)
        rw [norm_mul, Complex.norm_real, Real.norm_eq_abs]
        exact mul_le_mul_of_nonneg_left (hδ k (mem_range.1 hk) p q) (abs_nonneg _)) (fun p q r s => by simp)
    refine this.trans ?_
    rw [mul_zero, add_zero]
    exact hc
  have der : ∀ {x : Fin L → Fin L → ℂ} {G : ℕ → ℝ → ℝ} {G' : ℕ → ℝ} {s : ℝ},
      (∀ k < n, HasDerivWithinAt (G k) (G' k) (Set.Icc 0 1) s) →
      HasDerivWithinAt (fun s => forcedOne n x d fun k => G k s) (forcedOne n (fun _ _ => 0) d G') (Set.Icc 0 1) s :=
    fun {x G G' s} hG => hasDerivWithinAt_pi.2 fun p => hasDerivWithinAt_pi.2 fun q => by
      refine HasDerivWithinAt.add (hasDerivWithinAt_const s _ (x p q)) (HasDerivWithinAt.fun_sum fun k hk => ?_)
      exact (Complex.ofRealCLM.hasFDerivAt.comp_hasDerivWithinAt s (hG k (mem_range.1 hk))).mul_const (d k p q)
  have key := level_scaled (N := N) (L := L) (z := fun s => (forcedOne n h₀ d fun k => F k s, u₀))
    (z₁ := fun s => (forcedOne n (fun _ _ => 0) d fun k => F₁ k s, fun _ _ _ _ => 0))
    (z₂ := fun s => (forcedOne n (fun _ _ => 0) d fun k => F₂ k s, fun _ _ _ _ => 0)) hg
    (fun s => ⟨forcedOne_herm hh hd fun k => F k s, hu⟩)
    (fun s hs => (der fun k hk => d1 k hk s hs).prodMk (hasDerivWithinAt_const s _ u₀))
    (fun s hs => (der fun k hk => d2 k hk s hs).prodMk (hasDerivWithinAt_const s _ (fun _ _ _ _ => 0)))
    (fun s hs => nrm (b1 s hs)) (fun s hs => nrm (b2 s hs)) gap hT hΨ (Φ₀ := Ψ 0) (Φ₁ := Φ) h0 hΦ
    (levelState_norm h0).1 (levelState_norm h0).2
  rw [population_self h0] at key
  linarith [(abs_le.1 key).1]

/-! ## The systems -/

/-- **C137** A system with a laser with the real field `F_k(t / T)`, whatever is read from it in between: `N` electrons follow the
`i`-th state slowly. The number `C` depends on the elements and on `F` only. -/
theorem C137_laser {l m : ℕ} {h u d : NDArray ℂ} (Hh : HermMat l h) (Hu : HermU l u) (Hd : HermDip m l d) {F : ℕ → ℝ → ℝ}
    (hF : ∀ k < m, ContDiffOn ℝ 2 (F k) (Set.Icc 0 1)) {i : ℕ}
    (simple : ∀ s ∈ Set.Icc (0 : ℝ) 1, SimpleLevel N (forcedOne m (spinOne l h) (spinDipole l d) fun k => F k s) (spinTwo l u) i) :
    ∃ C, ∀ T > 0, ∀ {w w' : World ℂ ℝ} {s o : ℕ} {x : Sys} {b : BasisSet ℂ} {y : TEOp ℂ ℝ}
      {pulse : Attr ℂ ℝ} {pol : Option (Attr ℂ ℝ)} {f : ℝ → Val ℂ} {c : ℝ → ℂ} {e : ℝ → ℕ → ℂ},
      SysOK w s x b → b.l = l → b.dim = m → b.h = some h → b.u = some u → b.dipole = some d → w.ops[o]? = some y →
      y.kind = .laser pulse pol → Given pulse f → (∀ t, IsNumber (f t) (c t)) → GivenPol pol m e →
      (IsCallable pulse ∨ ∃ a, pol = some a ∧ IsCallable a) → (∀ t, ∀ k < m, c t * e t k = F k (t / T)) →
      (setTimeEvolutionOperator s (some o)).run w = (.ok (), w') →
      (∃ H U, Answered w' s o H U) ∧ ∀ H U, Answered w' s o H U → ∀ Ψ : ℝ → Wave ℂ N (2 * l),
        Evolves (fun t => spinOne l (H t)) (fun t => spinTwo l (U t)) Ψ →
        LevelState (forcedOne m (spinOne l h) (spinDipole l d) fun k => F k 0) (spinTwo l u) i (Ψ 0) →
        ∀ Φ, LevelState (forcedOne m (spinOne l h) (spinDipole l d) fun k => F k 1) (spinTwo l u) i Φ →
        1 - C / T ≤ population Φ (Ψ T) := by
  obtain ⟨C, hC⟩ := C137_field (spinOne_herm Hh) (spinTwo_herm Hu) (fun k hk => spinDipole_herm Hd hk) hF simple
  refine ⟨C, fun T hT w w' s o x b y pulse pol f c e ok hl hm hh hu hd hy hk hp hf he callable hFc hset => ?_⟩
  subst hl hm
  obtain ⟨ex, el⟩ := laser_elements ok hy hk hp hf he callable hset (F := fun k t => F k (t / T)) hFc hh hu hd
  refine ⟨ex, fun H U A Ψ hΨ h0 Φ hΦ => hC T hT Ψ ?_ h0 Φ hΦ⟩
  obtain ⟨s1, -, s2, -⟩ := el H U A
  have e1 : (fun t => spinOne b.l (H t)) = fun t => forcedOne b.dim (spinOne b.l h) (spinDipole b.l d) fun k => F k (t / T) :=
    funext fun t => funext fun p => funext fun q => s1 t p q
  have e2 : (fun t => spinTwo b.l (U t)) = fun _ => spinTwo b.l u := funext s2
  rwa [e1, e2] at hΨ

/-- **C137** `TwoDimensionalHarmonicOscillator` with `ω > π / 2`: there is a field strength `a > 0` such that for every field
`F_k(t / T)` that is at most `a` and begins and ends with zero, two electrons that start in the state with the lowest energy are in
this state at the time `T` up to a probability `C / T`. -/
theorem C137_tdho {l : ℕ} (hl : 2 ≤ 2 * l) (num : ℕ) (radiusLength : ℝ) {omega mass : ℝ} (ho : Real.pi / 2 < omega) (hm : 0 < mass)
    (np : Module) :
    ∃ b h u d, tdho (getCoulombElementsRaw l) l num radiusLength omega mass np = .ok b ∧ b.h = some h ∧ b.u = some u ∧
      b.dipole = some d ∧ ∃ a > 0, ∀ F : ℕ → ℝ → ℝ, (∀ k < 2, ContDiffOn ℝ 2 (F k) (Set.Icc 0 1)) → (∀ k < 2, F k 0 = 0) →
      (∀ k < 2, F k 1 = 0) → (∀ k < 2, ∀ s ∈ Set.Icc (0 : ℝ) 1, |F k s| ≤ a) →
      ∃ C, ∀ T > 0, ∀ {w w' : World ℂ ℝ} {s o : ℕ} {x : Sys} {y : TEOp ℂ ℝ}
        {pulse : Attr ℂ ℝ} {pol : Option (Attr ℂ ℝ)} {f : ℝ → Val ℂ} {c : ℝ → ℂ} {e : ℝ → ℕ → ℂ},
        SysOK w s x b → w.ops[o]? = some y → y.kind = .laser pulse pol → Given pulse f → (∀ t, IsNumber (f t) (c t)) →
        GivenPol pol 2 e → (IsCallable pulse ∨ ∃ a, pol = some a ∧ IsCallable a) → (∀ t, ∀ k < 2, c t * e t k = F k (t / T)) →
        (setTimeEvolutionOperator s (some o)).run w = (.ok (), w') →
        (∃ H U, Answered w' s o H U) ∧ ∀ H U, Answered w' s o H U → ∀ Ψ : ℝ → Wave ℂ 2 (2 * l),
          Evolves (fun t => spinOne l (H t)) (fun t => spinTwo l (U t)) Ψ →
          LevelState (spinOne l h) (spinTwo l u) 0 (Ψ 0) → 1 - C / T ≤ population (Ψ 0) (Ψ T) := by
  have ho' : 0 < omega := by linarith [Real.pi_pos]
  obtain ⟨b, h, u, h1, hh, hu, sep, -⟩ := C128_tdho hl num radiusLength ho hm np (F := fun s => s) (by fun_prop) rfl rfl
    (fun s hs => hs)
  obtain ⟨b', h1', cons⟩ := C91_tdho l num radiusLength omega mass np
  obtain rfl : b = b' := by simpa using h1.symm.trans h1'
  obtain ⟨h', hh', Hh⟩ := cons.h
  obtain rfl := Option.some.inj (hh.symm.trans hh')
  obtain ⟨u', hu', Hu, -⟩ := cons.u
  obtain rfl := Option.some.inj (hu.symm.trans hu')
  obtain ⟨d, hd, Hd⟩ := cons.dipole
  have hlb := cons.wf.l_eq
  have hdim := cons.dim_eq
  set g := omega - Real.sqrt (Real.pi * omega / 2) with hg
  have hg0 : 0 < g := by
    have : Real.sqrt (Real.pi * omega / 2) < omega := by
      rw [Real.sqrt_lt' ho']
      nlinarith
    linarith
  have gap : ∀ D E (Φ : ℕ → Wave ℂ 2 (2 * l)), Spectrum (spinOne l h) (spinTwo l u) D E Φ →
      0 < D ∧ ∀ j < D, j ≠ 0 → g ≤ |E j - E 0| := fun D E Φ S => by
    refine ⟨by rw [C120_count S]; exact Nat.choose_pos hl, fun j hj h0 => ?_⟩
    exact (sep 1 ⟨zero_le_one, le_rfl⟩ D E Φ (by rwa [scaledTwo_one]) j hj h0).trans (le_abs_self _)
  obtain ⟨B, hB⟩ : ∃ B : ℝ, ∀ k < 2, ∀ p q, ‖spinDipole l d k p q‖ ≤ B := by
    refine ⟨∑ k ∈ range 2, ∑ p, ∑ q, ‖spinDipole l d k p q‖, fun k hk p q => ?_⟩
    refine le_trans ?_ (single_le_sum (f := fun k => ∑ p, ∑ q, ‖spinDipole l d k p q‖)
      (fun _ _ => sum_nonneg fun _ _ => sum_nonneg fun _ _ => norm_nonneg _) (mem_range.2 hk))
    refine le_trans ?_ (single_le_sum (f := fun p => ∑ q, ‖spinDipole l d k p q‖)
      (fun _ _ => sum_nonneg fun _ _ => norm_nonneg _) (mem_univ p))
    exact single_le_sum (f := fun q => ‖spinDipole l d k p q‖) (fun _ _ => norm_nonneg _) (mem_univ q)
  have hB0 : 0 ≤ B := (norm_nonneg _).trans (hB 0 (by norm_num) ⟨0, by omega⟩ ⟨0, by omega⟩)
  have hl0 : (0 : ℝ) ≤ ((2 * l : ℕ) : ℝ) := Nat.cast_nonneg _
  refine ⟨b, h, u, d, h1, hh, hu, hd, g / (2 * (2 * (2 * l : ℕ) * (2 * B)) + 1), by positivity, fun F hF F0 F1 small => ?_⟩
  have weak : ∀ s ∈ Set.Icc (0 : ℝ) 1, 2 * ((2 : ℕ) * (2 * l : ℕ) * ∑ k ∈ range 2, |F k s| * B) < g := fun s hs => by
    set a := g / (2 * (2 * (2 * l : ℕ) * (2 * B)) + 1) with ha
    have ha0 : 0 < a := by positivity
    have e1 : a * (2 * (2 * (2 * l : ℕ) * (2 * B)) + 1) = g := by
      rw [ha]
      field_simp
    have e2 : ∑ k ∈ range 2, |F k s| * B ≤ 2 * (a * B) := by
      rw [sum_range_succ, sum_range_one]
      have := mul_le_mul_of_nonneg_right (small 0 (by norm_num) s hs) hB0
      have := mul_le_mul_of_nonneg_right (small 1 (by norm_num) s hs) hB0
      linarith
    have e3 := mul_le_mul_of_nonneg_left e2 (mul_nonneg (by norm_num : (0 : ℝ) ≤ 2 * 2) hl0)
    rw [← e1]
    push_cast at e3 ⊢
    nlinarith
  obtain ⟨C, hC⟩ := C137_laser (N := 2) (i := 0) Hh Hu Hd hF fun s hs =>
    (C137_weak (spinOne_herm Hh) (spinTwo_herm Hu) (fun k hk => spinDipole_herm Hd hk) gap (δ := fun _ => B) hB fun k => F k s).2
      (weak s hs)
  refine ⟨C, fun T hT w w' s o x y pulse pol f c e ok hy hk hp hf he callable hFc hset => ?_⟩
  obtain ⟨ex, all⟩ := hC T hT ok hlb hdim hh hu hd hy hk hp hf he callable hFc hset
  refine ⟨ex, fun H U A Ψ hΨ h0 => all H U A Ψ hΨ ?_ _ ?_⟩
  · rwa [forcedOne_zero _ _ F0]
  · rwa [forcedOne_zero _ _ F1]

/-! ## Example -/

/-- A two-dimensional dot of six functions with one pair of electrons, and a laser with the pulse `a (t / T)² (1 - t / T)²` along the
first axis. -/
noncomputable def slowWorld (a T : ℝ) (b : BasisSet ℂ) : World ℂ ℝ :=
  { bases := [b]
    systems := [⟨.spatial, 0, some 0, 1, 6, 5, (0, 1), (1, 6), none⟩]
    ops := [laserField (.fn fun t => .scalar .float64 ((a * ((t / T) ^ 2 * (1 - t / T) ^ 2) : ℝ) : ℂ)) none] }

/-- Two electrons in the ground state of a two-dimensional dot with the frequency `3` return to it after a slow and weak pulse. -/
example (num : ℕ) (radiusLength : ℝ) : ∃ b h u,
    tdho (getCoulombElementsRaw 6) 6 num radiusLength 3 1 0 = .ok b ∧ b.h = some h ∧ b.u = some u ∧ ∃ a > 0, ∃ C,
    ∀ T > 0, ∃ w', (setTimeEvolutionOperator 0 (some 0)).run (slowWorld a T b) = (.ok (), w') ∧ (∃ H U, Answered w' 0 0 H U) ∧
      ∀ H U, Answered w' 0 0 H U → ∀ Ψ : ℝ → Wave ℂ 2 12, Evolves (fun t => spinOne 6 (H t)) (fun t => spinTwo 6 (U t)) Ψ →
        LevelState (spinOne 6 h) (spinTwo 6 u) 0 (Ψ 0) → 1 - C / T ≤ population (Ψ 0) (Ψ T) := by
  obtain ⟨b, h, u, d, h1, hh, hu, hd, a, ha, key⟩ := C137_tdho (l := 6) (by norm_num) num radiusLength (omega := 3) (mass := 1)
    (by linarith [Real.pi_le_four]) one_pos 0
  obtain ⟨C, hC⟩ := key (fun k s => if k = 0 then a * (s ^ 2 * (1 - s) ^ 2) else 0)
    (fun k _ => by split_ifs <;> fun_prop) (fun k _ => by simp) (fun k _ => by simp) (fun k _ s hs => by
      obtain ⟨s0, s1⟩ := hs
      split_ifs
      · rw [abs_of_nonneg (by positivity)]
        have e1 : s ^ 2 ≤ 1 := by nlinarith
        have e2 : (1 - s) ^ 2 ≤ 1 := by nlinarith
        have e3 : s ^ 2 * (1 - s) ^ 2 ≤ 1 := by nlinarith [sq_nonneg s, sq_nonneg (1 - s)]
        nlinarith
      · simpa using ha.le)
  refine ⟨b, h, u, h1, hh, hu, a, ha, C, fun T hT => ?_⟩
  obtain ⟨b', h1', cons⟩ := C91_tdho 6 num radiusLength 3 1 0
  obtain rfl : b = b' := by simpa using h1.symm.trans h1'
  have ok : SysOK (slowWorld a T b) 0 ⟨.spatial, 0, some 0, 1, 6, 5, (0, 1), (1, 6), none⟩ b :=
    ⟨rfl, rfl, cons.wf, cons.np_eq.symm, ⟨by decide, rfl, rfl, rfl⟩⟩
  obtain ⟨w', hw', -⟩ := C38_set (o := 0) ok rfl
  refine ⟨w', hw', hC T hT (c := fun t => ((a * ((t / T) ^ 2 * (1 - t / T) ^ 2) : ℝ) : ℂ)) (e := fun _ k => if k = 0 then 1 else 0)
    ok rfl rfl (.inl rfl) (fun t => ⟨_, rfl⟩) (fun _ _ => rfl) (.inl ⟨_, rfl⟩) (fun t k _ => ?_) hw'⟩
  by_cases hk : k = 0
  · rw [if_pos hk, if_pos hk, mul_one]
  · rw [if_neg hk, if_neg hk, mul_zero, Complex.ofReal_zero]

end QS.Props
