import Verif.Lemmas.AdiabaticStates
import Verif.Props.Evolution
import Verif.Props.LevelBounds
import Verif.Props.RoundingCoulomb

/-!
# Adiabatic switching (C128)
-/

namespace QS.Props

open NDArray BasisSet World TwoDim OneDim SincDvr Idx Coulomb Spec PyM Finset Function QS.Adiabatic

variable {N L : ℕ}

theorem levelState_norm {h : Fin L → Fin L → ℂ} {u : Fin L → Fin L → Fin L → Fin L → ℂ} {k : ℕ} {Ψ : Wave ℂ N L}
    (hΨ : LevelState h u k Ψ) : Antisymmetric Ψ ∧ waveInner Ψ Ψ = 1 := by
  obtain ⟨D, E, Φ, S, hk, rfl⟩ := hΨ
  exact ⟨S.anti k hk, by rw [S.orth k hk k hk, if_pos rfl]⟩

theorem population_self {h : Fin L → Fin L → ℂ} {u : Fin L → Fin L → Fin L → Fin L → ℂ} {k : ℕ} {Ψ : Wave ℂ N L}
    (hΨ : LevelState h u k Ψ) : population Ψ Ψ = 1 := by
  rw [population, (levelState_norm hΨ).2]
  norm_num

/-- **C128** Slow changes: if the elements depend on `t / T`, are Hermitian and twice continuously differentiable, and the
`k`-th energy is not degenerate in between, then particles that start with the `k`-th energy have the `k`-th energy at the time
`T` up to a probability `C / T`. -/
theorem C128_slow {h : ℝ → Fin L → Fin L → ℂ} {u : ℝ → Fin L → Fin L → Fin L → Fin L → ℂ} (hh : HermitianElements h u)
    (h1 : ∀ p q, ContDiffOn ℝ 2 (fun s => h s p q) (Set.Icc 0 1))
    (u1 : ∀ p q r s, ContDiffOn ℝ 2 (fun t => u t p q r s) (Set.Icc 0 1)) {k : ℕ}
    (simple : ∀ s ∈ Set.Icc (0 : ℝ) 1, SimpleLevel N (h s) (u s) k) :
    ∃ C, ∀ T > 0, ∀ Ψ : ℝ → Wave ℂ N L, Evolves (fun t => h (t / T)) (fun t => u (t / T)) Ψ →
      LevelState (h 0) (u 0) k (Ψ 0) → ∀ Φ, LevelState (h 1) (u 1) k Φ → 1 - C / T ≤ population Φ (Ψ T) := by
  obtain ⟨C, hC⟩ := level_limit (N := N) (z := fun s => (h s, u s))
    (ContDiffOn.prodMk (contDiffOn_pi.2 fun p => contDiffOn_pi.2 fun q => h1 p q)
      (contDiffOn_pi.2 fun p => contDiffOn_pi.2 fun q => contDiffOn_pi.2 fun r => contDiffOn_pi.2 fun s => u1 p q r s))
    (fun s => ⟨hh.one s, hh.two s⟩) simple
  refine ⟨C, fun T hT Ψ hΨ h0 Φ hΦ => ?_⟩
  have := hC T hT Ψ hΨ (Ψ 0) Φ h0 hΦ (levelState_norm h0).1 (levelState_norm h0).2
  rw [population_self h0] at this
  linarith [(abs_le.1 this).1]

/-- The interaction `c u`. -/
def scaledTwo (c : ℝ) (u : Fin L → Fin L → Fin L → Fin L → ℂ) : Fin L → Fin L → Fin L → Fin L → ℂ := fun p q r s => c * u p q r s

theorem scaledTwo_herm {u : Fin L → Fin L → Fin L → Fin L → ℂ} (hu : ∀ p q r s, star (u p q r s) = u r s p q) (c : ℝ)
    (p q r s : Fin L) : star (scaledTwo c u p q r s) = scaledTwo c u r s p q := by
  unfold scaledTwo
  rw [star_mul', hu, Complex.star_def, Complex.conj_ofReal]

theorem scaledTwo_zero (u : Fin L → Fin L → Fin L → Fin L → ℂ) : scaledTwo 0 u = fun _ _ _ _ => 0 := by
  unfold scaledTwo
  simp

theorem scaledTwo_one (u : Fin L → Fin L → Fin L → Fin L → ℂ) : scaledTwo 1 u = u := by
  unfold scaledTwo
  simp

/-- **C128** Switching the interaction on with `F(t / T)`: the particles with the `k`-th energy without interaction come to the
`k`-th energy of the interacting particles. -/
theorem C128_switched {h : Fin L → Fin L → ℂ} {u : Fin L → Fin L → Fin L → Fin L → ℂ} (hh : ∀ p q, star (h p q) = h q p)
    (hu : ∀ p q r s, star (u p q r s) = u r s p q) {F : ℝ → ℝ} (hF : ContDiffOn ℝ 2 F (Set.Icc 0 1)) (F0 : F 0 = 0) (F1 : F 1 = 1)
    {k : ℕ} (simple : ∀ s ∈ Set.Icc (0 : ℝ) 1, SimpleLevel N h (scaledTwo (F s) u) k) :
    ∃ C, ∀ T > 0, ∀ Ψ : ℝ → Wave ℂ N L, Evolves (fun _ => h) (fun t => scaledTwo (F (t / T)) u) Ψ →
      LevelState h (fun _ _ _ _ => 0) k (Ψ 0) → ∀ Φ, LevelState h u k Φ → 1 - C / T ≤ population Φ (Ψ T) := by
  obtain ⟨C, hC⟩ := C128_slow (N := N) (h := fun _ => h) (u := fun s => scaledTwo (F s) u)
    ⟨fun _ => hh, fun s => scaledTwo_herm hu (F s)⟩ (fun p q => contDiffOn_const)
    (fun p q r s => (Complex.ofRealCLM.contDiff.comp_contDiffOn hF).mul contDiffOn_const) simple
  refine ⟨C, fun T hT Ψ hΨ h0 Φ hΦ => hC T hT Ψ hΨ ?_ Φ ?_⟩
  · rwa [F0, scaledTwo_zero]
  · rwa [F1, scaledTwo_one]

/-- **C128** The same with a bound: if the elements of the interaction are at most `δ`, `|F'| ≤ B₁`, `|F''| ≤ B₂` and all other
energies remain at least `g` away from the `k`-th, then the probability to leave the level is at most
`(4 B₁ V / g² + 2 B₂ V / g² + 20 B₁² V² / g³) / T` with `V = N (N - 1) / 2 L² δ`. -/
theorem C128_bound {h : Fin L → Fin L → ℂ} {u : Fin L → Fin L → Fin L → Fin L → ℂ} (hh : ∀ p q, star (h p q) = h q p)
    (hu : ∀ p q r s, star (u p q r s) = u r s p q) {F F₁ F₂ : ℝ → ℝ} {B₁ B₂ δ g : ℝ}
    (d1 : ∀ s ∈ Set.Icc (0 : ℝ) 1, HasDerivWithinAt F (F₁ s) (Set.Icc 0 1) s)
    (d2 : ∀ s ∈ Set.Icc (0 : ℝ) 1, HasDerivWithinAt F₁ (F₂ s) (Set.Icc 0 1) s)
    (b1 : ∀ s ∈ Set.Icc (0 : ℝ) 1, |F₁ s| ≤ B₁) (b2 : ∀ s ∈ Set.Icc (0 : ℝ) 1, |F₂ s| ≤ B₂)
    (bu : ∀ p q r s, ‖u p q r s‖ ≤ δ) (hδ : 0 ≤ δ) (F0 : F 0 = 0) (F1 : F 1 = 1) (hg : 0 < g) {k : ℕ}
    (gap : ∀ s ∈ Set.Icc (0 : ℝ) 1, ∀ D E (Φ : ℕ → Wave ℂ N L), Spectrum h (scaledTwo (F s) u) D E Φ →
      ∀ j < D, j ≠ k → g ≤ |E j - E k|) {T : ℝ} (hT : 0 < T) {Ψ : ℝ → Wave ℂ N L}
    (hΨ : Evolves (fun _ => h) (fun t => scaledTwo (F (t / T)) u) Ψ) (h0 : LevelState h (fun _ _ _ _ => 0) k (Ψ 0))
    {Φ : Wave ℂ N L} (hΦ : LevelState h u k Φ) :
    1 - (4 * (B₁ * (N * (N - 1 : ℕ) / 2 * L ^ 2 * δ)) / g ^ 2 + 2 * (B₂ * (N * (N - 1 : ℕ) / 2 * L ^ 2 * δ)) / g ^ 2 +
      20 * (B₁ * (N * (N - 1 : ℕ) / 2 * L ^ 2 * δ)) ^ 2 / g ^ 3) / T ≤ population Φ (Ψ T) := by
  have z0 : (0 : ℝ) ∈ Set.Icc (0 : ℝ) 1 := ⟨le_rfl, zero_le_one⟩
  have hB₁ : 0 ≤ B₁ := (abs_nonneg _).trans (b1 0 z0)
  have hB₂ : 0 ≤ B₂ := (abs_nonneg _).trans (b2 0 z0)
  have nrm : ∀ {c B : ℝ}, |c| ≤ B → 0 ≤ B → ‖hamL N L ((fun _ _ => 0, scaledTwo c u) : Elements L)‖ ≤
      B * (N * (N - 1 : ℕ) / 2 * L ^ 2 * δ) := fun {c B} hc hB => by
    have := hamL_norm (N := N) (z := ((fun _ _ => 0, scaledTwo c u) : Elements L)) ⟨fun _ _ => star_zero _, scaledTwo_herm hu c⟩
      (le_refl (0 : ℝ)) (mul_nonneg hB hδ) (fun p q => by simp) (fun p q r s => by
        show ‖(c : ℂ) * u p q r s‖ ≤ B * δ
        rw [norm_mul, Complex.norm_real, Real.norm_eq_abs]
        exact mul_le_mul hc (bu p q r s) (norm_nonneg _) hB)
    refine this.trans (le_of_eq ?_)
    ring
  have der : ∀ {G : ℝ → ℝ} {G' s : ℝ}, HasDerivWithinAt G G' (Set.Icc 0 1) s →
      HasDerivWithinAt (fun s => scaledTwo (G s) u) (scaledTwo G' u) (Set.Icc 0 1) s := fun {G G' s} hG =>
    hasDerivWithinAt_pi.2 fun p => hasDerivWithinAt_pi.2 fun q => hasDerivWithinAt_pi.2 fun r => hasDerivWithinAt_pi.2 fun t =>
      (Complex.ofRealCLM.hasFDerivAt.comp_hasDerivWithinAt s hG).mul_const (u p q r t)
  have key := level_scaled (N := N) (L := L) (z := fun s => (h, scaledTwo (F s) u))
    (z₁ := fun s => (fun _ _ => 0, scaledTwo (F₁ s) u)) (z₂ := fun s => (fun _ _ => 0, scaledTwo (F₂ s) u)) hg
    (fun s => ⟨hh, scaledTwo_herm hu (F s)⟩) (fun s hs => (hasDerivWithinAt_const s _ h).prodMk (der (d1 s hs)))
    (fun s hs => (hasDerivWithinAt_const s _ (fun _ _ => 0)).prodMk (der (d2 s hs)))
    (fun s hs => nrm (b1 s hs) hB₁) (fun s hs => nrm (b2 s hs) hB₂) gap hT hΨ (Φ₀ := Ψ 0) (Φ₁ := Φ)
    (by dsimp only; rwa [F0, scaledTwo_zero]) (by dsimp only; rwa [F1, scaledTwo_one]) (levelState_norm h0).1 (levelState_norm h0).2
  rw [population_self h0] at key
  linarith [(abs_le.1 key).1]

/-! ## The systems -/

/-- The arrays that a system with an `AdiabaticSwitching` operator returns. -/
theorem switching_elements {w w' : World ℂ ℝ} {s o : ℕ} {x : Sys} {b : BasisSet ℂ} {a : Attr ℂ ℝ} {f : ℝ → Val ℂ} {c : ℝ → ℂ}
    (ok : SysOK w s x b) (hy : w.ops[o]? = some (adiabaticSwitching a)) (hp : Given a f) (hf : ∀ t, IsNumber (f t) (c t))
    (hset : (setTimeEvolutionOperator s (some o)).run w = (.ok (), w')) {h u : NDArray ℂ} (hh : b.h = some h) (hu : b.u = some u)
    {H U : ℝ → NDArray ℂ} (A : Answered w' s o H U) (t : ℝ) :
    H t = h ∧ ∀ p < b.l, ∀ q < b.l, ∀ r < b.l, ∀ s < b.l, (U t).get [p, q, r, s] = c t * u.get [p, q, r, s] := by
  have SA := C37_switching ok hy hp hf hset
  obtain ⟨u', hu', su⟩ := ok.wf.u
  obtain rfl := Option.some.inj (hu.symm.trans hu')
  rw [← ok.wf.l_eq] at su
  exact answered_switching SA hh hu su A t

/-- **C128** A system with an `AdiabaticSwitching` operator `F(t / T)` from `F(0) = 0` to `F(1) = 1` and Hermitian elements: with
the arrays that `h_t` and `u_t` return, whatever is read from the system in between, `N` electrons in the `k`-th state without
interaction at the time `0` are in the `k`-th state with interaction at the time `T` up to a probability `C / T`, if the `k`-th
energy is not degenerate for the interactions in between. The number `C` depends on the elements and on `F` only. -/
theorem C128_switching {l : ℕ} {h u : NDArray ℂ} (Hh : HermMat l h) (Hu : HermU l u) {F : ℝ → ℝ}
    (hF : ContDiffOn ℝ 2 F (Set.Icc 0 1)) (F0 : F 0 = 0) (F1 : F 1 = 1) {k : ℕ}
    (simple : ∀ s ∈ Set.Icc (0 : ℝ) 1, SimpleLevel N (spinOne l h) (scaledTwo (F s) (spinTwo l u)) k) :
    ∃ C, ∀ T > 0, ∀ {w w' : World ℂ ℝ} {s o : ℕ} {x : Sys} {b : BasisSet ℂ} {a : Attr ℂ ℝ} {f : ℝ → Val ℂ},
      SysOK w s x b → b.l = l → b.h = some h → b.u = some u → w.ops[o]? = some (adiabaticSwitching a) → Given a f →
      (∀ t, IsNumber (f t) ((F (t / T) : ℝ) : ℂ)) → (setTimeEvolutionOperator s (some o)).run w = (.ok (), w') →
      (∃ H U, Answered w' s o H U) ∧ ∀ H U, Answered w' s o H U → ∀ Ψ : ℝ → Wave ℂ N (2 * l),
        Evolves (fun t => spinOne l (H t)) (fun t => spinTwo l (U t)) Ψ →
        LevelState (spinOne l h) (fun _ _ _ _ => 0) k (Ψ 0) → ∀ Φ, LevelState (spinOne l h) (spinTwo l u) k Φ →
        1 - C / T ≤ population Φ (Ψ T) := by
  obtain ⟨C, hC⟩ := C128_switched (spinOne_herm Hh) (spinTwo_herm Hu) hF F0 F1 simple
  refine ⟨C, fun T hT w w' s o x b a f ok hl hh hu hy hp hf hset => ⟨?_, fun H U A Ψ hΨ h0 Φ hΦ => hC T hT Ψ ?_ h0 Φ hΦ⟩⟩
  · choose u' r h1 h2 h3 h4 h5 using C37_switching ok hy hp hf hset [] (by simp)
    exact ⟨fun _ => h, r, fun t => ⟨[], by simp, by rw [h5 t, hh], h2 t⟩⟩
  subst hl
  have el := switching_elements ok hy hp hf hset hh hu A
  have e1 : (fun t => spinOne b.l (H t)) = fun _ => spinOne b.l h := funext fun t => by rw [(el t).1]
  have e2 : (fun t => spinTwo b.l (U t)) = fun t => scaledTwo (F (t / T)) (spinTwo b.l u) := by
    funext t p q r s
    simp only [spinTwo, scaledTwo]
    split_ifs
    · exact (el t).2 _ (by omega) _ (by omega) _ (by omega) _ (by omega)
    · simp
  rwa [e1, e2] at hΨ

/-- **C128** The same for particles in the functions of the basis set as they are. -/
theorem C128_switching_general {l : ℕ} {h u : NDArray ℂ} (Hh : HermMat l h) (Hu : HermU l u) {F : ℝ → ℝ}
    (hF : ContDiffOn ℝ 2 F (Set.Icc 0 1)) (F0 : F 0 = 0) (F1 : F 1 = 1) {k : ℕ}
    (simple : ∀ s ∈ Set.Icc (0 : ℝ) 1, SimpleLevel N (arrayOne l h) (scaledTwo (F s) (arrayTwo l u)) k) :
    ∃ C, ∀ T > 0, ∀ {w w' : World ℂ ℝ} {s o : ℕ} {x : Sys} {b : BasisSet ℂ} {a : Attr ℂ ℝ} {f : ℝ → Val ℂ},
      SysOK w s x b → b.l = l → b.h = some h → b.u = some u → w.ops[o]? = some (adiabaticSwitching a) → Given a f →
      (∀ t, IsNumber (f t) ((F (t / T) : ℝ) : ℂ)) → (setTimeEvolutionOperator s (some o)).run w = (.ok (), w') →
      ∀ H U, Answered w' s o H U → ∀ Ψ : ℝ → Wave ℂ N l,
        Evolves (fun t => arrayOne l (H t)) (fun t => arrayTwo l (U t)) Ψ →
        LevelState (arrayOne l h) (fun _ _ _ _ => 0) k (Ψ 0) → ∀ Φ, LevelState (arrayOne l h) (arrayTwo l u) k Φ →
        1 - C / T ≤ population Φ (Ψ T) := by
  obtain ⟨C, hC⟩ := C128_switched (arrayOne_herm Hh) (arrayTwo_herm Hu) hF F0 F1 simple
  refine ⟨C, fun T hT w w' s o x b a f ok hl hh hu hy hp hf hset H U A Ψ hΨ h0 Φ hΦ => hC T hT Ψ ?_ h0 Φ hΦ⟩
  subst hl
  have el := switching_elements ok hy hp hf hset hh hu A
  have e1 : (fun t => arrayOne b.l (H t)) = fun _ => arrayOne b.l h := funext fun t => by rw [(el t).1]
  have e2 : (fun t => arrayTwo b.l (U t)) = fun t => scaledTwo (F (t / T)) (arrayTwo b.l u) := by
    funext t p q r s
    exact (el t).2 _ p.2 _ q.2 _ r.2 _ s.2
  rwa [e1, e2] at hΨ

/-! ## Levels that remain simple -/

/-- Antisymmetric wave functions that do not contain the determinant of the first orbitals. -/
theorem first_zero (hN : N ≤ L) {Φ : Wave ℂ N L} (hΦ : Antisymmetric Φ) (h0 : Φ (firstOrbitals hN) = 0) {x : Fin N → Fin L}
    (hx : ¬ (Injective x ∧ ∃ i, N ≤ (x i).1)) : Φ x = 0 := by
  by_cases hi : Injective x
  swap
  · exact not_injective_zero hΦ hi
  have hlt : ∀ i, (x i).1 < N := fun i => by
    by_contra hcon
    exact hx ⟨hi, i, by omega⟩
  let f : Fin N → Fin N := fun i => ⟨x i, hlt i⟩
  have hf : Injective f := fun a b hab => hi (Fin.ext (by simpa [f] using hab))
  have e : x = firstOrbitals hN ∘ Equiv.ofBijective f (Finite.injective_iff_bijective.1 hf) := by
    funext i
    exact Fin.ext rfl
  rw [e, hΦ, h0, mul_zero]

/-- With a diagonal one-body part and a repulsive interaction, all energies but the lowest are at least the lowest one-body
energy of the determinants other than the first. -/
theorem second_ge {h : Fin L → Fin L → ℂ} {u : Fin L → Fin L → Fin L → Fin L → ℂ} {D : ℕ} {E : ℕ → ℝ} {Ψ : ℕ → Wave ℂ N L}
    (S : Spectrum h u D E Ψ) (hN : N ≤ L) {f : ℕ → ℝ} (hh : ∀ p q, h p q = if p = q then (f p : ℂ) else 0)
    (hu : ∀ v : Fin L → Fin L → ℂ, 0 ≤ (∑ p, ∑ q, ∑ r, ∑ s, star (v p q) * u p q r s * v r s).re) {c : ℝ}
    (hc : ∀ x : Fin N → Fin L, Injective x → (∃ i, N ≤ (x i).1) → c ≤ ∑ i, f (x i)) {k : ℕ} (hk : k < D) (h1 : 1 ≤ k) : c ≤ E k := by
  obtain ⟨a, ⟨j, hj, hne⟩, ha⟩ := exists_coeff_complex (m := k + 1) (n := 1) (by omega)
    fun _ j => waveInner (slater (firstOrbitals hN)) (Ψ j)
  set Φ : Wave ℂ N L := fun x => ∑ i ∈ range (k + 1), a i * Ψ i x with hΦ
  have hanti : Antisymmetric Φ := Spectrum.anti_comb a fun i hi => S.anti i (by omega)
  have h0 : Φ (firstOrbitals hN) = 0 := by
    have e := slater_inner (firstOrbitals hN) hanti
    have e2 : waveInner (slater (firstOrbitals hN)) Φ = 0 := by
      rw [hΦ, waveInner_comb]
      exact ha 0 (by omega)
    rw [e2] at e
    have hf : ((N.factorial : ℕ) : ℂ) ≠ 0 := Nat.cast_ne_zero.2 (Nat.factorial_ne_zero _)
    exact (mul_eq_zero.1 e.symm).resolve_left hf
  have h2 : c * ∑ x, ‖Φ x‖ ^ 2 ≤ (waveInner Φ (oneBodyOp h Φ)).re := by
    rw [oneBody_diag hh, Complex.ofReal_re, mul_sum]
    refine sum_le_sum fun x _ => ?_
    by_cases hx : Injective x ∧ ∃ i, N ≤ (x i).1
    · exact mul_le_mul_of_nonneg_right (hc x hx.1 hx.2) (sq_nonneg _)
    · rw [first_zero hN hanti h0 hx]
      simp
  have h3 := twoBody_form_nonneg hu Φ
  have h4 := S.comb (m := k + 1) (by omega) a
  rw [← hΦ] at h4
  have h5 := congrArg Complex.re (waveInner_hamiltonOp h u Φ Φ)
  rw [h4.2, Complex.ofReal_re, Complex.add_re, show (1 / 2 : ℂ) = ((1 / 2 : ℝ) : ℂ) by norm_num, Complex.re_ofReal_mul] at h5
  have h6 := h4.1
  rw [waveInner_self] at h6
  have h6 := Complex.ofReal_inj.1 h6
  have h7 : 0 < ∑ i ∈ range (k + 1), ‖a i‖ ^ 2 :=
    sum_pos' (fun i _ => sq_nonneg _) ⟨j, mem_range.2 hj, pow_pos (norm_pos_iff.2 hne) 2⟩
  have h8 : ∑ i ∈ range (k + 1), E i * ‖a i‖ ^ 2 ≤ E k * ∑ i ∈ range (k + 1), ‖a i‖ ^ 2 := by
    rw [mul_sum]
    refine sum_le_sum fun i hi => mul_le_mul_of_nonneg_right ?_ (sq_nonneg _)
    exact S.sorted i k (by have := mem_range.1 hi; omega) hk
  rw [h6] at h2
  exact le_of_mul_le_mul_right (by linarith) h7

/-- The lowest energy is at most the mean energy of the determinant of the first orbitals. -/
theorem lowest_le {h : Fin L → Fin L → ℂ} {u : Fin L → Fin L → Fin L → Fin L → ℂ} {D : ℕ} {E : ℕ → ℝ} {Ψ : ℕ → Wave ℂ N L}
    (S : Spectrum h u D E Ψ) (hN : N ≤ L) : E 0 ≤ (∑ i, h (firstOrbitals hN i) (firstOrbitals hN i) + 1 / 2 * ∑ i, ∑ j,
      (u (firstOrbitals hN i) (firstOrbitals hN j) (firstOrbitals hN i) (firstOrbitals hN j) -
        u (firstOrbitals hN i) (firstOrbitals hN j) (firstOrbitals hN j) (firstOrbitals hN i))).re := by
  have h1 := (S.bounds (slater_antisymmetric (firstOrbitals hN))).1
  rw [slater_inner _ (hamiltonOp_antisymmetric _ _ (slater_antisymmetric _)), hamilton_slater _ _ (firstOrbitals_injective _),
    (C106_determinants (K := ℂ) (firstOrbitals_injective _)).2.2.1] at h1
  have hf : (0 : ℝ) < (N.factorial : ℝ) := Nat.cast_pos.2 (Nat.factorial_pos _)
  rw [← Complex.ofReal_natCast, Complex.re_ofReal_mul, Complex.ofReal_re, mul_comm (N.factorial : ℝ)] at h1
  exact le_of_mul_le_mul_right h1 hf

/-- **C128** A lowest level that remains simple: `N` particles with a diagonal one-body part and a repulsive interaction, if the
mean interaction of the determinant of the first orbitals is smaller than its distance in one-body energy from all others. -/
theorem C128_simple {h : Fin L → Fin L → ℂ} {u : Fin L → Fin L → Fin L → Fin L → ℂ} (hN : N ≤ L) {f : ℕ → ℝ}
    (hh : ∀ p q, h p q = if p = q then (f p : ℂ) else 0)
    (hu : ∀ v : Fin L → Fin L → ℂ, 0 ≤ (∑ p, ∑ q, ∑ r, ∑ s, star (v p q) * u p q r s * v r s).re) {c J : ℝ}
    (hc : ∀ x : Fin N → Fin L, Injective x → (∃ i, N ≤ (x i).1) → c ≤ ∑ i, f (x i))
    (hJ : (1 / 2 * ∑ i, ∑ j, (u (firstOrbitals hN i) (firstOrbitals hN j) (firstOrbitals hN i) (firstOrbitals hN j) -
        u (firstOrbitals hN i) (firstOrbitals hN j) (firstOrbitals hN j) (firstOrbitals hN i))).re ≤ J) (J0 : 0 ≤ J)
    (hlt : ∑ i ∈ range N, f i + J < c) {r : ℝ} (hr : r ∈ Set.Icc (0 : ℝ) 1) :
    SimpleLevel N h (scaledTwo r u) 0 ∧ ∀ D E (Φ : ℕ → Wave ℂ N L), Spectrum h (scaledTwo r u) D E Φ → ∀ j < D, j ≠ 0 →
      c - (∑ i ∈ range N, f i + J) ≤ |E j - E 0| := by
  have key : ∀ D E (Φ : ℕ → Wave ℂ N L), Spectrum h (scaledTwo r u) D E Φ → ∀ j < D, j ≠ 0 →
      c - (∑ i ∈ range N, f i + J) ≤ E j - E 0 := fun D E Φ S j hj h0 => by
    have h1 := second_ge S hN hh (fun v => by
      have e : ∑ p, ∑ q, ∑ t, ∑ s, star (v p q) * scaledTwo r u p q t s * v t s =
          (r : ℂ) * ∑ p, ∑ q, ∑ t, ∑ s, star (v p q) * u p q t s * v t s := by
        simp only [mul_sum, scaledTwo]
        refine sum_congr rfl fun p _ => sum_congr rfl fun q _ => sum_congr rfl fun t _ => sum_congr rfl fun s _ => by ring
      rw [e, Complex.re_ofReal_mul]
      exact mul_nonneg hr.1 (hu v)) hc hj (by omega)
    have h2 := lowest_le S hN
    have h3 : ∑ i, h (firstOrbitals hN i) (firstOrbitals hN i) = ((∑ i ∈ range N, f i : ℝ) : ℂ) := by
      rw [Complex.ofReal_sum, ← Fin.sum_univ_eq_sum_range fun i => (f i : ℂ)]
      refine sum_congr rfl fun i _ => ?_
      rw [hh, if_pos rfl]
      rfl
    have h4 : (1 / 2 * ∑ i, ∑ j, (scaledTwo r u (firstOrbitals hN i) (firstOrbitals hN j) (firstOrbitals hN i) (firstOrbitals hN j) -
        scaledTwo r u (firstOrbitals hN i) (firstOrbitals hN j) (firstOrbitals hN j) (firstOrbitals hN i)) : ℂ) =
        (r : ℂ) * (1 / 2 * ∑ i, ∑ j, (u (firstOrbitals hN i) (firstOrbitals hN j) (firstOrbitals hN i) (firstOrbitals hN j) -
        u (firstOrbitals hN i) (firstOrbitals hN j) (firstOrbitals hN j) (firstOrbitals hN i))) := by
      simp only [mul_sum, scaledTwo]
      exact sum_congr rfl fun i _ => sum_congr rfl fun j _ => by ring
    rw [h3, h4, Complex.add_re, Complex.ofReal_re, Complex.re_ofReal_mul] at h2
    have h5 : r * (1 / 2 * ∑ i, ∑ j, (u (firstOrbitals hN i) (firstOrbitals hN j) (firstOrbitals hN i) (firstOrbitals hN j) -
        u (firstOrbitals hN i) (firstOrbitals hN j) (firstOrbitals hN j) (firstOrbitals hN i))).re ≤ J :=
      (mul_le_mul_of_nonneg_left hJ hr.1).trans (by nlinarith [hr.2])
    linarith
  refine ⟨fun D E Φ S => ⟨?_, fun j hj h0 he => ?_⟩, fun D E Φ S j hj h0 => (key D E Φ S j hj h0).trans (le_abs_self _)⟩
  · rw [C120_count S]
    exact Nat.choose_pos hN
  · have := key D E Φ S j hj h0
    rw [he] at this
    linarith

/-- **C128** What the states of a simple level are: the normalised antisymmetric wave functions with its energy. -/
theorem C128_level {h : Fin L → Fin L → ℂ} {u : Fin L → Fin L → Fin L → Fin L → ℂ} (hh : ∀ p q, star (h p q) = h q p)
    (hu : ∀ p q r s, star (u p q r s) = u r s p q) {k : ℕ} (simple : SimpleLevel N h u k) {D : ℕ} {E : ℕ → ℝ}
    {Φ : ℕ → Wave ℂ N L} (S : Spectrum h u D E Φ) (Ψ : Wave ℂ N L) :
    LevelState h u k Ψ ↔ Antisymmetric Ψ ∧ waveInner Ψ Ψ = 1 ∧ hamiltonOp h u Ψ = fun x => (E k : ℂ) * Ψ x := by
  obtain ⟨hk, hne⟩ := simple D E Φ S
  constructor
  · rintro ⟨D', E', Φ', S', hk', rfl⟩
    exact ⟨S'.anti k hk', by rw [S'.orth k hk' k hk', if_pos rfl], by rw [S'.eigen k hk', S.unique S' hk]⟩
  rintro ⟨ha, hn, he⟩
  have ort : ∀ j < D, j ≠ k → waveInner (Φ j) Ψ = 0 := fun j hj hjk => by
    have h1 := hamiltonOp_symm hh hu (Φ j) Ψ
    rw [S.eigen j hj, he, waveInner_smul, waveInner_smul_left, Complex.star_def, Complex.conj_ofReal, ← sub_eq_zero, ← sub_mul] at h1
    refine (mul_eq_zero.1 h1).resolve_left ?_
    rw [← Complex.ofReal_sub, Complex.ofReal_eq_zero, sub_eq_zero]
    exact hne j hj hjk
  have com : ∀ x, Ψ x = waveInner (Φ k) Ψ * Φ k x := fun x => by
    rw [S.complete Ψ ha x, sum_eq_single k]
    · intro j hj hjk
      rw [ort j (mem_range.1 hj) hjk, zero_mul]
    · intro hn
      exact absurd (mem_range.2 hk) hn
  set c := waveInner (Φ k) Ψ with hc
  have hcc : star c * c = 1 := by
    have h1 := hn
    rw [show Ψ = fun x => c * Φ k x from funext com, waveInner_smul, waveInner_smul_left, S.orth k hk k hk, if_pos rfl, mul_one,
      mul_comm] at h1
    exact h1
  refine ⟨D, E, fun i => if i = k then Ψ else Φ i, ⟨S.sorted, fun i hi => ?_, fun i hi => ?_, fun i hi j hj => ?_,
    fun Χ hΧ x => ?_⟩, hk, if_pos rfl⟩
  · split_ifs
    exacts [ha, S.anti i hi]
  · split_ifs with h
    · rw [he, h]
    · exact S.eigen i hi
  · by_cases hi' : i = k <;> by_cases hj' : j = k
    · rw [if_pos hi', if_pos hj', if_pos (hi'.trans hj'.symm), hn]
    · rw [if_pos hi', if_neg hj', if_neg fun e => hj' (e.symm.trans hi'), ← waveInner_star, ort j hj hj', star_zero]
    · rw [if_neg hi', if_pos hj', if_neg fun e => hi' (e.trans hj'), ort i hi hi']
    · rw [if_neg hi', if_neg hj', S.orth i hi j hj]
  · rw [S.complete Χ hΧ x]
    refine sum_congr rfl fun i hi => ?_
    split_ifs with h
    · rw [show Ψ = fun x => c * Φ k x from funext com, waveInner_smul_left, h]
      linear_combination -(waveInner (Φ k) Χ * Φ k x) * hcc
    · rfl

/-- A determinant without interaction. -/
theorem slater_diag {h : Fin L → Fin L → ℂ} {f : ℕ → ℝ} (hh : ∀ p q, h p q = if p = q then (f p : ℂ) else 0)
    (o : Fin N → Fin L) : hamiltonOp h (fun _ _ _ _ => 0) (slater o) = fun x => ((∑ i, f (o i) : ℝ) : ℂ) * slater o x := by
  funext x
  have h1 : ∀ i, ∑ y, h (x i) y * slater (K := ℂ) o (update x i y) = f (x i) * slater o x := fun i => by
    rw [sum_eq_single (x i)]
    · rw [hh, if_pos rfl, update_eq_self]
    · intro y _ hy
      rw [hh, if_neg (Ne.symm hy), zero_mul]
    · intro hn
      exact absurd (mem_univ _) hn
  have h2 : hamiltonOp h (fun _ _ _ _ => 0) (slater o) x = (∑ i, (f (x i) : ℂ)) * slater o x := by
    unfold hamiltonOp oneBodyOp twoBodyOp
    simp only [zero_mul, sum_const_zero, mul_zero, add_zero]
    rw [sum_mul]
    exact sum_congr rfl fun i _ => h1 i
  rw [h2]
  by_cases hx : ∃ σ : Equiv.Perm (Fin N), x ∘ σ = o
  · obtain ⟨σ, hσ⟩ := hx
    congr 1
    push_cast
    rw [← Equiv.sum_comp σ]
    exact sum_congr rfl fun i _ => by rw [← hσ]; rfl
  · have : slater (K := ℂ) o x = 0 := by
      rw [slater_sum]
      refine sum_eq_zero fun σ _ => ?_
      rw [if_neg fun h => hx ⟨σ, h⟩, mul_zero]
    rw [this, mul_zero, mul_zero]

/-- The normalised determinant of the first orbitals. -/
noncomputable def firstDeterminant (hN : N ≤ L) : Wave ℂ N L := fun x =>
  ((Real.sqrt N.factorial)⁻¹ : ℝ) * slater (firstOrbitals hN) x

/-- **C128** Under the conditions of `C128_simple` the determinant of the first orbitals is the state with the lowest energy without
interaction. -/
theorem C128_reference {h : Fin L → Fin L → ℂ} (hN : N ≤ L) {f : ℕ → ℝ} (hh : ∀ p q, h p q = if p = q then (f p : ℂ) else 0)
    {c : ℝ} (hc : ∀ x : Fin N → Fin L, Injective x → (∃ i, N ≤ (x i).1) → c ≤ ∑ i, f (x i)) (hlt : ∑ i ∈ range N, f i < c) :
    LevelState h (fun _ _ _ _ => 0) 0 (firstDeterminant hN) := by
  have herm : ∀ p q, star (h p q) = h q p := fun p q => by
    rw [hh, hh]
    by_cases e : p = q
    · subst e
      rw [if_pos rfl, Complex.star_def, Complex.conj_ofReal]
    · rw [if_neg e, if_neg (Ne.symm e), star_zero]
  have hz : ∀ p q r s : Fin L, star ((fun _ _ _ _ => 0 : Fin L → Fin L → Fin L → Fin L → ℂ) p q r s) = 0 := fun _ _ _ _ => star_zero _
  have simple := (C128_simple (N := N) (u := fun _ _ _ _ => 0) hN hh (fun v => by simp) (J := 0) hc (by simp) le_rfl (by linarith)
    (r := 0) ⟨le_rfl, zero_le_one⟩).1
  rw [scaledTwo_zero] at simple
  obtain ⟨D, E, Φ, S⟩ := Spectrum.exists herm hz N
  have hf : (0 : ℝ) < (N.factorial : ℝ) := Nat.cast_pos.2 (Nat.factorial_pos _)
  have fs : ∑ i, f (firstOrbitals hN i) = ∑ i ∈ range N, f i := by
    rw [← Fin.sum_univ_eq_sum_range]
    rfl
  have hen : ∀ x, hamiltonOp h (fun _ _ _ _ => 0) (firstDeterminant hN) x =
      ((∑ i ∈ range N, f i : ℝ) : ℂ) * firstDeterminant hN x := fun x => by
    have h1 := congrFun (slater_diag hh (firstOrbitals hN)) x
    rw [fs] at h1
    have h2 : hamiltonOp h (fun _ _ _ _ => 0) (firstDeterminant hN) x = ((Real.sqrt N.factorial)⁻¹ : ℝ) *
        hamiltonOp h (fun _ _ _ _ => 0) (slater (firstOrbitals hN)) x := by
      unfold hamiltonOp oneBodyOp twoBodyOp firstDeterminant
      simp only [zero_mul, sum_const_zero, mul_zero, add_zero, mul_sum]
      exact sum_congr rfl fun i _ => sum_congr rfl fun j _ => by ring
    rw [h2, h1]
    unfold firstDeterminant
    ring
  have hanti : Antisymmetric (firstDeterminant (N := N) hN) := fun σ x => by
    unfold firstDeterminant
    rw [slater_antisymmetric (firstOrbitals hN) σ x]
    ring
  have hnorm : waveInner (firstDeterminant (N := N) hN) (firstDeterminant hN) = 1 := by
    unfold firstDeterminant
    rw [waveInner_smul, waveInner_smul_left, (C106_determinants (K := ℂ) (firstOrbitals_injective hN)).2.2.1, Complex.star_def,
      Complex.conj_ofReal, ← Complex.ofReal_natCast, ← Complex.ofReal_mul, ← Complex.ofReal_mul, Complex.ofReal_eq_one]
    have := Real.mul_self_sqrt hf.le
    have hs : 0 < Real.sqrt N.factorial := Real.sqrt_pos.2 hf
    field_simp
    rw [sq, this]
  refine (C128_level herm (fun p q r s => star_zero _) simple S _).2 ⟨hanti, hnorm, ?_⟩
  obtain ⟨h0, hne⟩ := simple D E Φ S
  -- the energy of the determinant is one of the energies, and not another one
  have hE : E 0 = ∑ i ∈ range N, f i := by
    have h1 := S.bounds hanti
    have h2 : waveInner (firstDeterminant hN) (hamiltonOp h (fun _ _ _ _ => 0) (firstDeterminant hN)) =
        ((∑ i ∈ range N, f i : ℝ) : ℂ) := by
      rw [funext hen, waveInner_smul, hnorm, mul_one]
    rw [h2, hnorm] at h1
    simp only [Complex.ofReal_re, Complex.one_re, mul_one] at h1
    refine le_antisymm h1.1 ?_
    by_contra hcon
    have hcon := not_le.1 hcon
    have ov : ∀ i < D, waveInner (Φ i) (firstDeterminant hN) = 0 := fun i hi => by
      have h3 := hamiltonOp_symm herm (fun p q r s => star_zero _) (Φ i) (firstDeterminant hN)
      rw [S.eigen i hi, funext hen, waveInner_smul, waveInner_smul_left, Complex.star_def, Complex.conj_ofReal, ← sub_eq_zero,
        ← sub_mul] at h3
      refine (mul_eq_zero.1 h3).resolve_left ?_
      rw [← Complex.ofReal_sub, Complex.ofReal_eq_zero, sub_eq_zero]
      rcases Nat.eq_zero_or_pos i with rfl | hpos
      · exact hcon.ne
      · exact (lt_of_lt_of_le hlt (second_ge S hN hh (fun v => by simp) hc hi hpos)).ne'
    have h4 := (S.parseval hanti).1
    rw [hnorm, sum_eq_zero fun i hi => by rw [ov i (mem_range.1 hi)]; simp] at h4
    simp at h4
  rw [hE]
  exact funext hen

/-! ## Two electrons in a two-dimensional dot -/

theorem shell_ge_one (p : ℕ) : (1 : ℤ) ≤ getShellEnergy (getIndicesNm p).1 (getIndicesNm p).2 :=
  le_trans (by decide +kernel) (C43_monotone (Nat.zero_le p))

theorem shell_ge_two {p : ℕ} (hp : 1 ≤ p) : (2 : ℤ) ≤ getShellEnergy (getIndicesNm p).1 (getIndicesNm p).2 :=
  le_trans (by decide +kernel) (C43_monotone hp)

/-- **C128** `TwoDimensionalHarmonicOscillator` with `ω > π / 2`: if the interaction is switched on with `F(t / T)`, two electrons
that start in the determinant of the lowest orbital are in the state with the lowest energy of the interacting electrons at the
time `T` up to a probability `C / T`, and all other energies remain at least `ω - √(π ω / 2)` higher. -/
theorem C128_tdho {l : ℕ} (hl : 2 ≤ 2 * l) (num : ℕ) (radiusLength : ℝ) {omega mass : ℝ} (ho : Real.pi / 2 < omega) (hm : 0 < mass)
    (np : Module) {F : ℝ → ℝ} (hF : ContDiffOn ℝ 2 F (Set.Icc 0 1)) (F0 : F 0 = 0) (F1 : F 1 = 1)
    (F01 : ∀ s ∈ Set.Icc (0 : ℝ) 1, F s ∈ Set.Icc (0 : ℝ) 1) :
    ∃ b h u, tdho (getCoulombElementsRaw l) l num radiusLength omega mass np = .ok b ∧ b.h = some h ∧ b.u = some u ∧
      (∀ s ∈ Set.Icc (0 : ℝ) 1, ∀ D E (Φ : ℕ → Wave ℂ 2 (2 * l)), Spectrum (spinOne l h) (scaledTwo (F s) (spinTwo l u)) D E Φ →
        ∀ j < D, j ≠ 0 → omega - Real.sqrt (Real.pi * omega / 2) ≤ E j - E 0) ∧
      ∃ C, ∀ T > 0, ∀ {w w' : World ℂ ℝ} {s o : ℕ} {x : Sys} {a : Attr ℂ ℝ} {f : ℝ → Val ℂ},
        SysOK w s x b → w.ops[o]? = some (adiabaticSwitching a) → Given a f →
        (∀ t, IsNumber (f t) ((F (t / T) : ℝ) : ℂ)) → (setTimeEvolutionOperator s (some o)).run w = (.ok (), w') →
        (∃ H U, Answered w' s o H U) ∧ ∀ H U, Answered w' s o H U → ∀ Ψ : ℝ → Wave ℂ 2 (2 * l),
          Evolves (fun t => spinOne l (H t)) (fun t => spinTwo l (U t)) Ψ → Ψ 0 = firstDeterminant hl →
          ∀ Φ, LevelState (spinOne l h) (spinTwo l u) 0 Φ → 1 - C / T ≤ population Φ (Ψ T) := by
  have hπ := Real.pi_pos
  have ho' : 0 < omega := by linarith
  obtain ⟨b, h1, P⟩ := C92_tdho l num radiusLength ho' hm np
  obtain ⟨h, _, hh, -, Hh, -⟩ := P.one
  obtain ⟨u, hu, PU, -⟩ := P.two
  obtain ⟨v, hv, -, gv⟩ := C46_table l
  have h1' := h1
  rw [hv] at h1'
  obtain ⟨b', g1, fields, hh'⟩ := tdho_ok v l num radiusLength omega mass np
  obtain rfl : b = b' := by simpa using h1'.symm.trans g1
  have eh := Option.some.inj (hh.symm.trans hh')
  have eu := Option.some.inj (hu.symm.trans fields.u_eq)
  have hd : ∀ p q, spinOne l h p q = if p = q then ((omega * getShellEnergy (getIndicesNm (p / 2)).1 (getIndicesNm (p / 2)).2 : ℝ) : ℂ)
      else 0 := fun p q => by
    rw [eh]
    simp only [spinOne, oscillatorH]
    rw [NDArray.smul_get, ofFn_get_of (by exact ⟨by omega, by omega, trivial⟩)]
    simp only [List.getD_cons_zero, List.getD_cons_succ]
    by_cases e : p = q
    · subst e
      simp
    · rw [if_neg e]
      by_cases h2 : p.1 % 2 = q.1 % 2
      · rw [if_pos h2, if_neg fun h3 => e (Fin.ext (by omega)), mul_zero]
      · rw [if_neg h2]
  have u0 : u.get [0, 0, 0, 0] = (Real.sqrt (Real.pi * omega / 2) : ℝ) := by
    rw [eu, NDArray.smul_get, gv 0 0 0 0 (by omega) (by omega) (by omega) (by omega),
      show getIndicesNm 0 = (0, 0) by decide +kernel]
    simp only [Int.toNat_zero]
    rw [am_ground.1, ← Complex.ofReal_mul, ← Real.sqrt_mul ho'.le]
    congr 2
    ring
  have hJ : Real.sqrt (Real.pi * omega / 2) < omega := by
    rw [Real.sqrt_lt' ho']
    nlinarith
  have hc : ∀ x : Fin 2 → Fin (2 * l), Injective x → (∃ i, 2 ≤ (x i).1) →
      3 * omega ≤ ∑ i, omega * (getShellEnergy (getIndicesNm ((x i).1 / 2)).1 (getIndicesNm ((x i).1 / 2)).2 : ℝ) := by
    rintro x - ⟨i, hi⟩
    have a1 : ∀ p, (1 : ℝ) ≤ getShellEnergy (getIndicesNm p).1 (getIndicesNm p).2 := fun p => by exact_mod_cast shell_ge_one p
    have a2 : (2 : ℝ) ≤ getShellEnergy (getIndicesNm ((x i).1 / 2)).1 (getIndicesNm ((x i).1 / 2)).2 := by
      exact_mod_cast shell_ge_two (by omega)
    rw [← mul_sum, Fin.sum_univ_two, mul_comm 3]
    refine mul_le_mul_of_nonneg_left ?_ ho'.le
    fin_cases i
    · have := a1 ((x 1).1 / 2)
      simp only [Fin.zero_eta] at a2
      linarith
    · have := a1 ((x 0).1 / 2)
      simp only [Fin.mk_one] at a2
      linarith
  have hsum : ∑ i ∈ range 2, omega * (getShellEnergy (getIndicesNm (i / 2)).1 (getIndicesNm (i / 2)).2 : ℝ) = 2 * omega := by
    rw [sum_range_succ, sum_range_one, show getShellEnergy (getIndicesNm (0 / 2)).1 (getIndicesNm (0 / 2)).2 = 1 by decide +kernel]
    push_cast
    ring
  have ref0 : (1 / 2 * ∑ i, ∑ j, (spinTwo l u (firstOrbitals hl i) (firstOrbitals hl j) (firstOrbitals hl i) (firstOrbitals hl j) -
      spinTwo l u (firstOrbitals hl i) (firstOrbitals hl j) (firstOrbitals hl j) (firstOrbitals hl i)) : ℂ).re =
      Real.sqrt (Real.pi * omega / 2) := by
    rw [← Complex.ofReal_re (Real.sqrt (Real.pi * omega / 2)), ← u0]
    congr 1
    simp only [Fin.sum_univ_two, firstOrbitals, spinTwo, Fin.val_castLE, Fin.val_zero, Fin.val_one]
    norm_num
    ring
  have key := fun {r : ℝ} (hr : r ∈ Set.Icc (0 : ℝ) 1) => C128_simple (N := 2) hl
    (f := fun p => omega * getShellEnergy (getIndicesNm (p / 2)).1 (getIndicesNm (p / 2)).2) hd (posU_spin PU) (c := 3 * omega)
    (J := Real.sqrt (Real.pi * omega / 2)) hc ref0.le (Real.sqrt_nonneg _) (by rw [hsum]; linarith) hr
  have ref := C128_reference (N := 2) hl (f := fun p => omega * getShellEnergy (getIndicesNm (p / 2)).1 (getIndicesNm (p / 2)).2) hd hc
    (by rw [hsum]; linarith)
  refine ⟨b, h, u, h1, hh, hu, fun s hs D E Φ S j hj h0 => ?_, ?_⟩
  · have h2 := (key (F01 s hs)).2 D E Φ S j hj h0
    rw [hsum, abs_of_nonneg (by linarith [S.sorted 0 j (by omega) hj])] at h2
    linarith
  · obtain ⟨C, hC⟩ := C128_switching (N := 2) (k := 0) Hh PU.herm hF F0 F1 fun s hs => (key (F01 s hs)).1
    refine ⟨C, fun T hT w w' s o x a f ok hy hp hf hset => ?_⟩
    obtain ⟨ex, all⟩ := hC T hT ok fields.l_eq hh hu hy hp hf hset
    exact ⟨ex, fun H U A Ψ hΨ h0 Φ hΦ => all H U A Ψ hΨ (by rw [h0]; exact ref) Φ hΦ⟩

/-! ## Example -/

/-- A two-dimensional dot of six functions with one pair of electrons, and an interaction that is switched on in the time `T` with
`3 (t / T)² - 2 (t / T)³`. -/
noncomputable def switchedWorld (T : ℝ) (b : BasisSet ℂ) : World ℂ ℝ :=
  { bases := [b]
    systems := [⟨.spatial, 0, some 0, 1, 6, 5, (0, 1), (1, 6), none⟩]
    ops := [adiabaticSwitching (.fn fun t => .scalar .float64 ((3 * (t / T) ^ 2 - 2 * (t / T) ^ 3 : ℝ) : ℂ))] }

/-- Two electrons in the ground state of a two-dimensional dot with the frequency `3`: slow switching takes them to the ground state
of the interacting electrons. -/
example (num : ℕ) (radiusLength : ℝ) : ∃ b h u C,
    tdho (getCoulombElementsRaw 6) 6 num radiusLength 3 1 0 = .ok b ∧ b.h = some h ∧ b.u = some u ∧
    ∀ T > 0, ∃ w', (setTimeEvolutionOperator 0 (some 0)).run (switchedWorld T b) = (.ok (), w') ∧ (∃ H U, Answered w' 0 0 H U) ∧
      ∀ H U, Answered w' 0 0 H U → ∀ Ψ : ℝ → Wave ℂ 2 12, Evolves (fun t => spinOne 6 (H t)) (fun t => spinTwo 6 (U t)) Ψ →
        Ψ 0 = firstDeterminant (show 2 ≤ 12 by norm_num) → ∀ Φ, LevelState (spinOne 6 h) (spinTwo 6 u) 0 Φ →
          1 - C / T ≤ population Φ (Ψ T) := by
  obtain ⟨b, h, u, h1, hh, hu, -, C, hC⟩ := C128_tdho (l := 6) (by norm_num) num radiusLength (omega := 3) (mass := 1)
    (by linarith [Real.pi_le_four]) one_pos 0 (F := fun s => 3 * s ^ 2 - 2 * s ^ 3) (by fun_prop) (by norm_num) (by norm_num)
    (fun s hs => by
      obtain ⟨h1, h2⟩ := hs
      constructor
      · nlinarith [sq_nonneg s]
      · nlinarith [sq_nonneg (1 - s), mul_nonneg h1 (sq_nonneg (1 - s))])
  refine ⟨b, h, u, C, h1, hh, hu, fun T hT => ?_⟩
  obtain ⟨b', h1', cons⟩ := C91_tdho 6 num radiusLength 3 1 0
  obtain rfl : b = b' := by simpa using h1.symm.trans h1'
  have ok : SysOK (switchedWorld T b) 0 ⟨.spatial, 0, some 0, 1, 6, 5, (0, 1), (1, 6), none⟩ b :=
    ⟨rfl, rfl, cons.wf, cons.np_eq.symm, ⟨by decide, rfl, rfl, rfl⟩⟩
  obtain ⟨w', hw', -⟩ := C38_set (o := 0) ok rfl
  exact ⟨w', hw', hC T hT ok rfl (.inl rfl) (fun t => ⟨_, rfl⟩) hw'⟩

end QS.Props
