import Verif.Lemmas.Stability
import Verif.Props.Evolution
import Verif.Props.ManyElectrons

/-!
# Errors of the elements change the motion at most linearly in time (C129)
-/

namespace QS.Props

open NDArray BasisSet World TwoDim OneDim SincDvr Idx Coulomb Spec PyM Finset QS.Adiabatic

variable {N L : ℕ}

theorem stateDistance_dist (Φ Ψ : Wave ℂ N L) : stateDistance Φ Ψ = dist (WithLp.toLp 2 Φ : EuclideanSpace ℂ (Fin N → Fin L)) (WithLp.toLp 2 Ψ) := by
  rw [EuclideanSpace.dist_eq]
  simp only [dist_eq_norm]
  rfl

theorem stateDistance_triangle (Φ Χ Ψ : Wave ℂ N L) : stateDistance Φ Ψ ≤ stateDistance Φ Χ + stateDistance Χ Ψ := by
  simp only [stateDistance_dist]
  exact dist_triangle _ _ _

theorem stateDistance_comm (Φ Ψ : Wave ℂ N L) : stateDistance Φ Ψ = stateDistance Ψ Φ := by
  simp only [stateDistance_dist]
  exact dist_comm _ _

theorem stateDistance_nonneg (Φ Ψ : Wave ℂ N L) : 0 ≤ stateDistance Φ Ψ := Real.sqrt_nonneg _

theorem stateDistance_sqrt (Φ Ψ : Wave ℂ N L) : stateDistance Φ Ψ = Real.sqrt (∑ x, ‖(fun x => Φ x - Ψ x) x‖ ^ 2) := rfl

theorem antisymmetric_sub {Φ Ψ : Wave ℂ N L} (hΦ : Antisymmetric Φ) (hΨ : Antisymmetric Ψ) :
    Antisymmetric fun x => Φ x - Ψ x := fun σ x => by
  show Φ (x ∘ σ) - Ψ (x ∘ σ) = _ * (Φ x - Ψ x)
  rw [hΦ σ x, hΨ σ x]
  ring

theorem evolves_sub {h : ℝ → Fin L → Fin L → ℂ} {u : ℝ → Fin L → Fin L → Fin L → Fin L → ℂ} {Φ Ψ : ℝ → Wave ℂ N L}
    (hΦ : Evolves h u Φ) (hΨ : Evolves h u Ψ) : Evolves h u fun t x => Φ t x - Ψ t x := fun t x => by
  refine ((hΦ t x).fun_sub (hΨ t x)).congr_deriv ?_
  rw [← mul_sub]
  congr 1
  unfold hamiltonOp oneBodyOp twoBodyOp
  simp only [mul_sub, sum_sub_distrib]
  ring

/-- **C129** Two systems of `N` fermions with Hermitian elements that differ by at most `ε` and `δ` between the times `t₀` and `t`:
the distance of their wave functions grows by at most `N L ε + N (N - 1) / 2 L² δ` per unit of time. -/
theorem C129_motion {h h' : ℝ → Fin L → Fin L → ℂ} {u u' : ℝ → Fin L → Fin L → Fin L → Fin L → ℂ}
    (hh : HermitianElements h u) (hc : ContinuousElements h u) (hh' : HermitianElements h' u') {ε δ : ℝ} (hε : 0 ≤ ε)
    (hδ : 0 ≤ δ) {t₀ t : ℝ} (h1 : ∀ τ ∈ Set.uIcc t₀ t, ∀ p q, ‖h τ p q - h' τ p q‖ ≤ ε)
    (u1 : ∀ τ ∈ Set.uIcc t₀ t, ∀ p q r s, ‖u τ p q r s - u' τ p q r s‖ ≤ δ) {Ψ Φ : ℝ → Wave ℂ N L} (hΨ : Evolves h u Ψ)
    (hΦ : Evolves h' u' Φ) (ha : Antisymmetric (Φ t₀)) :
    stateDistance (Ψ t) (Φ t) ≤ stateDistance (Ψ t₀) (Φ t₀) + (N * L * ε + N * (N - 1 : ℕ) / 2 * L ^ 2 * δ) * |t - t₀| *
      Real.sqrt (∑ x, ‖Φ t₀ x‖ ^ 2) := by
  obtain ⟨Χ, hΧ, eΧ⟩ := evolves_exists hh hc t₀ (Φ t₀)
  refine (stateDistance_triangle _ (Χ t) _).trans (add_le_add ?_ (motion_near hh hc hh' hε hδ h1 u1 hΧ hΦ eΧ ha))
  rw [← eΧ, stateDistance_sqrt, stateDistance_sqrt, sqrt_waveInner, sqrt_waveInner]
  have := evolves_inner hh (evolves_sub hΨ hΧ) (evolves_sub hΨ hΧ) t t₀
  rw [this]

theorem waveInner_le (Φ Ψ : Wave ℂ N L) :
    ‖waveInner Φ Ψ‖ ≤ Real.sqrt (∑ x, ‖Φ x‖ ^ 2) * Real.sqrt (∑ x, ‖Ψ x‖ ^ 2) := by
  have e : waveInner Φ Ψ = inner ℂ (WithLp.toLp 2 Φ : EuclideanSpace ℂ (Fin N → Fin L)) (WithLp.toLp 2 Ψ) := by
    unfold waveInner
    rw [EuclideanSpace.inner_eq_star_dotProduct]
    simp only [dotProduct]
    exact sum_congr rfl fun x _ => mul_comm _ _
  rw [e]
  refine (norm_inner_le_norm _ _).trans (le_of_eq ?_)
  rw [EuclideanSpace.norm_eq, EuclideanSpace.norm_eq]

theorem normalised {Φ : Wave ℂ N L} (h : waveInner Φ Φ = 1) : Real.sqrt (∑ x, ‖Φ x‖ ^ 2) = 1 := by
  rw [sqrt_waveInner, h]
  simp

/-- **C129** Probabilities to find normalised wave functions in a normalised state differ by at most twice their distance. -/
theorem C129_population {Χ Φ Ψ : Wave ℂ N L} (hΧ : waveInner Χ Χ = 1) (hΦ : waveInner Φ Φ = 1) (hΨ : waveInner Ψ Ψ = 1) :
    |population Χ Ψ - population Χ Φ| ≤ 2 * stateDistance Ψ Φ := by
  have d : ‖waveInner Χ Ψ - waveInner Χ Φ‖ ≤ stateDistance Ψ Φ := by
    have e : waveInner Χ Ψ - waveInner Χ Φ = waveInner Χ fun x => Ψ x - Φ x := by
      unfold waveInner
      rw [← sum_sub_distrib]
      exact sum_congr rfl fun x _ => by ring
    rw [e]
    have := waveInner_le Χ fun x => Ψ x - Φ x
    rwa [normalised hΧ, one_mul] at this
  have b1 := waveInner_le Χ Ψ
  have b2 := waveInner_le Χ Φ
  rw [normalised hΧ, normalised hΨ, one_mul] at b1
  rw [normalised hΧ, normalised hΦ, one_mul] at b2
  have d' := (abs_norm_sub_norm_le _ _).trans d
  unfold population
  rw [sq_sub_sq, abs_mul, abs_of_nonneg (add_nonneg (norm_nonneg _) (norm_nonneg _))]
  have := stateDistance_nonneg Ψ Φ
  nlinarith [abs_nonneg (‖waveInner Χ Ψ‖ - ‖waveInner Χ Φ‖)]

theorem oneBody_cross {a : Fin L → Fin L → ℂ} (ha : ∀ p q, star (a p q) = a q p) {M : ℝ} (hM : 0 ≤ M) (h1 : ∀ p q, ‖a p q‖ ≤ M)
    {Φ Ψ : Wave ℂ N L} (hΦ : Antisymmetric Φ) (hΨ : Antisymmetric Ψ) :
    ‖waveInner Φ (oneBodyOp a Ψ)‖ ≤ N * L * M * (Real.sqrt (∑ x, ‖Φ x‖ ^ 2) * Real.sqrt (∑ x, ‖Ψ x‖ ^ 2)) := by
  have h := cross_le (N := N) (u := fun _ _ _ _ => 0) ha (fun _ _ _ _ => star_zero _) hM le_rfl h1 (fun _ _ _ _ => norm_zero.le) hΦ hΨ
  have e : hamiltonOp a (fun _ _ _ _ => 0) Ψ = oneBodyOp a Ψ := by
    funext x
    simp [hamiltonOp, twoBodyOp]
  rw [e] at h
  simpa using h

/-- **C129** Mean values of a one-body operator (such as the dipole moment, with elements up to `M` and errors up to `κ`) in
normalised states of `N` fermions. -/
theorem C129_mean {a a' : Fin L → Fin L → ℂ} (ha : ∀ p q, star (a p q) = a q p) (ha' : ∀ p q, star (a' p q) = a' q p)
    {M κ : ℝ} (hM : 0 ≤ M) (hκ : 0 ≤ κ) (h1 : ∀ p q, ‖a p q‖ ≤ M) (h2 : ∀ p q, ‖a p q - a' p q‖ ≤ κ) {Φ Ψ : Wave ℂ N L}
    (aΦ : Antisymmetric Φ) (aΨ : Antisymmetric Ψ) (hΦ : waveInner Φ Φ = 1) (hΨ : waveInner Ψ Ψ = 1) :
    ‖meanOne a Ψ - meanOne a' Φ‖ ≤ N * L * (2 * M * stateDistance Ψ Φ + κ) := by
  have aΔ := antisymmetric_sub aΨ aΦ
  have e : meanOne a Ψ - meanOne a' Φ = waveInner Ψ (oneBodyOp a fun x => Ψ x - Φ x) +
      waveInner (fun x => Ψ x - Φ x) (oneBodyOp a Φ) + waveInner Φ (oneBodyOp (fun p q => a p q - a' p q) Φ) := by
    unfold meanOne waveInner
    rw [← sum_sub_distrib, ← sum_add_distrib, ← sum_add_distrib]
    refine sum_congr rfl fun x _ => ?_
    have e1 : oneBodyOp a (fun x => Ψ x - Φ x) x = oneBodyOp a Ψ x - oneBodyOp a Φ x := by
      unfold oneBodyOp
      simp only [mul_sub, sum_sub_distrib]
    have e2 : oneBodyOp (fun p q => a p q - a' p q) Φ x = oneBodyOp a Φ x - oneBodyOp a' Φ x := by
      unfold oneBodyOp
      simp only [sub_mul, sum_sub_distrib]
    rw [e1, e2, star_sub]
    ring
  rw [e]
  refine (norm_add_le_of_le (norm_add_le_of_le (oneBody_cross ha hM h1 aΨ aΔ) (oneBody_cross ha hM h1 aΔ aΦ))
    (oneBody_cross (fun p q => by rw [star_sub, ha, ha']) hκ h2 aΦ aΦ)).trans (le_of_eq ?_)
  rw [normalised hΦ, normalised hΨ, ← stateDistance_sqrt]
  ring

/-! ## Two systems with a laser field -/

/-- The elements that a system with a laser field returns. -/
theorem laserRun_elements {w : World ℂ ℝ} {s o : ℕ} {b : BasisSet ℂ} {c : ℝ → ℂ} {e : ℝ → ℕ → ℂ} (R : LaserRun w s o b c e) :
    ∃ h u d, b.h = some h ∧ b.u = some u ∧ b.dipole = some d ∧ (∃ H U, Answered w s o H U) ∧
      ∀ H U, Answered w s o H U → ∀ t, IsLaser h d b.l b.dim (c t) (e t) (H t) ∧ U t = u := by
  obtain ⟨w₀, x, y, pulse, pol, f, ok, hd, hy, hk, hp, hf, he, callable, hset⟩ := R
  have LA := C36_partial ok hd hy hk hp hf he callable hset
  obtain ⟨h, hh, -⟩ := ok.wf.h
  obtain ⟨u, hu, -⟩ := ok.wf.u
  obtain ⟨d, hd⟩ := Option.isSome_iff_exists.1 hd
  refine ⟨h, u, d, hh, hu, hd, ?_, fun H U A t => ?_⟩
  · choose h' d' r h1 h2 h3 h4 h5 using LA [] (by simp)
    exact ⟨r, fun _ => u, fun t => ⟨[], by simp, h3 t, by rw [h5 t, hu]⟩⟩
  · obtain ⟨ops, ho, a1, a2⟩ := A t
    obtain ⟨h', d', r, h1, h2, h3, h4, h5⟩ := LA ops ho t
    obtain rfl := Option.some.inj (hh.symm.trans h1)
    obtain rfl := Option.some.inj (hd.symm.trans h2)
    rw [a1] at h3
    obtain rfl : H t = r := by simpa using h3
    rw [a2, hu] at h5
    exact ⟨h4, by simpa using h5⟩

/-- The one-body elements with the forces `F_k(t)` on the dipole moment. -/
noncomputable def drivenOne (l n : ℕ) (h d : NDArray ℂ) (F : ℕ → ℝ → ℂ) (t : ℝ) (p q : Fin (2 * l)) : ℂ :=
  spinOne l h p q + ∑ k ∈ range n, F k t * spinDipole l d k p q

theorem drivenOne_herm {l n : ℕ} {h d : NDArray ℂ} {F : ℕ → ℝ → ℂ} (hh : HermMat l h) (hd : HermDip n l d)
    (hF : ∀ k < n, ∀ t, star (F k t) = F k t) (t : ℝ) (p q : Fin (2 * l)) :
    star (drivenOne l n h d F t p q) = drivenOne l n h d F t q p := by
  unfold drivenOne
  rw [star_add, spinOne_herm hh, star_sum]
  congr 1
  refine sum_congr rfl fun k hk => ?_
  rw [star_mul', hF k (mem_range.1 hk), spinDipole_herm hd (mem_range.1 hk)]

theorem drivenOne_continuous {l n : ℕ} {h d : NDArray ℂ} {F : ℕ → ℝ → ℂ} (hF : ∀ k < n, Continuous (F k)) (p q : Fin (2 * l)) :
    Continuous fun t => drivenOne l n h d F t p q :=
  continuous_const.add (continuous_finsetSum _ fun k hk => (hF k (mem_range.1 hk)).mul continuous_const)

theorem laser_driven {l n : ℕ} {h d : NDArray ℂ} {c : ℝ → ℂ} {e : ℝ → ℕ → ℂ} {H : ℝ → NDArray ℂ}
    (hH : ∀ t, IsLaser h d l n (c t) (e t) (H t)) (t : ℝ) (p q : Fin (2 * l)) :
    spinOne l (H t) p q = drivenOne l n h d (fun k t => c t * e t k) t p q := by
  simp only [drivenOne, spinOne, spinDipole]
  split_ifs
  · rw [(hH t).get _ (by omega) _ (by omega), mul_sum]
    congr 1
    exact sum_congr rfl fun k _ => by ring
  · simp

theorem drivenOne_near {l n : ℕ} {h d h' d' : NDArray ℂ} {F : ℕ → ℝ → ℂ} {ε κ Fm : ℝ} (hε : 0 ≤ ε) (hκ : 0 ≤ κ)
    (h1 : ∀ p < l, ∀ q < l, ‖h.get [p, q] - h'.get [p, q]‖ ≤ ε)
    (h2 : ∀ k < n, ∀ p < l, ∀ q < l, ‖d.get [k, p, q] - d'.get [k, p, q]‖ ≤ κ) {t : ℝ} (hF : ∀ k < n, ‖F k t‖ ≤ Fm)
    (p q : Fin (2 * l)) : ‖drivenOne l n h d F t p q - drivenOne l n h' d' F t p q‖ ≤ ε + n * Fm * κ := by
  have e : drivenOne l n h d F t p q - drivenOne l n h' d' F t p q = (spinOne l h p q - spinOne l h' p q) +
      ∑ k ∈ range n, F k t * (spinDipole l d k p q - spinDipole l d' k p q) := by
    unfold drivenOne
    simp only [mul_sub, sum_sub_distrib]
    ring
  rw [e]
  refine norm_add_le_of_le ?_ ((norm_sum_le _ _).trans ?_)
  · unfold spinOne
    split_ifs
    · exact h1 _ (by omega) _ (by omega)
    · simpa using hε
  · refine (sum_le_card_nsmul (range n) _ (Fm * κ) fun k hk => ?_).trans (le_of_eq ?_)
    · have hk := mem_range.1 hk
      rw [norm_mul]
      refine mul_le_mul (hF k hk) ?_ (norm_nonneg _) ((norm_nonneg _).trans (hF k hk))
      unfold spinDipole
      split_ifs
      · exact h2 k hk _ (by omega) _ (by omega)
      · simpa using hκ
    · rw [card_range, nsmul_eq_mul]
      ring

theorem spinTwo_near {l : ℕ} {u u' : NDArray ℂ} {δ : ℝ} (hδ : 0 ≤ δ)
    (h1 : ∀ p < l, ∀ q < l, ∀ r < l, ∀ s < l, ‖u.get [p, q, r, s] - u'.get [p, q, r, s]‖ ≤ δ) (p q r s : Fin (2 * l)) :
    ‖spinTwo l u p q r s - spinTwo l u' p q r s‖ ≤ δ := by
  unfold spinTwo
  split_ifs
  · exact h1 _ (by omega) _ (by omega) _ (by omega) _ (by omega)
  · simpa using hδ

/-- Driven electrons with elements that are close to each other. -/
theorem driven_near {l n : ℕ} {h d u h' d' u' : NDArray ℂ} {F : ℕ → ℝ → ℂ} (hh : HermMat l h) (hd : HermDip n l d)
    (hu : HermU l u) (hh' : HermMat l h') (hd' : HermDip n l d') (hu' : HermU l u')
    (hF : ∀ k < n, ∀ t, star (F k t) = F k t) (hFc : ∀ k < n, Continuous (F k)) {ε κ δ Fm : ℝ} (hε : 0 ≤ ε) (hκ : 0 ≤ κ)
    (hδ : 0 ≤ δ) (hFm : 0 ≤ Fm) (h1 : ∀ p < l, ∀ q < l, ‖h.get [p, q] - h'.get [p, q]‖ ≤ ε)
    (h2 : ∀ k < n, ∀ p < l, ∀ q < l, ‖d.get [k, p, q] - d'.get [k, p, q]‖ ≤ κ)
    (h3 : ∀ p < l, ∀ q < l, ∀ r < l, ∀ s < l, ‖u.get [p, q, r, s] - u'.get [p, q, r, s]‖ ≤ δ) {t₀ t : ℝ}
    (h4 : ∀ k < n, ∀ τ ∈ Set.uIcc t₀ t, ‖F k τ‖ ≤ Fm) {Ψ Φ : ℝ → Wave ℂ N (2 * l)}
    (hΨ : Evolves (drivenOne l n h d F) (fun _ => spinTwo l u) Ψ) (hΦ : Evolves (drivenOne l n h' d' F) (fun _ => spinTwo l u') Φ)
    (ha : Antisymmetric (Φ t₀)) :
    stateDistance (Ψ t) (Φ t) ≤ stateDistance (Ψ t₀) (Φ t₀) +
      (N * (2 * l : ℕ) * (ε + n * Fm * κ) + N * (N - 1 : ℕ) / 2 * (2 * l : ℕ) ^ 2 * δ) * |t - t₀| * Real.sqrt (∑ x, ‖Φ t₀ x‖ ^ 2) :=
  C129_motion ⟨drivenOne_herm hh hd hF, fun _ => spinTwo_herm hu⟩ ⟨drivenOne_continuous hFc, fun _ _ _ _ => continuous_const⟩
    ⟨drivenOne_herm hh' hd' hF, fun _ => spinTwo_herm hu'⟩ (by positivity) hδ
    (fun _ hτ => drivenOne_near hε hκ h1 h2 fun k hk => h4 k hk _ hτ) (fun _ _ => spinTwo_near hδ h3) hΨ hΦ ha

/-- **C129** Two systems with the same number of functions and dimensions and the same laser field, but with basis sets whose
(Hermitian) elements differ by at most `ε`, `κ` (dipole moment) and `δ` (interaction): with whatever `h_t` and `u_t` of each system
return, and a field up to `Fm`, the wave functions of `N` electrons move apart by at most
`2 N l (ε + dim Fm κ) + 2 N (N - 1) l² δ` per unit of time. -/
theorem C129_laser {w w' : World ℂ ℝ} {s o s' o' : ℕ} {b b' : BasisSet ℂ} {c : ℝ → ℂ} {e : ℝ → ℕ → ℂ}
    (R : LaserRun w s o b c e) (R' : LaserRun w' s' o' b' c e) {l n : ℕ} (hl : b.l = l) (hl' : b'.l = l) (hn : b.dim = n)
    (hn' : b'.dim = n) {h u d h' u' d' : NDArray ℂ} (eh : b.h = some h) (eu : b.u = some u) (ed : b.dipole = some d)
    (eh' : b'.h = some h') (eu' : b'.u = some u') (ed' : b'.dipole = some d')
    (hh : HermMat l h) (hd : HermDip n l d) (hu : HermU l u) (hh' : HermMat l h') (hd' : HermDip n l d') (hu' : HermU l u')
    (hc : ∀ t, star (c t) = c t) (hcc : Continuous c) (hee : ∀ t, ∀ k < n, star (e t k) = e t k)
    (hec : ∀ k < n, Continuous fun t => e t k) {ε κ δ Fm : ℝ} (hε : 0 ≤ ε) (hκ : 0 ≤ κ) (hδ : 0 ≤ δ) (hFm : 0 ≤ Fm)
    (h1 : ∀ p < l, ∀ q < l, ‖h.get [p, q] - h'.get [p, q]‖ ≤ ε)
    (h2 : ∀ k < n, ∀ p < l, ∀ q < l, ‖d.get [k, p, q] - d'.get [k, p, q]‖ ≤ κ)
    (h3 : ∀ p < l, ∀ q < l, ∀ r < l, ∀ s < l, ‖u.get [p, q, r, s] - u'.get [p, q, r, s]‖ ≤ δ) {t₀ t : ℝ}
    (h4 : ∀ k < n, ∀ τ ∈ Set.uIcc t₀ t, ‖c τ * e τ k‖ ≤ Fm)
    {H U H' U' : ℝ → NDArray ℂ} (A : Answered w s o H U) (A' : Answered w' s' o' H' U') {Ψ Φ : ℝ → Wave ℂ N (2 * l)}
    (hΨ : Evolves (fun t => spinOne l (H t)) (fun t => spinTwo l (U t)) Ψ)
    (hΦ : Evolves (fun t => spinOne l (H' t)) (fun t => spinTwo l (U' t)) Φ) (ha : Antisymmetric (Φ t₀))
    (hnorm : waveInner (Φ t₀) (Φ t₀) = 1) :
    stateDistance (Ψ t) (Φ t) ≤ stateDistance (Ψ t₀) (Φ t₀) +
      (2 * N * l * (ε + n * Fm * κ) + 2 * N * (N - 1 : ℕ) * l ^ 2 * δ) * |t - t₀| := by
  obtain ⟨h0, u0, d0, e1, e2, e3, -, el⟩ := laserRun_elements R
  obtain rfl := Option.some.inj (eh.symm.trans e1)
  obtain rfl := Option.some.inj (eu.symm.trans e2)
  obtain rfl := Option.some.inj (ed.symm.trans e3)
  obtain ⟨h0, u0, d0, e1, e2, e3, -, el'⟩ := laserRun_elements R'
  obtain rfl := Option.some.inj (eh'.symm.trans e1)
  obtain rfl := Option.some.inj (eu'.symm.trans e2)
  obtain rfl := Option.some.inj (ed'.symm.trans e3)
  have el := el H U A
  have el' := el' H' U' A'
  rw [hl, hn] at el
  rw [hl', hn'] at el'
  have E : (fun t => spinOne l (H t)) = drivenOne l n h d fun k t => c t * e t k :=
    funext fun t => funext fun p => funext fun q => laser_driven (fun t => (el t).1) t p q
  have E' : (fun t => spinOne l (H' t)) = drivenOne l n h' d' fun k t => c t * e t k :=
    funext fun t => funext fun p => funext fun q => laser_driven (fun t => (el' t).1) t p q
  have EU : (fun t => spinTwo l (U t)) = fun _ => spinTwo l u := funext fun t => by rw [(el t).2]
  have EU' : (fun t => spinTwo l (U' t)) = fun _ => spinTwo l u' := funext fun t => by rw [(el' t).2]
  rw [E, EU] at hΨ
  rw [E', EU'] at hΦ
  refine (driven_near (F := fun k t => c t * e t k) hh hd hu hh' hd' hu' (fun k hk t => by rw [star_mul', hc, hee t k hk])
    (fun k hk => hcc.mul (hec k hk)) hε hκ hδ hFm h1 h2 h3 h4 hΨ hΦ ha).trans (le_of_eq ?_)
  rw [normalised hnorm]
  push_cast
  ring

/-! ## The one-dimensional dot -/

/-- The elements of the position on the line. -/
noncomputable def lineDipole (l : ℕ) (ψ : ℕ → ℝ → ℝ) : NDArray ℂ :=
  ofFn .complex128 [1, l, l] fun i => (lineInner (ψ (i.getD 1 0)) (fun x => x * ψ (i.getD 2 0) x) : ℂ)

theorem lineDipole_get {l p q : ℕ} (ψ : ℕ → ℝ → ℝ) (hp : p < l) (hq : q < l) :
    (lineDipole l ψ).get [0, p, q] = (lineInner (ψ p) (fun x => x * ψ q x) : ℂ) := by
  unfold lineDipole
  rw [ofFn_get_of (by exact ⟨by omega, hp, hq, trivial⟩)]
  rfl

theorem lineDipole_herm (l : ℕ) (ψ : ℕ → ℝ → ℝ) : HermDip 1 l (lineDipole l ψ) := fun i hi p hp q hq => by
  obtain rfl : i = 0 := by omega
  rw [lineDipole_get ψ hp hq, lineDipole_get ψ hq hp]
  refine Eq.trans ?_ (Complex.conj_ofReal _).symm
  congr 1
  unfold lineInner
  exact MeasureTheory.integral_congr_ae (.of_forall fun x => by ring)

theorem drivenOne_congr {l n : ℕ} {h d h' d' : NDArray ℂ} (F : ℕ → ℝ → ℂ)
    (h1 : ∀ p < l, ∀ q < l, h.get [p, q] = h'.get [p, q])
    (h2 : ∀ k < n, ∀ p < l, ∀ q < l, d.get [k, p, q] = d'.get [k, p, q]) : drivenOne l n h d F = drivenOne l n h' d' F := by
  funext t p q
  simp only [drivenOne, spinOne, spinDipole]
  split_ifs
  · rw [h1 _ (by omega) _ (by omega)]
    congr 1
    exact sum_congr rfl fun k hk => by rw [h2 k (mem_range.1 hk) _ (by omega) _ (by omega)]
  · rfl

/-- **C129** In a long enough box and, for each box, with enough grid points, `N` electrons in an `ODHO` dot with any laser field
move for the time `T` as close as desired to the electrons with the exact elements of the oscillator functions: the exact energies,
the exact elements of the position and the exact Coulomb integrals over the whole plane. How long the box and how fine the grid
has to be does not depend on the field or on the wave function. -/
theorem C129_odho {omega : ℝ} (ho : 0 < omega) : ∃ ψ : ℕ → ℝ → ℝ,
    (∀ p x, lineHamiltonian (fun x => 1 / 2 * omega ^ 2 * x ^ 2) (ψ p) x = omega * (p + 1 / 2) * ψ p x) ∧
    (∀ p q, lineInner (ψ p) (ψ q) = if p = q then 1 else 0) ∧
    ∀ (l N : ℕ) (a alpha T : ℝ), a ≠ 0 → 0 ≤ T → ∀ ε > 0,
      ∃ L₀ : ℝ, ∀ L ≥ L₀, ∃ N₀ : ℕ, ∀ num ≥ N₀, ∀ (beta : ℝ) (np : Module) (sp an : Bool),
        ∃ b, odho l L num omega a alpha beta np sp an = .ok b ∧
        ∀ (w : World ℂ ℝ) (s o : ℕ) (c : ℝ → ℂ) (e : ℝ → ℕ → ℂ), LaserRun w s o b c e → (∀ t, star (c t) = c t) → Continuous c →
          (∀ t, star (e t 0) = e t 0) → (Continuous fun t => e t 0) → ∀ H U, Answered w s o H U →
          ∀ Ψ Φ : ℝ → Wave ℂ N (2 * l), Evolves (fun t => spinOne l (H t)) (fun t => spinTwo l (U t)) Ψ →
            Evolves (drivenOne l 1 (levelOne l fun p => omega * (p + 1 / 2)) (lineDipole l ψ) fun k t => c t * e t k)
              (fun _ => spinTwo l (lineTwo l a alpha ψ)) Φ →
            ∀ t₀, Ψ t₀ = Φ t₀ → Antisymmetric (Φ t₀) → waveInner (Φ t₀) (Φ t₀) = 1 →
            ∀ t, |t - t₀| ≤ T → stateDistance (Ψ t) (Φ t) ≤ ε := by
  refine ⟨hoFunction omega, ho_eigen ho, ho_orthonormal ho, fun l N a alpha T ha hT ε hε => ?_⟩
  obtain ⟨η, hη, hb⟩ := electron_bound (N := N) (l := l) (by positivity : 0 < ε / 2 / (T + 1))
  obtain ⟨L₀, hL₀⟩ := box_all (l := l) fun p => box_all (l := l) fun q => box_all (l := l) fun r =>
    box_all (l := l) fun s => (hoFunction_limit ho alpha a ha p q r s).2 η hη
  refine ⟨L₀, fun L hL => ?_⟩
  obtain ⟨N₀, hN₀⟩ := hL₀ L hL
  refine ⟨max N₀ 2, fun num hnum beta np sp an => ?_⟩
  have n1 : N₀ ≤ num := by omega
  have n2 : 2 ≤ num := by omega
  obtain ⟨b, hok, -, hh, hd⟩ := odho_ok l L n2 omega a alpha beta np sp an
  obtain ⟨b', hok', cons⟩ := C91_odho l L n2 omega a alpha beta np sp an
  obtain rfl : b = b' := by simpa using hok.symm.trans hok'
  obtain ⟨u, hu, Hu, -⟩ := cons.u
  refine ⟨b, hok, fun w s o c e R hc hcc he hec H U A Ψ Φ hΨ hΦ t₀ e0 ha hnorm t ht => ?_⟩
  obtain ⟨h', u', d', e1, e2, e3, -, el⟩ := laserRun_elements R
  obtain rfl := Option.some.inj (hu.symm.trans e2)
  have el := el H U A
  rw [cons.wf.l_eq, cons.dim_eq] at el
  have E : (fun t => spinOne l (H t)) =
      drivenOne l 1 (levelOne l fun p => omega * (p + 1 / 2)) (lineDipole l (hoFunction omega)) fun k t => c t * e t k := by
    refine (funext fun t => funext fun p => funext fun q => laser_driven (fun t => (el t).1) t p q : _ = drivenOne _ _ _ _ _).trans
      (drivenOne_congr _ (fun p hp q hq => ?_) fun k hk p hp q hq => ?_)
    · rw [levelOne_get _ hp hq, ← Option.some.inj (hh.symm.trans e1), ofFn_get_of (by exact ⟨hp, hq, trivial⟩)]
      rfl
    · obtain rfl : k = 0 := by omega
      rw [lineDipole_get _ hp hq, ← Option.some.inj (hd.symm.trans e3), ofFn_get_of (by exact ⟨by omega, hp, hq, trivial⟩),
        odhoDip_inner ho]
      simp only [List.getD_cons_zero, List.getD_cons_succ]
      split_ifs <;> simp
  have EU : (fun t => spinTwo l (U t)) = fun _ => spinTwo l u := funext fun t => by rw [(el t).2]
  rw [E, EU] at hΨ
  have F1 : ∀ k < 1, ∀ t, star (c t * e t k) = c t * e t k := fun k hk t => by
    obtain rfl : k = 0 := by omega
    rw [star_mul', hc, he]
  have F2 : ∀ k < 1, Continuous fun t => c t * e t k := fun k hk => by
    obtain rfl : k = 0 := by omega
    exact hcc.mul hec
  have key := C129_motion (N := N) (t₀ := t₀) (t := t) (δ := η)
    ⟨drivenOne_herm (levelOne_herm l fun p => omega * (p + 1 / 2)) (lineDipole_herm l (hoFunction omega)) F1,
      fun _ => spinTwo_herm Hu⟩ ⟨drivenOne_continuous F2, fun _ _ _ _ => continuous_const⟩
    ⟨drivenOne_herm (levelOne_herm l fun p => omega * (p + 1 / 2)) (lineDipole_herm l (hoFunction omega)) F1,
      fun _ => spinTwo_herm (lineTwo_herm l a alpha (hoFunction omega))⟩ hη.le hη.le
    (fun τ _ p q => by rw [sub_self, norm_zero]; exact hη.le)
    (fun τ _ => spinTwo_near hη.le fun p hp q hq r hr s hs => by
      rw [lineTwo_get a alpha _ hp hq hr hs]
      obtain ⟨b', u', hok', hu', hle⟩ := hN₀ num n1 p hp q hq r hr s hs l hp hq hr hs beta np sp an
      obtain rfl : b = b' := by simpa using hok.symm.trans hok'
      obtain rfl : u = u' := Option.some.inj (hu.symm.trans hu')
      exact hle.le) hΨ hΦ ha
  have d0 : stateDistance (Ψ t₀) (Φ t₀) = 0 := by
    rw [e0, stateDistance_dist, dist_self]
  rw [normalised hnorm, mul_one, d0, zero_add] at key
  have h1 := hb 1 (by norm_num)
  rw [mul_one] at h1
  calc _ ≤ _ := key
    _ ≤ ε / 2 / (T + 1) * (1 + 1) * (T + 1) := mul_le_mul h1 (by linarith) (abs_nonneg _) (by positivity)
    _ = ε := by
      field_simp
      norm_num

/-- Two electrons in a one-dimensional dot with ten functions and the pulse `cos t`: in a long box with a fine grid, the probability
to find them in any given state at any time up to `100` is right up to a thousandth. -/
example : ∃ ψ : ℕ → ℝ → ℝ, (∀ p q, lineInner (ψ p) (ψ q) = if p = q then 1 else 0) ∧
    ∃ (L : ℝ) (num : ℕ) (b : BasisSet ℂ) (w : World ℂ ℝ) (H U : ℝ → NDArray ℂ), odho 10 L num 1 (1 / 4) 1 0 0 = .ok b ∧
      (setTimeEvolutionOperator 0 (some 0)).run (cosWorld b) = (.ok (), w) ∧ Answered w 0 0 H U ∧
      ∀ Χ Ψ₀ : Wave ℂ 2 20, waveInner Χ Χ = 1 → waveInner Ψ₀ Ψ₀ = 1 → Antisymmetric Ψ₀ → ∃ Ψ Φ : ℝ → Wave ℂ 2 20,
        Evolves (fun t => spinOne 10 (H t)) (fun t => spinTwo 10 (U t)) Ψ ∧ Ψ 0 = Ψ₀ ∧
        Evolves (drivenOne 10 1 (levelOne 10 fun p => p + 1 / 2) (lineDipole 10 ψ) fun _ t => (Real.cos t : ℝ))
          (fun _ => spinTwo 10 (lineTwo 10 (1 / 4) 1 ψ)) Φ ∧ Φ 0 = Ψ₀ ∧
        ∀ t, |t| ≤ 100 → |population Χ (Ψ t) - population Χ (Φ t)| ≤ 1 / 1000 := by
  obtain ⟨ψ, -, hov, all⟩ := C129_odho one_pos
  refine ⟨ψ, hov, ?_⟩
  obtain ⟨L₀, hL₀⟩ := all 10 2 (1 / 4) 1 100 (by norm_num) (by norm_num) (1 / 2000) (by norm_num)
  obtain ⟨N₀, hN₀⟩ := hL₀ L₀ le_rfl
  obtain ⟨b', hb', near⟩ := hN₀ (max N₀ 2) (le_max_left _ _) 0 0 false false
  obtain ⟨b, hb, cons⟩ := C91_odho 10 L₀ (num := max N₀ 2) (le_max_right _ _) 1 (1 / 4) 1 0 0 false false
  obtain rfl : b = b' := by simpa using hb.symm.trans hb'
  have hl := cons.wf.l_eq
  obtain ⟨u, hu, Hu, -⟩ := cons.u
  obtain ⟨h, hh, Hh⟩ := cons.h
  obtain ⟨d, hd, Hd⟩ := cons.dipole
  have ok : SysOK (cosWorld b) 0 ⟨.spatial, 0, some 0, 1, 10, 9, (0, 1), (1, 10), none⟩ b :=
    ⟨rfl, rfl, cons.wf, cons.np_eq.symm, ⟨by decide, rfl, rfl, rfl⟩⟩
  obtain ⟨w, hw, -⟩ := C38_set (o := 0) ok rfl
  have R : LaserRun w 0 0 b (fun t => (Real.cos t : ℝ)) (fun _ k => if k = 0 then 1 else 0) :=
    ⟨_, _, _, _, none, _, ok, by rw [hd]; rfl, rfl, rfl, .inl rfl, fun t => ⟨_, rfl⟩, fun _ _ => rfl, .inl ⟨_, rfl⟩, hw⟩
  obtain ⟨h', u', d', e1, e2, e3, ⟨H, U, A⟩, el⟩ := laserRun_elements R
  obtain rfl := Option.some.inj (hh.symm.trans e1)
  obtain rfl := Option.some.inj (hu.symm.trans e2)
  obtain rfl := Option.some.inj (hd.symm.trans e3)
  have el := el H U A
  rw [hl, cons.dim_eq] at el
  have cr : ∀ t, star ((Real.cos t : ℝ) : ℂ) = (Real.cos t : ℝ) := fun t => Complex.conj_ofReal _
  have cc : Continuous fun t => ((Real.cos t : ℝ) : ℂ) := Complex.continuous_ofReal.comp Real.continuous_cos
  refine ⟨L₀, max N₀ 2, b, w, H, U, hb, hw, A, fun Χ Ψ₀ hΧ hn ha => ?_⟩
  have E : (fun t => spinOne 10 (H t)) = drivenOne 10 1 h d fun k t => (Real.cos t : ℝ) * if k = 0 then 1 else 0 :=
    funext fun t => funext fun p => funext fun q => laser_driven (fun t => (el t).1) t p q
  have EU : (fun t => spinTwo 10 (U t)) = fun _ => spinTwo 10 u := funext fun t => by rw [(el t).2]
  have Hx : HermitianElements (drivenOne 10 1 h d fun k t => (Real.cos t : ℝ) * if k = 0 then 1 else 0) fun _ => spinTwo 10 u :=
    ⟨drivenOne_herm Hh Hd fun k _ t => by rw [star_mul', cr]; split_ifs <;> simp, fun _ => spinTwo_herm Hu⟩
  have Hy : HermitianElements (drivenOne 10 1 (levelOne 10 fun p => p + 1 / 2) (lineDipole 10 ψ) fun _ t => (Real.cos t : ℝ))
      fun _ => spinTwo 10 (lineTwo 10 (1 / 4) 1 ψ) :=
    ⟨drivenOne_herm (levelOne_herm _ _) (lineDipole_herm _ _) fun _ _ => cr, fun _ => spinTwo_herm (lineTwo_herm _ _ _ _)⟩
  obtain ⟨Ψ, hΨ, Ψ0⟩ := evolves_exists Hx ⟨drivenOne_continuous fun k _ => cc.mul continuous_const,
    fun _ _ _ _ => continuous_const⟩ 0 Ψ₀
  obtain ⟨Φ, hΦ, Φ0⟩ := evolves_exists Hy ⟨drivenOne_continuous fun _ _ => cc, fun _ _ _ _ => continuous_const⟩ 0 Ψ₀
  have hΨ' := hΨ
  rw [← E, ← EU] at hΨ'
  refine ⟨Ψ, Φ, hΨ', Ψ0, hΦ, Φ0, fun t ht => ?_⟩
  have EQ : (drivenOne 10 1 (levelOne 10 fun p => 1 * ((p : ℝ) + 1 / 2)) (lineDipole 10 ψ) fun k t =>
      ((Real.cos t : ℝ) : ℂ) * if k = 0 then 1 else 0) =
      drivenOne 10 1 (levelOne 10 fun p => (p : ℝ) + 1 / 2) (lineDipole 10 ψ) fun _ t => (Real.cos t : ℝ) := by
    funext t p q
    simp [drivenOne]
  have n1 : waveInner (Ψ t) (Ψ t) = 1 := by rw [evolves_inner Hx hΨ hΨ t 0, Ψ0, hn]
  have n2 : waveInner (Φ t) (Φ t) = 1 := by rw [evolves_inner Hy hΦ hΦ t 0, Φ0, hn]
  have := near w 0 0 _ _ R cr cc (fun t => by simp) continuous_const H U A Ψ Φ hΨ' (by
    rwa [EQ]) 0 (Ψ0.trans Φ0.symm) (by rw [Φ0]; exact ha)
    (by rw [Φ0]; exact hn) t (by simpa using ht)
  linarith [C129_population hΧ n2 n1]

end QS.Props
