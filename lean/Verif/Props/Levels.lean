import Verif.Lemmas.ManyBodySpectrum
import Verif.Props.ManyBodyChange

/-!
# Property C120: the energies of `N` particles

`Spectrum h u D E Ψ` says that `E 0 ≤ … ≤ E (D - 1)` are the energies of `N` fermions with the elements `h` and `u`.
-/

namespace QS.Props

open Finset NDArray BasisSet PyM Demo Function

variable {T : Type}

/-! ## The number of states -/

theorem not_injective_zero {N L : ℕ} {Φ : Wave ℂ N L} (hΦ : Antisymmetric Φ) {x : Fin N → Fin L} (hx : ¬ Injective x) :
    Φ x = 0 := by
  unfold Injective at hx
  push Not at hx
  obtain ⟨i, j, hxy, hij⟩ := hx
  have h1 := hΦ (Equiv.swap i j) x
  have h2 : x ∘ Equiv.swap i j = x := by
    funext k
    simp only [comp_apply]
    by_cases hi : k = i
    · subst hi; rw [Equiv.swap_apply_left, hxy]
    · by_cases hj : k = j
      · subst hj; rw [Equiv.swap_apply_right, hxy]
      · rw [Equiv.swap_apply_of_ne_of_ne hi hj]
  rw [h2, Equiv.Perm.sign_swap hij] at h1
  simp only [Units.val_neg, Units.val_one, Int.cast_neg, Int.cast_one, neg_mul, one_mul] at h1
  have h3 : (2 : ℂ) * Φ x = 0 := by linear_combination h1
  simpa using h3

/-- The orbitals of a set in ascending order. -/
noncomputable def orbitalsOf {N L : ℕ} (s : {s : Finset (Fin L) // s.card = N}) : Fin N → Fin L :=
  s.1.orderEmbOfFin s.2

theorem orbitalsOf_injective {N L : ℕ} (s : {s : Finset (Fin L) // s.card = N}) : Injective (orbitalsOf s) :=
  (s.1.orderEmbOfFin s.2).injective

/-- An injective choice of orbitals is an ordered set with a permutation. -/
theorem injective_sum {N L : ℕ} {g : (Fin N → Fin L) → ℝ} (h0 : ∀ x, ¬ Injective x → g x = 0)
    (hg : ∀ x (σ : Equiv.Perm (Fin N)), g (x ∘ σ) = g x) :
    ∑ x, g x = N.factorial * ∑ s : {s : Finset (Fin L) // s.card = N}, g (orbitalsOf s) := by
  classical
  have h1 : ∑ z : {s : Finset (Fin L) // s.card = N} × Equiv.Perm (Fin N), g (orbitalsOf z.1 ∘ z.2) = ∑ x, g x := by
    refine sum_of_injOn (fun z => orbitalsOf z.1 ∘ z.2) ?_ (fun _ _ => mem_coe.2 (mem_univ _)) ?_ (fun _ _ => rfl)
    · rintro ⟨s, σ⟩ - ⟨t, τ⟩ - h
      dsimp only at h
      have hs : s = t := by
        have h2 : Set.range (orbitalsOf s ∘ σ) = Set.range (orbitalsOf t ∘ τ) := by rw [h]
        rw [σ.surjective.range_comp, τ.surjective.range_comp] at h2
        unfold orbitalsOf at h2
        rw [Finset.range_orderEmbOfFin, Finset.range_orderEmbOfFin] at h2
        exact Subtype.ext (coe_injective h2)
      subst hs
      refine Prod.ext rfl (Equiv.ext fun k => orbitalsOf_injective s ?_)
      exact congrFun h k
    · intro x _ hx
      refine h0 x fun hinj => hx ?_
      have hc : (univ.image x).card = N := by rw [card_image_of_injective _ hinj, card_univ, Fintype.card_fin]
      set s : {s : Finset (Fin L) // s.card = N} := ⟨univ.image x, hc⟩ with hs
      have hr : ∀ k, ∃ j, orbitalsOf s j = x k := fun k => by
        have h3 : x k ∈ Set.range (orbitalsOf s) := by
          unfold orbitalsOf
          rw [Finset.range_orderEmbOfFin]
          exact mem_coe.2 (mem_image_of_mem _ (mem_univ _))
        exact h3
      choose f hf using hr
      have hfi : Injective f := fun a b hab => hinj (by rw [← hf a, ← hf b, hab])
      refine ⟨(s, Equiv.ofBijective f (Finite.injective_iff_bijective.1 hfi)), by simp, funext fun k => ?_⟩
      exact hf k
  rw [← h1, Fintype.sum_prod_type, mul_sum]
  refine sum_congr rfl fun s _ => ?_
  rw [sum_congr rfl fun σ _ => hg (orbitalsOf s) σ, sum_const, card_univ, Fintype.card_perm, Fintype.card_fin,
    nsmul_eq_mul]

theorem norm_anti {N L : ℕ} {Φ : Wave ℂ N L} (hΦ : Antisymmetric Φ) (x : Fin N → Fin L) (σ : Equiv.Perm (Fin N)) :
    ‖Φ (x ∘ σ)‖ = ‖Φ x‖ := by
  rw [hΦ σ x, norm_mul]
  rcases Int.units_eq_one_or (Equiv.Perm.sign σ) with h | h <;> rw [h] <;> simp

theorem sum_anti {N L : ℕ} {Φ : Wave ℂ N L} (hΦ : Antisymmetric Φ) :
    ∑ x, ‖Φ x‖ ^ 2 = N.factorial * ∑ s : {s : Finset (Fin L) // s.card = N}, ‖Φ (orbitalsOf s)‖ ^ 2 :=
  injective_sum (g := fun x => ‖Φ x‖ ^ 2) (fun x hx => by rw [not_injective_zero hΦ hx]; simp)
    fun x σ => by rw [norm_anti hΦ]

/-- **C120** There are as many energies as choices of `N` of `L` orbitals. -/
theorem C120_count {N L D : ℕ} {h : Fin L → Fin L → ℂ} {u : Fin L → Fin L → Fin L → Fin L → ℂ} {E : ℕ → ℝ}
    {Ψ : ℕ → Wave ℂ N L} (S : Spectrum h u D E Ψ) : D = L.choose N := by
  classical
  have hf : ((N.factorial : ℕ) : ℝ) ≠ 0 := Nat.cast_ne_zero.2 (Nat.factorial_ne_zero _)
  -- the sum of the squares of the overlaps of the determinants with all states
  have h1 : ∀ i ∈ range D, ∑ s : {s : Finset (Fin L) // s.card = N},
      ‖waveInner (Ψ i) (slater (orbitalsOf s))‖ ^ 2 = N.factorial := fun i hi => by
    have h2 : waveInner (Ψ i) (Ψ i) = 1 := by rw [S.orth i (mem_range.1 hi) i (mem_range.1 hi), if_pos rfl]
    rw [waveInner_self, sum_anti (S.anti i (mem_range.1 hi))] at h2
    have h3 : (N.factorial : ℝ) * ∑ s : {s : Finset (Fin L) // s.card = N}, ‖Ψ i (orbitalsOf s)‖ ^ 2 = 1 := by
      exact_mod_cast h2
    have h4 : ∀ s : {s : Finset (Fin L) // s.card = N}, ‖waveInner (Ψ i) (slater (orbitalsOf s))‖ ^ 2 =
        (N.factorial : ℝ) ^ 2 * ‖Ψ i (orbitalsOf s)‖ ^ 2 := fun s => by
      rw [← waveInner_star, norm_star, slater_inner _ (S.anti i (mem_range.1 hi)), norm_mul, Complex.norm_natCast, mul_pow]
    rw [sum_congr rfl fun s _ => h4 s, ← mul_sum, pow_two, mul_assoc, h3, mul_one]
  have h5 : ∀ s : {s : Finset (Fin L) // s.card = N}, ∑ i ∈ range D, ‖waveInner (Ψ i) (slater (orbitalsOf s))‖ ^ 2 =
      N.factorial := fun s => by
    have h6 := (S.parseval (slater_antisymmetric (orbitalsOf s))).1
    rw [(C106_determinants (orbitalsOf_injective s)).2.2.1] at h6
    exact_mod_cast h6.symm
  have h7 := sum_congr rfl h1
  rw [sum_comm, sum_congr rfl fun s _ => h5 s, sum_const, sum_const, card_univ, card_range, nsmul_eq_mul, nsmul_eq_mul] at h7
  have h8 := mul_right_cancel₀ hf h7
  have h9 : Fintype.card {s : Finset (Fin L) // s.card = N} = L.choose N := by
    rw [Fintype.card_subtype]
    have := card_powersetCard N (univ (α := Fin L))
    rw [card_univ, Fintype.card_fin] at this
    rw [← this]
    congr 1
    ext s
    simp [mem_powersetCard]
  rw [h9] at h8
  exact_mod_cast h8.symm

/-! ## Existence, change of basis, perturbation -/

/-- **C120** Hermitian elements have energies, for every number of particles, and the elements determine them; the same
for the elements between spin orbitals. -/
theorem C120_exist {l : ℕ} {H U : NDArray ℂ} (hh : HermMat l H) (hu : HermU l U) (N : ℕ) :
    (∃ E Ψ, Spectrum (N := N) (arrayOne l H) (arrayTwo l U) (l.choose N) E Ψ) ∧
    (∃ E Ψ, Spectrum (N := N) (spinOne l H) (spinTwo l U) ((2 * l).choose N) E Ψ) ∧
    (∀ {D E Ψ D' E' Ψ'}, Spectrum (N := N) (arrayOne l H) (arrayTwo l U) D E Ψ →
      Spectrum (N := N) (arrayOne l H) (arrayTwo l U) D' E' Ψ' → ∀ k < D, E k = E' k) := by
  refine ⟨?_, ?_, fun S S' k hk => S.unique S' hk⟩
  · obtain ⟨D, E, Ψ, S⟩ := Spectrum.exists (h := arrayOne l H) (u := arrayTwo l U)
      (fun p q => (hh q q.2 p p.2).symm) (fun p q r s => (hu r r.2 s s.2 p p.2 q q.2).symm) N
    obtain rfl := C120_count S
    exact ⟨E, Ψ, S⟩
  · obtain ⟨D, E, Ψ, S⟩ := Spectrum.exists (h := spinOne l H) (u := spinTwo l U)
      (fun p q => by
        unfold spinOne
        by_cases h : p.1 % 2 = q.1 % 2
        · rw [if_pos h, if_pos h.symm]
          exact (hh _ (by omega) _ (by omega)).symm
        · rw [if_neg h, if_neg (Ne.symm h), star_zero])
      (fun p q r s => by
        unfold spinTwo
        by_cases h : p.1 % 2 = r.1 % 2 ∧ q.1 % 2 = s.1 % 2
        · rw [if_pos h, if_pos ⟨h.1.symm, h.2.symm⟩]
          exact (hu _ (by omega) _ (by omega) _ (by omega) _ (by omega)).symm
        · rw [if_neg h, if_neg (fun h' => h ⟨h'.1.symm, h'.2.symm⟩), star_zero]) N
    obtain rfl := C120_count S
    exact ⟨E, Ψ, S⟩

theorem array_isometry {l n : ℕ} {C : NDArray ℂ} (hC : C.shape = [l, n])
    (uni : ∀ p < n, ∀ q < n, ∑ a ∈ range l, star (C.get [a, p]) * C.get [a, q] = kd p q) :
    (Matrix.of (arrayMat l n C)).conjTranspose * Matrix.of (arrayMat l n C) = 1 := by
  rw [← arrayMat_conjT hC]
  refine matrix_inverse fun p hp q hq => ?_
  rw [← uni p hp q hq]
  exact sum_congr rfl fun a _ => by rw [conjT_get2 C hC]

theorem changed_spectrum {b b' : BasisSet ℂ} {l n : ℕ} {C : NDArray ℂ} {v : Unit} (hb : WellFormed b l)
    (run : (changeBasis C none).run b = (.ok v, b')) (hC : C.shape = [l, n]) {H U H' U' : NDArray ℂ} (hh : b.h = some H)
    (hu : b.u = some U) (hh' : b'.h = some H') (hu' : b'.u = some U') :
    (fun p q => ((Matrix.of (arrayMat l n C)).conjTranspose * Matrix.of (arrayOne l H) * Matrix.of (arrayMat l n C)) p q) =
      arrayOne n H' ∧
    (fun p q r s => ∑ a, ∑ b, ∑ c, ∑ d, (Matrix.of (arrayMat l n C)).conjTranspose p a *
      (Matrix.of (arrayMat l n C)).conjTranspose q b * arrayTwo l U a b c d * Matrix.of (arrayMat l n C) c r *
      Matrix.of (arrayMat l n C) d s) = arrayTwo n U' := by
  obtain ⟨h1, h2⟩ := changed_elements hb run hC hh hu hh' hu'
  rw [Option.getD_none] at h1 h2
  rw [← arrayMat_conjT hC]
  exact ⟨oneBody_matrix h1, twoBody_matrix h2⟩

/-- **C120** A successful `change_basis` with a unitary matrix keeps all energies of all numbers of particles, with their
multiplicities. -/
theorem C120_unitary {b b' : BasisSet ℂ} {l : ℕ} {C : NDArray ℂ} {v : Unit} (hb : WellFormed b l)
    (run : (changeBasis C none).run b = (.ok v, b')) (hC : C.shape = [l, l])
    (uni : ∀ p < l, ∀ q < l, ∑ a ∈ range l, star (C.get [a, p]) * C.get [a, q] = kd p q) {H U H' U' : NDArray ℂ}
    (hh : b.h = some H) (hu : b.u = some U) (hh' : b'.h = some H') (hu' : b'.u = some U') {N D D' : ℕ} {E E' : ℕ → ℝ}
    {Ψ Ψ' : ℕ → Wave ℂ N l} (S : Spectrum (arrayOne l H) (arrayTwo l U) D E Ψ)
    (S' : Spectrum (arrayOne l H') (arrayTwo l U') D' E' Ψ') : D' = D ∧ ∀ k < D, E' k = E k := by
  have T := S.transport (array_isometry hC uni)
  obtain ⟨e1, e2⟩ := changed_spectrum hb run hC hh hu hh' hu'
  rw [e1, e2] at T
  exact ⟨S'.count T, fun k hk => S'.unique T (by rwa [S'.count T])⟩

/-- **C120** A successful `change_basis` to fewer orthonormal functions moves all energies up. -/
theorem C120_truncation {b b' : BasisSet ℂ} {l n : ℕ} {C : NDArray ℂ} {v : Unit} (hb : WellFormed b l)
    (run : (changeBasis C none).run b = (.ok v, b')) (hC : C.shape = [l, n])
    (uni : ∀ p < n, ∀ q < n, ∑ a ∈ range l, star (C.get [a, p]) * C.get [a, q] = kd p q) {H U H' U' : NDArray ℂ}
    (hh : b.h = some H) (hu : b.u = some U) (hh' : b'.h = some H') (hu' : b'.u = some U') {N D D' : ℕ} {E E' : ℕ → ℝ}
    {Ψ : ℕ → Wave ℂ N l} {Ψ' : ℕ → Wave ℂ N n} (S : Spectrum (arrayOne l H) (arrayTwo l U) D E Ψ)
    (S' : Spectrum (arrayOne n H') (arrayTwo n U') D' E' Ψ') : D' ≤ D ∧ ∀ k < D', E k ≤ E' k := by
  obtain ⟨e1, e2⟩ := changed_spectrum hb run hC hh hu hh' hu'
  rw [← e1, ← e2] at S'
  exact S.truncate (array_isometry hC uni) S'

/-- **C120** Errors `ε` of the stored one-body elements and `δ` of the two-body elements change every energy of `N`
particles by at most `N L ε + N (N - 1) / 2 L² δ`. -/
theorem C120_perturbation {l N D D' : ℕ} {H U H' U' : NDArray ℂ} {E E' : ℕ → ℝ} {Ψ Ψ' : ℕ → Wave ℂ N l}
    (S : Spectrum (arrayOne l H) (arrayTwo l U) D E Ψ) (S' : Spectrum (arrayOne l H') (arrayTwo l U') D' E' Ψ') {ε δ : ℝ}
    (hε : ∀ p < l, ∀ q < l, ‖H.get [p, q] - H'.get [p, q]‖ ≤ ε)
    (hδ : ∀ p < l, ∀ q < l, ∀ r < l, ∀ s < l, ‖U.get [p, q, r, s] - U'.get [p, q, r, s]‖ ≤ δ) :
    D = D' ∧ ∀ k < D, |E k - E' k| ≤ N * l * ε + N * (N - 1 : ℕ) / 2 * l ^ 2 * δ :=
  ⟨S.count S', fun _ hk => S.near S' (fun p q => hε p p.2 q q.2) (fun p q r s => hδ p p.2 q q.2 r r.2 s s.2) hk⟩

/-- The same for the elements between spin orbitals. -/
theorem C120_spin_perturbation {l N D D' : ℕ} {H U H' U' : NDArray ℂ} {E E' : ℕ → ℝ} {Ψ Ψ' : ℕ → Wave ℂ N (2 * l)}
    (S : Spectrum (spinOne l H) (spinTwo l U) D E Ψ) (S' : Spectrum (spinOne l H') (spinTwo l U') D' E' Ψ') {ε δ : ℝ}
    (h0 : 0 ≤ ε) (h0' : 0 ≤ δ) (hε : ∀ p < l, ∀ q < l, ‖H.get [p, q] - H'.get [p, q]‖ ≤ ε)
    (hδ : ∀ p < l, ∀ q < l, ∀ r < l, ∀ s < l, ‖U.get [p, q, r, s] - U'.get [p, q, r, s]‖ ≤ δ) :
    D = D' ∧ ∀ k < D, |E k - E' k| ≤ N * (2 * l : ℕ) * ε + N * (N - 1 : ℕ) / 2 * (2 * l : ℕ) ^ 2 * δ := by
  refine ⟨S.count S', fun _ hk => S.near S' (fun p q => ?_) (fun p q r s => ?_) hk⟩
  · unfold spinOne
    split_ifs
    · exact hε _ (by omega) _ (by omega)
    · simpa using h0
  · unfold spinTwo
    split_ifs
    · exact hδ _ (by omega) _ (by omega) _ (by omega) _ (by omega)
    · simpa using h0'

/-- **C120** The reference energy of a spatial system lies between the lowest and the highest energy of its particles. -/
theorem C120_reference {w : World ℂ T} {s : ℕ} {x : Sys} {b : BasisSet ℂ} (ok : SysOK w s x b) (hk : x.kind = .spatial)
    {H U : NDArray ℂ} (hh : b.h = some H) (hu : b.u = some U) {D : ℕ} {E : ℕ → ℝ} {Ψ : ℕ → Wave ℂ (2 * x.n) (2 * x.l)}
    (S : Spectrum (spinOne x.l H) (spinTwo x.l U) D E Ψ) :
    ∃ r, (World.referenceEnergy s).run w = (.ok r, w) ∧ E 0 ≤ (r.get []).re ∧ (r.get []).re ≤ E (D - 1) := by
  have hle := ok.size.le
  have hn : 2 * x.n ≤ 2 * x.l := by omega
  obtain ⟨r, h1, h2, -⟩ := C106_spatial ok hk hh hu hn
  refine ⟨r, h1, ?_⟩
  have := S.bounds (slater_antisymmetric (firstOrbitals hn))
  rw [h2, (C106_determinants (K := ℂ) (firstOrbitals_injective hn)).2.2.1] at this
  have hf : (0 : ℝ) < ((2 * x.n).factorial : ℝ) := Nat.cast_pos.2 (Nat.factorial_pos _)
  rw [← Complex.ofReal_natCast, Complex.re_mul_ofReal, Complex.ofReal_re] at this
  exact ⟨le_of_mul_le_mul_right this.1 hf, le_of_mul_le_mul_right this.2 hf⟩

/-- **C120** The reference energy of a general system with anti-symmetrised elements lies between the lowest and the highest
energy of its particles. -/
theorem C120_general_reference {w : World ℂ T} {s : ℕ} {x : Sys} {b : BasisSet ℂ} (ok : SysOK w s x b)
    (hk : x.kind = .general) {H U U' : NDArray ℂ} (hh : b.h = some H) (hu : b.u = some U') (hU : IsAntiSymmetrised x.l U U')
    {D : ℕ} {E : ℕ → ℝ} {Ψ : ℕ → Wave ℂ x.n x.l} (S : Spectrum (arrayOne x.l H) (arrayTwo x.l U) D E Ψ) :
    ∃ r, (World.referenceEnergy s).run w = (.ok r, w) ∧ E 0 ≤ (r.get []).re ∧ (r.get []).re ≤ E (D - 1) := by
  obtain ⟨r, h1, h2, -⟩ := C106_general ok hk hh hu hU
  refine ⟨r, h1, ?_⟩
  have := S.bounds (slater_antisymmetric (firstOrbitals ok.size.le))
  rw [h2, (C106_determinants (K := ℂ) (firstOrbitals_injective ok.size.le)).2.2.1] at this
  have hf : (0 : ℝ) < (x.n.factorial : ℝ) := Nat.cast_pos.2 (Nat.factorial_pos _)
  rw [← Complex.ofReal_natCast, Complex.re_mul_ofReal, Complex.ofReal_re] at this
  exact ⟨le_of_mul_le_mul_right this.1 hf, le_of_mul_le_mul_right this.2 hf⟩

/-! ## Example -/

/-- One-body energies `0, 1, 2`, no interaction: two particles have three energies, the lowest is at most `1`. -/
example : ∃ (E : ℕ → ℝ) (Ψ : ℕ → Wave ℂ 2 3), Spectrum
    (arrayOne 3 (ofFn .complex128 [3, 3] fun i => if i.getD 0 0 = i.getD 1 0 then (i.getD 0 0 : ℂ) else 0))
    (arrayTwo 3 (ofFn .complex128 [3, 3, 3, 3] fun _ => 0)) 3 E Ψ ∧ E 0 ≤ 1 := by
  obtain ⟨⟨E, Ψ, S⟩, -⟩ := C120_exist (l := 3)
    (H := ofFn .complex128 [3, 3] fun i => if i.getD 0 0 = i.getD 1 0 then (i.getD 0 0 : ℂ) else 0)
    (U := ofFn .complex128 [3, 3, 3, 3] fun _ => 0) (fun p hp q hq => by
      rw [ofFn_get_of (by exact ⟨hp, hq, trivial⟩), ofFn_get_of (by exact ⟨hq, hp, trivial⟩)]
      simp only [List.getD_cons_zero, List.getD_cons_succ]
      by_cases h : p = q
      · subst h; simp
      · rw [if_neg h, if_neg (Ne.symm h), star_zero]) (fun p hp q hq r hr s hs => by
      rw [ofFn_get_of (by exact ⟨hp, hq, hr, hs, trivial⟩), ofFn_get_of (by exact ⟨hr, hs, hp, hq, trivial⟩), star_zero]) 2
  refine ⟨E, Ψ, S, ?_⟩
  have h1 := (S.bounds (slater_antisymmetric (firstOrbitals (show 2 ≤ 3 by decide)))).1
  rw [slater_inner _ (hamiltonOp_antisymmetric _ _ (slater_antisymmetric _)),
    hamilton_slater _ _ (firstOrbitals_injective _), (C106_determinants (K := ℂ) (firstOrbitals_injective _)).2.2.1] at h1
  simp [arrayOne, arrayTwo, firstOrbitals, Fin.sum_univ_two, ofFn, InRange] at h1
  linarith

end QS.Props
