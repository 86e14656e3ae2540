import Verif.Lemmas.Sections
import Verif.Props.LevelBounds

/-!
# Property C135: the energy per electron grows with the number of electrons
-/

namespace QS.Props

open Finset NDArray BasisSet PyM Demo Function OneDim Spec TwoDim Coulomb Idx

variable {T : Type} {n m L D D' : ℕ} {E E' : ℕ → ℝ}

/-- What `n` of `n + m` particles in the state of lowest energy tell about the lowest energy of `n` particles. -/
theorem section_bound {h : Fin L → Fin L → ℂ} {u : Fin L → Fin L → Fin L → Fin L → ℂ} {Ψ' : ℕ → Wave ℂ (n + m) L}
    (S' : Spectrum h u D' E' Ψ') (h0 : 0 < D') : ∃ a b : ℝ,
      (E' 0 = (n + m : ℕ) * a + (n + m : ℕ) * (n + m - 1 : ℕ) / 2 * b) ∧
      ((waveInner (Ψ' 0) (twoBodyOp u (Ψ' 0))).re = (n + m : ℕ) * (n + m - 1 : ℕ) * b) ∧
      ∀ (c : ℝ) {D E} {Ψ : ℕ → Wave ℂ n L}, Spectrum (fun p q => c * h p q) u D E Ψ →
        E 0 ≤ n * c * a + n * (n - 1 : ℕ) / 2 * b := by
  obtain ⟨a, b, ha, hb⟩ := exists_means h u (S'.anti 0 h0)
  have e1 : waveInner (Ψ' 0) (oneBodyOp h (Ψ' 0)) = (n + m : ℕ) * a := by
    rw [waveInner_oneMean, sum_congr rfl fun i _ => ha i]
    simp
  have e2 : waveInner (Ψ' 0) (twoBodyOp u (Ψ' 0)) = (n + m : ℕ) * (n + m - 1 : ℕ) * b := by
    rw [waveInner_twoMean]
    have : ∀ i : Fin (n + m), ∑ j ∈ univ.erase i, twoMean u (Ψ' 0) i j = (n + m - 1 : ℕ) * b := fun i => by
      rw [sum_congr rfl fun j hj => hb i j (mem_erase.1 hj).1.symm]
      simp [card_erase_of_mem]
    rw [sum_congr rfl fun i _ => this i]
    simp [mul_assoc]
  have e3 : (waveInner (Ψ' 0) (hamiltonOp h u (Ψ' 0))).re = E' 0 := by
    rw [S'.eigen 0 h0]
    have := waveInner_comb {()} (Ψ' 0) (fun _ => (E' 0 : ℂ)) (fun _ => Ψ' 0)
    simp only [sum_singleton] at this
    rw [this, S'.orth 0 h0 0 h0, if_pos rfl, mul_one, Complex.ofReal_re]
  refine ⟨a.re, b.re, ?_, ?_, fun c D E Ψ S => ?_⟩
  · rw [← e3, waveInner_hamiltonOp, e1, e2]
    rw [show ((n + m : ℕ) : ℂ) * a + 1 / 2 * (((n + m : ℕ) : ℂ) * (n + m - 1 : ℕ) * b) =
      (((n + m : ℕ) : ℝ) : ℂ) * a + ((((n + m : ℕ) : ℝ) * (n + m - 1 : ℕ) / 2 : ℝ) : ℂ) * b by push_cast; ring]
    rw [Complex.add_re, Complex.re_ofReal_mul, Complex.re_ofReal_mul]
  · rw [e2]
    rw [show ((n + m : ℕ) : ℂ) * (n + m - 1 : ℕ) * b = ((((n + m : ℕ) : ℝ) * (n + m - 1 : ℕ) : ℝ) : ℂ) * b by push_cast; ring,
      Complex.re_ofReal_mul]
  · have k1 : ∀ z, E 0 * (waveInner (sectionWave (Ψ' 0) z) (sectionWave (Ψ' 0) z)).re ≤
        (waveInner (sectionWave (Ψ' 0) z) (hamiltonOp (fun p q => c * h p q) u (sectionWave (Ψ' 0) z))).re :=
      fun z => (S.bounds (section_anti (S'.anti 0 h0) z)).1
    have k2 := sum_le_sum fun z (_ : z ∈ univ) => k1 z
    rw [← mul_sum, ← Complex.re_sum, ← Complex.re_sum, section_norm, S'.orth 0 h0 0 h0, if_pos rfl, Complex.one_re, mul_one,
      section_energy ha hb] at k2
    refine k2.trans (le_of_eq ?_)
    rw [show (n : ℂ) * c * a + n * (n - 1 : ℕ) / 2 * b =
      ((n * c : ℝ) : ℂ) * a + ((n * (n - 1 : ℕ) / 2 : ℝ) : ℂ) * b by push_cast; ring]
    rw [Complex.add_re, Complex.re_ofReal_mul, Complex.re_ofReal_mul]

/-- **C135** With a repulsive interaction the lowest energy per particle does not decrease with the number of particles. -/
theorem C135_per_particle {h : Fin L → Fin L → ℂ} {u : Fin L → Fin L → Fin L → Fin L → ℂ} {K : ℕ} {Ψ : ℕ → Wave ℂ n L}
    {Ψ' : ℕ → Wave ℂ K L}
    (hu : ∀ v : Fin L → Fin L → ℂ, 0 ≤ (∑ p, ∑ q, ∑ r, ∑ s, star (v p q) * u p q r s * v r s).re)
    (S : Spectrum h u D E Ψ) (S' : Spectrum h u D' E' Ψ') (hn : n ≤ K) (h0 : 0 < D') : K * E 0 ≤ n * E' 0 := by
  obtain ⟨m, rfl⟩ := Nat.exists_eq_add_of_le hn
  obtain ⟨a, b, e1, e2, e3⟩ := section_bound S' h0
  have k1 := e3 1 (by simpa using S)
  have k2 := twoBody_form_nonneg hu (Ψ' 0)
  rw [e2] at k2
  rw [e1]
  have hK : (0 : ℝ) ≤ (n + m : ℕ) := Nat.cast_nonneg _
  have hn0 : (0 : ℝ) ≤ n := Nat.cast_nonneg _
  -- the repulsion of one pair
  have k3 : (n - 1 : ℕ) * b ≤ (n + m - 1 : ℕ) * b := by
    rcases Nat.lt_or_ge (n + m) 2 with hs | hs
    · rw [show n - 1 = 0 by omega, show n + m - 1 = 0 by omega]
    · have hb : 0 ≤ b := by
        have : (0 : ℝ) < (n + m : ℕ) * (n + m - 1 : ℕ) := by
          have h1 : (0 : ℝ) < (n + m : ℕ) := Nat.cast_pos.2 (by omega)
          have h2 : (0 : ℝ) < (n + m - 1 : ℕ) := Nat.cast_pos.2 (by omega)
          positivity
        exact nonneg_of_mul_nonneg_right k2 this
      exact mul_le_mul_of_nonneg_right (by exact_mod_cast (by omega : n - 1 ≤ n + m - 1)) hb
  calc ((n + m : ℕ) : ℝ) * E 0 ≤ (n + m : ℕ) * (n * 1 * a + n * (n - 1 : ℕ) / 2 * b) := mul_le_mul_of_nonneg_left k1 hK
    _ = n * (n + m : ℕ) * a + n * (n + m : ℕ) / 2 * ((n - 1 : ℕ) * b) := by ring
    _ ≤ n * (n + m : ℕ) * a + n * (n + m : ℕ) / 2 * ((n + m - 1 : ℕ) * b) := by
      have := mul_le_mul_of_nonneg_left k3 (show (0 : ℝ) ≤ n * (n + m : ℕ) / 2 by positivity)
      linarith
    _ = _ := by ring

/-- **C135** Whatever the interaction: the lowest energy per pair does not decrease with the number of particles if the one-body
elements are divided by the number of the other particles. -/
theorem C135_per_pair {h : Fin L → Fin L → ℂ} {u : Fin L → Fin L → Fin L → Fin L → ℂ} {K : ℕ} {Ψ : ℕ → Wave ℂ n L}
    {Ψ' : ℕ → Wave ℂ K L} (S : Spectrum (fun p q => ((((n - 1 : ℕ) : ℝ) / ((K - 1 : ℕ) : ℝ) : ℝ) : ℂ) * h p q) u D E Ψ)
    (S' : Spectrum h u D' E' Ψ') (hn : n ≤ K) (hK : 2 ≤ K) (h0 : 0 < D') :
    K * (K - 1 : ℕ) * E 0 ≤ n * (n - 1 : ℕ) * E' 0 := by
  obtain ⟨m, rfl⟩ := Nat.exists_eq_add_of_le hn
  obtain ⟨a, b, e1, -, e3⟩ := section_bound S' h0
  have k1 := e3 _ S
  have h1 : (0 : ℝ) < (n + m : ℕ) := Nat.cast_pos.2 (by omega)
  have h2 : (0 : ℝ) < (n + m - 1 : ℕ) := Nat.cast_pos.2 (by omega)
  rw [e1]
  calc ((n + m : ℕ) : ℝ) * (n + m - 1 : ℕ) * E 0 ≤ (n + m : ℕ) * (n + m - 1 : ℕ) *
        (n * ((n - 1 : ℕ) / (n + m - 1 : ℕ)) * a + n * (n - 1 : ℕ) / 2 * b) := mul_le_mul_of_nonneg_left k1 (by positivity)
    _ = _ := by
      field_simp

/-- **C135** With a repulsive interaction and electrons with spin: the lowest energy per electron does not decrease with their
number, and the lowest energy of two groups of electrons together is at least the sum of their lowest energies. -/
theorem C135_electrons {l : ℕ} {H U : NDArray ℂ} (hU : PosU l U) {n m : ℕ} {E E' F : ℕ → ℝ} (S : ElectronEnergies l H U n E) :
    (∀ K, n ≤ K → K ≤ 2 * l → ElectronEnergies l H U K E' → K * E 0 ≤ n * E' 0) ∧
    (n + m ≤ 2 * l → ElectronEnergies l H U m F → ElectronEnergies l H U (n + m) E' → E 0 + F 0 ≤ E' 0) := by
  have key : ∀ {n K : ℕ} {E E' : ℕ → ℝ}, n ≤ K → K ≤ 2 * l → ElectronEnergies l H U n E → ElectronEnergies l H U K E' →
      K * E 0 ≤ n * E' 0 := fun hn hK ⟨Ψ, S⟩ ⟨Ψ', S'⟩ =>
    C135_per_particle (posU_spin hU) S S' hn (Nat.choose_pos hK)
  refine ⟨fun K hn hK S' => key hn hK S S', fun hnm SF S' => ?_⟩
  have k1 := key (by omega : n ≤ n + m) hnm S S'
  have k2 := key (by omega : m ≤ n + m) hnm SF S'
  rcases Nat.eq_zero_or_pos (n + m) with h | h
  · obtain rfl : n = 0 := by omega
    obtain rfl : m = 0 := by omega
    obtain ⟨Ψ, S⟩ := S
    obtain ⟨Ψ₁, SF⟩ := SF
    obtain ⟨Ψ', S'⟩ := S'
    have zero : ∀ {E : ℕ → ℝ} {Ψ : ℕ → Wave ℂ 0 (2 * l)}, Spectrum (spinOne l H) (spinTwo l U) ((2 * l).choose 0) E Ψ → E 0 = 0 :=
      fun {E Ψ} S => by
        have h1 := S.eigen 0 (by simp)
        have h2 := S.orth 0 (by simp) 0 (by simp)
        rw [if_pos rfl] at h2
        have h3 : ∃ x, Ψ 0 x ≠ 0 := by
          by_contra hcon
          push Not at hcon
          unfold waveInner at h2
          rw [sum_eq_zero fun x _ => by rw [hcon x, mul_zero]] at h2
          exact one_ne_zero h2.symm
        obtain ⟨x, hx⟩ := h3
        have h4 := congrFun h1 x
        have h5 : hamiltonOp (spinOne l H) (spinTwo l U) (Ψ 0) x = 0 := by
          unfold hamiltonOp oneBodyOp twoBodyOp
          simp
        rw [h5] at h4
        have := (mul_eq_zero.1 h4.symm).resolve_right hx
        exact_mod_cast this
    rw [zero S, zero SF, zero S', add_zero]
  · have h' : (0 : ℝ) < (n + m : ℕ) := Nat.cast_pos.2 h
    refine le_of_mul_le_mul_left ?_ h'
    calc ((n + m : ℕ) : ℝ) * (E 0 + F 0) = (n + m : ℕ) * E 0 + (n + m : ℕ) * F 0 := mul_add _ _ _
      _ ≤ n * E' 0 + m * E' 0 := add_le_add k1 k2
      _ = _ := by push_cast; ring

/-- **C135** For every basis set with a repulsive interaction and a one-body part bounded from below by `m` (and so for all basis
sets made from it by changes of basis, spin doubling and anti-symmetrisation, see C92): the same for the stored elements, for
half of them, which is the interaction if they are anti-symmetrised, and for the elements between spin orbitals; in orthonormal
functions another electron costs at least `m`. -/
theorem C135_physical {m : ℝ} {b : BasisSet ℂ} {l : ℕ} (hb : Physical m b l) {H U : NDArray ℂ} (hh : b.h = some H)
    (hu : b.u = some U) {n K : ℕ} (hn : n ≤ K) {E E' : ℕ → ℝ} :
    (∀ {D D'} {Ψ : ℕ → Wave ℂ n l} {Ψ' : ℕ → Wave ℂ K l}, Spectrum (arrayOne l H) (arrayTwo l U) D E Ψ →
      Spectrum (arrayOne l H) (arrayTwo l U) D' E' Ψ' → 0 < D' → K * E 0 ≤ n * E' 0) ∧
    (∀ {D D'} {Ψ : ℕ → Wave ℂ n l} {Ψ' : ℕ → Wave ℂ K l},
      Spectrum (arrayOne l H) (fun p q r s => 1 / 2 * arrayTwo l U p q r s) D E Ψ →
      Spectrum (arrayOne l H) (fun p q r s => 1 / 2 * arrayTwo l U p q r s) D' E' Ψ' → 0 < D' → K * E 0 ≤ n * E' 0) ∧
    (K ≤ 2 * l → ElectronEnergies l H U n E → ElectronEnergies l H U K E' → K * E 0 ≤ n * E' 0) ∧
    ((∀ S, b.s = some S → ∀ p < l, ∀ q < l, S.get [p, q] = if p = q then 1 else 0) →
      n + 1 ≤ 2 * l → ∀ {F}, ElectronEnergies l H U n E → ElectronEnergies l H U (n + 1) F → E 0 + m ≤ F 0) := by
  obtain ⟨H', S, hh', hS, Hh, B⟩ := hb.one
  obtain ⟨U', hu', P, -⟩ := hb.two
  obtain rfl := Option.some.inj (hh.symm.trans hh')
  obtain rfl := Option.some.inj (hu.symm.trans hu')
  refine ⟨fun S S' h0 => C135_per_particle (posU_array P) S S' hn h0,
    fun S S' h0 => C135_per_particle (fun v => ?_) S S' hn h0,
    fun hK S S' => (C135_electrons (m := 0) (F := E) P S).1 K hn hK S',
    fun hs hl F S S' => ?_⟩
  · have h1 := posU_array P v
    have h2 : ∑ p, ∑ q, ∑ r, ∑ s, star (v p q) * (1 / 2 * arrayTwo l U p q r s) * v r s =
        ((1 / 2 : ℝ) : ℂ) * ∑ p, ∑ q, ∑ r, ∑ s, star (v p q) * arrayTwo l U p q r s * v r s := by
      simp only [mul_sum]
      refine sum_congr rfl fun p _ => sum_congr rfl fun q _ => sum_congr rfl fun r _ => sum_congr rfl fun s _ => ?_
      push_cast
      ring
    rw [h2, Complex.re_ofReal_mul]
    linarith
  · obtain ⟨-, ⟨E₁, S₁⟩, -⟩ := C120_exist Hh P.herm 1
    have k1 := (C122_zero_point hb hs hh hu 1).2.2 S₁ 0 (Nat.choose_pos (by omega))
    have k2 := (C135_electrons (m := 1) P S).2 hl S₁ S'
    push_cast at k1
    linarith

/-- **C135** The reference energy of a spatial system with a repulsive interaction: per electron it is at least the lowest energy
per electron of any smaller number of electrons in the same orbitals. -/
theorem C135_reference {w : World ℂ T} {s : ℕ} {x : Sys} {b : BasisSet ℂ} (ok : SysOK w s x b) (hk : x.kind = .spatial)
    {H U : NDArray ℂ} (hh : b.h = some H) (hu : b.u = some U) (hH : HermMat x.l H) (hU : PosU x.l U) {n : ℕ} (hn : n ≤ 2 * x.n)
    {E : ℕ → ℝ} (S : ElectronEnergies x.l H U n E) :
    ∃ r, (World.referenceEnergy s).run w = (.ok r, w) ∧ (2 * x.n : ℕ) * E 0 ≤ n * (r.get []).re := by
  have hle := ok.size.le
  obtain ⟨-, ⟨E', Ψ', S'⟩, -⟩ := C120_exist hH hU.herm (2 * x.n)
  obtain ⟨r, hr, h1, -⟩ := C120_reference ok hk hh hu S'
  refine ⟨r, hr, ((C135_electrons (m := 0) (F := E) hU S).1 _ hn (by omega) ⟨Ψ', S'⟩).trans ?_⟩
  exact mul_le_mul_of_nonneg_left h1 (Nat.cast_nonneg _)

/-- **C135** The same for a general system with anti-symmetrised elements. -/
theorem C135_general_reference {w : World ℂ T} {s : ℕ} {x : Sys} {b : BasisSet ℂ} (ok : SysOK w s x b)
    (hk : x.kind = .general) {H U U' : NDArray ℂ} (hh : b.h = some H) (hu : b.u = some U') (hA : IsAntiSymmetrised x.l U U')
    (hH : HermMat x.l H) (hU : PosU x.l U) {n D : ℕ} (hn : n ≤ x.n) {E : ℕ → ℝ} {Ψ : ℕ → Wave ℂ n x.l}
    (S : Spectrum (arrayOne x.l H) (arrayTwo x.l U) D E Ψ) :
    ∃ r, (World.referenceEnergy s).run w = (.ok r, w) ∧ x.n * E 0 ≤ n * (r.get []).re := by
  obtain ⟨⟨E', Ψ', S'⟩, -⟩ := C120_exist hH hU.herm x.n
  obtain ⟨r, hr, h1, -⟩ := C120_general_reference ok hk hh hu hA S'
  refine ⟨r, hr, (C135_per_particle (posU_array hU) S S' hn (Nat.choose_pos ok.size.le)).trans ?_⟩
  exact mul_le_mul_of_nonneg_left h1 (Nat.cast_nonneg _)

/-- The two-dimensional oscillator with six functions: the lowest energy of five electrons is at least `5 / 2` times that of two,
and at least `2` (the energy quantum) above that of four. -/
example : ∃ b h u E₂ E₄ E₅, tdho (getCoulombElementsRaw 6) 6 11 4 2 1 0 = .ok b ∧ b.h = some h ∧ b.u = some u ∧
    ElectronEnergies 6 h u 2 E₂ ∧ ElectronEnergies 6 h u 4 E₄ ∧ ElectronEnergies 6 h u 5 E₅ ∧ 5 * E₂ 0 ≤ 2 * E₅ 0 ∧
    E₄ 0 + 2 ≤ E₅ 0 := by
  obtain ⟨b, h1, P⟩ := C92_tdho 6 11 4 (omega := 2) (mass := 1) two_pos one_pos 0
  obtain ⟨h, s, hh, hs, Hh, -⟩ := P.one
  obtain ⟨u, hu, PU, -⟩ := P.two
  obtain ⟨-, ⟨E₂, S₂⟩, -⟩ := C120_exist Hh PU.herm 2
  obtain ⟨-, ⟨E₄, S₄⟩, -⟩ := C120_exist Hh PU.herm 4
  obtain ⟨-, ⟨E₅, S₅⟩, -⟩ := C120_exist Hh PU.herm 5
  refine ⟨b, h, u, E₂, E₄, E₅, h1, hh, hu, S₂, S₄, S₅, ?_, ?_⟩
  · have := (C135_physical P hh hu (n := 2) (K := 5) (by norm_num) (E := E₂) (E' := E₅)).2.2.1 (by norm_num) S₂ S₅
    exact_mod_cast this
  · obtain ⟨u0, hu0, -⟩ := C45_table 6
    rw [hu0] at h1
    obtain ⟨b', h1', hf, -⟩ := tdho_ok u0 6 11 4 2 1 0
    obtain rfl : b = b' := by simpa using h1.symm.trans h1'
    exact (C135_physical P hh hu (n := 4) (K := 4) le_rfl (E := E₄) (E' := E₄)).2.2.2
      (fun S hS p hp q hq => by
        rw [← Option.some.inj (hf.s_eq.symm.trans hS)]
        exact eye_get 6 p q hp) (by norm_num) S₄ S₅

end QS.Props
