import Verif.Props.Levels
import Verif.Props.Consistent
import Verif.Props.GridFunctions
import Verif.Props.OscillatorElements

/-!
# Property C121: the energies of `N` electrons in a one-dimensional quantum dot converge
-/

namespace QS.Props

open Finset NDArray BasisSet PyM Demo Function OneDim Spec
open scoped ComplexConjugate

/-! ## Elements between functions of a box and of the line -/

/-- One-body elements of functions with the energies `e`. -/
noncomputable def levelOne (l : ℕ) (e : ℕ → ℝ) : NDArray ℂ :=
  ofFn .complex128 [l, l] fun i => if i.getD 0 0 = i.getD 1 0 then (e (i.getD 0 0) : ℂ) else 0

/-- The double integrals with the shielded Coulomb interaction `alpha / √((x - y)² + a²)` over the box `[-L, L]`. -/
noncomputable def boxTwo (l : ℕ) (L a alpha : ℝ) (ψ : ℕ → ℝ → ℝ) : NDArray ℂ :=
  ofFn .complex128 [l, l, l, l] fun i => ((∫ x in (-L)..L, ∫ y in (-L)..L, ψ (i.getD 0 0) x * ψ (i.getD 1 0) y *
    (alpha / Real.sqrt ((x - y) ^ 2 + a ^ 2)) * ψ (i.getD 2 0) x * ψ (i.getD 3 0) y : ℝ) : ℂ)

/-- The double integrals with the shielded Coulomb interaction over the whole line. -/
noncomputable def lineTwo (l : ℕ) (a alpha : ℝ) (ψ : ℕ → ℝ → ℝ) : NDArray ℂ :=
  ofFn .complex128 [l, l, l, l] fun i => ((∫ x, ∫ y, ψ (i.getD 0 0) x * ψ (i.getD 1 0) y *
    (alpha / Real.sqrt ((x - y) ^ 2 + a ^ 2)) * ψ (i.getD 2 0) x * ψ (i.getD 3 0) y : ℝ) : ℂ)

theorem levelOne_get {l p q : ℕ} (e : ℕ → ℝ) (hp : p < l) (hq : q < l) :
    (levelOne l e).get [p, q] = if p = q then (e p : ℂ) else 0 := by
  unfold levelOne
  rw [ofFn_get_of (by exact ⟨hp, hq, trivial⟩)]
  rfl

theorem levelOne_herm (l : ℕ) (e : ℕ → ℝ) : HermMat l (levelOne l e) := fun p hp q hq => by
  rw [levelOne_get e hp hq, levelOne_get e hq hp]
  by_cases h : p = q
  · subst h
    rw [if_pos rfl]
    exact (Complex.conj_ofReal _).symm
  · rw [if_neg h, if_neg (Ne.symm h), star_zero]

theorem boxTwo_get {l p q r s : ℕ} (L a alpha : ℝ) (ψ : ℕ → ℝ → ℝ) (hp : p < l) (hq : q < l) (hr : r < l) (hs : s < l) :
    (boxTwo l L a alpha ψ).get [p, q, r, s] = ((∫ x in (-L)..L, ∫ y in (-L)..L, ψ p x * ψ q y *
      (alpha / Real.sqrt ((x - y) ^ 2 + a ^ 2)) * ψ r x * ψ s y : ℝ) : ℂ) := by
  unfold boxTwo
  rw [ofFn_get_of (by exact ⟨hp, hq, hr, hs, trivial⟩)]
  rfl

theorem lineTwo_get {l p q r s : ℕ} (a alpha : ℝ) (ψ : ℕ → ℝ → ℝ) (hp : p < l) (hq : q < l) (hr : r < l) (hs : s < l) :
    (lineTwo l a alpha ψ).get [p, q, r, s] = ((∫ x, ∫ y, ψ p x * ψ q y *
      (alpha / Real.sqrt ((x - y) ^ 2 + a ^ 2)) * ψ r x * ψ s y : ℝ) : ℂ) := by
  unfold lineTwo
  rw [ofFn_get_of (by exact ⟨hp, hq, hr, hs, trivial⟩)]
  rfl

theorem boxTwo_herm (l : ℕ) (L a alpha : ℝ) (ψ : ℕ → ℝ → ℝ) : HermU l (boxTwo l L a alpha ψ) :=
  fun p hp q hq r hr s hs => by
    rw [boxTwo_get L a alpha ψ hp hq hr hs, boxTwo_get L a alpha ψ hr hs hp hq]
    refine Eq.trans ?_ (Complex.conj_ofReal _).symm
    congr 1
    refine intervalIntegral.integral_congr fun x _ => intervalIntegral.integral_congr fun y _ => ?_
    ring

theorem lineTwo_herm (l : ℕ) (a alpha : ℝ) (ψ : ℕ → ℝ → ℝ) : HermU l (lineTwo l a alpha ψ) :=
  fun p hp q hq r hr s hs => by
    rw [lineTwo_get a alpha ψ hp hq hr hs, lineTwo_get a alpha ψ hr hs hp hq]
    refine Eq.trans ?_ (Complex.conj_ofReal _).symm
    congr 1
    refine MeasureTheory.integral_congr_ae (.of_forall fun x => ?_)
    refine MeasureTheory.integral_congr_ae (.of_forall fun y => ?_)
    ring

/-! ## Energies of electrons -/

theorem electron_exists {l : ℕ} {H U : NDArray ℂ} (hh : HermMat l H) (hu : HermU l U) (N : ℕ) :
    ∃ E, ElectronEnergies l H U N E :=
  (C120_exist hh hu N).2.1

/-- Elements that agree up to phases of the functions. -/
theorem electron_near {l N : ℕ} {H U H' U' : NDArray ℂ} {E E' : ℕ → ℝ} (S : ElectronEnergies l H U N E)
    (S' : ElectronEnergies l H' U' N E') {θ : ℕ → ℂ} (hθ : ∀ p, ‖θ p‖ = 1) {ε δ : ℝ} (h0 : 0 ≤ ε) (h0' : 0 ≤ δ)
    (hε : ∀ p < l, ∀ q < l, ‖H.get [p, q] - conj (θ p) * θ q * H'.get [p, q]‖ ≤ ε)
    (hδ : ∀ p < l, ∀ q < l, ∀ r < l, ∀ s < l,
      ‖U.get [p, q, r, s] - conj (θ p * θ q) * (θ r * θ s) * U'.get [p, q, r, s]‖ ≤ δ) {k : ℕ}
    (hk : k < (2 * l).choose N) :
    |E k - E' k| ≤ N * (2 * l : ℕ) * ε + N * (N - 1 : ℕ) / 2 * (2 * l : ℕ) ^ 2 * δ := by
  obtain ⟨Ψ, S⟩ := S
  obtain ⟨Ψ', S'⟩ := S'
  refine S.near_phase S' (θ := fun p => θ (p.1 / 2)) (fun p => hθ _) (fun p q => ?_) (fun p q r s => ?_) hk
  · unfold spinOne
    split_ifs
    · exact hε _ (by omega) _ (by omega)
    · simpa using h0
  · unfold spinTwo
    split_ifs
    · exact hδ _ (by omega) _ (by omega) _ (by omega) _ (by omega)
    · simpa using h0'

/-- One accuracy for both kinds of elements. -/
theorem electron_bound {N l : ℕ} {ε : ℝ} (hε : 0 < ε) : ∃ η : ℝ, 0 < η ∧
    ∀ c ≥ 0, N * (2 * l : ℕ) * η + N * (N - 1 : ℕ) / 2 * (2 * l : ℕ) ^ 2 * (η * c) ≤ ε * (1 + c) := by
  set A : ℝ := N * (2 * l : ℕ) + N * (N - 1 : ℕ) / 2 * (2 * l : ℕ) ^ 2 with hA
  have hA1 : 0 ≤ (N : ℝ) * (2 * l : ℕ) := by positivity
  have hA2 : 0 ≤ (N : ℝ) * (N - 1 : ℕ) / 2 * (2 * l : ℕ) ^ 2 := by positivity
  refine ⟨ε / (A + 1), by positivity, fun c hc => ?_⟩
  have hle : A * (ε / (A + 1)) ≤ ε := by
    rw [mul_div_assoc', div_le_iff₀ (by positivity)]
    nlinarith
  have h1 : N * (2 * l : ℕ) * (ε / (A + 1)) ≤ ε :=
    (mul_le_mul_of_nonneg_right (by linarith) (by positivity)).trans hle
  have h2 : N * (N - 1 : ℕ) / 2 * (2 * l : ℕ) ^ 2 * (ε / (A + 1)) ≤ ε :=
    (mul_le_mul_of_nonneg_right (by linarith) (by positivity)).trans hle
  have h3 := mul_le_mul_of_nonneg_right h2 hc
  nlinarith

theorem grid_all {l : ℕ} {P : ℕ → ℕ → Prop} (h : ∀ n, ∃ N, ∀ num ≥ N, P n num) : ∃ N, ∀ num ≥ N, ∀ n < l, P n num := by
  choose N hN using h
  exact ⟨(range l).sup N, fun num hnum n hn => hN n num ((le_sup (f := N) (mem_range.2 hn)).trans hnum)⟩

theorem box_all {l : ℕ} {P : ℕ → ℝ → ℕ → Prop} (h : ∀ n, ∃ L₀ : ℝ, ∀ L ≥ L₀, ∃ N, ∀ num ≥ N, P n L num) :
    ∃ L₀ : ℝ, ∀ L ≥ L₀, ∃ N, ∀ num ≥ N, ∀ n < l, P n L num := by
  choose L₀ hL₀ using h
  refine ⟨∑ n ∈ range l, |L₀ n|, fun L hL => ?_⟩
  have h1 : ∀ n, ∃ N, ∀ num ≥ N, n < l → P n L num := fun n => by
    by_cases hn : n < l
    · obtain ⟨N, hN⟩ := hL₀ n L (((le_abs_self _).trans
        (single_le_sum (f := fun n => |L₀ n|) (fun _ _ => abs_nonneg _) (mem_range.2 hn))).trans hL)
      exact ⟨N, fun num hnum _ => hN num hnum⟩
    · exact ⟨0, fun _ _ h => absurd h hn⟩
  obtain ⟨N, hN⟩ := grid_all (l := l) h1
  exact ⟨N, fun num hnum n hn => hN num hnum n hn hn⟩

/-! ## The box -/

/-- **C121** In the limit of fine grids the energies of `N` electrons that follow from the elements of `ODQD` tend to the
energies that follow from the functions of the box: there are real functions with the energies of the box, and for every
number of orbitals and electrons, every interaction and accuracy, all energies agree on every grid that is fine enough. -/
theorem C121_box {eigh : NDArray ℂ → Except PyErr (NDArray ℂ × NDArray ℂ)} (he : IsEigh eigh) {L : ℝ} (hL : 0 < L)
    {V : ℝ → ℝ} (hV : ContinuousOn V (Set.Icc (-L) L)) :
    ∃ (e : ℕ → ℝ) (ψ : ℕ → ℝ → ℝ), StrictMono e ∧ (∀ c, BoxLevel V L c ↔ ∃ k, e k = c) ∧
      (∀ k, Continuous (ψ k) ∧ BoxState V L (e k) (ψ k)) ∧
      (∀ p q, ∫ x in (-L)..L, ψ p x * ψ q x = if p = q then 1 else 0) ∧
      ∀ (l N : ℕ) (a alpha : ℝ), a ≠ 0 → ∃ E', ElectronEnergies l (levelOne l e) (boxTwo l L a alpha ψ) N E' ∧
        ∀ ε > 0, ∃ N₀, ∀ num ≥ N₀, ∀ (beta : ℝ) (hm : Bool) (np : Module) (sp an : Bool), ∃ b h u E,
          odqd eigh l L num a alpha beta V hm np sp an = .ok b ∧ b.h = some h ∧ b.u = some u ∧
          ElectronEnergies l h u N E ∧ ∀ k < (2 * l).choose N, |E k - E' k| ≤ ε := by
  obtain ⟨e, ψ, θ, he1, he2, hψ, hov, hθ, -, -, hU⟩ := C116_converge he hL hV
  refine ⟨e, ψ, he1, he2, hψ, hov, fun l N a alpha ha => ?_⟩
  obtain ⟨E', S'⟩ := electron_exists (levelOne_herm l e) (boxTwo_herm l L a alpha ψ) N
  refine ⟨E', S', fun ε hε => ?_⟩
  obtain ⟨η, hη, hb⟩ := electron_bound (N := N) (l := l) (by linarith : 0 < ε / 2)
  obtain ⟨N₁, hN₁⟩ := grid_all (l := l) fun k => C115_levels he hL hV he1 he2 k hη
  obtain ⟨N₂, hN₂⟩ := grid_all (l := l) fun p => grid_all (l := l) fun q => grid_all (l := l) fun r =>
    grid_all (l := l) fun s => hU p q r s a alpha η ha hη
  refine ⟨max (max N₁ N₂) (l + 3), fun num hnum beta hm np sp an => ?_⟩
  have n1 : N₁ ≤ num := by omega
  have n2 : N₂ ≤ num := by omega
  have n3 : 3 ≤ num := by omega
  have n4 : l ≤ num - 2 := by omega
  obtain ⟨b, H, w, v, hok, -, -, -, -, hh, -⟩ := odqd_ok' he L n3 n4 a alpha beta V hm np sp an
  obtain ⟨b', hok', hc⟩ := C91_odqd he hL n3 n4 a alpha beta V hm np sp an
  obtain rfl : b = b' := by simpa using hok.symm.trans hok'
  obtain ⟨u, hu, hu1, -⟩ := hc.u
  obtain ⟨h, hh1, hh2⟩ := hc.h
  obtain ⟨E, S⟩ := electron_exists hh2 hu1 N
  refine ⟨b, h, u, E, hok, hh1, hu, S, fun k hk => ?_⟩
  refine (electron_near S S' (hθ num) hη.le hη.le (fun p hp q hq => ?_) (fun p hp q hq r hr s hs => ?_) hk).trans ?_
  · rw [levelOne_get e hp hq]
    by_cases hpq : p = q
    · subst hpq
      rw [if_pos rfl, Complex.conj_mul', hθ]
      obtain ⟨b', h', hok', hh', hle⟩ := hN₁ num n1 p hp l hp n4 a alpha beta hm np sp an
      obtain rfl : b = b' := by simpa using hok.symm.trans hok'
      obtain rfl : h = h' := Option.some.inj (hh1.symm.trans hh')
      simpa using hle
    · rw [if_neg hpq, mul_zero, sub_zero]
      obtain rfl := Option.some.inj (hh1.symm.trans hh)
      rw [ofFn_get_of (by exact ⟨hp, hq, trivial⟩)]
      simp only [List.getD_cons_zero, List.getD_cons_succ]
      rw [if_neg hpq, norm_zero]
      exact hη.le
  · rw [boxTwo_get L a alpha ψ hp hq hr hs]
    obtain ⟨b', u', hok', hu', hle⟩ := hN₂ num n2 p hp q hq r hr s hs l hp hq hr hs n4 beta hm np sp an
    obtain rfl : b = b' := by simpa using hok.symm.trans hok'
    obtain rfl : u = u' := Option.some.inj (hu.symm.trans hu')
    exact hle
  · have := hb 1 (by norm_num)
    rw [mul_one] at this
    linarith

/-! ## The oscillator -/

/-- **C121** The energies of `N` electrons that follow from `ODQD` with `HOPotential` and from `ODHO` agree in every box
that is large enough, on every grid that is fine enough. -/
theorem C121_oscillators {eigh : NDArray ℂ → Except PyErr (NDArray ℂ × NDArray ℂ)} (he : IsEigh eigh) {omega : ℝ}
    (ho : 0 < omega) (l N : ℕ) {ε : ℝ} (hε : 0 < ε) : ∃ L₀ : ℝ, 0 < L₀ ∧ ∀ L ≥ L₀, ∃ N₀ : ℕ, ∀ num ≥ N₀,
      ∀ (a alpha beta : ℝ) (hm : Bool) (np np' : Module) (sp an sp' an' : Bool), a ≠ 0 → ∃ b b' h h' u u' E E',
        odqd eigh l L num a alpha 0 (Potentials.Potential.ho omega).call hm np sp an = .ok b ∧
        odho l L num omega a alpha beta np' sp' an' = .ok b' ∧ b.h = some h ∧ b'.h = some h' ∧ b.u = some u ∧
        b'.u = some u' ∧ ElectronEnergies l h u N E ∧ ElectronEnergies l h' u' N E' ∧
        ∀ k < (2 * l).choose N, |E k - E' k| ≤ ε * (1 + |alpha| / |a|) := by
  obtain ⟨η, hη, hb⟩ := electron_bound (N := N) (l := l) hε
  obtain ⟨L₀, hL0, hL₀⟩ := C119_limit he ho l hη
  refine ⟨L₀, hL0, fun L hL => ?_⟩
  obtain ⟨N₀, hN₀⟩ := hL₀ L hL
  refine ⟨max N₀ (l + 3), fun num hnum a alpha beta hm np np' sp an sp' an' ha => ?_⟩
  have n1 : N₀ ≤ num := by omega
  have n3 : 3 ≤ num := by omega
  have n4 : l ≤ num - 2 := by omega
  obtain ⟨θ, hθ, hall⟩ := hN₀ num n1
  obtain ⟨b, b', s, s', h, h', d, d', u, u', k1, k2, -, -, k3, k4, -, -, k5, k6, e1, -, -, e2⟩ :=
    hall l le_rfl n4 a alpha beta hm np np' sp an sp' an' ha
  obtain ⟨b1, g1, c1⟩ := C91_odqd he (hL0.trans_le hL) n3 n4 a alpha 0 (Potentials.Potential.ho omega).call hm np sp an
  obtain rfl : b = b1 := by simpa using k1.symm.trans g1
  obtain ⟨b2, g2, c2⟩ := C91_odho l L (by omega : 2 ≤ num) omega a alpha beta np' sp' an'
  obtain rfl : b' = b2 := by simpa using k2.symm.trans g2
  obtain ⟨_, i1, i2⟩ := c1.h
  obtain rfl := Option.some.inj (i1.symm.trans k3)
  obtain ⟨_, i3, i4, -⟩ := c1.u
  obtain rfl := Option.some.inj (i3.symm.trans k5)
  obtain ⟨_, j1, j2⟩ := c2.h
  obtain rfl := Option.some.inj (j1.symm.trans k4)
  obtain ⟨_, j3, j4, -⟩ := c2.u
  obtain rfl := Option.some.inj (j3.symm.trans k6)
  obtain ⟨E, S⟩ := electron_exists i2 i4 N
  obtain ⟨E', S'⟩ := electron_exists j2 j4 N
  refine ⟨b, b', _, _, _, _, E, E', k1, k2, k3, k4, k5, k6, S, S', fun k hk => ?_⟩
  have hc : 0 ≤ |alpha| / |a| := by positivity
  refine (electron_near S S' hθ hη.le (by positivity) (fun p hp q hq => ?_) (fun p hp q hq r hr t ht => ?_) hk).trans
    (hb _ hc)
  · obtain ⟨b3, g3, -, hh3, -⟩ := odho_ok l L (by omega : 2 ≤ num) omega a alpha beta np' sp' an'
    obtain rfl : b' = b3 := by simpa using k2.symm.trans g3
    have hz := e1 p q hp hq
    obtain rfl := Option.some.inj (k4.symm.trans hh3)
    by_cases hpq : p = q
    · subst hpq
      rw [Complex.conj_mul', hθ]
      simpa using hz
    · rw [ofFn_get_of (by exact ⟨hp, hq, trivial⟩)] at hz ⊢
      simp only [List.getD_cons_zero, List.getD_cons_succ] at hz ⊢
      rw [if_neg hpq] at hz ⊢
      simpa using hz
  · exact e2 p q r t hp hq hr ht

/-- **C121** In the limit of large boxes and fine grids the energies of `N` electrons that follow from the elements of `ODHO`
tend to those of `N` electrons in the harmonic oscillator on the whole line, within the space of the first `l` functions. -/
theorem C121_line {omega : ℝ} (ho : 0 < omega) : ∃ ψ : ℕ → ℝ → ℝ,
    (∀ p x, lineHamiltonian (fun x => 1 / 2 * omega ^ 2 * x ^ 2) (ψ p) x = omega * (p + 1 / 2) * ψ p x) ∧
    (∀ p q, lineInner (ψ p) (ψ q) = if p = q then 1 else 0) ∧
    ∀ (l N : ℕ) (a alpha : ℝ), a ≠ 0 →
      ∃ E', ElectronEnergies l (levelOne l fun p => omega * (p + 1 / 2)) (lineTwo l a alpha ψ) N E' ∧
        ∀ ε > 0, ∃ L₀ : ℝ, ∀ L ≥ L₀, ∃ N₀ : ℕ, ∀ num ≥ N₀, ∀ (beta : ℝ) (np : Module) (sp an : Bool), ∃ b h u E,
          odho l L num omega a alpha beta np sp an = .ok b ∧ b.h = some h ∧ b.u = some u ∧
          ElectronEnergies l h u N E ∧ ∀ k < (2 * l).choose N, |E k - E' k| ≤ ε := by
  obtain ⟨ψ, hψ, hov, hU⟩ := C113_limit ho
  refine ⟨ψ, hψ, hov, fun l N a alpha ha => ?_⟩
  obtain ⟨E', S'⟩ := electron_exists (levelOne_herm l fun p => omega * (p + 1 / 2)) (lineTwo_herm l a alpha ψ) N
  refine ⟨E', S', fun ε hε => ?_⟩
  obtain ⟨η, hη, hb⟩ := electron_bound (N := N) (l := l) (by linarith : 0 < ε / 2)
  obtain ⟨L₀, hL₀⟩ := box_all (l := l) fun p => box_all (l := l) fun q => box_all (l := l) fun r =>
    box_all (l := l) fun s => (hU alpha a ha p q r s).2 η hη
  refine ⟨L₀, fun L hL => ?_⟩
  obtain ⟨N₀, hN₀⟩ := hL₀ L hL
  refine ⟨max N₀ 2, fun num hnum beta np sp an => ?_⟩
  have n1 : N₀ ≤ num := by omega
  have n2 : 2 ≤ num := by omega
  obtain ⟨b, hok, -, hh, -⟩ := odho_ok l L n2 omega a alpha beta np sp an
  obtain ⟨b', hok', hc⟩ := C91_odho l L n2 omega a alpha beta np sp an
  obtain rfl : b = b' := by simpa using hok.symm.trans hok'
  obtain ⟨u, hu, hu1, -⟩ := hc.u
  obtain ⟨h, hh1, hh2⟩ := hc.h
  obtain ⟨E, S⟩ := electron_exists hh2 hu1 N
  refine ⟨b, h, u, E, hok, hh1, hu, S, fun k hk => ?_⟩
  refine (electron_near S S' (θ := fun _ => 1) (fun _ => norm_one) hη.le hη.le (fun p hp q hq => ?_)
    (fun p hp q hq r hr s hs => ?_) hk).trans ?_
  · rw [levelOne_get _ hp hq]
    obtain rfl := Option.some.inj (hh1.symm.trans hh)
    rw [ofFn_get_of (by exact ⟨hp, hq, trivial⟩)]
    simp only [List.getD_cons_zero, List.getD_cons_succ, map_one, one_mul, sub_self, norm_zero]
    exact hη.le
  · rw [lineTwo_get a alpha ψ hp hq hr hs]
    obtain ⟨b', u', hok', hu', hle⟩ := hN₀ num n1 p hp q hq r hr s hs l hp hq hr hs beta np sp an
    obtain rfl : b = b' := by simpa using hok.symm.trans hok'
    obtain rfl : u = u' := Option.some.inj (hu.symm.trans hu')
    simpa using hle.le
  · have := hb 1 (by norm_num)
    rw [mul_one] at this
    linarith

/-- **C121** The same for `ODQD` with `HOPotential`: the energies of `N` electrons tend to those of the harmonic oscillator
on the whole line. -/
theorem C121_grid_line {eigh : NDArray ℂ → Except PyErr (NDArray ℂ × NDArray ℂ)} (he : IsEigh eigh) {omega : ℝ}
    (ho : 0 < omega) : ∃ ψ : ℕ → ℝ → ℝ,
    (∀ p x, lineHamiltonian (fun x => 1 / 2 * omega ^ 2 * x ^ 2) (ψ p) x = omega * (p + 1 / 2) * ψ p x) ∧
    (∀ p q, lineInner (ψ p) (ψ q) = if p = q then 1 else 0) ∧
    ∀ (l N : ℕ) (a alpha : ℝ), a ≠ 0 →
      ∃ E', ElectronEnergies l (levelOne l fun p => omega * (p + 1 / 2)) (lineTwo l a alpha ψ) N E' ∧
        ∀ ε > 0, ∃ L₀ : ℝ, ∀ L ≥ L₀, ∃ N₀ : ℕ, ∀ num ≥ N₀, ∀ (hm : Bool) (np : Module) (sp an : Bool), ∃ b h u E,
          odqd eigh l L num a alpha 0 (Potentials.Potential.ho omega).call hm np sp an = .ok b ∧ b.h = some h ∧
          b.u = some u ∧ ElectronEnergies l h u N E ∧ ∀ k < (2 * l).choose N, |E k - E' k| ≤ ε := by
  obtain ⟨ψ, hψ, hov, hall⟩ := C121_line ho
  refine ⟨ψ, hψ, hov, fun l N a alpha ha => ?_⟩
  obtain ⟨E', S', hlim⟩ := hall l N a alpha ha
  refine ⟨E', S', fun ε hε => ?_⟩
  have hc : 0 < 1 + |alpha| / |a| := by positivity
  obtain ⟨L₁, hL₁⟩ := hlim (ε / 2) (by linarith)
  obtain ⟨L₂, -, hL₂⟩ := C121_oscillators he ho l N (by positivity : 0 < ε / 2 / (1 + |alpha| / |a|))
  refine ⟨max L₁ L₂, fun L hL => ?_⟩
  obtain ⟨N₁, hN₁⟩ := hL₁ L ((le_max_left _ _).trans hL)
  obtain ⟨N₂, hN₂⟩ := hL₂ L ((le_max_right _ _).trans hL)
  refine ⟨max N₁ N₂, fun num hnum hm np sp an => ?_⟩
  obtain ⟨b1, h1, u1, E1, a1, a2, a3, a4, a5⟩ := hN₁ num ((le_max_left _ _).trans hnum) 0 np sp an
  obtain ⟨b, b', h, h', u, u', E, E'', c1, c2, c3, c4, c5, c6, c7, c8, c9⟩ :=
    hN₂ num ((le_max_right _ _).trans hnum) a alpha 0 hm np np sp an sp an ha
  obtain rfl : b1 = b' := by simpa using a1.symm.trans c2
  obtain rfl := Option.some.inj (a2.symm.trans c4)
  obtain rfl := Option.some.inj (a3.symm.trans c6)
  refine ⟨b, h, u, E, c1, c3, c5, c7, fun k hk => ?_⟩
  have q1 := a5 k hk
  have q2 := c9 k hk
  obtain ⟨_, S1⟩ := a4
  obtain ⟨_, S2⟩ := c8
  rw [← S1.unique S2 hk, div_mul_cancel₀ _ hc.ne'] at q2
  exact (abs_sub_le _ (E1 k) _).trans (by linarith)

/-! ## Example -/

/-- Two electrons in the two lowest orbitals of a dot with the frequency `1`: there are six energies, and on a fine grid in a
large box they agree with those of the oscillator on the line to `1/1000`. -/
example {eigh : NDArray ℂ → Except PyErr (NDArray ℂ × NDArray ℂ)} (he : IsEigh eigh) : ∃ (ψ : ℕ → ℝ → ℝ) (E' : ℕ → ℝ),
    ElectronEnergies 2 (levelOne 2 fun p => 1 * (p + 1 / 2)) (lineTwo 2 0.25 1 ψ) 2 E' ∧
    ∃ L₀ : ℝ, ∀ L ≥ L₀, ∃ N₀ : ℕ, ∀ num ≥ N₀, ∃ b h u E,
      odqd eigh 2 L num 0.25 1 0 (Potentials.Potential.ho 1).call true 0 false false = .ok b ∧ b.h = some h ∧
      b.u = some u ∧ ElectronEnergies 2 h u 2 E ∧ ∀ k < 6, |E k - E' k| ≤ 1 / 1000 := by
  obtain ⟨ψ, -, -, h⟩ := C121_grid_line he one_pos
  obtain ⟨E', S', h⟩ := h 2 2 0.25 1 (by norm_num)
  obtain ⟨L₀, h⟩ := h (1 / 1000) (by norm_num)
  refine ⟨ψ, E', S', L₀, fun L hL => ?_⟩
  obtain ⟨N₀, h⟩ := h L hL
  exact ⟨N₀, fun num hnum => h num hnum _ _ _ _⟩

end QS.Props
