import Verif.Lemmas.ManyBodyPositive
import Verif.Props.Levels
import Verif.Props.Positive

/-!
# Property C122: repulsion raises the energies of `N` particles
-/

namespace QS.Props

open Finset NDArray BasisSet PyM Demo Function OneDim Spec TwoDim Coulomb Idx

variable {T : Type}

/-! ## Forms -/

theorem oneForm_array {l : ℕ} (H : NDArray ℂ) (v : Fin l → ℂ) :
    ∑ p, ∑ q, star (v p) * arrayOne l H p q * v q = oneForm l H fun p => if h : p < l then v ⟨p, h⟩ else 0 := by
  unfold oneForm
  rw [sum_range]
  refine sum_congr rfl fun p _ => ?_
  rw [sum_range]
  refine sum_congr rfl fun q _ => ?_
  dsimp only
  rw [dif_pos p.2, dif_pos q.2]
  rfl

theorem pairForm_array {l : ℕ} (U : NDArray ℂ) (v : Fin l → Fin l → ℂ) :
    ∑ p, ∑ q, ∑ r, ∑ s, star (v p q) * arrayTwo l U p q r s * v r s =
      pairForm l U fun p => if h : p.1 < l ∧ p.2 < l then v ⟨p.1, h.1⟩ ⟨p.2, h.2⟩ else 0 := by
  unfold pairForm
  rw [sum_product, sum_range]
  refine sum_congr rfl fun p _ => ?_
  rw [sum_range]
  refine sum_congr rfl fun q _ => ?_
  rw [sum_product, sum_range]
  refine sum_congr rfl fun r _ => ?_
  rw [sum_range]
  refine sum_congr rfl fun s _ => ?_
  dsimp only
  rw [dif_pos ⟨p.2, q.2⟩, dif_pos ⟨r.2, s.2⟩]
  rfl

theorem norm_array {l : ℕ} {S : NDArray ℂ} (hS : ∀ p < l, ∀ q < l, S.get [p, q] = if p = q then 1 else 0) (v : Fin l → ℂ) :
    (oneForm l S fun p => if h : p < l then v ⟨p, h⟩ else 0).re = ∑ p, ‖v p‖ ^ 2 := by
  rw [← oneForm_array, Complex.re_sum]
  refine sum_congr rfl fun p _ => ?_
  rw [sum_eq_single p]
  · unfold arrayOne
    rw [hS p p.2 p p.2, if_pos rfl, mul_one]
    have : star (v p) * v p = (‖v p‖ : ℂ) ^ 2 := Complex.conj_mul' _
    rw [this, ← Complex.ofReal_pow, Complex.ofReal_re]
  · intro q _ hq
    unfold arrayOne
    rw [hS p p.2 q q.2, if_neg fun h => hq (Fin.ext h.symm), mul_zero, zero_mul]
  · intro hn
    exact absurd (mem_univ _) hn

theorem doubledTwoArr_is (l : ℕ) (U : NDArray ℂ) : IsDoubledTwoBody l U (doubledTwoArr l U) :=
  ⟨rfl, fun _ hp _ hq _ hr _ hs _ ha _ hb _ hc _ hd => doubledTwoArr_get hp hq hr hs ha hb hc hd⟩

theorem doubledMatArr_is (l : ℕ) (H : NDArray ℂ) : IsDoubledOneBody l l H (doubledMatArr l l H) :=
  ⟨rfl, fun _ hp _ hq _ ha _ hb => doubledMatArr_get hp hq ha hb⟩

theorem arrayOne_spin (l : ℕ) (H : NDArray ℂ) : arrayOne (2 * l) (doubledMatArr l l H) = spinOne l H :=
  arrayMat_doubled l l H

theorem posU_array {l : ℕ} {U : NDArray ℂ} (hU : PosU l U) (v : Fin l → Fin l → ℂ) :
    0 ≤ (∑ p, ∑ q, ∑ r, ∑ s, star (v p q) * arrayTwo l U p q r s * v r s).re := by
  rw [pairForm_array]
  exact (hU _).2

theorem posU_spin {l : ℕ} {U : NDArray ℂ} (hU : PosU l U) (v : Fin (2 * l) → Fin (2 * l) → ℂ) :
    0 ≤ (∑ p, ∑ q, ∑ r, ∑ s, star (v p q) * spinTwo l U p q r s * v r s).re := by
  rw [← arrayTwo_doubled]
  exact posU_array (hU.doubled (doubledTwoArr_is l U)) v

theorem bounded_array {m : ℝ} {l : ℕ} {H S : NDArray ℂ} (hb : BoundedBelow m l H S)
    (hS : ∀ p < l, ∀ q < l, S.get [p, q] = if p = q then 1 else 0) (v : Fin l → ℂ) :
    m * ∑ p, ‖v p‖ ^ 2 ≤ (∑ p, ∑ q, star (v p) * arrayOne l H p q * v q).re := by
  rw [oneForm_array, ← norm_array hS]
  exact hb _

theorem bounded_spin {m : ℝ} {l : ℕ} {H S : NDArray ℂ} (hb : BoundedBelow m l H S)
    (hS : ∀ p < l, ∀ q < l, S.get [p, q] = if p = q then 1 else 0) (v : Fin (2 * l) → ℂ) :
    m * ∑ p, ‖v p‖ ^ 2 ≤ (∑ p, ∑ q, star (v p) * spinOne l H p q * v q).re := by
  rw [← arrayOne_spin]
  refine bounded_array (hb.doubled (doubledMatArr_is l H) (doubledMatArr_is l S)) (fun p hp q hq => ?_) v
  obtain ⟨p, a, hp', ha, rfl⟩ := parity_cases p hp
  obtain ⟨q, b, hq', hb, rfl⟩ := parity_cases q hq
  rw [doubledMatArr_get hp' hq' ha hb, hS p hp' q hq']
  by_cases h : a = b
  · subst h
    rw [if_pos rfl]
    exact if_congr ⟨fun h => by rw [h], fun h => by omega⟩ rfl rfl
  · rw [if_neg h, if_neg (by omega)]

/-! ## Stronger interactions -/

/-- The difference of two arrays. -/
noncomputable def diffArr (shape : List ℕ) (A B : NDArray ℂ) : NDArray ℂ := ofFn .complex128 shape fun i => A.get i - B.get i

/-- **C122** If the difference of the interactions is repulsive, all energies of all numbers of particles go up (or stay). -/
theorem C122_monotone {l N D D' : ℕ} {H U U' : NDArray ℂ} {E E' : ℕ → ℝ} {Ψ Ψ' : ℕ → Wave ℂ N l}
    (S : Spectrum (arrayOne l H) (arrayTwo l U) D E Ψ) (S' : Spectrum (arrayOne l H) (arrayTwo l U') D' E' Ψ')
    (hU : PosU l (diffArr [l, l, l, l] U' U)) : ∀ k < D, E k ≤ E' k := fun k hk => by
  refine S.mono S' (fun v => by simp) (fun v => ?_) hk
  refine (posU_array hU v).trans (le_of_eq ?_)
  congr 1
  refine sum_congr rfl fun p _ => sum_congr rfl fun q _ => sum_congr rfl fun r _ => sum_congr rfl fun s _ => ?_
  unfold arrayTwo diffArr
  rw [ofFn_get_of (by exact ⟨p.2, q.2, r.2, s.2, trivial⟩)]

/-- The same for electrons with spin. -/
theorem C122_electrons {l N : ℕ} {H U U' : NDArray ℂ} {E E' : ℕ → ℝ} (S : ElectronEnergies l H U N E)
    (S' : ElectronEnergies l H U' N E') (hU : PosU l (diffArr [l, l, l, l] U' U)) :
    ∀ k < (2 * l).choose N, E k ≤ E' k := fun k hk => by
  obtain ⟨Ψ, S⟩ := S
  obtain ⟨Ψ', S'⟩ := S'
  refine S.mono S' (fun v => by simp) (fun v => ?_) hk
  refine (posU_spin hU v).trans (le_of_eq ?_)
  congr 1
  refine sum_congr rfl fun p _ => sum_congr rfl fun q _ => sum_congr rfl fun r _ => sum_congr rfl fun s _ => ?_
  unfold spinTwo diffArr
  rw [ofFn_get_of (by exact ⟨by omega, by omega, by omega, by omega, trivial⟩)]
  split_ifs <;> simp

/-! ## The zero-point energy -/

/-- **C122** With a repulsive interaction and orthonormal functions every energy of `N` particles is at least `N` times the
lower bound of the one-body part: for the stored elements, for those between spin orbitals, and for half of the stored
elements, which is the interaction if they are anti-symmetrised. -/
theorem C122_zero_point {m : ℝ} {b : BasisSet ℂ} {l : ℕ} (hb : Physical m b l)
    (hs : ∀ S, b.s = some S → ∀ p < l, ∀ q < l, S.get [p, q] = if p = q then 1 else 0) {H U : NDArray ℂ} (hh : b.h = some H)
    (hu : b.u = some U) (N : ℕ) :
    (∀ {D E Ψ}, Spectrum (N := N) (arrayOne l H) (arrayTwo l U) D E Ψ → ∀ k < D, N * m ≤ E k) ∧
    (∀ {D E Ψ}, Spectrum (N := N) (arrayOne l H) (fun p q r s => 1 / 2 * arrayTwo l U p q r s) D E Ψ →
      ∀ k < D, N * m ≤ E k) ∧
    (∀ {E}, ElectronEnergies l H U N E → ∀ k < (2 * l).choose N, N * m ≤ E k) := by
  obtain ⟨H', S, hh', hS, -, B⟩ := hb.one
  obtain ⟨U', hu', P, -⟩ := hb.two
  obtain rfl := Option.some.inj (hh.symm.trans hh')
  obtain rfl := Option.some.inj (hu.symm.trans hu')
  refine ⟨fun S k hk => S.ge (fun Φ _ => oneBody_form_ge (bounded_array B (hs _ hS)) Φ) (posU_array P) hk,
    fun S k hk => S.ge (fun Φ _ => oneBody_form_ge (bounded_array B (hs _ hS)) Φ) (fun v => ?_) hk,
    fun ⟨Ψ, S⟩ k hk => S.ge (fun Φ _ => oneBody_form_ge (bounded_spin B (hs _ hS)) Φ) (posU_spin P) hk⟩
  have h1 := posU_array P v
  have h2 : ∑ p, ∑ q, ∑ r, ∑ s, star (v p q) * (1 / 2 * arrayTwo l U p q r s) * v r s =
      ((1 / 2 : ℝ) : ℂ) * ∑ p, ∑ q, ∑ r, ∑ s, star (v p q) * arrayTwo l U p q r s * v r s := by
    simp only [mul_sum]
    refine sum_congr rfl fun p _ => sum_congr rfl fun q _ => sum_congr rfl fun r _ => sum_congr rfl fun s _ => ?_
    push_cast
    ring
  rw [h2, Complex.re_ofReal_mul]
  linarith

/-- **C122** The same after any sequence of changes of basis, spin doublings, anti-symmetrisations, casts and module
changes that ends in orthonormal functions. -/
theorem C122_history {m : ℝ} {b₀ b : BasisSet ℂ} {l₀ : ℕ} {ops : List (Op ℂ)} (hb : Physical m b₀ l₀)
    (hist : History (fun _ op => Ordinary op) b₀ ops b) : ∃ l H U, Physical m b l ∧ b.h = some H ∧ b.u = some U ∧
    ((∀ S, b.s = some S → ∀ p < l, ∀ q < l, S.get [p, q] = if p = q then 1 else 0) → ∀ N : ℕ,
      (∀ {D E Ψ}, Spectrum (N := N) (arrayOne l H) (arrayTwo l U) D E Ψ → ∀ k < D, N * m ≤ E k) ∧
      (∀ {D E Ψ}, Spectrum (N := N) (arrayOne l H) (fun p q r s => 1 / 2 * arrayTwo l U p q r s) D E Ψ →
        ∀ k < D, N * m ≤ E k) ∧
      (∀ {E}, ElectronEnergies l H U N E → ∀ k < (2 * l).choose N, N * m ≤ E k)) := by
  obtain ⟨l, P⟩ := C92_history hb hist
  obtain ⟨H, _, hh, -⟩ := P.one
  obtain ⟨U, hu, -⟩ := P.two
  exact ⟨l, H, U, P, hh, hu, fun hs N => C122_zero_point P hs hh hu N⟩

/-! ## The lowest orbitals -/

/-- **C122** With a repulsive interaction and a diagonal one-body part in ascending order every energy of `N` particles is
at least the sum of the `N` lowest one-body energies. -/
theorem C122_aufbau {l : ℕ} {H U : NDArray ℂ} {e : ℕ → ℝ}
    (hH : ∀ p < l, ∀ q < l, H.get [p, q] = if p = q then (e p : ℂ) else 0) (he : ∀ p q, p ≤ q → q < l → e p ≤ e q)
    (hU : PosU l U) (N : ℕ) :
    (∀ {D E Ψ}, Spectrum (N := N) (arrayOne l H) (arrayTwo l U) D E Ψ → ∀ k < D, ∑ i ∈ range N, e i ≤ E k) ∧
    (∀ {E}, ElectronEnergies l H U N E → ∀ k < (2 * l).choose N, ∑ i ∈ range N, e (i / 2) ≤ E k) := by
  have key : ∀ {L : ℕ} {f : ℕ → ℝ} {h : Fin L → Fin L → ℂ}, (∀ p q, h p q = if p = q then (f p : ℂ) else 0) →
      (∀ p q, p ≤ q → q < L → f p ≤ f q) → ∀ Φ : Wave ℂ N L, Antisymmetric Φ →
      (∑ i ∈ range N, f i) * ∑ x, ‖Φ x‖ ^ 2 ≤ (waveInner Φ (oneBodyOp h Φ)).re := by
    intro L f h hh hf Φ hΦ
    rw [oneBody_diag hh, Complex.ofReal_re, mul_sum]
    refine sum_le_sum fun x _ => ?_
    by_cases hx : Injective x
    · exact mul_le_mul_of_nonneg_right (aufbau_le hf hx) (sq_nonneg _)
    · rw [not_injective_zero hΦ hx]
      simp
  refine ⟨fun S k hk => S.ge (key (fun p q => ?_) he) (posU_array hU) hk,
    fun ⟨Ψ, S⟩ k hk => S.ge (key (f := fun p => e (p / 2)) (fun p q => ?_) fun p q hpq hq => he _ _ (by omega) (by omega))
      (posU_spin hU) hk⟩
  · unfold arrayOne
    rw [hH p p.2 q q.2]
    exact if_congr ⟨fun h => Fin.ext h, fun h => by rw [h]⟩ rfl rfl
  · unfold spinOne
    rw [hH _ (by omega) _ (by omega)]
    by_cases h : p = q
    · subst h
      rw [if_pos rfl, if_pos rfl, if_pos rfl]
    · rw [if_neg h]
      by_cases h2 : p.1 % 2 = q.1 % 2
      · rw [if_pos h2, if_neg fun h3 => h (Fin.ext (by omega))]
      · rw [if_neg h2]

theorem sum_pairs_div (e : ℕ → ℝ) (n : ℕ) : ∑ i ∈ range (2 * n), e (i / 2) = 2 * ∑ i ∈ range n, e i := by
  rw [sum_range_two_mul, mul_sum]
  refine sum_congr rfl fun i _ => ?_
  rw [sum_range_succ, sum_range_one, show (2 * i + 0) / 2 = i by omega, show (2 * i + 1) / 2 = i by omega]
  ring

/-- **C122** The lowest energy of the electrons of a spatial system with a repulsive interaction and a diagonal one-body
part in ascending order lies between the one-body energy of the occupied orbitals and the reference energy; without
interaction the reference energy is the lowest energy. -/
theorem C122_reference {w : World ℂ T} {s : ℕ} {x : Sys} {b : BasisSet ℂ} (ok : SysOK w s x b) (hk : x.kind = .spatial)
    {H U : NDArray ℂ} (hh : b.h = some H) (hu : b.u = some U) {e : ℕ → ℝ}
    (hH : ∀ p < x.l, ∀ q < x.l, H.get [p, q] = if p = q then (e p : ℂ) else 0) (he : ∀ p q, p ≤ q → q < x.l → e p ≤ e q)
    (hU : PosU x.l U) {E : ℕ → ℝ} (S : ElectronEnergies x.l H U (2 * x.n) E) :
    ∃ r, (World.referenceEnergy s).run w = (.ok r, w) ∧ 2 * ∑ i ∈ range x.n, e i ≤ E 0 ∧ E 0 ≤ (r.get []).re ∧
      ((∀ p < x.l, ∀ q < x.l, U.get [p, q, p, q] = 0 ∧ U.get [p, q, q, p] = 0) →
        E 0 = 2 * ∑ i ∈ range x.n, e i ∧ (r.get []).re = E 0) := by
  have hle := ok.size.le
  have h0 : 0 < (2 * x.l).choose (2 * x.n) := Nat.choose_pos (by omega)
  have h1 := (C122_aufbau hH he hU (2 * x.n)).2 S 0 h0
  rw [sum_pairs_div] at h1
  obtain ⟨Ψ, S⟩ := S
  obtain ⟨r, hr, h2, -⟩ := C120_reference ok hk hh hu S
  obtain ⟨r', hr', -, h3⟩ := World.referenceEnergy_run ok hh hu
  obtain rfl : r = r' := by
    have := hr.symm.trans hr'
    simpa using this
  refine ⟨r, hr, h1, h2, fun hz => ?_⟩
  have h4 : (r.get []).re = 2 * ∑ i ∈ range x.n, e i := by
    rw [h3, hk]
    show (energySpatial x.n H U).re = _
    unfold energySpatial
    have h5 : ∀ i ∈ range x.n, H.get [i, i] = (e i : ℂ) := fun i hi => by
      have := mem_range.1 hi
      rw [hH i (by omega) i (by omega), if_pos rfl]
    have h6 : ∀ i ∈ range x.n, ∑ j ∈ range x.n, (2 * U.get [i, j, i, j] - U.get [i, j, j, i]) = 0 := fun i hi =>
      sum_eq_zero fun j hj => by
        have hi := mem_range.1 hi
        have hj := mem_range.1 hj
        obtain ⟨h7, h8⟩ := hz i (by omega) j (by omega)
        rw [h7, h8]
        ring
    rw [sum_congr rfl h5, sum_eq_zero h6, add_zero, ← Complex.ofReal_sum, ← Complex.ofReal_ofNat, Complex.re_ofReal_mul,
      Complex.ofReal_re]
  exact ⟨le_antisymm (by linarith) h1, le_antisymm (by linarith) h2⟩

/-! ## The constructors -/

/-- A stronger or less shielded Coulomb interaction on a grid. -/
theorem coulombSum_mono {n : ℕ} (hn : 1 ≤ n) {x : ℕ → ℝ} {dx : ℝ} (hx : ∀ i, x (i + 1) - x i = dx) (hdx : 0 ≤ dx)
    (φ : ℕ → ℕ → ℂ) {alpha alpha' a a' : ℝ} (h0 : 0 ≤ alpha) (ha : alpha ≤ alpha') (h0' : a' ≠ 0) (ha' : |a'| ≤ |a|) {l : ℕ}
    {u u' : NDArray ℂ}
    (hu : ∀ p q r s, p < l → q < l → r < l → s < l → u.get [p, q, r, s] = coulombSum n x φ alpha a p q r s)
    (hu' : ∀ p q r s, p < l → q < l → r < l → s < l → u'.get [p, q, r, s] = coulombSum n x φ alpha' a' p q r s) :
    PosU l (diffArr [l, l, l, l] u' u) := by
  intro v
  have e : pairForm l (diffArr [l, l, l, l] u' u) v = ((∑ k ∈ range n ×ˢ range n,
      (pairWeight n x alpha' a' k - pairWeight n x alpha a k)
        * ‖∑ P ∈ range l ×ˢ range l, φ P.1 k.1 * φ P.2 k.2 * v P‖ ^ 2 : ℝ) : ℂ) := by
    rw [← form_rank_one (range l ×ˢ range l) (range n ×ˢ range n)
      (fun k => pairWeight n x alpha' a' k - pairWeight n x alpha a k) (fun P k => φ P.1 k.1 * φ P.2 k.2) v]
    unfold pairForm diffArr
    refine sum_congr rfl fun P hP => sum_congr rfl fun R hR => ?_
    simp only [mem_product, mem_range] at hP hR
    rw [ofFn_get_of (by exact ⟨hP.1, hP.2, hR.1, hR.2, trivial⟩), hu _ _ _ _ hP.1 hP.2 hR.1 hR.2,
      hu' _ _ _ _ hP.1 hP.2 hR.1 hR.2, coulombSum_pairs hn, coulombSum_pairs hn, ← sum_sub_distrib]
    congr 2
    refine sum_congr rfl fun k _ => ?_
    push_cast
    rw [sub_mul]
    rfl
  rw [e, Complex.ofReal_im, Complex.ofReal_re]
  refine ⟨rfl, sum_nonneg fun k _ => mul_nonneg (sub_nonneg.2 ?_) (by positivity)⟩
  unfold pairWeight
  have hw : ∀ i, 0 ≤ weight n x i := fun i => weight_nonneg hx hdx i
  refine mul_le_mul_of_nonneg_left ?_ (mul_nonneg (hw _) (hw _))
  have hp : 0 < (x k.1 - x k.2) ^ 2 + a' ^ 2 := by positivity
  exact div_le_div₀ (h0.trans ha) ha (Real.sqrt_pos.2 hp) (Real.sqrt_le_sqrt (by linarith [sq_le_sq.2 ha']))

/-- **C122** `ODHO`: all energies of all numbers of electrons go up (or stay) when the interaction becomes stronger or its
shielding weaker, and all are at least the sum of the lowest oscillator energies. -/
theorem C122_odho (l N : ℕ) {L : ℝ} (hL : 0 ≤ L) {num : ℕ} (h2 : 2 ≤ num) {omega : ℝ} (ho : 0 ≤ omega)
    {alpha alpha' a a' : ℝ} (h0 : 0 ≤ alpha) (ha : alpha ≤ alpha') (h0' : a' ≠ 0) (ha' : |a'| ≤ |a|) (beta beta' : ℝ)
    (np np' : Module) (sp an sp' an' : Bool) :
    ∃ b b' h h' u u' E E', odho l L num omega a alpha beta np sp an = .ok b ∧
      odho l L num omega a' alpha' beta' np' sp' an' = .ok b' ∧ b.h = some h ∧ b'.h = some h' ∧ b.u = some u ∧
      b'.u = some u' ∧ ElectronEnergies l h u N E ∧ ElectronEnergies l h' u' N E' ∧
      ∀ k < (2 * l).choose N, ∑ i ∈ range N, omega * ((i / 2 : ℕ) + 1 / 2) ≤ E k ∧ E k ≤ E' k := by
  obtain ⟨b, g1, F, hh, -⟩ := odho_ok l L h2 omega a alpha beta np sp an
  obtain ⟨b', g1', F', hh', -⟩ := odho_ok l L h2 omega a' alpha' beta' np' sp' an'
  obtain ⟨_, i1, P⟩ := C92_odho l hL h2 ho a h0 beta np sp an
  obtain rfl : b = _ := by simpa using g1.symm.trans i1
  obtain ⟨_, j1, P'⟩ := C92_odho l hL h2 ho a' (h0.trans ha) beta' np' sp' an'
  obtain rfl : b' = _ := by simpa using g1'.symm.trans j1
  obtain ⟨_, _, k1, -, Hh, -⟩ := P.one
  obtain rfl := Option.some.inj (hh.symm.trans k1)
  obtain ⟨_, k2, PU, -⟩ := P.two
  obtain rfl := Option.some.inj (F.u_eq.symm.trans k2)
  obtain ⟨_, _, k3, -, Hh', -⟩ := P'.one
  obtain rfl := Option.some.inj (hh'.symm.trans k3)
  obtain ⟨_, k4, PU', -⟩ := P'.two
  obtain rfl := Option.some.inj (F'.u_eq.symm.trans k4)
  obtain ⟨E, S⟩ := (C120_exist Hh PU.herm N).2.1
  obtain ⟨E', S'⟩ := (C120_exist Hh' PU'.herm N).2.1
  refine ⟨b, b', _, _, _, _, E, E', g1, g1', hh, hh', F.u_eq, F'.u_eq, S, S', fun k hk => ⟨?_, ?_⟩⟩
  · refine (C122_aufbau (e := fun p => omega * (p + 1 / 2)) (fun p hp q hq => ?_) (fun p q hpq _ => ?_) PU N).2 S k hk
    · rw [ofFn_get_of (by exact ⟨hp, hq, trivial⟩)]
      rfl
    · have : (p : ℝ) ≤ q := by exact_mod_cast hpq
      exact mul_le_mul_of_nonneg_left (by linarith) ho
  · have hden : (0 : ℝ) < (num : ℝ) - 1 := by
      have : (2 : ℝ) ≤ num := by exact_mod_cast h2
      linarith
    exact C122_electrons S S' (coulombSum_mono (by omega) (linspace_uniform L).step (div_nonneg (by linarith) hden.le) _ h0 ha
      h0' ha' (fun p q r s hp hq hr hs => ofFn_get_of (by exact ⟨hp, hq, hr, hs, trivial⟩))
      (fun p q r s hp hq hr hs => ofFn_get_of (by exact ⟨hp, hq, hr, hs, trivial⟩))) k hk

/-- **C122** `ODQD`: the same, with the sum of the lowest stored one-body energies. -/
theorem C122_odqd {eigh : NDArray ℂ → Except PyErr (NDArray ℂ × NDArray ℂ)} (he : IsEigh eigh) {l num : ℕ} (N : ℕ) {L : ℝ}
    (hL : 0 < L) (h3 : 3 ≤ num) (hl : l ≤ num - 2) {alpha alpha' a a' : ℝ} (h0 : 0 ≤ alpha) (ha : alpha ≤ alpha')
    (h0' : a' ≠ 0) (ha' : |a'| ≤ |a|) (beta beta' : ℝ) (V : ℝ → ℝ) (hm hm' : Bool) (np np' : Module)
    (sp an sp' an' : Bool) :
    ∃ b b' h h' u u' E E', odqd eigh l L num a alpha beta V hm np sp an = .ok b ∧
      odqd eigh l L num a' alpha' beta' V hm' np' sp' an' = .ok b' ∧ b.h = some h ∧ b'.h = some h' ∧ b.u = some u ∧
      b'.u = some u' ∧ ElectronEnergies l h u N E ∧ ElectronEnergies l h' u' N E' ∧
      ∀ k < (2 * l).choose N, ∑ i ∈ range N, (h.get [i / 2, i / 2]).re ≤ E k ∧ E k ≤ E' k := by
  obtain ⟨b, H, w, v, g1, hH, ev, EO, F, hh, -⟩ := odqd_ok' he L h3 hl a alpha beta V hm np sp an
  obtain ⟨b', H', w', v', g1', hH', ev', EO', F', hh', -⟩ := odqd_ok' he L h3 hl a' alpha' beta' V hm' np' sp' an'
  obtain rfl : H = H' := hH.trans hH'.symm
  obtain ⟨rfl, rfl⟩ : w = w' ∧ v = v' := by simpa using ev.symm.trans ev'
  obtain ⟨_, i1, P⟩ := C91_odqd he hL h3 hl a alpha beta V hm np sp an
  obtain rfl : b = _ := by simpa using g1.symm.trans i1
  obtain ⟨_, j1, P'⟩ := C91_odqd he hL h3 hl a' alpha' beta' V hm' np' sp' an'
  obtain rfl : b' = _ := by simpa using g1'.symm.trans j1
  obtain ⟨_, f, h, d, u, c1, -, c2, -, c3, facts⟩ := odqd_facts he hL h3 hl a alpha beta V hm np sp an
  obtain rfl : b = _ := by simpa using g1.symm.trans c1
  obtain ⟨_, k1, Hh⟩ := P.h
  obtain rfl := Option.some.inj (hh.symm.trans k1)
  obtain rfl := Option.some.inj (hh.symm.trans c2)
  obtain ⟨_, k2, HU, -⟩ := P.u
  obtain rfl := Option.some.inj (F.u_eq.symm.trans k2)
  obtain ⟨_, k3, Hh'⟩ := P'.h
  obtain rfl := Option.some.inj (hh'.symm.trans k3)
  obtain ⟨_, k4, HU', -⟩ := P'.u
  obtain rfl := Option.some.inj (F'.u_eq.symm.trans k4)
  obtain ⟨E, S⟩ := (C120_exist Hh HU N).2.1
  obtain ⟨E', S'⟩ := (C120_exist Hh' HU' N).2.1
  have hden : (0 : ℝ) < (num : ℝ) - 1 := by
    have : (3 : ℝ) ≤ num := by exact_mod_cast h3
    linarith
  have hdx : 0 ≤ (L - -L) / ((num : ℝ) - 1) := div_nonneg (by linarith) hden.le
  refine ⟨b, b', _, _, _, _, E, E', g1, g1', hh, hh', F.u_eq, F'.u_eq, S, S', fun k hk => ⟨?_, ?_⟩⟩
  · refine (C122_aufbau (e := fun p => ((ofFn .complex128 [l, l] fun i => if i.getD 0 0 = i.getD 1 0 then
        w.get [i.getD 0 0] else (0 : ℂ)).get [p, p]).re) (fun p hp q hq => ?_)
      (fun p q hpq hq => facts.sorted p q hpq hq) (coulombSum_pos (by omega) (linspace_uniform L).step hdx _ h0 a
        fun p q r s hp hq hr hs => ofFn_get_of (by exact ⟨hp, hq, hr, hs, trivial⟩)) N).2 S k hk
    by_cases hpq : p = q
    · subst hpq
      rw [if_pos rfl]
      exact Complex.ext rfl (by rw [Complex.ofReal_im]; exact facts.real p hp)
    · rw [if_neg hpq, ofFn_get_of (by exact ⟨hp, hq, trivial⟩)]
      simp only [List.getD_cons_zero, List.getD_cons_succ]
      rw [if_neg hpq]
  · exact C122_electrons S S' (coulombSum_mono (by omega) (linspace_uniform L).step hdx _ h0 ha h0' ha'
      (fun p q r s hp hq hr hs => ofFn_get_of (by exact ⟨hp, hq, hr, hs, trivial⟩))
      (fun p q r s hp hq hr hs => ofFn_get_of (by exact ⟨hp, hq, hr, hs, trivial⟩))) k hk

/-- **C122** `TwoDimensionalHarmonicOscillator`: every energy of `N` electrons is at least the sum of the lowest shell
energies. -/
theorem C122_tdho (l num N : ℕ) (radiusLength : ℝ) {omega mass : ℝ} (ho : 0 < omega) (hm : 0 < mass) (np : Module) :
    ∃ b h u E, tdho (getCoulombElementsRaw l) l num radiusLength omega mass np = .ok b ∧ b.h = some h ∧ b.u = some u ∧
      ElectronEnergies l h u N E ∧ ∀ k < (2 * l).choose N,
        ∑ i ∈ range N, omega * getShellEnergy (getIndicesNm (i / 2)).1 (getIndicesNm (i / 2)).2 ≤ E k := by
  obtain ⟨b, h1, P⟩ := C92_tdho l num radiusLength ho hm np
  obtain ⟨h, _, hh, -, Hh, -⟩ := P.one
  obtain ⟨u, hu, PU, -⟩ := P.two
  obtain ⟨E, S⟩ := (C120_exist Hh PU.herm N).2.1
  refine ⟨b, h, u, E, h1, hh, hu, S, fun k hk => ?_⟩
  obtain ⟨u', hu', -⟩ := C45_table l
  rw [hu'] at h1
  obtain ⟨b', g1, -, hh'⟩ := tdho_ok u' l num radiusLength omega mass np
  obtain rfl : b = b' := by simpa using h1.symm.trans g1
  obtain rfl := Option.some.inj (hh.symm.trans hh')
  refine (C122_aufbau (e := fun p => omega * getShellEnergy (getIndicesNm p).1 (getIndicesNm p).2) (fun p hp q hq => ?_)
    (fun p q hpq _ => ?_) PU N).2 S k hk
  · unfold oscillatorH
    rw [NDArray.smul_get, ofFn_get_of (by exact ⟨hp, hq, trivial⟩)]
    simp only [List.getD_cons_zero, List.getD_cons_succ]
    split_ifs
    · push_cast
      rfl
    · rw [mul_zero]
  · exact mul_le_mul_of_nonneg_left (by exact_mod_cast C43_monotone hpq) ho.le

/-! ## Example -/

/-- Two electrons in a two-dimensional dot with the frequency `1`, three orbitals: the fifteen energies are at least `2`. -/
example (num : ℕ) (radiusLength : ℝ) (np : Module) : ∃ b h u E,
    tdho (getCoulombElementsRaw 3) 3 num radiusLength 1 1 np = .ok b ∧ b.h = some h ∧ b.u = some u ∧
    ElectronEnergies 3 h u 2 E ∧ ∀ k < 15, 2 ≤ E k := by
  obtain ⟨b, h, u, E, h1, h2, h3, h4, h5⟩ := C122_tdho 3 num 2 radiusLength one_pos one_pos np
  refine ⟨b, h, u, E, h1, h2, h3, h4, fun k hk => ?_⟩
  have := h5 k hk
  rw [sum_range_succ, sum_range_one, show getShellEnergy (getIndicesNm (0 / 2)).1 (getIndicesNm (0 / 2)).2 = 1 by
    decide +kernel] at this
  norm_num at this
  exact this

end QS.Props
