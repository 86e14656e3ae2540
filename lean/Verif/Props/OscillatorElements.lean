import Verif.Lemmas.OscillatorElements
import Verif.Props.OscillatorLimit
import Verif.Props.Accuracy

/-!
# The two implementations of the one-dimensional oscillator agree in the limit (C119)
-/

namespace QS.Props

open OneDim NDArray Spec BasisSet PyM Filter Topology GridLimit GridNorm

/-- What an `ODHO` object holds. -/
theorem odho_holds (l : ℕ) {L : ℝ} {num : ℕ} (h2 : 2 ≤ num) {omega : ℝ} (ho : 0 < omega) {a : ℝ} (ha : a ≠ 0)
    (alpha beta : ℝ) (np : Module) (sp an : Bool) :
    ∃ b s h d u, odho l L num omega a alpha beta np sp an = .ok b ∧ b.spf = some s ∧ b.h = some h ∧
      b.dipole = some d ∧ b.u = some u ∧
      (∀ p i, p < l → i < num → s.get [p, i] = ((hoFunction omega p (-L + i * dx L num) : ℝ) : ℂ)) ∧
      (∀ p q, p < l → q < l → h.get [p, q] = if p = q then ((omega * (p + 1 / 2) : ℝ) : ℂ) else 0) ∧
      (∀ p q, p < l → q < l →
        d.get [0, p, q] = ((lineInner (hoFunction omega p) (fun x => x * hoFunction omega q x) : ℝ) : ℂ)) ∧
      ∀ p q r s, p < l → q < l → r < l → s < l → u.get [p, q, r, s] =
        coulombSum num (fun i => -L + i * dx L num)
          (fun p i => ((hoFunction omega p (-L + i * dx L num) : ℝ) : ℂ)) alpha a p q r s := by
  obtain ⟨b, g1, hb, hh, hd⟩ := odho_ok l L h2 omega a alpha beta np sp an
  obtain ⟨b', u, g2, hu, -, hsum⟩ := odho_sums l L h2 omega ha alpha beta np sp an
  obtain rfl : b = b' := Except.ok.inj (g1.symm.trans g2)
  refine ⟨b, _, _, _, u, g1, hb.spf_eq, hh, hd, hu, fun p i hp hi => ?_, fun p q hp hq => ?_, fun p q hp hq => ?_,
    fun p q r s hp hq hr hs => ?_⟩
  · unfold odhoSpf
    rw [ofFn_get_of (by exact ⟨hp, hi, trivial⟩)]
    simp only [List.getD_cons_zero, List.getD_cons_succ, TwoDim.linspace]
    congr 2
    unfold dx
    ring
  · rw [ofFn_get_of (by exact ⟨hp, hq, trivial⟩)]
    rfl
  · rw [ofFn_get_of (by exact ⟨by omega, hp, hq, trivial⟩), odhoDip_inner ho]
    simp only [List.getD_cons_zero, List.getD_cons_succ]
    split_ifs <;> simp
  · rw [hsum p q r s hp hq hr hs]
    unfold coulombSum coulombIntegrand
    refine congrArg _ (funext fun i => congrArg _ (funext fun j => ?_))
    simp only [Complex.conj_ofReal]
    push_cast
    rfl

theorem kernel_bound (alpha : ℝ) {a : ℝ} (ha : a ≠ 0) (z : ℝ) :
    ‖((alpha / Real.sqrt (z ^ 2 + a ^ 2) : ℝ) : ℂ)‖ ≤ |alpha| / |a| := by
  rw [Complex.norm_real, Real.norm_eq_abs, abs_div, abs_of_nonneg (Real.sqrt_nonneg _)]
  refine div_le_div_of_nonneg_left (abs_nonneg _) (abs_pos.2 ha) ?_
  rw [← Real.sqrt_sq_eq_abs]
  exact Real.sqrt_le_sqrt (by nlinarith [sq_nonneg z])

/-- **C119** `ODQD` with `HOPotential(ω)` and `ODHO` with the frequency `ω`, on the same grid, agree in the limit of a large
box with a fine grid: there is a phase for every function such that, for the first `k` functions, the elements of `h`, the
functions in the mean square, the elements of the dipole (with `beta = 0`) and the two-body elements of the first are those
of the second, multiplied with the phases, up to `ε`. -/
theorem C119_limit {eigh : NDArray ℂ → Except PyErr (NDArray ℂ × NDArray ℂ)} (he : IsEigh eigh) {omega : ℝ}
    (ho : 0 < omega) (k : ℕ) {ε : ℝ} (hε : 0 < ε) : ∃ L₀ : ℝ, 0 < L₀ ∧ ∀ L ≥ L₀, ∃ N : ℕ, ∀ num ≥ N, ∃ θ : ℕ → ℂ,
      (∀ n, ‖θ n‖ = 1) ∧ ∀ l, k ≤ l → l ≤ num - 2 → ∀ (a alpha beta : ℝ) (hm : Bool) (np np' : Module) (sp an sp' an' : Bool),
        a ≠ 0 → ∃ b b' s s' h h' d d' u u',
          odqd eigh l L num a alpha 0 (Potentials.Potential.ho omega).call hm np sp an = .ok b ∧
          odho l L num omega a alpha beta np' sp' an' = .ok b' ∧ b.spf = some s ∧ b'.spf = some s' ∧ b.h = some h ∧
          b'.h = some h' ∧ b.dipole = some d ∧ b'.dipole = some d' ∧ b.u = some u ∧ b'.u = some u' ∧
          (∀ p q, p < k → q < k → ‖h.get [p, q] - h'.get [p, q]‖ ≤ ε) ∧
          (∀ p, p < k → 2 * L / ((num : ℝ) - 1) * ∑ i ∈ Finset.range num, ‖s.get [p, i] - θ p * s'.get [p, i]‖ ^ 2 ≤ ε) ∧
          (∀ p q, p < k → q < k → ‖d.get [0, p, q] - (starRingEnd ℂ) (θ p) * θ q * d'.get [0, p, q]‖ ≤ ε) ∧
          ∀ p q r t, p < k → q < k → r < k → t < k → ‖u.get [p, q, r, t]
            - (starRingEnd ℂ) (θ p * θ q) * (θ r * θ t) * u'.get [p, q, r, t]‖ ≤ ε * (|alpha| / |a|) := by
  obtain ⟨K, hK0, hK⟩ := Oscillation.ho_moment ho k
  set A : ℝ := 2 * (k + 2) / omega with hA
  set δ := min (min (ε / 32) 1) (ε / (2 * (Real.sqrt A + Real.sqrt K + 1))) with hδ
  have hAK : 0 < Real.sqrt A + Real.sqrt K + 1 := by positivity
  have hδ0 : 0 < δ := lt_min (lt_min (by linarith) one_pos) (by positivity)
  have hδ1 : δ ≤ 1 := (min_le_left _ _).trans (min_le_right _ _)
  have hδ2 : δ ≤ ε / 32 := (min_le_left _ _).trans (min_le_left _ _)
  have hδ3 : δ * (Real.sqrt A + Real.sqrt K) ≤ ε / 2 := by
    have h1 : δ * (Real.sqrt A + Real.sqrt K + 1) ≤ ε / 2 := by
      have := mul_le_mul_of_nonneg_right (min_le_right (min (ε / 32) 1) (ε / (2 * (Real.sqrt A + Real.sqrt K + 1)))) hAK.le
      refine this.trans (le_of_eq ?_)
      field_simp
    linarith
  have hsq : δ ^ 2 ≤ δ := by nlinarith
  obtain ⟨L₁, h1, hL₁⟩ := Oscillation.ho_close ho k (lt_min (pow_pos hδ0 2) ho)
  obtain ⟨L₂, h2, hL₂⟩ := Oscillation.large_all (k := k) fun p => Oscillation.large_all (k := k) fun q =>
    Oscillation.ho_dipole ho p q (by linarith : 0 < ε / 2)
  refine ⟨max L₁ L₂, by linarith [le_max_left L₁ L₂], fun L hL => ?_⟩
  have hLp : 0 < L := by linarith [(le_max_left L₁ L₂).trans hL]
  rw [ho_call]
  obtain ⟨w, f, hwf⟩ := odqd_all he hLp fun x => 0.5 * omega ^ 2 * x ^ 2
  have hclose := hL₁ L ((le_max_left _ _).trans hL) w f fun num h3 => (hwf num h3).1
  have hdip : ∀ᶠ num in atTop, ∀ p ∈ Finset.range k, ∀ q ∈ Finset.range k, _ :=
    (eventually_all_finset (Finset.range k)).2 fun p hp => (eventually_all_finset (Finset.range k)).2 fun q hq =>
      hL₂ L ((le_max_right _ _).trans hL) p (Finset.mem_range.1 hp).le q (Finset.mem_range.1 hq).le
  have hmom : ∀ᶠ num in atTop, ∀ p ∈ Finset.range k, _ :=
    (eventually_all_finset (Finset.range k)).2 fun p hp => hK p (Finset.mem_range.1 hp) L hLp
  obtain ⟨N, hN⟩ := eventually_atTop.1 (hclose.and (hdip.and (hmom.and (eventually_ge_atTop 3))))
  refine ⟨N, fun num hnum => ?_⟩
  obtain ⟨⟨θ, hθ, hc⟩, hdip, hmom, h3⟩ := hN num hnum
  refine ⟨θ, hθ, fun l hkl hl a alpha beta hm np np' sp an sp' an' ha => ?_⟩
  obtain ⟨Fm, hb⟩ := hwf num h3
  obtain ⟨b, s, h, d, u, k1, k2, k3, k4, k5, F, k6⟩ := hb l hl a alpha 0 hm np sp an
  obtain ⟨b', s', h', d', u', g1, g2, g3, g4, g5, g6, g7, g8, g9⟩ := odho_holds l (L := L) (by omega : 2 ≤ num) ho ha
    alpha beta np' sp' an'
  have hdx : 0 < dx L num := dx_pos hLp (by omega)
  set e := dx L num with hdd
  set G : ℕ → ℕ → ℂ := fun p i => θ p * ((hoFunction omega p (-L + i * e) : ℝ) : ℂ) with hG
  have sq_congr : ∀ {z y : ℕ → ℂ}, (∀ i < num, z i = y i) → sqs e num z = sqs e num y := fun hzy => by
    unfold sqs
    congr 1
    exact Finset.sum_congr rfl fun i hi => by rw [hzy i (Finset.mem_range.1 hi)]
  have c1 : ∀ p < k, sqs e num (fun i => s.get [p, i] - G p i) ≤ δ ^ 2 := fun p hp => by
    refine le_trans (le_of_eq ?_) ((hc p hp).2.trans (min_le_left _ _))
    exact sq_congr fun i hi => by rw [(k6 p (by omega)).2 i hi]
  have c2 : ∀ p < k, sqs e num (fun i => s.get [p, i]) = 1 := fun p hp => by
    rw [← Oscillation.Fam_sqs Fm (by omega : p < num - 2)]
    exact sq_congr fun i hi => by rw [(k6 p (by omega)).2 i hi]
  have c3 : ∀ p < k, sqs e num (G p) ≤ 4 := fun p hp => by
    have h5 := sqs_add (num := num) hdx.le (fun i => s.get [p, i]) fun i => (-1 : ℂ) * (s.get [p, i] - G p i)
    rw [sqs_smul, norm_neg, norm_one, c2 p hp, one_pow, one_mul,
      sq_congr (y := G p) (fun i _ => by ring)] at h5
    nlinarith [c1 p hp]
  have henergy : ∀ p < k, w num p ≤ omega * (k + 2) := fun p hp => by
    have h6 := (abs_le.1 ((hc p hp).1.trans (min_le_right _ _))).2
    have h7 : (p : ℝ) + 1 ≤ k := by exact_mod_cast hp
    nlinarith
  have c4 : ∀ p < k, sqs e num (fun i => ((-L + i * e : ℝ) : ℂ) * s.get [p, i]) ≤ A := fun p hp => by
    have h8 := Oscillation.Fam_moment ho hLp Fm (by omega : p < num - 2)
    rw [sq_congr (y := fun i => ((-L + i * e : ℝ) : ℂ) * f num p i) fun i hi => by rw [(k6 p (by omega)).2 i hi]]
    refine h8.trans ?_
    rw [hA, div_le_div_iff₀ (by positivity) ho]
    nlinarith [henergy p hp, mul_le_mul_of_nonneg_left (henergy p hp) ho.le]
  have c5 : ∀ p < k, sqs e num (fun i => ((-L + i * e : ℝ) : ℂ) * G p i) ≤ K := fun p hp => by
    refine le_trans (le_of_eq ?_) (hmom p (Finset.mem_range.2 hp))
    have := sqs_smul (d := e) (num := num) (θ p) fun i => ((-L + i * e : ℝ) : ℂ) * (hoFunction omega p (-L + i * e) : ℂ)
    rw [hθ, one_pow, one_mul] at this
    rw [← this]
    exact sq_congr fun i _ => by simp only [hG]; ring
  refine ⟨b, b', s, s', h, h', d, d', u, u', k1, g1, k2, g2, k3, g3, k4, g4, k5, g5, fun p q hp hq => ?_,
    fun p hp => ?_, fun p q hp hq => ?_, fun p q r t hp hq hr ht => ?_⟩
  · rw [g7 p q (by omega) (by omega)]
    by_cases hpq : p = q
    · subst hpq
      rw [if_pos rfl, (k6 p (by omega)).1, ← Complex.ofReal_sub, Complex.norm_real, Real.norm_eq_abs]
      have h5 := (hc p hp).1.trans (min_le_left _ _)
      linarith
    · obtain ⟨b₂, -, w', v', q1, -, -, -, -, q2, -⟩ := odqd_ok' he L h3 hl a alpha 0 (fun x => 0.5 * omega ^ 2 * x ^ 2)
        hm np sp an
      obtain rfl : b = b₂ := Except.ok.inj (k1.symm.trans q1)
      rw [k3] at q2
      cases q2
      rw [if_neg hpq, ofFn_get_of (by exact ⟨by omega, by omega, trivial⟩)]
      simp only [List.getD_cons_zero, List.getD_cons_succ]
      rw [if_neg hpq, sub_zero, norm_zero]
      exact hε.le
  · have h5 := c1 p hp
    have h6 : sqs e num (fun i => s.get [p, i] - θ p * s'.get [p, i]) = sqs e num (fun i => s.get [p, i] - G p i) :=
      sq_congr fun i hi => by rw [g6 p i (by omega) hi]
    have h7 : sqs e num (fun i => s.get [p, i] - θ p * s'.get [p, i]) ≤ ε := by rw [h6]; linarith
    exact h7
  · rw [g8 p q (by omega) (by omega), F.dipole p q (by omega) (by omega)]
    have h5 := Oscillation.dipole_sub L hdx.le (x := fun i => ((-L + i * e : ℝ) : ℂ)) (fun i => Complex.conj_ofReal _)
      hδ0.le (c1 p hp) (c1 q hq) (c4 q hq) (c5 p hp)
    have h6 := hdip p (Finset.mem_range.2 hp) q (Finset.mem_range.2 hq)
    have e1 : (trapezoid num (fun i => -L + i * e) fun i => (starRingEnd ℂ) (G p i) * ((-L + i * e : ℝ) : ℂ) * G q i)
        = (starRingEnd ℂ) (θ p) * θ q * trapezoid num (fun i => -L + i * e) fun i =>
          (hoFunction omega p (-L + i * e) : ℂ) * ((-L + i * e : ℝ) : ℂ) * (hoFunction omega q (-L + i * e) : ℂ) := by
      unfold trapezoid
      rw [Finset.mul_sum]
      refine Finset.sum_congr rfl fun i _ => ?_
      simp only [hG, map_mul, Complex.conj_ofReal]
      ring
    rw [e1] at h5
    have h7 : ‖(starRingEnd ℂ) (θ p) * θ q * (trapezoid num (fun i => -L + i * e) fun i =>
          (hoFunction omega p (-L + i * e) : ℂ) * ((-L + i * e : ℝ) : ℂ) * (hoFunction omega q (-L + i * e) : ℂ))
        - (starRingEnd ℂ) (θ p) * θ q
          * ((lineInner (hoFunction omega p) (fun x => x * hoFunction omega q x) : ℝ) : ℂ)‖ ≤ ε / 2 := by
      rw [← mul_sub, norm_mul, norm_mul, RCLike.norm_conj, hθ, hθ, one_mul, one_mul]
      exact h6
    have h8 := (norm_add_le _ _).trans (add_le_add h5 h7)
    rw [sub_add_sub_cancel] at h8
    refine le_trans (le_of_eq ?_) (h8.trans (by linarith))
    congr 2
    simp only [zero_mul, add_zero]
    rfl
  · rw [g9 p q r t (by omega) (by omega) (by omega) (by omega), F.coulomb p q r t (by omega) (by omega) (by omega) (by omega)]
    have mem : ∀ {n}, n ∈ [p, q, r, t] → n < k := fun hn => by
      simp only [List.mem_cons, List.not_mem_nil, or_false] at hn
      rcases hn with rfl | rfl | rfl | rfl <;> assumption
    have h5 := two_body_sub (num := num) L hdx.le (F := fun p i => s.get [p, i]) (G := G)
      (K := fun i j => ((alpha / Real.sqrt (((-L + i * e) - (-L + j * e)) ^ 2 + a ^ 2) : ℝ) : ℂ)) (κ := |alpha| / |a|)
      (by positivity) (fun i j => kernel_bound alpha ha _) p q r t (fun n hn => by rw [c2 n (mem hn)]; norm_num)
      (fun n hn => c3 n (mem hn)) (fun n hn => c1 n (mem hn)) hδ0.le
    have e1 : (trapezoid num (fun i => -L + i * e) fun i => trapezoid num (fun i => -L + i * e) fun j =>
        (starRingEnd ℂ) (G p i) * (starRingEnd ℂ) (G q j)
          * ((alpha / Real.sqrt (((-L + i * e) - (-L + j * e)) ^ 2 + a ^ 2) : ℝ) : ℂ) * G r i * G t j)
        = (starRingEnd ℂ) (θ p * θ q) * (θ r * θ t) * coulombSum num (fun i => -L + i * e)
          (fun p i => ((hoFunction omega p (-L + i * e) : ℝ) : ℂ)) alpha a p q r t := by
      unfold coulombSum trapezoid
      simp only [Finset.mul_sum, ← Finset.sum_add_distrib, Finset.sum_div]
      refine Finset.sum_congr rfl fun i _ => Finset.sum_congr rfl fun j _ => ?_
      simp only [hG, map_mul, Complex.conj_ofReal]
      ring
    rw [e1] at h5
    refine le_trans (le_of_eq ?_) (h5.trans ?_)
    · rfl
    · have : 0 ≤ |alpha| / |a| := by positivity
      nlinarith

/-- **C119** The same without phases: the moduli of the elements of the dipole, and the repulsion and exchange elements. -/
theorem C119_moduli {eigh : NDArray ℂ → Except PyErr (NDArray ℂ × NDArray ℂ)} (he : IsEigh eigh) {omega : ℝ}
    (ho : 0 < omega) (k : ℕ) {ε : ℝ} (hε : 0 < ε) : ∃ L₀ : ℝ, 0 < L₀ ∧ ∀ L ≥ L₀, ∃ N : ℕ, ∀ num ≥ N,
      ∀ l, k ≤ l → l ≤ num - 2 → ∀ (a alpha beta : ℝ) (hm : Bool) (np np' : Module) (sp an sp' an' : Bool),
        a ≠ 0 → ∃ b b' d d' u u',
          odqd eigh l L num a alpha 0 (Potentials.Potential.ho omega).call hm np sp an = .ok b ∧
          odho l L num omega a alpha beta np' sp' an' = .ok b' ∧ b.dipole = some d ∧ b'.dipole = some d' ∧
          b.u = some u ∧ b'.u = some u' ∧ ∀ p q, p < k → q < k →
            |‖d.get [0, p, q]‖ - ‖d'.get [0, p, q]‖| ≤ ε ∧
            ‖u.get [p, q, p, q] - u'.get [p, q, p, q]‖ ≤ ε * (|alpha| / |a|) ∧
            ‖u.get [p, q, q, p] - u'.get [p, q, q, p]‖ ≤ ε * (|alpha| / |a|) := by
  obtain ⟨L₀, h0, h⟩ := C119_limit he ho k hε
  refine ⟨L₀, h0, fun L hL => ?_⟩
  obtain ⟨N, h⟩ := h L hL
  refine ⟨N, fun num hn l hkl hl a alpha beta hm np np' sp an sp' an' ha => ?_⟩
  obtain ⟨θ, hθ, h⟩ := h num hn
  obtain ⟨b, b', s, s', h, h', d, d', u, u', e1, e2, -, -, -, -, e3, e4, e5, e6, -, -, hd, hu⟩ :=
    h l hkl hl a alpha beta hm np np' sp an sp' an' ha
  have hz : ∀ p q, (starRingEnd ℂ) (θ p * θ q) * (θ p * θ q) = 1 := fun p q => by
    rw [Complex.conj_mul', norm_mul, hθ, hθ]
    norm_num
  refine ⟨b, b', d, d', u, u', e1, e2, e3, e4, e5, e6, fun p q hp hq => ⟨?_, ?_, ?_⟩⟩
  · have h1 := (abs_norm_sub_norm_le _ _).trans (hd p q hp hq)
    rwa [norm_mul, norm_mul, RCLike.norm_conj, hθ, hθ, one_mul, one_mul] at h1
  · have h1 := hu p q p q hp hq hp hq
    rwa [hz, one_mul] at h1
  · have h1 := hu p q q p hp hq hq hp
    rwa [mul_comm (θ q), hz, one_mul] at h1

/-- The dipole element between the two lowest functions of `HOPotential(2)` comes within `1/100` of `1/2`. -/
example {eigh : NDArray ℂ → Except PyErr (NDArray ℂ × NDArray ℂ)} (he : IsEigh eigh) : ∃ (L : ℝ) (num : ℕ) (b : BasisSet ℂ)
    (d : NDArray ℂ), odqd eigh 2 L num 0.25 1 0 (Potentials.Potential.ho 2).call = .ok b ∧ b.dipole = some d ∧
      |‖d.get [0, 0, 1]‖ - 1 / 2| ≤ 1 / 100 := by
  obtain ⟨L, -, h1⟩ := C119_moduli he (omega := 2) (by norm_num) 2 (ε := 1 / 100) (by norm_num)
  obtain ⟨N, h1⟩ := h1 L le_rfl
  obtain ⟨b, b', d, d', _, _, e1, e2, e3, e4, -, -, h⟩ := h1 (N + 4) (by omega) 2 le_rfl (by omega) 0.25 1 0 false 0 0
    false false false false (by norm_num)
  refine ⟨L, N + 4, b, d, e1, e3, ?_⟩
  have h2 := (h 0 1 (by norm_num) (by norm_num)).1
  obtain ⟨b₂, g1, -, -, g2⟩ := odho_ok 2 L (by omega : 2 ≤ N + 4) 2 0.25 1 0 0 false false
  obtain rfl : b' = b₂ := Except.ok.inj (e2.symm.trans g1)
  obtain rfl := Option.some.inj (e4.symm.trans g2)
  have h3 : odhoDip 2 0 = 1 / 2 := by
    rw [odhoDip_eq (by norm_num), show (((0 : ℕ) : ℝ) + 1) / (2 * 2) = (1 / 2) ^ 2 by norm_num, Real.sqrt_sq (by norm_num)]
  rw [ofFn_get_of (by exact ⟨by omega, by omega, by omega, trivial⟩)] at h2
  simp only [List.getD_cons_zero, List.getD_cons_succ, zero_add, if_true, h3] at h2
  norm_num at h2 ⊢
  exact h2

end QS.Props
