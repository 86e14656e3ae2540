import Verif.Lemmas.SumRule
import Verif.Props.PotentialOrder

/-!
# Oscillator strengths of interacting electrons (C146)
-/

namespace QS.Props

open OneDim NDArray Spec BasisSet Finset SincDvr

/-- **C146** No single transition from the lowest state exceeds the sum. -/
theorem C146_single {N L D : ℕ} {h : Fin L → Fin L → ℂ} {u : Fin L → Fin L → Fin L → Fin L → ℂ} {E : ℕ → ℝ}
    {Ψ : ℕ → Wave ℂ N L} (S : Spectrum h u D E Ψ) (d : Fin L → Fin L → ℂ) {m : ℕ} (hm : m < D) :
    0 ≤ (E m - E 0) * ‖waveInner (Ψ m) (oneBodyOp d (Ψ 0))‖ ^ 2 ∧
      (E m - E 0) * ‖waveInner (Ψ m) (oneBodyOp d (Ψ 0))‖ ^ 2 ≤ strengthSum D E Ψ d 0 := by
  have h0 : ∀ m ∈ range D, 0 ≤ (E m - E 0) * ‖waveInner (Ψ m) (oneBodyOp d (Ψ 0))‖ ^ 2 := fun m hm =>
    mul_nonneg (sub_nonneg.2 (S.sorted 0 m (Nat.zero_le _) (mem_range.1 hm))) (sq_nonneg _)
  exact ⟨h0 m (mem_range.2 hm), single_le_sum h0 (mem_range.2 hm)⟩

theorem state_norm {N L D : ℕ} {h : Fin L → Fin L → ℂ} {u : Fin L → Fin L → Fin L → Fin L → ℂ} {E : ℕ → ℝ}
    {Ψ : ℕ → Wave ℂ N L} (S : Spectrum h u D E Ψ) {n : ℕ} (hn : n < D) : ∑ x, ‖Ψ n x‖ ^ 2 = 1 := by
  have := S.orth n hn n hn
  rw [if_pos rfl, waveInner_self] at this
  exact_mod_cast this

/-- A diagonal interaction between spin orbitals. -/
theorem spinTwo_local {l : ℕ} {U : NDArray ℂ}
    (hU : ∀ p < l, ∀ q < l, ∀ r < l, ∀ s < l, ¬(p = r ∧ q = s) → U.get [p, q, r, s] = 0) (p q r s : Fin (2 * l))
    (h : ¬(p = r ∧ q = s)) : spinTwo l U p q r s = 0 := by
  unfold spinTwo
  split_ifs with e
  · exact hU _ (by omega) _ (by omega) _ (by omega) _ (by omega) fun e' => h ⟨Fin.ext (by omega), Fin.ext (by omega)⟩
  · rfl

theorem spinDipole_diagonal {l : ℕ} {d : NDArray ℂ} {δ : ℕ → ℝ}
    (hd : ∀ p < l, ∀ q < l, d.get [0, p, q] = if p = q then (δ p : ℂ) else 0) (p q : Fin (2 * l)) :
    spinDipole l d 0 p q = if p = q then (δ (p.1 / 2) : ℂ) else 0 := by
  unfold spinDipole
  split_ifs with h1 h2 h2
  · rw [hd _ (by omega) _ (by omega), if_pos (by rw [h2])]
  · rw [hd _ (by omega) _ (by omega), if_neg fun e => h2 (Fin.ext (by omega))]
  · exact absurd (by rw [h2]) h1
  · rfl

theorem spinOne_conj {l : ℕ} {H : NDArray ℂ} (hH : ∀ p < l, ∀ q < l, H.get [p, q] = star (H.get [q, p])) (p q : Fin (2 * l)) :
    spinOne l H p q = star (spinOne l H q p) := (spinOne_herm hH q p).symm

/-! ## `ODSincDVR` -/

theorem alternating_form (l : ℕ) (v : Fin (2 * l) → ℂ) :
    0 ≤ (∑ p, ∑ q, star (v p) * alternating l p q * v q).re := by
  have key : ∑ p, ∑ q, star (v p) * alternating l p q * v q = ((∑ σ ∈ range 2,
      ‖∑ q : Fin (2 * l), if q.1 % 2 = σ then (-1) ^ (q.1 / 2) * v q else 0‖ ^ 2 : ℝ) : ℂ) := by
    push_cast
    simp only [← Complex.conj_mul', map_sum]
    simp only [sum_mul_sum]
    symm
    rw [sum_comm]
    refine sum_congr rfl fun p _ => ?_
    rw [sum_comm]
    refine sum_congr rfl fun q _ => ?_
    unfold alternating
    have h1 : p.1 % 2 < 2 := Nat.mod_lt _ two_pos
    rw [sum_eq_single (p.1 % 2)]
    · rw [if_pos rfl, map_mul, map_pow, map_neg, map_one]
      simp only [eq_comm (a := q.1 % 2), starRingEnd_apply]
      split_ifs <;> ring
    · intro σ _ hσ
      rw [if_neg fun e => hσ e.symm, map_zero, zero_mul]
    · exact fun h => absurd (mem_range.2 h1) h
  rw [key, Complex.ofReal_re]
  exact sum_nonneg fun σ _ => sq_nonneg _

/-- **C146** `ODSincDVR` with the four-index representation of `u`: for every state of `N` electrons the sum of
`(E_m - E_n) |⟨m|D|n⟩|²` is the mean value of a one-body operator without the interaction and the potential; with `beta = 0`
it is `N / 2` minus half the (non-negative) mean value of `(-1)^(p + q)`, so at most `N / 2`. -/
theorem C146_sinc {l : ℕ} (h2 : 2 ≤ l) {L : ℝ} (hL : L ≠ 0) {a alpha beta : ℝ} {V : ℝ → ℝ} {hm : Bool} {np : Module}
    {sp an : Bool} {b : BasisSet ℂ} {h u d : NDArray ℂ} (run : odSincDvr l L a alpha beta V .four hm np sp an = .ok b)
    (hh : b.h = some h) (hu : b.u = some u) (hd : b.dipole = some d) {N D : ℕ} {E : ℕ → ℝ} {Ψ : ℕ → Wave ℂ N (2 * l)}
    (S : Spectrum (spinOne l h) (spinTwo l u) D E Ψ) {n : ℕ} (hn : n < D) :
    (strengthSum D E Ψ (spinDipole l d 0) n = (meanOne (fun p q : Fin (2 * l) => if p.1 % 2 = q.1 % 2 ∧ p ≠ q then
      ((-1 / 2 * (1 + beta * (TwoDim.linspace (-L) L l (p.1 / 2) + TwoDim.linspace (-L) L l (q.1 / 2))) ^ 2 : ℝ) : ℂ) *
        ((-1) ^ (p.1 / 2) * (-1) ^ (q.1 / 2)) else 0) (Ψ n)).re) ∧
    (beta = 0 → strengthSum D E Ψ (spinDipole l d 0) n = N / 2 - 1 / 2 * (meanOne (alternating l) (Ψ n)).re) ∧
    0 ≤ (meanOne (alternating l) (Ψ n)).re ∧ (beta = 0 → strengthSum D E Ψ (spinDipole l d 0) n ≤ N / 2) := by
  rw [odSincDvr_ok h2 L a alpha beta V (by simp) hm np sp an] at run
  obtain rfl := Except.ok.inj run
  obtain rfl := Option.some.inj hh
  obtain rfl := Option.some.inj hu
  obtain rfl := Option.some.inj hd
  set x := TwoDim.linspace (-L) L l with hx
  have hl1 : ((l : ℝ) - 1) ≠ 0 := by
    have : (2 : ℝ) ≤ l := by exact_mod_cast h2
    linarith
  have hs : spacing l L ≠ 0 := by
    unfold spacing
    refine div_ne_zero ?_ hl1
    intro h
    exact hL (by linarith)
  have hxs : ∀ i : ℕ, x i = -L + i * spacing l L := fun i => by
    rw [hx]
    unfold TwoDim.linspace spacing
    ring
  have hH : ∀ p < l, ∀ q < l, p ≠ q → (sincH l L V).get [p, q] =
      (((-1 : ℝ) ^ p * (-1) ^ q / (spacing l L ^ 2 * ((p : ℝ) - q) ^ 2) : ℝ) : ℂ) := fun p hp q hq hne => by
    unfold sincH
    rw [ofFn_get_of (by exact ⟨hp, hq, trivial⟩)]
    simp only [List.getD_cons_zero, List.getD_cons_succ]
    rw [if_neg hne, zpow_sub₀ (by norm_num), zpow_natCast, zpow_natCast]
    congr 2
    rcases neg_one_pow_eq_or ℝ q with e | e <;> rw [e]
    · norm_num
    · rw [div_neg, div_one, mul_neg_one]
  have herm : ∀ p < l, ∀ q < l, (sincH l L V).get [p, q] = star ((sincH l L V).get [q, p]) := fun p hp q hq => by
    by_cases e : p = q
    · subst e
      unfold sincH
      rw [ofFn_get_of (by exact ⟨hp, hp, trivial⟩)]
      simp
    · rw [hH p hp q hq e, hH q hq p hp fun h => e h.symm]
      simp only [Complex.star_def, Complex.conj_ofReal]
      congr 1
      rw [mul_comm ((-1 : ℝ) ^ p), show ((p : ℝ) - q) ^ 2 = ((q : ℝ) - p) ^ 2 by ring]
  have hdg : ∀ p < l, ∀ q < l, (sincDip l L beta).get [0, p, q] =
      if p = q then ((x p + beta * x p ^ 2 : ℝ) : ℂ) else 0 := fun p hp q hq => by
    unfold sincDip
    rw [ofFn_get_of (by exact ⟨one_pos, hp, hq, trivial⟩)]
    rfl
  have hloc : ∀ p < l, ∀ q < l, ∀ r < l, ∀ s < l, ¬(p = r ∧ q = s) →
      (sincU l L alpha a .complex128 .four).get [p, q, r, s] = 0 := fun p hp q hq r hr s hs' hne => by
    unfold sincU
    rw [if_neg (by simp), ofFn_get_of (by exact ⟨hp, hq, hr, hs', trivial⟩)]
    exact if_neg hne
  have main := S.strength (spinOne_conj herm) (spinTwo_local hloc)
    (spinDipole_diagonal (δ := fun p => x p + beta * x p ^ 2) hdg) hn
  have el : (fun p q : Fin (2 * l) => (((-1 / 2) * ((x (p.1 / 2) + beta * x (p.1 / 2) ^ 2) -
      (x (q.1 / 2) + beta * x (q.1 / 2) ^ 2)) ^ 2 : ℝ) : ℂ) * spinOne l (sincH l L V) p q) =
      fun p q : Fin (2 * l) => if p.1 % 2 = q.1 % 2 ∧ p ≠ q then
        ((-1 / 2 * (1 + beta * (x (p.1 / 2) + x (q.1 / 2))) ^ 2 : ℝ) : ℂ) * ((-1) ^ (p.1 / 2) * (-1) ^ (q.1 / 2)) else 0 := by
    funext p q
    unfold spinOne
    by_cases e : p.1 % 2 = q.1 % 2
    · by_cases e' : p = q
      · rw [if_pos e, if_neg fun h => h.2 e', e']
        simp
      · rw [if_pos e, if_pos ⟨e, e'⟩, hH _ (by omega) _ (by omega) fun h => e' (Fin.ext (by omega))]
        have hne : ((p.1 / 2 : ℕ) : ℝ) - (q.1 / 2 : ℕ) ≠ 0 := fun h => e' (Fin.ext (by
          have : (p.1 / 2 : ℕ) = q.1 / 2 := by exact_mod_cast sub_eq_zero.1 h
          omega))
        have f : (x (p.1 / 2) + beta * x (p.1 / 2) ^ 2) - (x (q.1 / 2) + beta * x (q.1 / 2) ^ 2) =
            spacing l L * (((p.1 / 2 : ℕ) : ℝ) - (q.1 / 2 : ℕ)) * (1 + beta * (x (p.1 / 2) + x (q.1 / 2))) := by
          have : x (p.1 / 2) - x (q.1 / 2) = spacing l L * (((p.1 / 2 : ℕ) : ℝ) - (q.1 / 2 : ℕ)) := by
            rw [hxs, hxs]
            ring
          rw [← this]
          ring
        rw [f, ← Complex.ofReal_mul, show ((-1 : ℂ) ^ (p.1 / 2) * (-1) ^ (q.1 / 2)) =
          (((-1) ^ (p.1 / 2) * (-1) ^ (q.1 / 2) : ℝ) : ℂ) by push_cast; ring, ← Complex.ofReal_mul]
        congr 1
        field_simp
    · rw [if_neg e, if_neg fun h => e h.1, mul_zero]
  rw [el] at main
  have pos : 0 ≤ (meanOne (alternating l) (Ψ n)).re := by
    have := oneBody_form_ge (m := 0) (h := alternating l) (fun v => by
      rw [zero_mul]
      exact alternating_form l v) (Ψ n)
    rw [mul_zero, zero_mul] at this
    exact this
  have b0 : beta = 0 → strengthSum D E Ψ (spinDipole l (sincDip l L beta) 0) n =
      N / 2 - 1 / 2 * (meanOne (alternating l) (Ψ n)).re := fun hb => by
    rw [main]
    have e : (fun p q : Fin (2 * l) => if p.1 % 2 = q.1 % 2 ∧ p ≠ q then
        ((-1 / 2 * (1 + beta * (x (p.1 / 2) + x (q.1 / 2))) ^ 2 : ℝ) : ℂ) * ((-1) ^ (p.1 / 2) * (-1) ^ (q.1 / 2)) else 0) =
        fun p q : Fin (2 * l) => ((1 / 2 : ℝ) : ℂ) * (if p = q then 1 else 0) - ((1 / 2 : ℝ) : ℂ) * alternating l p q := by
      funext p q
      unfold alternating
      by_cases e : p.1 % 2 = q.1 % 2
      · by_cases e' : p = q
        · subst e'
          rw [if_neg fun h => h.2 rfl, if_pos rfl, if_pos rfl, ← mul_pow]
          norm_num
        · rw [if_pos ⟨e, e'⟩, if_neg e', if_pos e, hb]
          push_cast
          ring
      · rw [if_neg fun h => e h.1, if_neg fun h => e (by rw [h]), if_neg e]
        simp
    rw [e, meanOne_sub (fun p q => ((1 / 2 : ℝ) : ℂ) * (if p = q then 1 else 0)), meanOne_const, meanOne_const, meanOne_one,
      S.orth n hn n hn, if_pos rfl, Complex.sub_re, Complex.re_ofReal_mul, Complex.re_ofReal_mul, mul_one, Complex.natCast_re]
    ring
  exact ⟨main, b0, pos, fun hb => by rw [b0 hb]; linarith⟩

/-! ## `ODQD` -/

theorem spin_dipole_changed {l : ℕ} {C d : NDArray ℂ} (hC : C.shape = [l, l]) {δ : ℕ → ℝ}
    (dip : ∀ p < l, ∀ q < l, d.get [0, p, q] = ∑ k ∈ range l, star (C.get [k, p]) * (δ k : ℂ) * C.get [k, q]) :
    spinDipole l d 0 = fun p q => ((Matrix.of (spinMat l l C)).conjTranspose *
      Matrix.of (fun p q : Fin (2 * l) => if p = q then (δ (p.1 / 2) : ℂ) else 0) * Matrix.of (spinMat l l C)) p q := by
  have := spin_one_changed (C := C) (H := ofFn .complex128 [l, l] fun i => if i.getD 0 0 = i.getD 1 0 then
    (δ (i.getD 0 0) : ℂ) else 0) (H' := ofFn .complex128 [l, l] fun i => d.get [0, i.getD 0 0, i.getD 1 0]) hC
    ⟨rfl, fun p hp q hq => by
      rw [ofFn_get_of (by exact ⟨hp, hq, trivial⟩)]
      simp only [List.getD_cons_zero, List.getD_cons_succ]
      rw [dip p hp q hq]
      refine sum_congr rfl fun k hk => ?_
      rw [sum_eq_single k]
      · rw [ofFn_get_of (by exact ⟨mem_range.1 hk, mem_range.1 hk, trivial⟩), conjT_get2 C hC]
        simp only [List.getD_cons_zero, List.getD_cons_succ, if_true]
      · intro j hj hne
        rw [ofFn_get_of (by exact ⟨mem_range.1 hk, mem_range.1 hj, trivial⟩)]
        simp only [List.getD_cons_zero, List.getD_cons_succ]
        rw [if_neg fun h => hne h.symm]
        ring
      · exact fun h => absurd hk h⟩
  funext p q
  have e := congrFun (congrFun this p) q
  rw [show spinDipole l d 0 p q = spinOne l (ofFn .complex128 [l, l] fun i => d.get [0, i.getD 0 0, i.getD 1 0]) p q from ?_,
    ← e]
  · refine congrArg (fun A : Matrix (Fin (2 * l)) (Fin (2 * l)) ℂ => ((Matrix.of (spinMat l l C)).conjTranspose * A *
      Matrix.of (spinMat l l C)) p q) ?_
    ext p q
    simp only [Matrix.of_apply]
    unfold spinOne
    by_cases e1 : p = q
    · rw [e1, if_pos rfl, if_pos rfl, ofFn_get_of (by exact ⟨by omega, by omega, trivial⟩)]
      exact if_pos rfl
    · rw [if_neg e1]
      split_ifs with e2
      · rw [ofFn_get_of (by exact ⟨by omega, by omega, trivial⟩)]
        exact if_neg fun h => e1 (Fin.ext (by simp only [List.getD_cons_zero, List.getD_cons_succ] at h; omega))
      · rfl
  · unfold spinDipole spinOne
    split_ifs
    · rw [ofFn_get_of (by exact ⟨by omega, by omega, trivial⟩)]
      rfl
    · rfl

theorem neighbours_sum_le {l : ℕ} {κ : ℝ} (hκ0 : 0 ≤ κ) (p : Fin (2 * l)) :
    ∑ q : Fin (2 * l), ((if q.1 = p.1 + 2 then κ else 0) + if q.1 + 2 = p.1 then κ else 0) ≤ 2 * κ := by
  rw [sum_add_distrib]
  have s1 : ∑ q : Fin (2 * l), (if q.1 = p.1 + 2 then κ else 0) ≤ κ := by
    by_cases hlt : p.1 + 2 < 2 * l
    · rw [sum_eq_single (⟨p.1 + 2, hlt⟩ : Fin (2 * l))]
      · rw [if_pos rfl]
      · exact fun q _ hq => if_neg fun e => hq (Fin.ext e)
      · exact fun e => absurd (mem_univ _) e
    · rw [sum_eq_zero fun q _ => if_neg (by omega)]
      positivity
  have s2 : ∑ q : Fin (2 * l), (if q.1 + 2 = p.1 then κ else 0) ≤ κ := by
    by_cases hlt : 2 ≤ p.1
    · rw [sum_eq_single (⟨p.1 - 2, by omega⟩ : Fin (2 * l))]
      · rw [if_pos (by simp only; omega)]
      · exact fun q _ hq => if_neg fun e => hq (Fin.ext (by simp only; omega))
      · exact fun e => absurd (mem_univ _) e
    · rw [sum_eq_zero fun q _ => if_neg (by omega)]
      positivity
  linarith

/-- **C146** `ODQD` with all functions of the grid: for every state of `N` electrons the sum of `(E_m - E_n) |⟨m|D|n⟩|²` is at most
`N / 2 (1 + 2 |beta| L)²`, whatever the potential and the interaction are.  With `beta = 0`, a repulsive interaction and a
potential of at least `v` it is also at least `N / 2 - dx² / 2 (E_n - N v)`, so it tends to `N / 2` on finer grids. -/
theorem C146_odqd {eigh : NDArray ℂ → Except PyErr (NDArray ℂ × NDArray ℂ)} (he : IsEigh eigh) {num : ℕ} {L : ℝ} (hL : 0 < L)
    (h3 : 3 ≤ num) {a alpha beta : ℝ} {V : ℝ → ℝ} {hm : Bool} {np : Module} {sp an : Bool} {b : BasisSet ℂ} {h u d : NDArray ℂ}
    (run : odqd eigh (num - 2) L num a alpha beta V hm np sp an = .ok b) (hh : b.h = some h) (hu : b.u = some u)
    (hd : b.dipole = some d) {N D : ℕ} {E : ℕ → ℝ} {Ψ : ℕ → Wave ℂ N (2 * (num - 2))}
    (S : Spectrum (spinOne (num - 2) h) (spinTwo (num - 2) u) D E Ψ) {n : ℕ} (hn : n < D) :
    strengthSum D E Ψ (spinDipole (num - 2) d 0) n ≤ N / 2 * (1 + 2 * |beta| * L) ^ 2 ∧
    ∀ v, beta = 0 → 0 ≤ alpha → (∀ i, 1 ≤ i → i < num - 1 → v ≤ V (TwoDim.linspace (-L) L num i)) →
      N / 2 - (2 * L / ((num : ℝ) - 1)) ^ 2 / 2 * (E n - N * v) ≤ strengthSum D E Ψ (spinDipole (num - 2) d 0) n := by
  obtain ⟨b', H, U, C, run', hH, hU, hC, uni, one, two, d', -, hd', dip, -⟩ := odqd_grid he hL h3 le_rfl a alpha beta V hm np sp an
  obtain rfl := Except.ok.inj (run.symm.trans run')
  obtain rfl := Option.some.inj (hh.symm.trans hH)
  obtain rfl := Option.some.inj (hu.symm.trans hU)
  obtain rfl := Option.some.inj (hd.symm.trans hd')
  set x := TwoDim.linspace (-L) L num with hx
  set dx := 2 * L / ((num : ℝ) - 1) with hdx
  have hdx0 : 0 < dx := dx_pos hL h3
  have hxs : ∀ i : ℕ, x i = -L + i * dx := fun i => by
    rw [hx, hdx]
    unfold TwoDim.linspace
    ring
  -- on the grid
  set δ : ℕ → ℝ := fun p => x (p + 1) + beta * x (p + 1) ^ 2 with hδ
  set dg : Fin (2 * (num - 2)) → Fin (2 * (num - 2)) → ℂ := fun p q => if p = q then (δ (p.1 / 2) : ℂ) else 0 with hdg
  have iso := spin_isometry uni
  rw [← spin_one_changed hC one, ← spin_two_changed hC two] at S
  have T := S.back iso
  have dsp := spin_dipole_changed (δ := δ) hC dip
  rw [dsp, ← strengthSum_back iso]
  have loc : ∀ p < (num - 2), ∀ q < (num - 2), ∀ r < (num - 2), ∀ s < (num - 2), ¬(p = r ∧ q = s) → (gridU L alpha a num).get [p, q, r, s] = 0 :=
    fun p hp q hq r hr s hs hne => by
      unfold gridU
      rw [ofFn_get_of (by exact ⟨hp, hq, hr, hs, trivial⟩)]
      exact if_neg hne
  rw [T.strength (δ := fun p => δ (p.1 / 2)) (spinOne_conj fun p _ q _ => gridMatrix_herm V L num p q) (spinTwo_local loc)
    (fun p q => rfl) hn]
  -- the elements
  have hG : ∀ p < (num - 2), ∀ q < (num - 2), (gridMatrix V L num).get [p, q] = (fdEntry V x dx p q : ℂ) := fun p hp q hq => by
    unfold gridMatrix
    rw [ofFn_get_of (by exact ⟨hp, hq, trivial⟩), show (L - -L) / ((num : ℝ) - 1) = dx by rw [hdx]; ring]
    rfl
  have nrm := state_norm T hn
  set Χ := prodOp (fun _ => Matrix.of (spinMat (num - 2) (num - 2) C)) (Ψ n) with hΧ
  have hin : ∀ p < (num - 2), |x (p + 1)| ≤ L := fun p hp => by
    have := grid_mem hL h3 (i := p + 1) (by omega) (by omega)
    rw [← hdx, ← hxs] at this
    rw [abs_le]
    constructor <;> linarith
  -- neighbours
  have nb : ∀ p < (num - 2), ∀ q < (num - 2), (p + 1 = q ∨ q + 1 = p) → (δ p - δ q) ^ 2 ≤ dx ^ 2 * (1 + 2 * |beta| * L) ^ 2 :=
    fun p hp q hq hpq => by
      have f : δ p - δ q = (x (p + 1) - x (q + 1)) * (1 + beta * (x (p + 1) + x (q + 1))) := by
        rw [hδ]
        ring
      have g : (x (p + 1) - x (q + 1)) ^ 2 = dx ^ 2 := by
        rw [hxs, hxs]
        rcases hpq with e | e
        · rw [← e]; push_cast; ring
        · rw [← e]; push_cast; ring
      rw [f, mul_pow, g]
      refine mul_le_mul_of_nonneg_left ?_ (sq_nonneg _)
      refine sq_le_sq.2 ?_
      rw [abs_of_nonneg (by positivity : 0 ≤ 1 + 2 * |beta| * L)]
      refine (abs_add_le _ _).trans ?_
      rw [abs_one, abs_mul]
      have := (abs_add_le (x (p + 1)) (x (q + 1))).trans (add_le_add (hin p hp) (hin q hq))
      nlinarith [abs_nonneg beta]
  set κ := (1 + 2 * |beta| * L) ^ 2 with hκ
  have hκ0 : 0 ≤ κ := sq_nonneg _
  have Kn : ∀ p q : Fin (2 * (num - 2)), ‖(((-1 / 2) * (δ (p.1 / 2) - δ (q.1 / 2)) ^ 2 : ℝ) : ℂ) * spinOne (num - 2) (gridMatrix V L num) p q‖ ≤
      (if q.1 = p.1 + 2 then κ / 4 else 0) + if q.1 + 2 = p.1 then κ / 4 else 0 := fun p q => by
    have z : 0 ≤ (if q.1 = p.1 + 2 then κ / 4 else 0) + if q.1 + 2 = p.1 then κ / 4 else 0 := by
      split_ifs <;> positivity
    unfold spinOne
    by_cases e : p.1 % 2 = q.1 % 2
    · have hp : p.1 / 2 < (num - 2) := by omega
      have hq : q.1 / 2 < (num - 2) := by omega
      rw [if_pos e, hG _ hp _ hq, ← Complex.ofReal_mul, Complex.norm_real, Real.norm_eq_abs]
      unfold fdEntry
      by_cases e1 : p.1 / 2 = q.1 / 2
      · rw [if_pos e1, e1]
        simpa using z
      · rw [if_neg e1]
        by_cases e2 : p.1 / 2 + 1 = q.1 / 2 ∨ q.1 / 2 + 1 = p.1 / 2
        · rw [if_pos e2]
          have h1 := nb _ hp _ hq e2
          have h2 : -1 / 2 * (δ (p.1 / 2) - δ (q.1 / 2)) ^ 2 * (-1 / (2 * dx ^ 2)) =
              (δ (p.1 / 2) - δ (q.1 / 2)) ^ 2 / dx ^ 2 / 4 := by field_simp; ring
          rw [h2, abs_of_nonneg (by positivity)]
          have h3 : (δ (p.1 / 2) - δ (q.1 / 2)) ^ 2 / dx ^ 2 ≤ κ := by
            rw [div_le_iff₀ (by positivity)]
            linarith
          rcases e2 with e2 | e2
          · rw [if_pos (by omega : q.1 = p.1 + 2), if_neg (by omega : ¬q.1 + 2 = p.1)]
            linarith
          · rw [if_neg (by omega : ¬q.1 = p.1 + 2), if_pos (by omega : q.1 + 2 = p.1)]
            linarith
        · rw [if_neg e2, mul_zero, abs_zero]
          exact z
    · rw [if_neg e, mul_zero, norm_zero]
      exact z
  have Ks : ∀ p q : Fin (2 * (num - 2)), ‖(((-1 / 2) * (δ (p.1 / 2) - δ (q.1 / 2)) ^ 2 : ℝ) : ℂ) * spinOne (num - 2) (gridMatrix V L num) p q‖ =
      ‖(((-1 / 2) * (δ (q.1 / 2) - δ (p.1 / 2)) ^ 2 : ℝ) : ℂ) * spinOne (num - 2) (gridMatrix V L num) q p‖ := fun p q => by
    rw [norm_mul, norm_mul, spinOne_conj (fun p _ q _ => gridMatrix_herm V L num p q) p q, norm_star,
      show (δ (p.1 / 2) - δ (q.1 / 2)) ^ 2 = (δ (q.1 / 2) - δ (p.1 / 2)) ^ 2 by ring]
  constructor
  · refine (meanOne_le (κ := κ / 2) (form_le_schur Ks fun p => ?_) Χ).trans (le_of_eq ?_)
    · refine (sum_le_sum fun q _ => Kn p q).trans ?_
      have := neighbours_sum_le (κ := κ / 4) (by positivity) p
      linarith
    · rw [nrm]
      ring
  · intro v hb ha hv
    subst hb
    -- the mean value of the one-body part
    have rep : 0 ≤ (waveInner Χ (twoBodyOp (spinTwo (num - 2) (gridU L alpha a num)) Χ)).re := by
      refine twoBody_form_nonneg (fun w => ?_) Χ
      have : ∑ p, ∑ q, ∑ r, ∑ s, star (w p q) * spinTwo (num - 2) (gridU L alpha a num) p q r s * w r s =
          ∑ p, ∑ q, star (w p q) * spinTwo (num - 2) (gridU L alpha a num) p q p q * w p q := by
        refine sum_congr rfl fun p _ => sum_congr rfl fun q _ => ?_
        rw [sum_eq_single p, sum_eq_single q]
        · intro s _ hs
          rw [spinTwo_local loc _ _ _ _ fun e => hs e.2.symm]
          ring
        · exact fun e => absurd (mem_univ _) e
        · intro r _ hr
          refine sum_eq_zero fun s _ => ?_
          rw [spinTwo_local loc _ _ _ _ fun e => hr e.1.symm]
          ring
        · exact fun e => absurd (mem_univ _) e
      rw [this, Complex.re_sum]
      refine sum_nonneg fun p _ => ?_
      rw [Complex.re_sum]
      refine sum_nonneg fun q _ => ?_
      unfold spinTwo gridU
      rw [if_pos ⟨rfl, rfl⟩, ofFn_get_of (by exact ⟨by omega, by omega, by omega, by omega, trivial⟩)]
      simp only [List.getD_cons_zero, List.getD_cons_succ, and_self, if_true]
      rw [mul_right_comm, Complex.star_def, Complex.conj_mul', ← Complex.ofReal_pow, ← Complex.ofReal_mul, Complex.ofReal_re]
      positivity
    have en : E n = (meanOne (spinOne (num - 2) (gridMatrix V L num)) Χ).re +
        1 / 2 * (waveInner Χ (twoBodyOp (spinTwo (num - 2) (gridU L alpha a num)) Χ)).re := by
      have e1 := T.eigen n hn
      have e2 := congrArg (waveInner Χ) e1
      rw [waveInner_smul, ← hΧ, waveInner_self, nrm, waveInner_hamiltonOp] at e2
      have e3 := congrArg Complex.re e2
      rw [Complex.add_re, show (1 / 2 : ℂ) = ((1 / 2 : ℝ) : ℂ) by norm_num, Complex.re_ofReal_mul, Complex.ofReal_one, mul_one,
        Complex.ofReal_re] at e3
      exact e3.symm
    have low := oneBody_form_ge (m := 1 / 2 + dx ^ 2 / 2 * v) (h := fun p q : Fin (2 * (num - 2)) =>
        (((-1 / 2) * (δ (p.1 / 2) - δ (q.1 / 2)) ^ 2 : ℝ) : ℂ) * spinOne (num - 2) (gridMatrix V L num) p q -
          ((-(dx ^ 2 / 2) : ℝ) : ℂ) * spinOne (num - 2) (gridMatrix V L num) p q) (fun w => by
      have e := diagonal_form (h := fun p q : Fin (2 * (num - 2)) =>
        (((-1 / 2) * (δ (p.1 / 2) - δ (q.1 / 2)) ^ 2 : ℝ) : ℂ) * spinOne (num - 2) (gridMatrix V L num) p q)
        (h' := fun p q => ((-(dx ^ 2 / 2) : ℝ) : ℂ) * spinOne (num - 2) (gridMatrix V L num) p q)
        (d := fun p => 1 / 2 + dx ^ 2 / 2 * V (x (p.1 / 2 + 1))) (c := -(1 / 2 + dx ^ 2 / 2 * v)) (fun p q => ?_) (fun p => ?_) w
      · rw [neg_neg] at e
        exact e
      · unfold spinOne
        by_cases e : p.1 % 2 = q.1 % 2
        · have hp : p.1 / 2 < (num - 2) := by omega
          have hq : q.1 / 2 < (num - 2) := by omega
          rw [if_pos e, hG _ hp _ hq]
          unfold fdEntry
          by_cases e1 : p = q
          · rw [e1, if_pos rfl, if_pos rfl, ← Complex.ofReal_mul, ← Complex.ofReal_mul, ← Complex.ofReal_sub]
            congr 1
            field_simp
            ring
          · have e2 : ¬p.1 / 2 = q.1 / 2 := fun h => e1 (Fin.ext (by omega))
            rw [if_neg e1, if_neg e2]
            by_cases e3 : p.1 / 2 + 1 = q.1 / 2 ∨ q.1 / 2 + 1 = p.1 / 2
            · rw [if_pos e3]
              have g : (δ (p.1 / 2) - δ (q.1 / 2)) ^ 2 = dx ^ 2 := by
                rw [hδ]
                dsimp only
                rw [hxs, hxs]
                rcases e3 with e | e
                · rw [← e]; push_cast; ring
                · rw [← e]; push_cast; ring
              rw [g, ← Complex.ofReal_mul, ← Complex.ofReal_mul, ← Complex.ofReal_sub,
                show -1 / 2 * dx ^ 2 * (-1 / (2 * dx ^ 2)) - -(dx ^ 2 / 2) * (-1 / (2 * dx ^ 2)) = 0 by ring, Complex.ofReal_zero]
            · rw [if_neg e3]
              simp
        · rw [if_neg e, if_neg fun h => e (by rw [h])]
          simp
      · rw [neg_neg]
        have := hv (p.1 / 2 + 1) (by omega) (by omega)
        nlinarith [sq_nonneg dx]) Χ
    have split := meanOne_sub (fun p q : Fin (2 * (num - 2)) =>
        (((-1 / 2) * (δ (p.1 / 2) - δ (q.1 / 2)) ^ 2 : ℝ) : ℂ) * spinOne (num - 2) (gridMatrix V L num) p q)
        (fun p q => ((-(dx ^ 2 / 2) : ℝ) : ℂ) * spinOne (num - 2) (gridMatrix V L num) p q) Χ
    rw [meanOne_const] at split
    have split' := congrArg Complex.re split
    rw [Complex.sub_re, Complex.re_ofReal_mul] at split'
    rw [nrm, mul_one] at low
    change _ ≤ (meanOne _ Χ).re at low
    rw [split'] at low
    have hd2 : 0 ≤ dx ^ 2 / 2 := by positivity
    nlinarith

/-- Two electrons in a sinc-DVR box: no transition from the lowest state has `(E_m - E_0) |⟨m|D|0⟩|²` above 1. -/
example {b : BasisSet ℂ} {h u d : NDArray ℂ} (run : odSincDvr 101 10 (1 / 4) 1 0 (fun x => x ^ 2 / 8) .four = .ok b)
    (hh : b.h = some h) (hu : b.u = some u) (hd : b.dipole = some d) {D : ℕ} {E : ℕ → ℝ} {Ψ : ℕ → Wave ℂ 2 (2 * 101)}
    (S : Spectrum (spinOne 101 h) (spinTwo 101 u) D E Ψ) {m : ℕ} (hm : m < D) :
    (E m - E 0) * ‖waveInner (Ψ m) (oneBodyOp (spinDipole 101 d 0) (Ψ 0))‖ ^ 2 ≤ 1 := by
  have h1 := (C146_sinc (by norm_num) (by norm_num) run hh hu hd S (n := 0) (by omega)).2.2.2 rfl
  norm_num at h1
  exact (C146_single S _ hm).2.trans h1

end QS.Props
