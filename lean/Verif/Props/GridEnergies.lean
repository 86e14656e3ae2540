import Verif.Lemmas.FiniteDifference
import Verif.Lemmas.Trapezoid
import Verif.Props.OneDimSpectrum

/-!
# The energies of the one-dimensional quantum dots are accurate to second order (C114)
-/

namespace QS.Props

open OneDim NDArray Spec BasisSet PyM

/-- The matrix that `odqd` diagonalises. -/
noncomputable def gridMatrix (V : ℝ → ℝ) (L : ℝ) (num : ℕ) : NDArray ℂ :=
  ofFn .float64 [num - 2, num - 2] (fun i => (fdEntry V (TwoDim.linspace (-L) L num)
    ((L - -L) / ((num : ℝ) - 1)) (i.getD 0 0) (i.getD 1 0) : ℂ))

theorem gridMatrix_herm (V : ℝ → ℝ) (L : ℝ) (num : ℕ) (i j : ℕ) :
    (gridMatrix V L num).get [i, j] = (starRingEnd ℂ) ((gridMatrix V L num).get [j, i]) := by
  unfold gridMatrix
  by_cases hi : i < num - 2 ∧ j < num - 2
  · rw [ofFn_get_of (by exact ⟨hi.1, hi.2, trivial⟩), ofFn_get_of (by exact ⟨hi.2, hi.1, trivial⟩)]
    simp only [List.getD_cons_zero, List.getD_cons_succ, Complex.conj_ofReal]
    rw [fdEntry_symm]
  · rw [ofFn_get, ofFn_get, if_neg (fun h => hi ⟨h.1, h.2.1⟩), if_neg (fun h => hi ⟨h.2.1, h.1⟩), map_zero]

theorem gridMatrix_apply (V : ℝ → ℝ) (L : ℝ) {num k : ℕ} (hk : k < num - 2) (f : ℕ → ℂ) (h0 : f 0 = 0)
    (h1 : f (num - 1) = 0) :
    ∑ j ∈ Finset.range (num - 2), (gridMatrix V L num).get [k, j] * f (j + 1)
      = gridHamiltonian (2 * L / ((num : ℝ) - 1)) (fun i => -L + i * (2 * L / ((num : ℝ) - 1))) V f (k + 1) := by
  rw [gridHamiltonian_interior V _ _ hk f h0 h1]
  refine Finset.sum_congr rfl fun j hj => ?_
  have hd : (L - -L) / ((num : ℝ) - 1) = 2 * L / ((num : ℝ) - 1) := by ring
  have hlin : TwoDim.linspace (-L) L num = fun i : ℕ => -L + i * (2 * L / ((num : ℝ) - 1)) := by
    funext i
    unfold TwoDim.linspace
    rw [hd]
  unfold gridMatrix
  rw [ofFn_get_of (by exact ⟨hk, Finset.mem_range.1 hj, trivial⟩), hd, hlin]
  rfl

/-- Fine enough grids. -/
theorem exists_spacing (L : ℝ) {δ : ℝ} (hδ : 0 < δ) :
    ∃ N : ℕ, 3 ≤ N ∧ ∀ num ≥ N, 2 * L / ((num : ℝ) - 1) ≤ δ := by
  obtain ⟨N, hN⟩ := exists_nat_ge (2 * L / δ)
  refine ⟨N + 3, by omega, fun num hnum => ?_⟩
  have h1 : ((N + 3 : ℕ) : ℝ) ≤ num := by exact_mod_cast hnum
  push_cast at h1
  have h0 : (0 : ℝ) ≤ N := Nat.cast_nonneg N
  rw [div_le_iff₀ (by linarith)]
  rw [div_le_iff₀ hδ] at hN
  nlinarith

theorem grid_mem {L : ℝ} (hL : 0 < L) {num : ℕ} (h3 : 3 ≤ num) {i : ℕ} (hi : 1 ≤ i) (hi' : i < num - 1) :
    -L + 2 * L / ((num : ℝ) - 1) ≤ -L + i * (2 * L / ((num : ℝ) - 1)) ∧
      -L + i * (2 * L / ((num : ℝ) - 1)) + 2 * L / ((num : ℝ) - 1) ≤ L := by
  have hdx := dx_pos hL h3
  have hn : (0 : ℝ) < (num : ℝ) - 1 := by
    have : (3 : ℝ) ≤ num := by exact_mod_cast h3
    linarith
  have h1 : (1 : ℝ) ≤ i := by exact_mod_cast hi
  have h2 : (i : ℝ) + 1 ≤ (num : ℝ) - 1 := by
    have : ((i + 2 : ℕ) : ℝ) ≤ num := by exact_mod_cast (by omega : i + 2 ≤ num)
    push_cast at this
    linarith
  constructor
  · nlinarith
  · have h4 : ((num : ℝ) - 1) * (2 * L / ((num : ℝ) - 1)) = 2 * L := by field_simp
    nlinarith

theorem grid_last (L : ℝ) {num : ℕ} (h3 : 3 ≤ num) :
    -L + ((num - 1 : ℕ) : ℝ) * (2 * L / ((num : ℝ) - 1)) = L := by
  have hn : (0 : ℝ) < (num : ℝ) - 1 := by
    have : (3 : ℝ) ≤ num := by exact_mod_cast h3
    linarith
  rw [Nat.cast_sub (by omega), Nat.cast_one]
  field_simp
  ring

/-- The sum of the squares of a smooth function on fine grids. -/
theorem norm_lower {L : ℝ} (hL : 0 < L) {ψ : ℝ → ℝ} (hψ : ContDiff ℝ 2 ψ) (hl : ψ (-L) = 0) (hr : ψ L = 0)
    (hne : ∃ x ∈ Set.Icc (-L) L, ψ x ≠ 0) : ∃ I > 0, ∃ N : ℕ, 3 ≤ N ∧ ∀ num ≥ N,
      I ≤ (2 * L / ((num : ℝ) - 1)) * ∑ k ∈ Finset.range (num - 2),
        ψ (-L + (k + 1 : ℕ) * (2 * L / ((num : ℝ) - 1))) ^ 2 := by
  have hF : ContDiff ℝ 2 fun x => ((ψ x ^ 2 : ℝ) : ℂ) := Complex.ofRealCLM.contDiff.comp (hψ.pow 2)
  set F : ℝ → ℂ := fun x => ((ψ x ^ 2 : ℝ) : ℂ) with hFd
  have hd1 : Differentiable ℝ F := hF.differentiable (by norm_num)
  have hF1 : ContDiff ℝ 1 (deriv F) := ((contDiff_succ_iff_deriv (n := 1)).1 hF).2.2
  have hd2 : Differentiable ℝ (deriv F) := hF1.differentiable (by norm_num)
  have hc : Continuous (deriv (deriv F)) := hF1.continuous_deriv (by norm_num)
  obtain ⟨M, hM⟩ := (isCompact_Icc (a := -L) (b := L)).exists_bound_of_continuousOn hc.continuousOn
  have hI : 0 < ∫ x in (-L)..L, ψ x ^ 2 := by
    obtain ⟨x, hx, hx'⟩ := hne
    exact intervalIntegral.integral_pos (by linarith) (hψ.continuous.pow 2).continuousOn (fun x _ => sq_nonneg _)
      ⟨x, hx, by positivity⟩
  set I := ∫ x in (-L)..L, ψ x ^ 2 with hIe
  obtain ⟨N, h3, hN⟩ := exists_spacing L (δ := min 1 (3 * I / (L * (|M| + 1)))) (lt_min one_pos (by positivity))
  refine ⟨I / 2, by linarith, N, h3, fun num hnum => ?_⟩
  have hs := hN num hnum
  have h3' : 3 ≤ num := by omega
  have hdx := dx_pos hL h3'
  have hlast := grid_last L h3'
  rw [Nat.cast_sub (by omega), Nat.cast_one] at hlast
  have hn : (0 : ℝ) < (num : ℝ) - 1 := by
    have : (3 : ℝ) ≤ num := by exact_mod_cast h3'
    linarith
  have hmul : ((num : ℝ) - 1) * (2 * L / ((num : ℝ) - 1)) = 2 * L := by field_simp
  set dx := 2 * L / ((num : ℝ) - 1) with hdxe
  have herr := Trapezoid.error (f := F) (f' := deriv F) (f'' := deriv (deriv F)) (n := num) (by omega) (-L) hdx.le
    (fun x => (hd1 x).hasDerivAt) (fun x => (hd2 x).hasDerivAt) hc (M := |M|)
    (fun x hx => by rw [hlast] at hx; exact (hM x hx).trans (le_abs_self M))
  have hx : ∀ i : ℕ, (-L + ((i + 1 : ℕ) : ℝ) * dx) - (-L + i * dx) = dx := by intro i; push_cast; ring
  rw [hlast, trapezoid_ends hx (by omega) _ (by simp [hFd, hl]) (by
    rw [grid_last L h3']; simp [hFd, hr]), hFd, intervalIntegral.integral_ofReal] at herr
  have e : (dx : ℂ) * ∑ k ∈ Finset.range (num - 2), ((ψ (-L + (k + 1 : ℕ) * dx) ^ 2 : ℝ) : ℂ)
      - ((∫ x in (-L)..L, ψ x ^ 2 : ℝ) : ℂ)
      = ((dx * ∑ k ∈ Finset.range (num - 2), ψ (-L + (k + 1 : ℕ) * dx) ^ 2 - I : ℝ) : ℂ) := by
    rw [← hIe]
    generalize I = y
    push_cast
    rfl
  rw [e, Complex.norm_real, Real.norm_eq_abs] at herr
  have h4 := (abs_le.1 herr).1
  have h5 : dx ≤ 1 := hs.trans (min_le_left _ _)
  have h6 : dx * (L * (|M| + 1)) ≤ 3 * I := (le_div_iff₀ (by positivity)).1 (hs.trans (min_le_right _ _))
  have h7 : ((num : ℝ) - 1) * (|M| * dx ^ 3 / 12) ≤ I / 2 := by
    have : ((num : ℝ) - 1) * (|M| * dx ^ 3 / 12) = L * |M| * dx ^ 2 / 6 := by
      calc _ = (((num : ℝ) - 1) * dx) * |M| * dx ^ 2 / 12 := by ring
        _ = _ := by rw [hmul]; ring
    rw [this]
    have h8 : L * |M| * dx ^ 2 ≤ dx * (L * (|M| + 1)) := by
      have : 0 ≤ L * |M| := by positivity
      nlinarith [mul_nonneg this (mul_nonneg hdx.le (sub_nonneg.2 h5)), mul_pos hL hdx]
    linarith
  linarith

/-- Every exact level of the box is near a level of the grid. -/
theorem grid_level {L : ℝ} (hL : 0 < L) {V ψ : ℝ → ℝ} {E : ℝ} (hψ : ContDiff ℝ 4 ψ)
    (heq : ∀ x ∈ Set.Icc (-L) L, lineHamiltonian V ψ x = E * ψ x) (hl : ψ (-L) = 0) (hr : ψ L = 0)
    (hne : ∃ x ∈ Set.Icc (-L) L, ψ x ≠ 0) : ∃ C > 0, ∃ N : ℕ, 3 ≤ N ∧ ∀ num ≥ N, ∀ w v,
      EighOK (num - 2) (gridMatrix V L num) w v →
        ∃ p < num - 2, ‖w.get [p] - E‖ ≤ C * (2 * L / ((num : ℝ) - 1)) ^ 2 := by
  obtain ⟨K, hK, hcen⟩ := FiniteDifference.central_contDiff hψ L
  obtain ⟨I, hI, N, h3, hN⟩ := norm_lower hL (hψ.of_le (by norm_num)) hl hr hne
  refine ⟨Real.sqrt (L * K ^ 2 / (2 * I)) + 1, by positivity, N, h3, fun num hnum w v F => ?_⟩
  have h3' : 3 ≤ num := by omega
  have hdx := dx_pos hL h3'
  have hn : (0 : ℝ) < (num : ℝ) - 1 := by
    have : (3 : ℝ) ≤ num := by exact_mod_cast h3'
    linarith
  have hmul : ((num : ℝ) - 1) * (2 * L / ((num : ℝ) - 1)) = 2 * L := by field_simp
  have hlast := grid_last L h3'
  have hNn := hN num hnum
  obtain ⟨p, hp, hres⟩ := FiniteDifference.residual (by omega : 0 < num - 2) F (gridMatrix_herm V L num)
    (fun k => ((ψ (-L + (k + 1 : ℕ) * (2 * L / ((num : ℝ) - 1))) : ℝ) : ℂ)) E
  refine ⟨p, hp, ?_⟩
  have hrow : ∀ j ∈ Finset.range (num - 2), ‖∑ k ∈ Finset.range (num - 2), (gridMatrix V L num).get [j, k]
      * ((ψ (-L + (k + 1 : ℕ) * (2 * L / ((num : ℝ) - 1))) : ℝ) : ℂ)
      - E * ((ψ (-L + (j + 1 : ℕ) * (2 * L / ((num : ℝ) - 1))) : ℝ) : ℂ)‖ ^ 2
        ≤ (K / 2 * (2 * L / ((num : ℝ) - 1)) ^ 2) ^ 2 := by
    intro j hj
    have hj := Finset.mem_range.1 hj
    rw [gridMatrix_apply V L hj (fun i => ((ψ (-L + i * (2 * L / ((num : ℝ) - 1))) : ℝ) : ℂ)) (by simp [hl])
      (by rw [hlast]; simp [hr])]
    obtain ⟨hm1, hm2⟩ := grid_mem hL h3' (i := j + 1) (by omega) (by omega)
    set dx := 2 * L / ((num : ℝ) - 1) with hdxe
    unfold gridHamiltonian
    dsimp only
    have hc := hcen (-L + (j + 1 : ℕ) * dx) dx hdx.le (by linarith) hm2
    have hq := heq (-L + (j + 1 : ℕ) * dx) ⟨by linarith, by linarith⟩
    unfold lineHamiltonian at hq
    have ea : -L + ((j + 1 + 1 : ℕ) : ℝ) * dx = -L + (j + 1 : ℕ) * dx + dx := by push_cast; ring
    have eb : -L + ((j + 1 - 1 : ℕ) : ℝ) * dx = -L + (j + 1 : ℕ) * dx - dx := by
      rw [Nat.add_sub_cancel]
      push_cast
      ring
    rw [ea, eb]
    set x := -L + ((j + 1 : ℕ) : ℝ) * dx with hx
    have hdc : dx ≠ 0 := hdx.ne'
    have e : -(1 / 2) * (((ψ (x + dx) : ℂ) - 2 * (ψ x : ℂ) + (ψ (x - dx) : ℂ)) / (dx : ℂ) ^ 2) + (V x : ℂ) * (ψ x : ℂ)
        - (E : ℂ) * (ψ x : ℂ)
        = ((-(1 / (2 * dx ^ 2)) * (ψ (x + dx) - 2 * ψ x + ψ (x - dx) - dx ^ 2 * deriv (deriv ψ) x) : ℝ) : ℂ) := by
      have : -(1 / 2) * ((ψ (x + dx) - 2 * ψ x + ψ (x - dx)) / dx ^ 2) + V x * ψ x - E * ψ x
          = -(1 / (2 * dx ^ 2)) * (ψ (x + dx) - 2 * ψ x + ψ (x - dx) - dx ^ 2 * deriv (deriv ψ) x) := by
        rw [← hq]
        field_simp
        ring
      rw [← this]
      push_cast
      rfl
    rw [e, Complex.norm_real, Real.norm_eq_abs, abs_mul, abs_neg, abs_of_pos (by positivity : 0 < 1 / (2 * dx ^ 2))]
    refine pow_le_pow_left₀ (by positivity) ?_ 2
    calc _ ≤ 1 / (2 * dx ^ 2) * (K * dx ^ 4) := mul_le_mul_of_nonneg_left hc (by positivity)
      _ = _ := by field_simp
  have hsum := hres.trans (Finset.sum_le_sum hrow)
  rw [Finset.sum_const, Finset.card_range, nsmul_eq_mul] at hsum
  simp only [Complex.norm_real, Real.norm_eq_abs, sq_abs] at hsum
  have hcast : ((num - 2 : ℕ) : ℝ) ≤ (num : ℝ) - 1 := by
    rw [Nat.cast_sub (by omega)]
    push_cast
    linarith
  set dx := 2 * L / ((num : ℝ) - 1) with hdxe
  set S := ∑ k ∈ Finset.range (num - 2), ψ (-L + (k + 1 : ℕ) * dx) ^ 2 with hS
  have h4 : ‖w.get [p] - E‖ ^ 2 * I ≤ L * K ^ 2 / 2 * dx ^ 4 := by
    calc ‖w.get [p] - E‖ ^ 2 * I ≤ ‖w.get [p] - E‖ ^ 2 * (dx * S) := mul_le_mul_of_nonneg_left hNn (by positivity)
      _ = dx * (‖w.get [p] - E‖ ^ 2 * S) := by ring
      _ ≤ dx * (((num - 2 : ℕ) : ℝ) * (K / 2 * dx ^ 2) ^ 2) := mul_le_mul_of_nonneg_left hsum hdx.le
      _ ≤ dx * (((num : ℝ) - 1) * (K / 2 * dx ^ 2) ^ 2) :=
          mul_le_mul_of_nonneg_left (mul_le_mul_of_nonneg_right hcast (by positivity)) hdx.le
      _ = (((num : ℝ) - 1) * dx) * (K ^ 2 / 4 * dx ^ 4) := by ring
      _ = _ := by rw [hmul]; ring
  have h5 : ‖w.get [p] - E‖ ^ 2 ≤ (Real.sqrt (L * K ^ 2 / (2 * I)) * dx ^ 2) ^ 2 := by
    rw [mul_pow, Real.sq_sqrt (by positivity), ← pow_mul]
    rw [← le_div_iff₀ hI] at h4
    refine h4.trans (le_of_eq ?_)
    field_simp
  have h6 := le_of_sq_le_sq h5 (by positivity)
  refine h6.trans ?_
  nlinarith [sq_nonneg dx]

theorem odqd_levels {eigh : NDArray ℂ → Except PyErr (NDArray ℂ × NDArray ℂ)} (he : IsEigh eigh) {L : ℝ}
    (V : ℝ → ℝ) {num : ℕ} (h3 : 3 ≤ num) : ∃ w v, EighOK (num - 2) (gridMatrix V L num) w v ∧
      ∀ l ≤ num - 2, ∀ (a alpha beta : ℝ) (hm : Bool) (np : Module) (sp an : Bool),
        ∃ b h, odqd eigh l L num a alpha beta V hm np sp an = .ok b ∧ b.h = some h ∧
          ∀ p < l, h.get [p, p] = w.get [p] := by
  obtain ⟨w, v, hwv, hE⟩ := he (num - 2) (gridMatrix V L num) rfl (gridMatrix_herm V L num)
  refine ⟨w, v, hE, fun l hl a alpha beta hm np sp an => ?_⟩
  obtain ⟨b, H, w', v', h1, hH, hw', -, -, hh, -⟩ := odqd_ok' he L h3 hl a alpha beta V hm np sp an
  have : (w', v') = (w, v) := by
    rw [hH] at hw'
    exact Except.ok.inj (hw'.symm.trans hwv)
  obtain ⟨rfl, rfl⟩ := Prod.mk.inj this
  refine ⟨b, _, h1, hh, fun p hp => ?_⟩
  rw [ofFn_get_of (by exact ⟨hp, hp, trivial⟩)]
  exact if_pos rfl

/-- **C114** Every energy of the Schrödinger equation on `[-L, L]` with zero boundary values and a smooth
solution is approximated to second order in the grid spacing: on fine grids there is a level `p` such that
every `ODQD` object with more than `p` functions has it on the diagonal of `h`. -/
theorem C114_level {eigh : NDArray ℂ → Except PyErr (NDArray ℂ × NDArray ℂ)} (he : IsEigh eigh) {L : ℝ}
    (hL : 0 < L) {V ψ : ℝ → ℝ} {E : ℝ} (hψ : ContDiff ℝ 4 ψ)
    (heq : ∀ x ∈ Set.Icc (-L) L, lineHamiltonian V ψ x = E * ψ x) (hl : ψ (-L) = 0) (hr : ψ L = 0)
    (hne : ∃ x ∈ Set.Icc (-L) L, ψ x ≠ 0) : ∃ (C : ℝ) (N : ℕ), ∀ num ≥ N, ∃ p < num - 2,
      ∀ l, p < l → l ≤ num - 2 → ∀ (a alpha beta : ℝ) (hm : Bool) (np : Module) (sp an : Bool),
        ∃ b h, odqd eigh l L num a alpha beta V hm np sp an = .ok b ∧ b.h = some h ∧
          ‖h.get [p, p] - E‖ ≤ C * (2 * L / ((num : ℝ) - 1)) ^ 2 := by
  obtain ⟨C, -, N, h3, hN⟩ := grid_level hL hψ heq hl hr hne
  refine ⟨C, N, fun num hnum => ?_⟩
  obtain ⟨w, v, hE, hobj⟩ := odqd_levels he (L := L) V (by omega : 3 ≤ num)
  obtain ⟨p, hp, hb⟩ := hN num hnum w v hE
  refine ⟨p, hp, fun l hpl hln a alpha beta hm np sp an => ?_⟩
  obtain ⟨b, h, h1, h2, h3⟩ := hobj l hln a alpha beta hm np sp an
  exact ⟨b, h, h1, h2, by rw [h3 p hpl]; exact hb⟩

/-- **C114** If the energies `E 0 < … < E k` belong to smooth solutions, the levels `0, …, k` of every `ODQD`
object on a fine grid lie above them by at most a constant times the square of the grid spacing. -/
theorem C114_above {eigh : NDArray ℂ → Except PyErr (NDArray ℂ × NDArray ℂ)} (he : IsEigh eigh) {L : ℝ}
    (hL : 0 < L) {V : ℝ → ℝ} {ψ : ℕ → ℝ → ℝ} {E : ℕ → ℝ} {k : ℕ} (hψ : ∀ j ≤ k, ContDiff ℝ 4 (ψ j))
    (heq : ∀ j ≤ k, ∀ x ∈ Set.Icc (-L) L, lineHamiltonian V (ψ j) x = E j * ψ j x)
    (hl : ∀ j ≤ k, ψ j (-L) = 0) (hr : ∀ j ≤ k, ψ j L = 0)
    (hne : ∀ j ≤ k, ∃ x ∈ Set.Icc (-L) L, ψ j x ≠ 0) (hE : ∀ i j, i < j → j ≤ k → E i < E j) :
    ∃ (C : ℝ) (N : ℕ), ∀ num ≥ N, ∀ l, k < l → l ≤ num - 2 →
      ∀ (a alpha beta : ℝ) (hm : Bool) (np : Module) (sp an : Bool),
        ∃ b h, odqd eigh l L num a alpha beta V hm np sp an = .ok b ∧ b.h = some h ∧
          ∀ j ≤ k, (h.get [j, j]).re ≤ E j + C * (2 * L / ((num : ℝ) - 1)) ^ 2 := by
  suffices hs : ∃ C > 0, ∃ N : ℕ, 3 ≤ N ∧ ∀ num ≥ N, ∀ w v, EighOK (num - 2) (gridMatrix V L num) w v →
      ∀ j ≤ k, ∃ p, j ≤ p ∧ p < num - 2 ∧ ‖w.get [p] - E j‖ ≤ C * (2 * L / ((num : ℝ) - 1)) ^ 2 by
    obtain ⟨C, hC, N, h3, hN⟩ := hs
    refine ⟨C, N, fun num hnum l hkl hln a alpha beta hm np sp an => ?_⟩
    obtain ⟨w, v, hEi, hobj⟩ := odqd_levels he (L := L) V (by omega : 3 ≤ num)
    obtain ⟨b, h, h1, h2, h3⟩ := hobj l hln a alpha beta hm np sp an
    refine ⟨b, h, h1, h2, fun j hj => ?_⟩
    obtain ⟨p, hjp, hp, hb⟩ := hN num hnum w v hEi j hj
    rw [h3 j (by omega)]
    have h4 := hEi.sorted j p hjp hp
    have h5 := (le_abs_self _).trans ((Complex.abs_re_le_norm _).trans hb)
    rw [Complex.sub_re, Complex.ofReal_re] at h5
    linarith
  induction k with
  | zero =>
    obtain ⟨C, hC, N, h3, hN⟩ := grid_level hL (hψ 0 le_rfl) (heq 0 le_rfl) (hl 0 le_rfl) (hr 0 le_rfl) (hne 0 le_rfl)
    refine ⟨C, hC, N, h3, fun num hnum w v F j hj => ?_⟩
    obtain rfl : j = 0 := by omega
    obtain ⟨p, hp, hb⟩ := hN num hnum w v F
    exact ⟨p, Nat.zero_le _, hp, hb⟩
  | succ k ih =>
    obtain ⟨C, hC, N, h3, hN⟩ := ih (fun j hj => hψ j (by omega)) (fun j hj => heq j (by omega))
      (fun j hj => hl j (by omega)) (fun j hj => hr j (by omega)) (fun j hj => hne j (by omega))
      (fun i j hij hj => hE i j hij (by omega))
    obtain ⟨C', hC', N', h3', hN'⟩ := grid_level hL (hψ (k + 1) le_rfl) (heq (k + 1) le_rfl) (hl (k + 1) le_rfl)
      (hr (k + 1) le_rfl) (hne (k + 1) le_rfl)
    have hgap : 0 < E (k + 1) - E k := sub_pos.2 (hE k (k + 1) (by omega) le_rfl)
    obtain ⟨M, hM3, hM⟩ := exists_spacing L (δ := min 1 ((E (k + 1) - E k) / (2 * (C + C'))))
      (lt_min one_pos (by positivity))
    refine ⟨C + C', by positivity, max (max N N') M, by omega, fun num hnum w v F j hj => ?_⟩
    have hm1 : num ≥ N := by omega
    have hm2 : num ≥ N' := by omega
    have hdx := dx_pos hL (by omega : 3 ≤ num)
    have hs := hM num (by omega)
    set dx := 2 * L / ((num : ℝ) - 1) with hdxe
    rcases Nat.lt_or_ge k j with hjk | hjk
    · obtain rfl : j = k + 1 := by omega
      obtain ⟨p, hp, hb⟩ := hN' num hm2 w v F
      obtain ⟨q, hq1, hq2, hbq⟩ := hN num hm1 w v F k le_rfl
      refine ⟨p, ?_, hp, hb.trans (by nlinarith [sq_nonneg dx])⟩
      by_contra hc
      have h4 := F.sorted p q (by omega) hq2
      have h5 := (le_abs_self _).trans ((Complex.abs_re_le_norm _).trans hbq)
      have h6 := (neg_le_abs _).trans ((Complex.abs_re_le_norm _).trans hb)
      rw [Complex.sub_re, Complex.ofReal_re] at h5 h6
      have h7 : dx ≤ 1 := hs.trans (min_le_left _ _)
      have h8 := (le_div_iff₀ (by positivity)).1 (hs.trans (min_le_right _ _))
      have h9 : (C + C') * dx ^ 2 ≤ (C + C') * dx :=
        mul_le_mul_of_nonneg_left (by nlinarith) (by positivity)
      nlinarith
    · obtain ⟨p, h1, h2, hb⟩ := hN num hm1 w v F j hjk
      exact ⟨p, h1, h2, hb.trans (by nlinarith [sq_nonneg dx])⟩

/-- The trial function `ψ - dx² ψ'' / 12` at one point. -/
theorem trial_step {V ψ ψ2 : ℝ → ℝ} {L E B K c x dx : ℝ} (hdx : 0 < dx) (hc : 0 < c) (hK : 0 ≤ K) (hdL : dx ≤ L)
    (hB : |V x - E| ≤ B) (hq : ψ2 x = 2 * (V x - E) * ψ x) (hnn : 0 ≤ ψ x)
    (hφx : ψ x / 2 ≤ ψ x - dx ^ 2 / 12 * ψ2 x) (hlo : c * dx ≤ ψ x)
    (hcx : |(ψ (x + dx) - dx ^ 2 / 12 * ψ2 (x + dx)) - 2 * (ψ x - dx ^ 2 / 12 * ψ2 x)
      + (ψ (x - dx) - dx ^ 2 / 12 * ψ2 (x - dx)) - dx ^ 2 * ψ2 x| ≤ K * dx ^ 6) :
    (E - 2 * (B ^ 2 / 6 + K * L / (2 * c)) * dx ^ 2) * (ψ x - dx ^ 2 / 12 * ψ2 x)
      ≤ -(1 / 2) * (((ψ (x + dx) - dx ^ 2 / 12 * ψ2 (x + dx)) - 2 * (ψ x - dx ^ 2 / 12 * ψ2 x)
        + (ψ (x - dx) - dx ^ 2 / 12 * ψ2 (x - dx))) / dx ^ 2) + V x * (ψ x - dx ^ 2 / 12 * ψ2 x) := by
  have hL : 0 < L := hdx.trans_le hdL
  have hφv : ψ x - dx ^ 2 / 12 * ψ2 x = ψ x * (1 - dx ^ 2 / 6 * (V x - E)) := by
    rw [hq]
    ring
  have hsec : ((ψ (x + dx) - dx ^ 2 / 12 * ψ2 (x + dx)) - 2 * (ψ x - dx ^ 2 / 12 * ψ2 x)
        + (ψ (x - dx) - dx ^ 2 / 12 * ψ2 (x - dx))) / dx ^ 2 ≤ ψ2 x + K * dx ^ 4 := by
    rw [div_le_iff₀ (by positivity)]
    have := (abs_le.1 hcx).2
    rw [show (ψ2 x + K * dx ^ 4) * dx ^ 2 = dx ^ 2 * ψ2 x + K * dx ^ 6 by ring]
    linarith
  generalize ((ψ (x + dx) - dx ^ 2 / 12 * ψ2 (x + dx)) - 2 * (ψ x - dx ^ 2 / 12 * ψ2 x)
        + (ψ (x - dx) - dx ^ 2 / 12 * ψ2 (x - dx))) / dx ^ 2 = D at hsec ⊢
  clear hcx
  have hres : V x * (ψ x - dx ^ 2 / 12 * ψ2 x) - E * (ψ x - dx ^ 2 / 12 * ψ2 x) - 1 / 2 * ψ2 x
      = -(dx ^ 2 / 6 * (V x - E) ^ 2 * ψ x) := by
    rw [hφv, hq]
    ring
  generalize ψ x - dx ^ 2 / 12 * ψ2 x = Φ at *
  clear hφv
  have hsq : (V x - E) ^ 2 ≤ B ^ 2 := by
    rw [← sq_abs]
    exact pow_le_pow_left₀ (abs_nonneg _) hB 2
  have h7 : dx ^ 2 / 6 * (V x - E) ^ 2 * ψ x ≤ dx ^ 2 / 6 * B ^ 2 * ψ x :=
    mul_le_mul_of_nonneg_right (mul_le_mul_of_nonneg_left hsq (by positivity)) hnn
  have h8 : K / 2 * dx ^ 4 ≤ K * L / (2 * c) * dx ^ 2 * ψ x := by
    calc K / 2 * dx ^ 4 = K / (2 * c) * dx ^ 2 * dx * (c * dx) := by field_simp
      _ ≤ K / (2 * c) * dx ^ 2 * dx * ψ x := mul_le_mul_of_nonneg_left hlo (by positivity)
      _ ≤ K / (2 * c) * dx ^ 2 * L * ψ x :=
          mul_le_mul_of_nonneg_right (mul_le_mul_of_nonneg_left hdL (by positivity)) hnn
      _ = _ := by ring
  have h9 : (B ^ 2 / 6 + K * L / (2 * c)) * dx ^ 2 * (ψ x / 2) ≤ (B ^ 2 / 6 + K * L / (2 * c)) * dx ^ 2 * Φ :=
    mul_le_mul_of_nonneg_left hφx (by positivity)
  have h10 : (B ^ 2 / 6 + K * L / (2 * c)) * dx ^ 2 * (ψ x / 2)
      = (dx ^ 2 / 6 * B ^ 2 * ψ x + K * L / (2 * c) * dx ^ 2 * ψ x) / 2 := by ring
  have h11 : (E - 2 * (B ^ 2 / 6 + K * L / (2 * c)) * dx ^ 2) * Φ
      = E * Φ - 2 * ((B ^ 2 / 6 + K * L / (2 * c)) * dx ^ 2 * Φ) := by ring
  rw [h11]
  linarith

/-- **C114** The lowest level: if a smooth solution with zero boundary values is positive between the walls,
its energy is the limit of the lowest level of the `ODQD` objects, to second order in the grid spacing. -/
theorem C114_ground {eigh : NDArray ℂ → Except PyErr (NDArray ℂ × NDArray ℂ)} (he : IsEigh eigh) {L : ℝ}
    (hL : 0 < L) {V ψ : ℝ → ℝ} {E : ℝ} (hV : ContinuousOn V (Set.Icc (-L) L)) (hψ : ContDiff ℝ 6 ψ)
    (heq : ∀ x ∈ Set.Icc (-L) L, lineHamiltonian V ψ x = E * ψ x) (hl : ψ (-L) = 0) (hr : ψ L = 0)
    (hpos : ∀ x ∈ Set.Ioo (-L) L, 0 < ψ x) : ∃ (C : ℝ) (N : ℕ), ∀ num ≥ N, ∀ l, 0 < l → l ≤ num - 2 →
      ∀ (a alpha beta : ℝ) (hm : Bool) (np : Module) (sp an : Bool),
        ∃ b h, odqd eigh l L num a alpha beta V hm np sp an = .ok b ∧ b.h = some h ∧
          ‖h.get [0, 0] - E‖ ≤ C * (2 * L / ((num : ℝ) - 1)) ^ 2 := by
  obtain ⟨C0, hC0, N0, h30, hN0⟩ := grid_level hL (hψ.of_le (by norm_num)) heq hl hr
    ⟨0, ⟨by linarith, hL.le⟩, (hpos 0 ⟨by linarith, hL⟩).ne'⟩
  obtain ⟨K, hK, hcor⟩ := FiniteDifference.corrected hψ L
  obtain ⟨B, hB⟩ := (isCompact_Icc (a := -L) (b := L)).exists_bound_of_continuousOn (hV.sub (continuousOn_const (c := E)))
  have hB0 : 0 ≤ B := (norm_nonneg _).trans (hB 0 ⟨by linarith, hL.le⟩)
  have hq : ∀ x ∈ Set.Icc (-L) L, deriv (deriv ψ) x = 2 * (V x - E) * ψ x := by
    intro x hx
    have := heq x hx
    unfold lineHamiltonian at this
    linarith
  obtain ⟨c, hc, hlow⟩ := FiniteDifference.hopf_both (B := 2 * B) (hψ.of_le (by norm_num)) hL hl hr hpos (fun x hx => by
    rw [hq x hx, abs_mul, abs_mul, abs_two]
    exact mul_le_mul_of_nonneg_right (mul_le_mul_of_nonneg_left (hB x hx) (by norm_num)) (abs_nonneg _))
  set C1 := B ^ 2 / 6 + K * L / (2 * c) with hC1
  have hC1' : 0 ≤ C1 := by positivity
  obtain ⟨M, hM3, hM⟩ := exists_spacing L (δ := min 1 (1 / (B + 1))) (lt_min one_pos (by positivity))
  refine ⟨C0 + 2 * C1, max N0 M, fun num hnum l h0l hln a alpha beta hm np sp an => ?_⟩
  have h3 : 3 ≤ num := by omega
  obtain ⟨w, v, hE, hobj⟩ := odqd_levels he (L := L) V h3
  obtain ⟨p, hp, hb⟩ := hN0 num (by omega) w v hE
  obtain ⟨b, h, h1, h2, hh⟩ := hobj l hln a alpha beta hm np sp an
  refine ⟨b, h, h1, h2, ?_⟩
  have hdx := dx_pos hL h3
  have hs := hM num (by omega)
  have hn : (0 : ℝ) < (num : ℝ) - 1 := by
    have : (3 : ℝ) ≤ num := by exact_mod_cast h3
    linarith
  have hdL : 2 * L / ((num : ℝ) - 1) ≤ L := by
    rw [div_le_iff₀ hn]
    have : (3 : ℝ) ≤ num := by exact_mod_cast h3
    nlinarith
  have hlast := grid_last L h3
  -- the lower bound
  have hlower : E - 2 * C1 * (2 * L / ((num : ℝ) - 1)) ^ 2 ≤ (h.get [0, 0]).re := by
    obtain ⟨b', f, h', d, u, k1, -, k3, -, -, F⟩ := odqd_facts he hL h3 hln a alpha beta V hm np sp an
    obtain rfl : b = b' := by simpa using h1.symm.trans k1
    obtain rfl : h = h' := Option.some.inj (h2.symm.trans k3)
    obtain ⟨i0, hi0, hne0⟩ := F.ne h0l
    obtain ⟨n, rfl⟩ : ∃ n, num = n + 2 := ⟨num - 2, by omega⟩
    have hmem := fun i hi hi' => grid_mem hL h3 (i := i) hi hi'
    have hend : ψ (-L + ((n + 1 : ℕ) : ℝ) * (2 * L / (((n + 2 : ℕ) : ℝ) - 1))) = 0 := by
      rw [show n + 1 = n + 2 - 1 by omega, hlast, hr]
    have hend' : -L + ((n + 1 : ℕ) : ℝ) * (2 * L / (((n + 2 : ℕ) : ℝ) - 1)) = L := by
      rw [show n + 1 = n + 2 - 1 by omega, hlast]
    have hF := F.eigen 0 h0l
    have hFl := F.left 0 h0l
    have hFr := F.right 0 h0l
    set dx := 2 * L / (((n + 2 : ℕ) : ℝ) - 1) with hdxe
    have hd1 : dx ≤ 1 := hs.trans (min_le_left _ _)
    have hdB : dx * (B + 1) ≤ 1 := (le_div_iff₀ (by positivity)).1 (hs.trans (min_le_right _ _))
    have hd2B : dx ^ 2 * B ≤ 1 := by nlinarith [mul_nonneg hdx.le hB0]
    set φ : ℝ → ℝ := fun x => ψ x - dx ^ 2 / 12 * deriv (deriv ψ) x with hφ
    have hφv : ∀ x ∈ Set.Icc (-L) L, φ x = ψ x * (1 - dx ^ 2 / 6 * (V x - E)) := by
      intro x hx
      rw [hφ]
      dsimp only
      rw [hq x hx]
      ring
    have hψnn : ∀ x ∈ Set.Icc (-L) L, 0 ≤ ψ x := by
      intro x hx
      rcases hx.1.eq_or_lt with h | h
      · rw [← h, hl]
      rcases hx.2.eq_or_lt with h' | h'
      · rw [h', hr]
      · exact (hpos x ⟨h, h'⟩).le
    have hfac : ∀ x ∈ Set.Icc (-L) L, 1 / 2 ≤ 1 - dx ^ 2 / 6 * (V x - E) := by
      intro x hx
      have : V x - E ≤ B := (abs_le.1 (hB x hx)).2
      have := mul_le_mul_of_nonneg_left this (sq_nonneg dx)
      linarith
    have hφlow : ∀ x ∈ Set.Icc (-L) L, ψ x / 2 ≤ φ x := by
      intro x hx
      rw [hφv x hx]
      nlinarith [hψnn x hx, hfac x hx]
    refine FiniteDifference.positive_bound (φ := fun i => φ (-L + i * dx)) hdx (F.real 0 h0l) hF hFl hFr hi0 hne0 ?_ ?_ ?_ ?_
    · have := hφlow (-L) ⟨le_rfl, by linarith⟩
      simpa [hl] using this
    · have := hφlow L ⟨by linarith, le_rfl⟩
      rw [hr, zero_div] at this
      rwa [hend']
    · intro i hi hi'
      obtain ⟨m1, m2⟩ := hmem i hi (by omega)
      have h4 := hφlow (-L + i * dx) ⟨by linarith, by linarith⟩
      have h5 := hpos (-L + i * dx) ⟨by linarith, by linarith⟩
      linarith
    · intro i hi hi'
      obtain ⟨m1, m2⟩ := hmem i hi (by omega)
      have ea : -L + ((i + 1 : ℕ) : ℝ) * dx = -L + i * dx + dx := by push_cast; ring
      have eb : -L + ((i - 1 : ℕ) : ℝ) * dx = -L + i * dx - dx := by
        rw [Nat.cast_sub hi]
        push_cast
        ring
      rw [ea, eb]
      have hxm : -L + (i : ℝ) * dx ∈ Set.Icc (-L) L := ⟨by linarith, by linarith⟩
      exact trial_step hdx hc hK hdL (hB _ hxm) (hq _ hxm) (hψnn _ hxm) (hφlow _ hxm)
        (hlow _ dx hdx.le hdL m1 m2) (hcor _ dx hdx.le (by linarith) m2)
  have hupper : (h.get [0, 0]).re ≤ E + C0 * (2 * L / ((num : ℝ) - 1)) ^ 2 := by
    rw [hh 0 h0l]
    have h4 := hE.sorted 0 p (Nat.zero_le _) hp
    have h5 := (le_abs_self _).trans ((Complex.abs_re_le_norm _).trans hb)
    rw [Complex.sub_re, Complex.ofReal_re] at h5
    linarith
  have him : (h.get [0, 0]).im = 0 := by
    rw [hh 0 h0l]
    exact hE.real _
  have e : h.get [0, 0] - E = (((h.get [0, 0]).re - E : ℝ) : ℂ) := by
    apply Complex.ext <;> simp [him]
  rw [e, Complex.norm_real, Real.norm_eq_abs, abs_le]
  have hd2 : 0 ≤ (2 * L / ((num : ℝ) - 1)) ^ 2 := by positivity
  constructor <;> nlinarith [mul_nonneg hC0.le hd2, mul_nonneg hC1' hd2]

/-- The box `[-1, 1]` without potential: the lowest level tends to `π² / 8`. -/
example : ∃ eigh, IsEigh eigh ∧ ∃ (C : ℝ) (N : ℕ), ∀ num ≥ N, ∃ b h,
    odqd eigh 1 1 (num + 3) 1 1 0 (fun _ => 0) = .ok b ∧ b.h = some h ∧
      ‖h.get [0, 0] - ((Real.pi ^ 2 / 8 : ℝ) : ℂ)‖ ≤ C * (2 * 1 / (((num + 3 : ℕ) : ℝ) - 1)) ^ 2 := by
  obtain ⟨eigh, he⟩ := isEigh_exists
  have d1 : deriv (fun x => Real.cos (Real.pi / 2 * x)) = fun x => -(Real.pi / 2) * Real.sin (Real.pi / 2 * x) := by
    funext x
    have := (((hasDerivAt_id x).const_mul (Real.pi / 2)).cos).deriv
    simp only [id, mul_one] at this
    rw [this]
    ring
  have d2 : deriv (fun x => -(Real.pi / 2) * Real.sin (Real.pi / 2 * x))
      = fun x => -(Real.pi / 2) ^ 2 * Real.cos (Real.pi / 2 * x) := by
    funext x
    have := ((((hasDerivAt_id x).const_mul (Real.pi / 2)).sin).const_mul (-(Real.pi / 2))).deriv
    simp only [id, mul_one] at this
    rw [this]
    ring
  obtain ⟨C, N, h⟩ := C114_ground he (L := 1) one_pos (V := fun _ => 0) (ψ := fun x => Real.cos (Real.pi / 2 * x))
    (E := Real.pi ^ 2 / 8) continuousOn_const (by fun_prop)
    (fun x _ => by
      unfold lineHamiltonian
      rw [d1, d2]
      ring)
    (by rw [mul_neg, mul_one, Real.cos_neg, Real.cos_pi_div_two])
    (by rw [mul_one, Real.cos_pi_div_two])
    (fun x hx => Real.cos_pos_of_mem_Ioo ⟨by nlinarith [Real.pi_pos, hx.1], by nlinarith [Real.pi_pos, hx.2]⟩)
  refine ⟨eigh, he, C, N, fun num hnum => ?_⟩
  exact h (num + 3) (by omega) 1 one_pos (by omega) 1 1 0 false 0 false false

end QS.Props
