import Verif.Lemmas.RoundingEnergies
import Verif.Props.RoundingLine
import Verif.Props.GridRate
import Verif.Model.Potentials

/-!
# Property C131: rounding errors of the energies of one-dimensional quantum dots
-/

namespace QS.Props

open Finset Spec OneDim NDArray BasisSet PyM QS.Rounding Filter Topology

theorem gridMatrix_form (V : ℝ → ℝ) (L : ℝ) (num : ℕ) (f : ℕ → ℂ) :
    matForm (num - 2) (gridMatrix V L num) f = 1 / (2 * L / ((num : ℝ) - 1)) ^ 2 * kinForm (num - 2) f +
      ∑ j ∈ range (num - 2), V (TwoDim.linspace (-L) L num (j + 1)) * ‖f j‖ ^ 2 := by
  have h := near_kin (n := num - 2) (M := gridMatrix V L num) (k := 1 / (2 * L / ((num : ℝ) - 1)) ^ 2) (α := 0) (β := 0)
    (g := fun j => V (TwoDim.linspace (-L) L num (j + 1))) le_rfl le_rfl (fun i hi j hj => by
      rw [gridMatrix, ofFn_get_of (by exact ⟨hi, hj, trivial⟩)]
      simp only [List.getD_cons_zero, List.getD_cons_succ]
      rw [show (L - -L) / ((num : ℝ) - 1) = 2 * L / ((num : ℝ) - 1) by ring]
      refine le_of_eq ?_
      unfold fdEntry kinEntry
      split_ifs with c1 c2
      · subst c1
        push_cast
        rw [sub_self, norm_zero]
      · push_cast
        rw [show (-1 / (2 * (2 * (L : ℂ) / ((num : ℂ) - 1)) ^ 2) - (-(1 / (2 * (L : ℂ) / ((num : ℂ) - 1)) ^ 2) / 2 + 0)) = 0 by
          rw [mul_comm (2 : ℂ) ((2 * (L : ℂ) / ((num : ℂ) - 1)) ^ 2), ← div_div]
          ring, norm_zero]
      · simp) f
  rw [mul_zero, add_zero, zero_mul] at h
  exact sub_eq_zero.1 (abs_nonpos_iff.1 h)

theorem spacing_small {u : ℝ} (hu : 0 ≤ u) {num : ℕ} (h3 : 3 ≤ num) (hun : 72 * num * u ≤ 1) :
    u ≤ 1 / 8 ∧ gridFactor u num * (1 + u) - 1 ≤ 18 * num * u ∧ 18 * num * u ≤ 1 / 4 := by
  have hn : (3 : ℝ) ≤ num := by exact_mod_cast h3
  have h1 : u ≤ 1 / 216 := by nlinarith
  refine ⟨by linarith, ?_, by linarith⟩
  have h4 : (1 + u) ^ 4 - 1 ≤ 5 * u := by
    have : u ^ 2 ≤ u / 216 := by nlinarith
    have : u ^ 3 ≤ u / 216 := by nlinarith
    have : u ^ 4 ≤ u / 216 := by nlinarith
    nlinarith
  have h5 : 3 * ((num : ℝ) - 1) * ((1 + u) ^ 4 - 1) ≤ 3 * ((num : ℝ) - 1) * (5 * u) :=
    mul_le_mul_of_nonneg_left h4 (by linarith)
  have h6 : gridFactor u num ≤ 1 + 15 * num * u - 15 * u := by
    rw [gridFactor]
    linarith
  have h7 := mul_le_mul_of_nonneg_right h6 (by linarith : 0 ≤ 1 + u)
  nlinarith

/-- The eigenvalues of the rounded matrix. -/
theorem float_levels {u η L : ℝ} (hu : 0 ≤ u) (hη : 0 ≤ η) (hL : 0 < L) {num : ℕ} (h3 : 3 ≤ num) (hun : 72 * num * u ≤ 1)
    {V : ℝ → ℝ} {B W ν : ℝ} (hB : ∀ p < num - 2, -B ≤ V (TwoDim.linspace (-L) L num (p + 1)))
    (hW : ∀ p < num - 2, |V (TwoDim.linspace (-L) L num (p + 1))| ≤ W) {x Vf : ℕ → ℝ} {w w' v : NDArray ℂ}
    (hV : ∀ p < num - 2, |Vf p - V (TwoDim.linspace (-L) L num (p + 1))| ≤ ν)
    (F : EighOK (num - 2) (gridMatrix V L num) w v) (hw : FloatEnergies u η L num x Vf w') {p : ℕ} (hp : p < num - 2) :
    |(w'.get [p]).re - (w.get [p]).re| ≤ 72 * num * u * ((w.get [p]).re + B) +
      (18 * u / (2 * L / ((num : ℝ) - 1)) ^ 2 + u * W + 2 * ν + η) := by
  obtain ⟨hu8, hτ, hτ4⟩ := spacing_small hu h3 hun
  obtain ⟨hx, M, ⟨d', s, i, t, o, D, hd, hs, hi, ht, ho, hD, hM⟩, M', v', F', hM'⟩ := hw
  have hn : (0 : ℝ) < (num : ℝ) - 1 := by
    have : (3 : ℝ) ≤ num := by exact_mod_cast h3
    linarith
  set d := 2 * L / ((num : ℝ) - 1) with hdd
  have hd0 : 0 < d := by positivity
  have hsp := (close_real.1 (spacing_close hu hL.le (by omega) hx (i := 0) (by omega) hd)).1
  rw [show GridLimit.dx L num = d from rfl] at hsp
  obtain ⟨hd', hρ1, hρ2⟩ := spacing_ratio hd0 hτ4 (hsp.trans (mul_le_mul_of_nonneg_right hτ hd0.le))
  obtain ⟨hi', ho'⟩ := inverse_square hu hu8 hd'.ne' hs hi ht ho
  have hν : 0 ≤ ν := (abs_nonneg _).trans (hV 0 (by omega))
  have hW0 : 0 ≤ W := (abs_nonneg _).trans (hW 0 (by omega))
  set k := 1 / d' ^ 2 with hk
  have hk0 : 0 ≤ k := by positivity
  have hkr : d ^ 2 / d' ^ 2 * (1 / d ^ 2) = k := by
    rw [hk]
    field_simp
  have hk2 : k ≤ 2 * (1 / d ^ 2) := by
    rw [← hkr]
    exact mul_le_mul_of_nonneg_right hρ2 (by positivity)
  have hform : ∀ f, |matForm (num - 2) M' f - (d ^ 2 / d' ^ 2 * (1 / d ^ 2) * kinForm (num - 2) f +
      ∑ j ∈ range (num - 2), V (TwoDim.linspace (-L) L num (j + 1)) * ‖f j‖ ^ 2)| ≤
      (9 * u * k + u * W + 2 * ν + η) * ∑ j ∈ range (num - 2), ‖f j‖ ^ 2 := by
    intro f
    have a1 := matForm_sub_le hη hM' f
    have a2 := near_kin (n := num - 2) (M := M) (k := k) (α := 5 * u * k + u * W + 2 * ν) (β := 2 * u * k)
      (g := fun j => V (TwoDim.linspace (-L) L num (j + 1))) (by positivity) (by positivity) (fun i' hi'' j hj => by
        rw [hM i' hi'' j hj]
        unfold kinEntry
        split_ifs with c1 c2
        · have b1 := near_real.1 (hD i' hi'')
          have b2 := hV i' hi''
          have b3 := hW i' hi''
          rw [← Complex.ofReal_add, ← Complex.ofReal_sub, Complex.norm_real, Real.norm_eq_abs]
          set y := V (TwoDim.linspace (-L) L num (i' + 1))
          have b4 : |i + Vf i'| ≤ k + 3 * u * k + W + ν := by
            rw [show i + Vf i' = k + (i - k) + y + (Vf i' - y) by ring]
            refine (abs_add_le _ _).trans (add_le_add ((abs_add_le _ _).trans (add_le_add ((abs_add_le _ _).trans
              (add_le_add (abs_of_nonneg hk0).le hi')) b3)) b2)
          have b5 := mul_le_mul_of_nonneg_left b4 hu
          have b6 : |D i' - (k + y)| ≤ |D i' - (i + Vf i')| + |i - k| + |Vf i' - y| := by
            rw [show D i' - (k + y) = D i' - (i + Vf i') + (i - k) + (Vf i' - y) by ring]
            exact (abs_add_le _ _).trans (add_le_add (abs_add_le _ _) le_rfl)
          have b7 : u * (3 * u * k) ≤ 1 * (u * k) := by
            have : u * (3 * u * k) = 3 * u * (u * k) := by ring
            rw [this]
            exact mul_le_mul_of_nonneg_right (by linarith) (by positivity)
          have b8 : u * ν ≤ 1 * ν := mul_le_mul_of_nonneg_right (by linarith) hν
          linarith
        · rw [add_zero, show ((o : ℂ) - -(k : ℂ) / 2) = ((o - -k / 2 : ℝ) : ℂ) by push_cast; ring, Complex.norm_real,
            Real.norm_eq_abs]
          exact ho'
        · simp) f
    rw [hkr]
    have a3 : matForm (num - 2) M' f - (k * kinForm (num - 2) f +
        ∑ j ∈ range (num - 2), V (TwoDim.linspace (-L) L num (j + 1)) * ‖f j‖ ^ 2) =
        (matForm (num - 2) M' f - matForm (num - 2) M f) + (matForm (num - 2) M f - (k * kinForm (num - 2) f +
        ∑ j ∈ range (num - 2), V (TwoDim.linspace (-L) L num (j + 1)) * ‖f j‖ ^ 2)) := by ring
    rw [a3]
    refine (abs_add_le _ _).trans ((add_le_add a1 a2).trans (le_of_eq ?_))
    ring
  have key := scaled_levels F F' (k := 1 / d ^ 2) (ρ := d ^ 2 / d' ^ 2) (B := B) (κ := 9 * u * k + u * W + 2 * ν + η)
    (by positivity) (by positivity) (by positivity) hB (gridMatrix_form V L num) hform hp
  have hpos : 0 ≤ (w.get [p]).re + B := by
    have a5 : matForm (num - 2) (gridMatrix V L num) (fun j => v.get [j, p]) = (w.get [p]).re := by
      have := (F.form_comb (m := p + 1) (by omega) fun i => if i = p then 1 else 0).2
      simpa [sum_ite_eq, apply_ite] using this
    have a8 : ∑ j ∈ range (num - 2), ‖v.get [j, p]‖ ^ 2 = 1 := by
      have := F.orthonormal p p hp hp
      rw [sum_conj_self, if_pos rfl] at this
      exact_mod_cast this
    rw [gridMatrix_form] at a5
    have a6 : -B * ∑ j ∈ range (num - 2), ‖v.get [j, p]‖ ^ 2 ≤
        ∑ j ∈ range (num - 2), V (TwoDim.linspace (-L) L num (j + 1)) * ‖v.get [j, p]‖ ^ 2 := by
      rw [mul_sum]
      exact sum_le_sum fun j hj => mul_le_mul_of_nonneg_right (hB j (mem_range.1 hj)) (sq_nonneg _)
    rw [a8] at a6
    have := mul_nonneg (by positivity : 0 ≤ 1 / d ^ 2) (kinForm_nonneg (num - 2) fun j => v.get [j, p])
    linarith
  have h1 : |d ^ 2 / d' ^ 2 - 1| * ((w.get [p]).re + B) ≤ 72 * num * u * ((w.get [p]).re + B) :=
    mul_le_mul_of_nonneg_right (hρ1.trans (le_of_eq (by ring))) hpos
  have h2 : 9 * u * k ≤ 18 * u / d ^ 2 := by
    have := mul_le_mul_of_nonneg_left hk2 (by positivity : 0 ≤ 9 * u)
    refine this.trans (le_of_eq ?_)
    ring
  linarith

/-- **C131** The energies that floating-point arithmetic gives for an `ODQD` object: rounded grid, rounded matrix, a
backward stable `np.linalg.eigh`. -/
theorem C131_energies {eigh : NDArray ℂ → Except PyErr (NDArray ℂ × NDArray ℂ)} (he : IsEigh eigh) {u η L : ℝ} (hu : 0 ≤ u)
    (hη : 0 ≤ η) (hL : 0 < L) {num : ℕ} (h3 : 3 ≤ num) (hun : 72 * num * u ≤ 1) {V : ℝ → ℝ} {B W ν : ℝ}
    (hB : ∀ p < num - 2, -B ≤ V (TwoDim.linspace (-L) L num (p + 1)))
    (hW : ∀ p < num - 2, |V (TwoDim.linspace (-L) L num (p + 1))| ≤ W) {x Vf : ℕ → ℝ} {w : NDArray ℂ}
    (hV : ∀ p < num - 2, |Vf p - V (TwoDim.linspace (-L) L num (p + 1))| ≤ ν) (hw : FloatEnergies u η L num x Vf w) {l : ℕ}
    (hl : l ≤ num - 2) (a alpha beta : ℝ) (hm : Bool) (np : Module) (sp an : Bool) :
    ∃ b h, odqd eigh l L num a alpha beta V hm np sp an = .ok b ∧ b.h = some h ∧ ∀ p < l,
      ‖w.get [p] - h.get [p, p]‖ ≤ 72 * num * u * ((h.get [p, p]).re + B) +
        (18 * u / (2 * L / ((num : ℝ) - 1)) ^ 2 + u * W + 2 * ν + η) := by
  obtain ⟨w0, v0, hE, hobj⟩ := odqd_levels he (L := L) V h3
  obtain ⟨b, h, h1, h2, h4⟩ := hobj l hl a alpha beta hm np sp an
  refine ⟨b, h, h1, h2, fun p hp => ?_⟩
  rw [h4 p hp]
  have hr : ∀ {w v M : NDArray ℂ}, EighOK (num - 2) M w v → w.get [p] = ((w.get [p]).re : ℂ) := fun F =>
    Complex.ext rfl (by rw [F.real, Complex.ofReal_im])
  have hr1 := hr hE
  obtain ⟨-, M, -, M', v', F', -⟩ := id hw
  have hr2 := hr F'
  have := float_levels hu hη hL h3 hun hB hW hV hE hw (p := p) (by omega)
  rw [hr1, hr2, ← Complex.ofReal_sub, Complex.norm_real, Real.norm_eq_abs]
  exact this

/-- The values of `HOPotential(omega)` at the rounded grid points. -/
theorem oscillator_point {u L : ℝ} (hu : 0 ≤ u) (hu8 : u ≤ 1 / 9) (hL : 0 < L) {num : ℕ} (h3 : 2 ≤ num) {x : ℕ → ℝ}
    (hx : FloatLinspace u (-L) L num x) (omega : ℝ) {i : ℕ} (hp : i < num) {z : ℝ} (hz : FloatHO u omega (x i) z) :
    |z - Potentials.hoCall omega (TwoDim.linspace (-L) L num i)| ≤ 50 * u * omega ^ 2 * L ^ 2 := by
  obtain ⟨a, b, c, h1, h2, h4, h5⟩ := hz
  have hlin := linspace_within hu hL.le h3 hx hp
  set y := pt L num i with hy
  have hq' : (1 + u) ^ 4 ≤ 1 + 39 / 8 * u := by
    have q2 : u ^ 2 ≤ u / 8 := by nlinarith
    have q3 : u ^ 3 ≤ u / 64 := by nlinarith
    have q4 : u ^ 4 ≤ u / 512 := by nlinarith
    nlinarith
  have hq : (1 + u) ^ 4 ≤ 1 + 5 * u := by linarith
  have g1 : Close (1 + 15 * u) (x i : ℂ) (y : ℂ) L := by
    rw [close_real]
    refine ⟨hlin.1.trans ?_, hlin.2⟩
    exact mul_le_mul_of_nonneg_right (by linarith) hL.le
  have g2 : Close ((1 + 15 * u) * (1 + 15 * u) * (1 + u)) (c : ℂ) ((y * y : ℝ) : ℂ) (L * L) := by
    refine Close.near hu (x := ((x i ^ 2 : ℝ) : ℂ)) ?_ h4
    rw [pow_two, Complex.ofReal_mul, Complex.ofReal_mul]
    exact g1.mul (by linarith) g1
  have g3 : Close (1 * (1 + u)) (a : ℂ) ((omega ^ 2 : ℝ) : ℂ) (omega ^ 2) := by
    refine Close.near hu (x := ((omega ^ 2 : ℝ) : ℂ)) ?_ h1
    rw [close_real]
    simp
  have g4 : Close (1 * (1 * (1 + u)) * (1 + u)) (b : ℂ) ((1 / 2 * omega ^ 2 : ℝ) : ℂ) (1 / 2 * omega ^ 2) := by
    refine Close.near hu (x := ((1 / 2 * a : ℝ) : ℂ)) ?_ h2
    rw [Complex.ofReal_mul, Complex.ofReal_mul (1 / 2)]
    refine Close.mul le_rfl ?_ g3
    rw [close_real]
    norm_num
  have g5 : Close (1 * (1 * (1 + u)) * (1 + u) * ((1 + 15 * u) * (1 + 15 * u) * (1 + u)) * (1 + u)) (z : ℂ)
      ((1 / 2 * omega ^ 2 * (y * y) : ℝ) : ℂ) (1 / 2 * omega ^ 2 * (L * L)) := by
    refine Close.near hu (x := ((b * c : ℝ) : ℂ)) ?_ h5
    rw [Complex.ofReal_mul, Complex.ofReal_mul (1 / 2 * omega ^ 2)]
    exact Close.mul (by nlinarith) g4 g2
  have g6 := (close_real.1 g5).1
  rw [linspace_pt, Potentials.hoCall, ← hy, show (0.5 * omega ^ 2 * y ^ 2 : ℝ) = 1 / 2 * omega ^ 2 * (y * y) by
    rw [show (0.5 : ℝ) = 1 / 2 by norm_num]
    ring]
  refine g6.trans ?_
  have e : 1 * (1 * (1 + u)) * (1 + u) * ((1 + 15 * u) * (1 + 15 * u) * (1 + u)) * (1 + u) =
      (1 + u) ^ 4 * (1 + 15 * u) ^ 2 := by ring
  have f1 : (1 + 15 * u) ^ 2 ≤ 1 + 117 / 2 * u := by nlinarith
  have f2 : (1 + u) ^ 4 * (1 + 15 * u) ^ 2 ≤ (1 + 39 / 8 * u) * (1 + 117 / 2 * u) :=
    mul_le_mul hq' f1 (by positivity) (by positivity)
  have f3 : (1 + 39 / 8 * u) * (1 + 117 / 2 * u) ≤ 1 + 100 * u := by nlinarith
  rw [e]
  calc _ ≤ 100 * u * (1 / 2 * omega ^ 2 * (L * L)) := mul_le_mul_of_nonneg_right (by linarith) (by positivity)
    _ = _ := by ring

/-- **C131** The values of `HOPotential(omega)` at the rounded grid points. -/
theorem C131_oscillator {u L : ℝ} (hu : 0 ≤ u) (hu8 : u ≤ 1 / 9) (hL : 0 < L) {num : ℕ} (h3 : 3 ≤ num) {x : ℕ → ℝ}
    (hx : FloatLinspace u (-L) L num x) (omega : ℝ) {p : ℕ} (hp : p < num - 2) {z : ℝ} (hz : FloatHO u omega (x (p + 1)) z) :
    |z - Potentials.hoCall omega (TwoDim.linspace (-L) L num (p + 1))| ≤ 50 * u * omega ^ 2 * L ^ 2 :=
  oscillator_point hu hu8 hL (by omega) hx omega (by omega) hz

/-- **C131** The total error of the `k`-th energy, discretisation and rounding: at most a constant times `dx² + u / dx²`, for
backward errors of `eigh` and errors of the potential of the usual size. -/
theorem C131_total {L : ℝ} (hL : 0 < L) {V : ℝ → ℝ} (hV : ContinuousOn V (Set.Icc (-L) L)) {E : ℕ → ℝ} (hE : StrictMono E)
    (hall : ∀ e, BoxLevel V L e ↔ ∃ k, E k = e) {k : ℕ} {ψ : ℝ → ℝ} (hψ : ContDiff ℝ 4 ψ)
    (heq : ∀ x ∈ Set.Icc (-L) L, lineHamiltonian V ψ x = E k * ψ x) (hl : ψ (-L) = 0) (hr : ψ L = 0)
    (hne : ∃ x ∈ Set.Icc (-L) L, ψ x ≠ 0) {κ : ℝ} (hκ : 0 ≤ κ) : ∃ (C : ℝ) (N : ℕ), 0 ≤ C ∧ k + 3 ≤ N ∧ ∀ num ≥ N,
      ∀ u : ℝ, 0 ≤ u → 72 * num * u ≤ 1 → ∀ (x Vf : ℕ → ℝ) (w : NDArray ℂ),
        (∀ q < num - 2, |Vf q - V (TwoDim.linspace (-L) L num (q + 1))| ≤ κ * u) →
        FloatEnergies u (κ * u / (2 * L / ((num : ℝ) - 1)) ^ 2) L num x Vf w →
        ‖w.get [k] - E k‖ ≤ C * ((2 * L / ((num : ℝ) - 1)) ^ 2 + u / (2 * L / ((num : ℝ) - 1)) ^ 2) := by
  obtain ⟨C, hC, N, h3, hN⟩ := grid_rate hL hV hE hall hψ heq hl hr hne
  obtain ⟨W, hW⟩ := isCompact_Icc.exists_bound_of_continuousOn hV
  have hW0 : 0 ≤ W := (norm_nonneg _).trans (hW 0 ⟨by linarith, hL.le⟩)
  refine ⟨C + 576 * L ^ 2 * (|E k| + C * (2 * L) ^ 2 + W) + 18 + (W + 2 * κ) * (2 * L) ^ 2 + κ, N, by positivity, h3,
    fun num hnum => ?_⟩
  have h3' : 3 ≤ num := by omega
  obtain ⟨w0, v0, F⟩ := eigh_exists (num - 2) (gridMatrix V L num) (gridMatrix_herm V L num)
  have hlev := hN num hnum w0 v0 F
  have hp : k < num - 2 := by omega
  intro u hu hun x Vf w hVf hw
  have hn3 : (3 : ℝ) ≤ num := by exact_mod_cast h3'
  have hn : (0 : ℝ) < (num : ℝ) - 1 := by linarith
  set d := 2 * L / ((num : ℝ) - 1) with hd
  have hd0 : 0 < d := by positivity
  have hdL : d ≤ 2 * L := by
    rw [hd, div_le_iff₀ hn]
    nlinarith
  have hnd : (num : ℝ) ≤ 8 * L ^ 2 / d ^ 2 := by
    have e : 8 * L ^ 2 / d ^ 2 = 2 * ((num : ℝ) - 1) ^ 2 := by
      rw [hd]
      field_simp
      ring
    rw [e]
    nlinarith
  have hmem : ∀ q < num - 2, |V (TwoDim.linspace (-L) L num (q + 1))| ≤ W := fun q hq => by
    refine hW _ ?_
    have := grid_mem hL h3' (i := q + 1) (by omega) (by omega)
    rw [← hd] at this
    rw [linspace_pt]
    unfold pt
    rw [show GridLimit.dx L num = d from rfl]
    exact ⟨by linarith [this.1], by linarith [this.2]⟩
  have hfl := float_levels hu (by positivity) hL h3' hun (B := W) (W := W) (fun q hq => (abs_le.1 (hmem q hq)).1) hmem hVf F hw hp
  rw [← hd] at hfl
  obtain ⟨-, M, -, M', v', F', -⟩ := id hw
  have hr2 : w.get [k] = ((w.get [k]).re : ℂ) := Complex.ext rfl (by rw [F'.real, Complex.ofReal_im])
  have hr1 : w0.get [k] = ((w0.get [k]).re : ℂ) := Complex.ext rfl (by rw [F.real, Complex.ofReal_im])
  rw [hr1, ← Complex.ofReal_sub, Complex.norm_real, Real.norm_eq_abs] at hlev
  rw [hr2, ← Complex.ofReal_sub, Complex.norm_real, Real.norm_eq_abs]
  have hd2 : d ^ 2 ≤ (2 * L) ^ 2 := pow_le_pow_left₀ hd0.le hdL 2
  have hlam : (w0.get [k]).re + W ≤ |E k| + C * (2 * L) ^ 2 + W := by
    have a1 := (abs_le.1 hlev).2
    have a2 := mul_le_mul_of_nonneg_left hd2 hC.le
    linarith [le_abs_self (E k)]
  set R := u / d ^ 2 with hR
  have hR0 : 0 ≤ R := by positivity
  have hun2 : 72 * num * u ≤ 576 * L ^ 2 * R := by
    have := mul_le_mul_of_nonneg_right hnd hu
    calc 72 * num * u = 72 * (num * u) := by ring
      _ ≤ 72 * (8 * L ^ 2 / d ^ 2 * u) := by linarith
      _ = _ := by rw [hR]; ring
  have t1 : 72 * num * u * ((w0.get [k]).re + W) ≤ 576 * L ^ 2 * R * (|E k| + C * (2 * L) ^ 2 + W) :=
    (mul_le_mul_of_nonneg_left hlam (by positivity)).trans (mul_le_mul_of_nonneg_right hun2 (by positivity))
  have huR : u ≤ (2 * L) ^ 2 * R := by
    have e : u = d ^ 2 * R := by
      rw [hR]
      field_simp
    have := mul_le_mul_of_nonneg_right hd2 hR0
    linarith
  have t2 : u * W + 2 * (κ * u) ≤ (W + 2 * κ) * (2 * L) ^ 2 * R := by
    have := mul_le_mul_of_nonneg_left huR (by positivity : 0 ≤ W + 2 * κ)
    linarith
  have t3 : 18 * u / d ^ 2 = 18 * R := by rw [hR]; ring
  have t4 : κ * u / d ^ 2 = κ * R := by rw [hR]; ring
  rw [t3, t4] at hfl
  have t5 : |(w.get [k]).re - E k| ≤ |(w.get [k]).re - (w0.get [k]).re| + |(w0.get [k]).re - E k| := abs_sub_le _ _ _
  have t6 : 0 ≤ C * R := by positivity
  have t7 : 0 ≤ (576 * L ^ 2 * (|E k| + C * (2 * L) ^ 2 + W) + 18 + (W + 2 * κ) * (2 * L) ^ 2 + κ) * d ^ 2 := by positivity
  linarith

/-- **C131** The best grid: with a spacing of the order of the fourth root of `u` the error of the energies is of the
order of the square root of `u`. -/
theorem C131_best {L : ℝ} (hL : 0 < L) {V : ℝ → ℝ} (hV : ContinuousOn V (Set.Icc (-L) L)) {E : ℕ → ℝ} (hE : StrictMono E)
    (hall : ∀ e, BoxLevel V L e ↔ ∃ k, E k = e) {k : ℕ} {ψ : ℝ → ℝ} (hψ : ContDiff ℝ 4 ψ)
    (heq : ∀ x ∈ Set.Icc (-L) L, lineHamiltonian V ψ x = E k * ψ x) (hl : ψ (-L) = 0) (hr : ψ L = 0)
    (hne : ∃ x ∈ Set.Icc (-L) L, ψ x ≠ 0) {κ : ℝ} (hκ : 0 ≤ κ) : ∃ C u₀ : ℝ, 0 < u₀ ∧ ∀ u, 0 < u → u ≤ u₀ →
      ∃ num, k + 3 ≤ num ∧ ∀ (x Vf : ℕ → ℝ) (w : NDArray ℂ),
        (∀ q < num - 2, |Vf q - V (TwoDim.linspace (-L) L num (q + 1))| ≤ κ * u) →
        FloatEnergies u (κ * u / (2 * L / ((num : ℝ) - 1)) ^ 2) L num x Vf w →
        ‖w.get [k] - E k‖ ≤ C * Real.sqrt u := by
  obtain ⟨C, N, hC, h3, h⟩ := C131_total hL hV hE hall hψ heq hl hr hne hκ
  refine ⟨C * (4 * L ^ 2 + 1 / L ^ 2), min (1 / (N + 1 : ℝ) ^ 4) (1 / 6 ^ 4 / 72 ^ 2), by positivity, fun u hu hu0 => ?_⟩
  obtain ⟨r, hr0, hr4⟩ : ∃ r : ℝ, 0 < r ∧ r ^ 4 = u :=
    ⟨Real.sqrt (Real.sqrt u), Real.sqrt_pos.2 (Real.sqrt_pos.2 hu), by
      rw [show (4 : ℕ) = 2 * 2 from rfl, pow_mul, Real.sq_sqrt (Real.sqrt_nonneg u), Real.sq_sqrt hu.le]⟩
  have hsq : Real.sqrt u = r ^ 2 := by
    rw [← hr4, show r ^ 4 = (r ^ 2) ^ 2 by ring, Real.sqrt_sq (by positivity)]
  have hrN : r ≤ 1 / (N + 1 : ℝ) := by
    have := hu0.trans (min_le_left _ _)
    rw [← hr4, ← one_div_pow] at this
    exact (pow_le_pow_iff_left₀ hr0.le (by positivity) (by norm_num)).1 this
  have hr1 : r ≤ 1 := hrN.trans (by
    rw [div_le_one (by positivity)]
    have : (0 : ℝ) ≤ N := Nat.cast_nonneg N
    linarith)
  set m := ⌈1 / r⌉₊ with hm
  have hm1 : 1 / r ≤ m := Nat.le_ceil _
  have hm2 : (m : ℝ) < 1 / r + 1 := Nat.ceil_lt_add_one (by positivity)
  have hr1' : 1 ≤ 1 / r := by rw [le_div_iff₀ hr0]; linarith
  have hNm : (N : ℝ) + 1 ≤ m := by
    refine le_trans ?_ hm1
    rw [le_div_iff₀ hr0]
    rw [le_div_iff₀ (by positivity)] at hrN
    linarith
  have hNm' : N + 1 ≤ m := by exact_mod_cast hNm
  have hmr : (m : ℝ) * r ≤ 2 := by
    have := mul_lt_mul_of_pos_right hm2 hr0
    have e : (1 / r + 1) * r = 1 + r := by field_simp
    linarith
  have hmr1 : 1 ≤ (m : ℝ) * r := by
    have := mul_le_mul_of_nonneg_right hm1 hr0.le
    rwa [one_div_mul_cancel hr0.ne'] at this
  have hb := h (m + 1) (by omega)
  refine ⟨m + 1, by omega, fun x Vf w hVf hw => ?_⟩
  have hsmall : 72 * ((m + 1 : ℕ) : ℝ) * u ≤ 1 := by
    have a1 := hu0.trans (min_le_right _ _)
    have a2 : ((m + 1 : ℕ) : ℝ) * r ≤ 3 := by
      push_cast
      linarith
    have a3 : r ^ 2 ≤ 1 / 6 ^ 2 / 72 := by
      have : (r ^ 2) ^ 2 ≤ (1 / 6 ^ 2 / 72 : ℝ) ^ 2 := by
        rw [show (r ^ 2) ^ 2 = r ^ 4 by ring, hr4]
        refine a1.trans (le_of_eq ?_)
        norm_num
      exact (pow_le_pow_iff_left₀ (by positivity) (by norm_num) (by norm_num)).1 this
    have a4 : r ^ 3 ≤ r ^ 2 := by nlinarith [sq_nonneg r]
    rw [← hr4]
    calc 72 * ((m + 1 : ℕ) : ℝ) * r ^ 4 = 72 * (((m + 1 : ℕ) : ℝ) * r) * r ^ 3 := by ring
      _ ≤ 72 * 3 * r ^ 3 := mul_le_mul_of_nonneg_right (by linarith) (by positivity)
      _ ≤ 1 := by linarith
  have hfin := hb u hu.le hsmall x Vf w hVf hw
  refine hfin.trans ?_
  rw [mul_assoc]
  refine mul_le_mul_of_nonneg_left ?_ hC
  rw [hsq, add_mul]
  have hm0 : (0 : ℝ) < m := by linarith [(Nat.cast_nonneg N : (0 : ℝ) ≤ N)]
  have hcast : (((m + 1 : ℕ) : ℝ) - 1) = m := by push_cast; ring
  rw [hcast]
  refine add_le_add ?_ ?_
  · rw [div_pow, div_le_iff₀ (by positivity)]
    have : 1 ≤ (m * r) ^ 2 := one_le_pow₀ hmr1
    have e : 4 * L ^ 2 * r ^ 2 * (m : ℝ) ^ 2 = 4 * L ^ 2 * (m * r) ^ 2 := by ring
    rw [e, show (2 * L) ^ 2 = 4 * L ^ 2 * 1 by ring]
    exact mul_le_mul_of_nonneg_left this (by positivity)
  · have e : u / (2 * L / (m : ℝ)) ^ 2 = 1 / L ^ 2 * r ^ 2 * ((m * r) ^ 2 / 4) := by
      rw [← hr4]
      field_simp
      ring
    rw [e]
    have : (m * r) ^ 2 ≤ 2 ^ 2 := pow_le_pow_left₀ (by positivity) hmr 2
    calc _ ≤ 1 / L ^ 2 * r ^ 2 * 1 := mul_le_mul_of_nonneg_left (by linarith) (by positivity)
      _ = _ := mul_one _

/-- **C131** Too many points: whatever the precision, on a fine enough grid the first two points may be rounded to the same
number, and then the spacing that `setup_basis` divides by is zero. -/
theorem C131_collapse {u L : ℝ} (hu : 0 < u) (hL : 0 < L) : ∃ N : ℕ, ∀ num ≥ N, ∃ x, FloatLinspace u (-L) L num x ∧
    x 1 - x 0 = 0 := by
  obtain ⟨N, hN⟩ := exists_nat_ge (2 / u + 5)
  refine ⟨N, fun num hnum => ?_⟩
  have hn : 2 / u + 5 ≤ (num : ℝ) := hN.trans (by exact_mod_cast hnum)
  have hu2 : 0 < 2 / u := by positivity
  have h3 : 3 ≤ num := by
    have : (3 : ℝ) ≤ num := by linarith
    exact_mod_cast this
  have hn1 : 0 < (num : ℝ) - 1 := by linarith
  set step := 2 * L / ((num : ℝ) - 1) with hs
  have hstep : step * (1 + u) ≤ u * L := by
    have h6 : 2 + 4 * u ≤ u * ((num : ℝ) - 1) := by
      have := mul_le_mul_of_nonneg_left hn hu.le
      have e : u * (2 / u + 5) = 2 + 5 * u := by field_simp
      linarith
    rw [hs, div_mul_eq_mul_div, div_le_iff₀ hn1]
    nlinarith
  have hstep0 : 0 < step := by positivity
  refine ⟨fun i => if i ≤ 1 then -L else TwoDim.linspace (-L) L num i, ⟨L - -L, (L - -L) / ((num : ℝ) - 1),
    fun i => i * ((L - -L) / ((num : ℝ) - 1)), near_self hu.le _, near_self hu.le _, fun i _ => ⟨near_self hu.le _, ?_⟩, ?_⟩,
    by simp⟩
  · have e : (L - -L) / ((num : ℝ) - 1) = step := by
      rw [hs]
      ring
    simp only [e]
    split_ifs with hi
    · rw [near_real]
      rcases Nat.le_one_iff_eq_zero_or_eq_one.1 hi with rfl | rfl
      · simp only [Nat.cast_zero, zero_mul, zero_add, sub_self, abs_zero]
        positivity
      · rw [Nat.cast_one, one_mul, show -L - (step + -L) = -step by ring, abs_neg, abs_of_pos hstep0,
          abs_of_nonpos (by nlinarith)]
        linarith
    · rw [show TwoDim.linspace (-L) L num i = i * step + -L by
        unfold TwoDim.linspace
        rw [e]
        ring]
      exact near_self hu.le _
  · simp only
    rw [if_neg (by omega), TwoDim.linspace, Nat.cast_sub (by omega), Nat.cast_one]
    field_simp
    ring

/-- **C131** The exact energies are permitted results. -/
theorem C131_exact {u L : ℝ} (hu : 0 ≤ u) {num : ℕ} (h3 : 3 ≤ num) (V : ℝ → ℝ) {w v : NDArray ℂ}
    (F : EighOK (num - 2) (gridMatrix V L num) w v) :
    FloatEnergies u 0 L num (TwoDim.linspace (-L) L num) (fun p => V (TwoDim.linspace (-L) L num (p + 1))) w := by
  refine ⟨linspace_exact hu L (by omega), gridMatrix V L num, ⟨_, _, _, _, _, _, near_self hu _, near_self hu _,
    near_self hu _, near_self hu _, near_self hu _, fun p _ => near_self hu _, fun p hp q hq => ?_⟩, gridMatrix V L num, v, F,
    fun f => ?_⟩
  · rw [gridMatrix, ofFn_get_of (by exact ⟨hp, hq, trivial⟩)]
    simp only [List.getD_cons_zero, List.getD_cons_succ]
    have e : TwoDim.linspace (-L) L num 1 - TwoDim.linspace (-L) L num 0 = (L - -L) / ((num : ℝ) - 1) := by
      unfold TwoDim.linspace
      push_cast
      ring
    rw [e]
    unfold fdEntry
    split_ifs <;> simp
  · simp only [sub_self, zero_mul, sum_const_zero, norm_zero]
    norm_num

/-- With four digits: the grid `-1, 0, 1` and the matrix `1.001` without potential are permitted for the exact matrix `1`. -/
example : ∃ w, FloatEnergies (1 / 1000) 0 1 3 (fun i => (i : ℝ) - 1) (fun _ => 0) w ∧ w.get [0] = ((1001 / 1000 : ℝ) : ℂ) := by
  have hu : (0 : ℝ) ≤ 1 / 1000 := by norm_num
  refine ⟨ofFn .float64 [1] fun _ => ((1001 / 1000 : ℝ) : ℂ), ⟨?_, ofFn .float64 [1, 1] fun _ => ((1001 / 1000 : ℝ) : ℂ), ?_,
    ofFn .float64 [1, 1] fun _ => ((1001 / 1000 : ℝ) : ℂ), ofFn .float64 [1, 1] fun _ => 1, ?_, ?_⟩, ?_⟩
  · have := linspace_exact hu 1 (num := 3) (by norm_num)
    rwa [show TwoDim.linspace (-1) 1 3 = fun i : ℕ => (i : ℝ) - 1 by
      funext i
      unfold TwoDim.linspace
      push_cast
      ring] at this
  · refine ⟨1, 1, 1, 2, -1 / 2, fun _ => 1001 / 1000, ?_, ?_, ?_, ?_, ?_, fun p hp => ?_, fun p hp q hq => ?_⟩
    any_goals
      rw [near_real]
      norm_num
    obtain rfl : p = 0 := by omega
    obtain rfl : q = 0 := by omega
    rw [if_pos rfl, ofFn_get_of (by exact ⟨by norm_num, by norm_num, trivial⟩)]
  · refine ⟨rfl, rfl, fun i => ?_, fun i j hij hj => ?_, fun i j hi hj => ?_, fun i j hi hj => ?_⟩
    · rw [ofFn_get]
      split_ifs
      · exact Complex.ofReal_im _
      · rfl
    · obtain rfl : j = 0 := by omega
      obtain rfl : i = 0 := by omega
      exact le_rfl
    · obtain rfl : j = 0 := by omega
      obtain rfl : i = 0 := by omega
      simp [ofFn_get, InRange]
    · obtain rfl : j = 0 := by omega
      obtain rfl : i = 0 := by omega
      simp [ofFn_get, InRange]
  · intro f
    simp only [sub_self, zero_mul, Finset.sum_const_zero, norm_zero]
    norm_num
  · rw [ofFn_get_of (by exact ⟨by norm_num, trivial⟩)]

end QS.Props
