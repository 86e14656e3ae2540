import Verif.Lemmas.RoundingLine
import Verif.Props.OneDimSpectrum

/-!
# Property C130: rounding errors of the elements of one-dimensional quantum dots
-/

namespace QS.Props

open Finset Spec OneDim NDArray QS.Rounding GridNorm Filter Topology

/-- The relative error of the two-body elements for a relative error `u` of every operation, at most `d` additions per
sum, `num` grid points in a box of half-width `L` and the screening length `a`. -/
noncomputable def lineError (u : ℝ) (d num : ℕ) (L a : ℝ) : ℝ :=
  (1 + u) ^ (2 * d + 19) * (1 + 6 * (L / |a|) * ((1 + u) ^ 4 - 1)) *
    (1 + 3 * ((num : ℝ) - 1) * ((1 + u) ^ 4 - 1)) ^ 2 - 1

/-- The relative error of the dipole elements. -/
noncomputable def lineDipoleError (u : ℝ) (d num : ℕ) : ℝ :=
  (1 + u) ^ (d + 9) * (1 + 3 * ((1 + u) ^ 4 - 1)) ^ 2 * (1 + 3 * ((num : ℝ) - 1) * ((1 + u) ^ 4 - 1)) - 1

/-- The norm of the function `p` of an array of functions on the grid. -/
noncomputable def gridNorm (L : ℝ) (num : ℕ) (spf : NDArray ℂ) (p : ℕ) : ℝ :=
  Real.sqrt (2 * L / ((num : ℝ) - 1) * ∑ j ∈ range num, ‖spf.get [p, j]‖ ^ 2)

theorem lineError_eq (u : ℝ) (d num : ℕ) (L a : ℝ) : lineFactor u d num L a - 1 = lineError u d num L a := by
  rw [lineError, lineFactor, shieldFactor, gridFactor]
  ring

theorem lineDipoleError_eq (u : ℝ) (d num : ℕ) : dipoleFactor u d num - 1 = lineDipoleError u d num := by
  rw [lineDipoleError, dipoleFactor, gridFactor]
  ring

theorem lineError_nonneg {u : ℝ} (hu : 0 ≤ u) (d : ℕ) {num : ℕ} (h2 : 2 ≤ num) {L : ℝ} (hL : 0 ≤ L) (a : ℝ) :
    0 ≤ lineError u d num L a := by
  rw [← lineError_eq, sub_nonneg]
  exact one_le_mul_of_one_le_of_one_le (one_le_mul_of_one_le_of_one_le (one_le_shieldFactor hu hL) (pow_ge hu _))
      (one_le_pow₀ (one_le_gridFactor hu h2))

theorem lineDipoleError_nonneg {u : ℝ} (hu : 0 ≤ u) (d : ℕ) {num : ℕ} (h2 : 2 ≤ num) : 0 ≤ lineDipoleError u d num := by
  rw [← lineDipoleError_eq, sub_nonneg]
  have g0 := pow_ge hu 4
  exact one_le_mul_of_one_le_of_one_le (one_le_mul_of_one_le_of_one_le (one_le_pow₀ (by linarith)) (pow_ge hu _))
    (one_le_gridFactor hu h2)

theorem linspace_pt (L : ℝ) (num : ℕ) : TwoDim.linspace (-L) L num = pt L num := by
  funext i
  unfold TwoDim.linspace
  rw [pt, GridLimit.dx]
  ring

theorem absOverlap_le {L : ℝ} (hL : 0 ≤ L) {num : ℕ} (h2 : 2 ≤ num) (spf : NDArray ℂ) (p q : ℕ) :
    absOverlap L num (fun j => spf.get [p, j]) (fun j => spf.get [q, j]) ≤
      gridNorm L num spf p * gridNorm L num spf q := by
  have hn : (2 : ℝ) ≤ num := by exact_mod_cast h2
  have h0 : 0 ≤ GridLimit.dx L num := by
    rw [GridLimit.dx]
    exact div_nonneg (by linarith) (by linarith)
  exact sqs_cs h0 _ _

/-- **C130** For all single-particle functions on a grid: every floating-point result of the loops for the two-body
elements, on the grid that `np.linspace` computes, is close to the exact one on the exact grid.  The bound contains the
greatest value `α / a` of the interaction and the norms of the four functions; nothing is lost by cancellation. -/
theorem C130_elements {u : ℝ} (hu : 0 ≤ u) (hu2 : u ≤ 1 / 2) {L : ℝ} (hL : 0 ≤ L) {num : ℕ} (h2 : 2 ≤ num) {x : ℕ → ℝ}
    (hx : FloatLinspace u (-L) L num x) {alpha a : ℝ} (ha : a ≠ 0) {d l : ℕ} {spf U : NDArray ℂ}
    (hs : spf.shape = [l, num]) (h : FloatOrbitalIntegrals u d l num spf x alpha a U) :
    ∃ inner v, computeInnerIntegral spf l num (linspaceArr (-L) L num) alpha a = .ok inner ∧
      computeOrbitalIntegrals spf l inner (linspaceArr (-L) L num) = .ok v ∧
      ∀ p < l, ∀ q < l, ∀ r < l, ∀ s < l, ‖U.get [p, q, r, s] - v.get [p, q, r, s]‖ ≤
        lineError u d num L a * (|alpha| / |a|) *
          (gridNorm L num spf p * gridNorm L num spf q * gridNorm L num spf r * gridNorm L num spf s) := by
  obtain ⟨inner, h1, h3⟩ := twoBody_eq (linspace_uniform L) h2 hs alpha a
  refine ⟨inner, _, h1, h3, fun p hp q hq r hr s hs' => ?_⟩
  rw [ofFn_get_of (by exact ⟨hp, hq, hr, hs', trivial⟩)]
  simp only [List.getD_cons_zero, List.getD_cons_succ]
  rw [linspace_pt]
  have c := (orbital_close hu hu2 hL h2 hx ha h hp hq hr hs').1
  rw [lineError_eq] at c
  have o1 := absOverlap_le hL h2 spf p r
  have o2 := absOverlap_le hL h2 spf q s
  have n0 : ∀ p, 0 ≤ gridNorm L num spf p := fun p => Real.sqrt_nonneg _
  have hn : (2 : ℝ) ≤ num := by exact_mod_cast h2
  have z0 : ∀ p q, 0 ≤ absOverlap L num (fun j => spf.get [p, j]) fun j => spf.get [q, j] := fun p q =>
    mul_nonneg (by rw [GridLimit.dx]; exact div_nonneg (by linarith) (by linarith)) (sum_nonneg fun _ _ => by positivity)
  refine c.trans ?_
  rw [mul_assoc (lineError u d num L a)]
  refine mul_le_mul_of_nonneg_left ?_ (lineError_nonneg hu d h2 hL a)
  rw [mul_assoc]
  refine mul_le_mul_of_nonneg_left ?_ (by positivity)
  exact (mul_le_mul o1 o2 (z0 _ _) (mul_nonneg (n0 _) (n0 _))).trans (le_of_eq (by ring))

/-- **C130** The same for the dipole elements. -/
theorem C130_dipole {u : ℝ} (hu : 0 ≤ u) {L : ℝ} (hL : 0 ≤ L) {num : ℕ} (h2 : 2 ≤ num) {x : ℕ → ℝ}
    (hx : FloatLinspace u (-L) L num x) {beta : ℝ} {d l : ℕ} {spf D : NDArray ℂ} (hs : spf.shape = [l, num])
    (h : FloatLineDipole u d l num spf x beta D) :
    ∃ v, odqdDipole spf (linspaceArr (-L) L num) l beta = .ok v ∧ ∀ p < l, ∀ q < l,
      ‖D.get [0, p, q] - v.get [0, p, q]‖ ≤
        lineDipoleError u d num * (L + |beta| * L ^ 2) * (gridNorm L num spf p * gridNorm L num spf q) := by
  refine ⟨_, odqdDipole_eq (linspace_uniform L).shape (linspace_uniform L).get hs beta, fun p hp q hq => ?_⟩
  rw [ofFn_get_of (by exact ⟨by omega, hp, hq, trivial⟩)]
  simp only [List.getD_cons_zero, List.getD_cons_succ]
  rw [linspace_pt]
  have c := (dipole_close hu hL h2 hx h hp hq).1
  rw [lineDipoleError_eq] at c
  refine c.trans ?_
  rw [mul_assoc]
  exact mul_le_mul_of_nonneg_left (mul_le_mul_of_nonneg_left (absOverlap_le hL h2 spf p q) (by positivity))
    (lineDipoleError_nonneg hu d h2)

/-- **C130** Computed two-body elements have both symmetries up to twice the bound. -/
theorem C130_symmetric {u : ℝ} (hu : 0 ≤ u) (hu2 : u ≤ 1 / 2) {L : ℝ} (hL : 0 ≤ L) {num : ℕ} (h2 : 2 ≤ num) {x : ℕ → ℝ}
    (hx : FloatLinspace u (-L) L num x) {alpha a : ℝ} (ha : a ≠ 0) {d l : ℕ} {spf U : NDArray ℂ}
    (hs : spf.shape = [l, num]) (h : FloatOrbitalIntegrals u d l num spf x alpha a U) {p q r s : ℕ} (hp : p < l)
    (hq : q < l) (hr : r < l) (hs' : s < l) :
    ‖U.get [p, q, r, s] - U.get [q, p, s, r]‖ ≤ 2 * (lineError u d num L a * (|alpha| / |a|) *
        (gridNorm L num spf p * gridNorm L num spf q * gridNorm L num spf r * gridNorm L num spf s)) ∧
      ‖U.get [p, q, r, s] - (starRingEnd ℂ) (U.get [r, s, p, q])‖ ≤ 2 * (lineError u d num L a * (|alpha| / |a|) *
        (gridNorm L num spf p * gridNorm L num spf q * gridNorm L num spf r * gridNorm L num spf s)) := by
  obtain ⟨inner, v, h1, h3, h4⟩ := C130_elements hu hu2 hL h2 hx ha hs h
  have hv : GridCoulomb l num alpha a (linspaceArr (-L) L num) spf v := by
    obtain ⟨inner', k1, k2⟩ := twoBody_eq (linspace_uniform L) h2 hs alpha a
    rw [h1] at k1
    obtain rfl := Except.ok.inj k1
    rw [h3] at k2
    exact gridCoulomb_of (linspace_uniform L).get (Except.ok.inj k2)
  obtain ⟨e1, e2⟩ := C55_symmetric hv hp hq hr hs'
  have b0 := h4 p hp q hq r hr s hs'
  have b1 := h4 q hq p hp s hs' r hr
  have b2 := h4 r hr s hs' p hp q hq
  rw [show gridNorm L num spf q * gridNorm L num spf p * gridNorm L num spf s * gridNorm L num spf r =
    gridNorm L num spf p * gridNorm L num spf q * gridNorm L num spf r * gridNorm L num spf s by ring] at b1
  rw [show gridNorm L num spf r * gridNorm L num spf s * gridNorm L num spf p * gridNorm L num spf q =
    gridNorm L num spf p * gridNorm L num spf q * gridNorm L num spf r * gridNorm L num spf s by ring] at b2
  constructor
  · rw [← e1, norm_sub_rev] at b1
    have := norm_sub_le_norm_sub_add_norm_sub (U.get [p, q, r, s]) (v.get [p, q, r, s]) (U.get [q, p, s, r])
    linarith
  · have b3 : ‖v.get [p, q, r, s] - (starRingEnd ℂ) (U.get [r, s, p, q])‖ =
        ‖U.get [r, s, p, q] - v.get [r, s, p, q]‖ := by
      rw [e2, ← map_sub, RCLike.norm_conj, norm_sub_rev]
    have := norm_sub_le_norm_sub_add_norm_sub (U.get [p, q, r, s]) (v.get [p, q, r, s])
      ((starRingEnd ℂ) (U.get [r, s, p, q]))
    linarith

theorem odqd_gridNorm {l num : ℕ} {L a alpha beta : ℝ} {V : ℝ → ℝ} {f h d u : NDArray ℂ} (h3 : 3 ≤ num)
    (F : OdqdFacts l num L a alpha beta V f h d u) {p : ℕ} (hp : p < l) : gridNorm L num f p = 1 := by
  have hx : ∀ i : ℕ, (-L + ((i + 1 : ℕ) : ℝ) * (2 * L / ((num : ℝ) - 1))) - (-L + i * (2 * L / ((num : ℝ) - 1))) =
      2 * L / ((num : ℝ) - 1) := by
    intro i
    push_cast
    ring
  have h1 := F.orthonormal p p hp hp
  rw [if_pos rfl, trapezoid_ends hx (by omega)] at h1
  · have e : ∑ j ∈ range num, ‖f.get [p, j]‖ ^ 2 = ∑ k ∈ range (num - 2), ‖f.get [p, k + 1]‖ ^ 2 := by
      obtain ⟨n, rfl⟩ : ∃ n, num = n + 2 := ⟨num - 2, by omega⟩
      rw [sum_range_succ, sum_range_succ', F.left p hp, show n + 1 = n + 2 - 1 by omega, F.right p hp]
      simp
    rw [gridNorm, e, Real.sqrt_eq_one]
    have h4 : ∀ z : ℂ, (starRingEnd ℂ) z * z = ((‖z‖ ^ 2 : ℝ) : ℂ) := fun z => by
      rw [mul_comm, Complex.mul_conj, Complex.normSq_eq_norm_sq]
    simp only [h4] at h1
    exact_mod_cast h1
  · rw [F.left p hp, mul_zero]
  · rw [F.right p hp, mul_zero]

/-- **C130** For every `ODQD` object: the two-body and the dipole elements that floating-point arithmetic gives from its
functions are the stored ones up to a relative error of `α / a` and of the size of the box, whatever the number of
functions. -/
theorem C130_odqd {eigh : NDArray ℂ → Except PyErr (NDArray ℂ × NDArray ℂ)} (he : IsEigh eigh)
    {l num : ℕ} {L : ℝ} (hL : 0 < L) (h3 : 3 ≤ num) (hl : l ≤ num - 2) {a : ℝ} (ha : a ≠ 0) (alpha beta : ℝ)
    (V : ℝ → ℝ) (hm : Bool) (np : Module) (sp an : Bool) :
    ∃ b f d₀ u₀, odqd eigh l L num a alpha beta V hm np sp an = .ok b ∧ b.spf = some f ∧ b.dipole = some d₀ ∧
      b.u = some u₀ ∧ ∀ {u : ℝ}, 0 ≤ u → u ≤ 1 / 2 → ∀ {x : ℕ → ℝ}, FloatLinspace u (-L) L num x → ∀ {d : ℕ},
        (∀ {U : NDArray ℂ}, FloatOrbitalIntegrals u d l num f x alpha a U → ∀ p < l, ∀ q < l, ∀ r < l, ∀ s < l,
          ‖U.get [p, q, r, s] - u₀.get [p, q, r, s]‖ ≤ lineError u d num L a * (|alpha| / |a|)) ∧
        ∀ {D : NDArray ℂ}, FloatLineDipole u d l num f x beta D → ∀ p < l, ∀ q < l,
          ‖D.get [0, p, q] - d₀.get [0, p, q]‖ ≤ lineDipoleError u d num * (L + |beta| * L ^ 2) := by
  obtain ⟨b, f, h, d₀, u₀, k1, k2, -, k4, k5, F⟩ := odqd_facts he hL h3 hl a alpha beta V hm np sp an
  refine ⟨b, f, d₀, u₀, k1, k2, k4, k5, fun {u} hu hu2 {x} hx {d} => ⟨fun {U} hU p hp q hq r hr s hs => ?_,
    fun {D} hD p hp q hq => ?_⟩⟩
  · have c := orbital_close hu hu2 hL.le (by omega) hx ha hU hp hq hr hs
    have e : u₀.get [p, q, r, s] = coulombSum num (pt L num) (fun p j => f.get [p, j]) alpha a p q r s :=
      F.coulomb p q r s hp hq hr hs
    have o1 := absOverlap_le hL.le (by omega : 2 ≤ num) f p r
    have o2 := absOverlap_le hL.le (by omega : 2 ≤ num) f q s
    rw [odqd_gridNorm h3 F hp, odqd_gridNorm h3 F hr, one_mul] at o1
    rw [odqd_gridNorm h3 F hq, odqd_gridNorm h3 F hs, one_mul] at o2
    have hn : (3 : ℝ) ≤ num := by exact_mod_cast h3
    have z0 : ∀ p q, 0 ≤ absOverlap L num (fun j => f.get [p, j]) fun j => f.get [q, j] := fun p q =>
      mul_nonneg (by rw [GridLimit.dx]; exact div_nonneg (by linarith) (by linarith))
        (sum_nonneg fun _ _ => by positivity)
    have c1 := c.1
    rw [lineError_eq, ← e, mul_assoc (|alpha| / |a|)] at c1
    refine c1.trans (mul_le_mul_of_nonneg_left ?_ (lineError_nonneg hu d (by omega) hL.le a))
    exact mul_le_of_le_one_right (by positivity) (mul_le_one₀ o1 (z0 _ _) o2)
  · have c := (dipole_close hu hL.le (by omega) hx hD hp hq).1
    have e : d₀.get [0, p, q] = trapezoid num (pt L num) fun j => (starRingEnd ℂ) (f.get [p, j]) *
        ((pt L num j + beta * pt L num j ^ 2 : ℝ) : ℂ) * f.get [q, j] := F.dipole p q hp hq
    have o1 := absOverlap_le hL.le (by omega : 2 ≤ num) f p q
    rw [odqd_gridNorm h3 F hp, odqd_gridNorm h3 F hq, one_mul] at o1
    rw [lineDipoleError_eq, ← e] at c
    refine c.trans (mul_le_mul_of_nonneg_left ?_ (lineDipoleError_nonneg hu d (by omega)))
    exact mul_le_of_le_one_right (by positivity) o1

/-- **C130** Both errors go to zero with the error of one operation. -/
theorem C130_limit (d num : ℕ) (L a : ℝ) :
    Tendsto (fun u => lineError u d num L a) (𝓝 0) (𝓝 0) ∧ Tendsto (fun u => lineDipoleError u d num) (𝓝 0) (𝓝 0) := by
  constructor
  · have : Continuous fun u => lineError u d num L a := by
      unfold lineError
      fun_prop
    simpa [lineError] using this.tendsto 0
  · have : Continuous fun u => lineDipoleError u d num := by
      unfold lineDipoleError
      fun_prop
    simpa [lineDipoleError] using this.tendsto 0

theorem pow_le_linear {u : ℝ} (hu : 0 ≤ u) {k : ℕ} (hk : k * u ≤ 1) : (1 + u) ^ k ≤ 1 + 2 * (k * u) := by
  have h1 : (1 + u) ^ k ≤ Real.exp (k * u) := by
    rw [mul_comm, Real.exp_mul, Real.rpow_natCast]
    exact pow_le_pow_left₀ (by linarith) (by linarith [Real.add_one_le_exp u]) k
  have h0 : 0 ≤ (k : ℝ) * u := by positivity
  have h2 := (abs_le.1 (Real.abs_exp_sub_one_le (x := k * u) (by rwa [abs_of_nonneg h0]))).2
  rw [abs_of_nonneg h0] at h2
  linarith

theorem lineError_small {u : ℝ} (hu : 0 ≤ u) (hus : u ≤ 2 / 10 ^ 16) {num : ℕ} (h2 : 2 ≤ num) (hn : num ≤ 2001) {L a : ℝ}
    (hL : 0 ≤ L) (hLa : L ≤ 100 * |a|) (ha : a ≠ 0) : lineError u num num L a ≤ 1 / 10 ^ 10 := by
  have hnr : (num : ℝ) ≤ 2001 := by exact_mod_cast hn
  have hn2 : (2 : ℝ) ≤ num := by exact_mod_cast h2
  have hr : L / |a| ≤ 100 := by rwa [div_le_iff₀ (abs_pos.2 ha)]
  have hr0 : 0 ≤ L / |a| := by positivity
  have hk : ((2 * num + 19 : ℕ) : ℝ) * u ≤ 8042 / 10 ^ 16 := by
    push_cast
    calc (2 * (num : ℝ) + 19) * u ≤ 4021 * (2 / 10 ^ 16) := mul_le_mul (by linarith) hus hu (by norm_num)
      _ = _ := by ring
  have p1 := pow_le_linear hu (k := 2 * num + 19) (hk.trans (by norm_num))
  have p4 := pow_le_linear hu (k := 4) (by
    push_cast
    norm_num at hus
    linarith)
  have g0 := pow_ge hu 4
  rw [lineError]
  generalize (1 + u) ^ (2 * num + 19) = P at *
  set g := (1 + u) ^ 4 - 1 with hg
  have hg0 : 0 ≤ g := by linarith
  have hg1 : g ≤ 16 / 10 ^ 16 := by
    push_cast at p4
    linarith
  have a1 : P ≤ 1 + 16084 / 10 ^ 16 := by linarith
  have a2 : 1 + 6 * (L / |a|) * g ≤ 1 + 9600 / 10 ^ 16 := by
    have := mul_le_mul hr hg1 hg0 (by norm_num)
    linarith
  have a3 : 1 + 3 * ((num : ℝ) - 1) * g ≤ 1 + 96000 / 10 ^ 16 := by
    have := mul_le_mul (show (num : ℝ) - 1 ≤ 2000 by linarith) hg1 hg0 (by norm_num)
    linarith
  have a30 : 0 ≤ 1 + 3 * ((num : ℝ) - 1) * g := by
    have : 0 ≤ ((num : ℝ) - 1) * g := mul_nonneg (by linarith) hg0
    linarith
  have a20 : 0 ≤ 1 + 6 * (L / |a|) * g := by positivity
  have b1 := mul_le_mul a1 a2 a20 (by norm_num)
  have b2 := mul_le_mul b1 (pow_le_pow_left₀ a30 a3 2) (by positivity) (by norm_num)
  refine (sub_le_sub_right b2 1).trans ?_
  norm_num

/-- **C130** In double precision, with up to 2001 grid points and a box of up to a hundred screening lengths, added up
one after the other, at least ten digits are right. -/
theorem C130_double {num : ℕ} (h2 : 2 ≤ num) (hn : num ≤ 2001) {L a : ℝ} (hL : 0 ≤ L) (hLa : L ≤ 100 * |a|) (ha : a ≠ 0) :
    lineError ((2 : ℝ) ^ (-53 : ℤ)) num num L a ≤ 1 / 10 ^ 10 :=
  lineError_small (by positivity) (by norm_num) h2 hn hL hLa ha

theorem linspace_exact {u : ℝ} (hu : 0 ≤ u) (L : ℝ) {num : ℕ} (h2 : 2 ≤ num) :
    FloatLinspace u (-L) L num (TwoDim.linspace (-L) L num) := by
  have hn : (num : ℝ) - 1 ≠ 0 := by
    have : (2 : ℝ) ≤ num := by exact_mod_cast h2
    intro h
    linarith
  refine ⟨_, _, _, near_self hu _, near_self hu _, fun i _ => ⟨near_self hu _, ?_⟩, ?_⟩
  · rw [show TwoDim.linspace (-L) L num i = (i : ℝ) * ((L - -L) / ((num : ℝ) - 1)) + -L by
      unfold TwoDim.linspace
      ring]
    exact near_self hu _
  · unfold TwoDim.linspace
    rw [Nat.cast_sub (by omega), Nat.cast_one]
    field_simp
    ring

theorem trapz_exact {u : ℝ} (hu : 0 ≤ u) {num : ℕ} {x : ℕ → ℝ} {dx : ℝ} (hx : ∀ i, x (i + 1) - x i = dx) (f : ℕ → ℂ) :
    FloatTrapz u (num - 1) num f x (trapezoid num x f) := by
  refine ⟨_, _, _, _, near_self hu _, fun i _ => near_self hu _, ⟨num - 1, le_rfl, floatSum_exact hu _ _⟩, near_self hu _,
    ?_⟩
  have e : trapezoid num x f = 1 / 2 * (∑ i ∈ range (num - 1), (f i + f (i + 1))) * ((x 1 - x 0 : ℝ) : ℂ) := by
    unfold trapezoid
    rw [mul_sum, sum_mul]
    refine sum_congr rfl fun i _ => ?_
    rw [hx i, show x 1 - x 0 = dx from hx 0]
    ring
  rw [e]
  exact near_self hu _

/-- **C130** The bounds are about something: the exact elements on the exact grid are permitted results. -/
theorem C130_exact {u : ℝ} (hu : 0 ≤ u) (L : ℝ) {num : ℕ} (h2 : 2 ≤ num) (alpha a : ℝ) {l : ℕ} {spf inner v : NDArray ℂ}
    (hs : spf.shape = [l, num]) (h1 : computeInnerIntegral spf l num (linspaceArr (-L) L num) alpha a = .ok inner)
    (h3 : computeOrbitalIntegrals spf l inner (linspaceArr (-L) L num) = .ok v) :
    FloatLinspace u (-L) L num (TwoDim.linspace (-L) L num) ∧
      FloatOrbitalIntegrals u (num - 1) l num spf (TwoDim.linspace (-L) L num) alpha a v := by
  refine ⟨linspace_exact hu L h2, ?_⟩
  have hg := linspace_uniform L (num := num)
  rw [innerIntegral_eq hg h2 hs] at h1
  obtain rfl := Except.ok.inj h1
  rw [orbitalIntegrals_eq hg h2 hs rfl] at h3
  obtain rfl := Except.ok.inj h3
  refine ⟨fun q s i => trapezoid num (TwoDim.linspace (-L) L num) fun j => (starRingEnd ℂ) (spf.get [q, j]) *
      ((alpha / Real.sqrt ((TwoDim.linspace (-L) L num i - TwoDim.linspace (-L) L num j) ^ 2 + a ^ 2) : ℝ) : ℂ) *
      spf.get [s, j], fun q hq s hs' i hi => ?_, fun p hp q hq r hr s hs' => ?_⟩
  · refine ⟨_, _, fun j _ => ⟨_, _, _, _, _, near_self hu _, near_self hu _, near_self hu _, near_self hu _,
      near_self hu _, near_self hu _⟩, ⟨_, fun j _ => ⟨near_self hu _, near_self hu _⟩⟩, ?_⟩
    exact trapz_exact hu hg.step _
  · refine ⟨_, ⟨_, fun j _ => ⟨near_self hu _, near_self hu _⟩⟩, ?_⟩
    rw [ofFn_get_of (by exact ⟨hp, hq, hr, hs', trivial⟩)]
    simp only [List.getD_cons_zero, List.getD_cons_succ]
    have e := trapezoid_congr (n := num) (x := TwoDim.linspace (-L) L num)
      (f := fun j => (starRingEnd ℂ) (spf.get [p, j]) * (ofFn .complex128 [l, l, num] (fun i =>
        trapezoid num (TwoDim.linspace (-L) L num) fun j => (starRingEnd ℂ) (spf.get [i.getD 0 0, j]) *
          ((alpha / Real.sqrt ((TwoDim.linspace (-L) L num (i.getD 2 0) - TwoDim.linspace (-L) L num j) ^ 2 + a ^ 2) : ℝ) : ℂ)
          * spf.get [i.getD 1 0, j])).get [q, s, j] * spf.get [r, j])
      (g := fun j => (starRingEnd ℂ) (spf.get [p, j]) * (trapezoid num (TwoDim.linspace (-L) L num) fun k =>
        (starRingEnd ℂ) (spf.get [q, k]) *
          ((alpha / Real.sqrt ((TwoDim.linspace (-L) L num j - TwoDim.linspace (-L) L num k) ^ 2 + a ^ 2) : ℝ) : ℂ)
          * spf.get [s, k]) * spf.get [r, j]) (fun j hj => by
        rw [ofFn_get_of (by exact ⟨hq, hs', hj, trivial⟩)]
        rfl)
    rw [e]
    exact trapz_exact hu hg.step _

/-- One function on the middle of three points of the box `[-1, 1]`, `α = 6` and `a = 2`: the exact self-interaction is
`3` (C55), and every result in double precision agrees with it to ten digits. -/
example {x : ℕ → ℝ} (hx : FloatLinspace ((2 : ℝ) ^ (-53 : ℤ)) (-1) 1 3 x) {U : NDArray ℂ}
    (h : FloatOrbitalIntegrals ((2 : ℝ) ^ (-53 : ℤ)) 3 1 3
      (ofFn .complex128 [1, 3] (fun i => if i = [0, 1] then 1 else 0)) x 6 2 U) :
    ∃ inner v, computeInnerIntegral (ofFn .complex128 [1, 3] (fun i => if i = [0, 1] then 1 else 0)) 1 3
        (linspaceArr (-1) 1 3) 6 2 = .ok inner ∧
      computeOrbitalIntegrals (ofFn .complex128 [1, 3] (fun i => if i = [0, 1] then 1 else 0)) 1 inner
        (linspaceArr (-1) 1 3) = .ok v ∧ ‖U.get [0, 0, 0, 0] - v.get [0, 0, 0, 0]‖ ≤ 3 / 10 ^ 10 := by
  have hu : (0 : ℝ) ≤ 2 ^ (-53 : ℤ) := by positivity
  obtain ⟨inner, v, h1, h2, h3⟩ := C130_elements hu (by norm_num) (by norm_num) (by norm_num) hx (by norm_num) rfl h
  refine ⟨inner, v, h1, h2, (h3 0 (by omega) 0 (by omega) 0 (by omega) 0 (by omega)).trans ?_⟩
  have hN : gridNorm 1 3 (ofFn .complex128 [1, 3] (fun i => if i = [0, 1] then 1 else 0)) 0 = 1 := by
    simp [gridNorm, sum_range_succ, ofFn_get]
    norm_num
  rw [hN]
  have := C130_double (num := 3) (by norm_num) (by norm_num) (L := 1) (a := 2) (by norm_num) (by norm_num) (by norm_num)
  norm_num at this ⊢
  linarith

end QS.Props
