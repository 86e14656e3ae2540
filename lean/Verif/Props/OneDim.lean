import Verif.Lemmas.OneDimSetup
import Verif.Lemmas.Hermite
import Verif.Lemmas.Eigh
import Verif.Lemmas.History

/-!
# One-dimensional quantum dots (C55 - C58, C79 - C81)
-/

namespace QS.Props

open OneDim NDArray Spec

/-! ## C55 -/

theorem trapezoid_congr_x {n : ℕ} {x y : ℕ → ℝ} (h : ∀ i, i < n → x i = y i) (f : ℕ → ℂ) :
    trapezoid n x f = trapezoid n y f := by
  unfold trapezoid
  refine Finset.sum_congr rfl fun i hi => ?_
  have hi := Finset.mem_range.1 hi
  rw [h i (by omega), h (i + 1) (by omega)]

theorem gridCoulomb_of {l num : ℕ} {x : ℕ → ℝ} {g f u : NDArray ℂ} {alpha a : ℝ}
    (hg : ∀ i, i < num → g.get [i] = (x i : ℂ))
    (hu : u = ofFn .complex128 [l, l, l, l] (fun i => coulombSum num x (fun p j => f.get [p, j]) alpha a
          (i.getD 0 0) (i.getD 1 0) (i.getD 2 0) (i.getD 3 0))) : GridCoulomb l num alpha a g f u := by
  have hx : ∀ i, i < num → (g.get [i]).re = x i := fun i hi => by rw [hg i hi, Complex.ofReal_re]
  subst hu
  refine ⟨rfl, fun p q r s hp hq hr hs => ?_⟩
  rw [ofFn_get_of (by exact ⟨hp, hq, hr, hs, trivial⟩)]
  simp only [List.getD_cons_zero, List.getD_cons_succ]
  unfold coulombSum
  rw [trapezoid_congr_x hx]
  refine trapezoid_congr fun i hi => ?_
  rw [trapezoid_congr_x hx]
  refine trapezoid_congr fun j hj => ?_
  rw [hx i hi, hx j hj]

/-- **C55** For all single-particle functions on an equidistant grid, `_compute_inner_integral` followed by
`_compute_orbital_integrals` gives the double trapezoidal sums. -/
theorem C55_elements {l num : ℕ} (h2 : 2 ≤ num) (g f : NDArray ℂ) (hg : g.shape = [num])
    (hf : f.shape = [l, num]) (x0 dx : ℝ) (hx : ∀ i, i < num → g.get [i] = ((x0 + i * dx : ℝ) : ℂ))
    (alpha a : ℝ) (_ha : a ≠ 0) :
    ∃ inner u, computeInnerIntegral f l num g alpha a = .ok inner ∧
      computeOrbitalIntegrals f l inner g = .ok u ∧ GridCoulomb l num alpha a g f u := by
  have hu : Uniform g num (fun i => x0 + i * dx) dx := ⟨hg, hx, fun i => by push_cast; ring⟩
  obtain ⟨inner, h1, h3⟩ := twoBody_eq hu h2 hf alpha a
  exact ⟨inner, _, h1, h3, gridCoulomb_of hx rfl⟩

/-- One function that lives on the middle one of the points `-1, 0, 1`. -/
example : ∃ inner u, computeInnerIntegral (ofFn .complex128 [1, 3] (fun i => if i = [0, 1] then 1 else 0)) 1 3
      (linspaceArr (-1) 1 3) 6 2 = .ok inner ∧
    computeOrbitalIntegrals (ofFn .complex128 [1, 3] (fun i => if i = [0, 1] then 1 else 0)) 1 inner
      (linspaceArr (-1) 1 3) = .ok u ∧ u.get [0, 0, 0, 0] = 3 := by
  obtain ⟨inner, u, h1, h2, h3⟩ := C55_elements (l := 1) (num := 3) (by norm_num) (linspaceArr (-1) 1 3)
    (ofFn .complex128 [1, 3] (fun i => if i = [0, 1] then 1 else 0)) rfl rfl (-1) 1 (fun i hi => by
      rw [(linspace_uniform 1).get i hi]
      unfold TwoDim.linspace
      norm_num) 6 2 (by norm_num)
  refine ⟨inner, u, h1, h2, ?_⟩
  have hs : Real.sqrt (2 ^ 2) = 2 := by rw [Real.sqrt_sq]; norm_num
  rw [h3.2 0 0 0 0 (by omega) (by omega) (by omega) (by omega)]
  simp [trapezoid, Finset.sum_range_succ, ofFn_get, linspaceArr, TwoDim.linspace, hs]
  norm_num

/-- **C55** The two-body elements have both symmetries. -/
theorem C55_symmetric {l num : ℕ} {alpha a : ℝ} {g f u : NDArray ℂ} (h : GridCoulomb l num alpha a g f u)
    {p q r s : ℕ} (hp : p < l) (hq : q < l) (hr : r < l) (hs : s < l) :
    u.get [p, q, r, s] = u.get [q, p, s, r] ∧
      u.get [p, q, r, s] = (starRingEnd ℂ) (u.get [r, s, p, q]) := by
  rw [h.2 p q r s hp hq hr hs, h.2 q p s r hq hp hs hr, h.2 r s p q hr hs hp hq]
  exact ⟨coulombSum_swap num (fun i => (g.get [i]).re) (fun p i => f.get [p, i]) alpha a p q r s,
    coulombSum_conj num (fun i => (g.get [i]).re) (fun p i => f.get [p, i]) alpha a p q r s⟩

/-- **C55** Every `ODHO` object holds the Coulomb elements of its single-particle functions. -/
theorem C55_odho (l : ℕ) (L : ℝ) {num : ℕ} (h2 : 2 ≤ num) (omega : ℝ) {a : ℝ} (_ha : a ≠ 0)
    (alpha beta : ℝ) (np : Module) (sp an : Bool) :
    ∃ b g f u, odho l L num omega a alpha beta np sp an = .ok b ∧ b.grid = some g ∧ b.spf = some f ∧
      b.u = some u ∧ GridCoulomb l num alpha a g f u := by
  obtain ⟨b, h1, hb, -⟩ := odho_ok l L h2 omega a alpha beta np sp an
  exact ⟨b, _, _, _, h1, hb.grid_eq, hb.spf_eq, hb.u_eq, gridCoulomb_of (linspace_uniform L).get rfl⟩

/-- **C55** Every `ODQD` object holds the Coulomb elements of its single-particle functions. -/
theorem C55_odqd {eigh : NDArray ℂ → Except PyErr (NDArray ℂ × NDArray ℂ)} (he : IsEigh eigh) {l num : ℕ}
    {L : ℝ} (_hL : 0 < L) (h3 : 3 ≤ num) (hl : l ≤ num - 2) {a : ℝ} (_ha : a ≠ 0) (alpha beta : ℝ)
    (V : ℝ → ℝ) (hm : Bool) (np : Module) (sp an : Bool) :
    ∃ b g f u, odqd eigh l L num a alpha beta V hm np sp an = .ok b ∧ b.grid = some g ∧ b.spf = some f ∧
      b.u = some u ∧ GridCoulomb l num alpha a g f u := by
  obtain ⟨b, H, w, v, h1, -, -, hb, -⟩ := odqd_ok he L h3 hl a alpha beta V hm np sp an
  exact ⟨b, _, _, _, h1, hb.grid_eq, hb.spf_eq, hb.u_eq, gridCoulomb_of (linspace_uniform L).get rfl⟩

/-! ## C56 -/

theorem odqdSpf_get {l num : ℕ} (dx : ℝ) (v : NDArray ℂ) {p i : ℕ} (hp : p < l) (hi : i < num) :
    (odqdSpf l num dx v).get [p, i]
      = if 1 ≤ i ∧ i < num - 1 then v.get [i - 1, p] / (Real.sqrt dx : ℂ) else 0 :=
  ofFn_get_of (show InRange [l, num] [p, i] from ⟨hp, hi, trivial⟩)

theorem odqd_inner {l num : ℕ} {dx : ℝ} (hdx : 0 < dx) {H w v : NDArray ℂ} {x : ℕ → ℝ}
    (hx : ∀ i, x (i + 1) - x i = dx) (h2 : 3 ≤ num) (E : EighOK (num - 2) H w v) {p : ℕ} (hp : p < l)
    (hl : l ≤ num - 2) (g : ℕ → ℂ) :
    trapezoid num x (fun i => (starRingEnd ℂ) ((odqdSpf l num dx v).get [p, i]) * g i)
      = (Real.sqrt dx : ℂ) * ∑ k ∈ Finset.range (num - 2), (starRingEnd ℂ) (v.get [k, p]) * g (k + 1) := by
  have hs : (Real.sqrt dx : ℂ) ≠ 0 := by exact_mod_cast (Real.sqrt_pos.2 hdx).ne'
  have hs2 : (dx : ℂ) = (Real.sqrt dx : ℂ) * (Real.sqrt dx : ℂ) := by
    exact_mod_cast (Real.mul_self_sqrt hdx.le).symm
  rw [trapezoid_ends hx (by omega)]
  · rw [hs2, mul_assoc]
    congr 1
    rw [Finset.mul_sum]
    refine Finset.sum_congr rfl fun k hk => ?_
    have hk := Finset.mem_range.1 hk
    rw [odqdSpf_get dx v hp (by omega), if_pos ⟨by omega, by omega⟩, map_div₀, Complex.conj_ofReal,
      Nat.add_sub_cancel]
    field_simp
  · rw [odqdSpf_get dx v hp (by omega), if_neg (by omega), map_zero, zero_mul]
  · rw [odqdSpf_get dx v hp (by omega), if_neg (by omega), map_zero, zero_mul]

/-- **C56** The single-particle functions of every `ODQD` object vanish at the ends of the grid, the matrix
in `s` is their overlap under the trapezoidal rule and is the identity, `h` holds the matrix elements of the
finite-difference Hamiltonian `-½ d²/dx² + V` between them, is diagonal and has ascending diagonal
elements. -/
theorem C56_functions {eigh : NDArray ℂ → Except PyErr (NDArray ℂ × NDArray ℂ)} (he : IsEigh eigh)
    {l num : ℕ} {L : ℝ} (hL : 0 < L) (h3 : 3 ≤ num) (hl : l ≤ num - 2) (a alpha beta : ℝ)
    (V : ℝ → ℝ) (hm : Bool) (np : Module) (sp an : Bool) :
    ∃ b f s h, odqd eigh l L num a alpha beta V hm np sp an = .ok b ∧ b.spf = some f ∧ b.s = some s ∧
      b.h = some h ∧ f.shape = [l, num] ∧ s.shape = [l, l] ∧ h.shape = [l, l] ∧
      let x : ℕ → ℝ := fun i => -L + i * (2 * L / ((num : ℝ) - 1))
      let dx : ℝ := 2 * L / ((num : ℝ) - 1)
      (∀ p, p < l → f.get [p, 0] = 0 ∧ f.get [p, num - 1] = 0) ∧
      (∀ p q, p < l → q < l → s.get [p, q] =
        trapezoid num x fun i => (starRingEnd ℂ) (f.get [p, i]) * f.get [q, i]) ∧
      (∀ p q, p < l → q < l → s.get [p, q] = if p = q then 1 else 0) ∧
      (∀ p q, p < l → q < l → h.get [p, q] = trapezoid num x fun i =>
        (starRingEnd ℂ) (f.get [p, i]) * gridHamiltonian dx x V (fun i => f.get [q, i]) i) ∧
      (∀ p q, p < l → q < l → p ≠ q → h.get [p, q] = 0) ∧
      (∀ p q, p ≤ q → q < l → (h.get [p, p]).re ≤ (h.get [q, q]).re) := by
  obtain ⟨b, H, w, v, h1, hH, E, hb, hh, -⟩ := odqd_ok he L h3 hl a alpha beta V hm np sp an
  have hden : (0 : ℝ) < (num : ℝ) - 1 := by
    have : (3 : ℝ) ≤ num := by exact_mod_cast h3
    linarith
  have hd : (L - -L) / ((num : ℝ) - 1) = 2 * L / ((num : ℝ) - 1) := by ring
  rw [hd] at hb hH
  set dx := 2 * L / ((num : ℝ) - 1) with hdxe
  have hdx : 0 < dx := div_pos (by linarith) hden
  have hlin : TwoDim.linspace (-L) L num = fun i : ℕ => -L + i * dx := by
    funext i
    unfold TwoDim.linspace
    rw [hd]
  rw [hlin] at hH
  have hs : (Real.sqrt dx : ℂ) ≠ 0 := by exact_mod_cast (Real.sqrt_pos.2 hdx).ne'
  have hx : ∀ i : ℕ, (-L + ((i + 1 : ℕ) : ℝ) * dx) - (-L + i * dx) = dx := by intro i; push_cast; ring
  refine ⟨b, _, _, _, h1, hb.spf_eq, hb.s_eq, hh, rfl, rfl, rfl, ?_⟩
  intro x dx'
  have hq0 : ∀ p, p < l → (odqdSpf l num dx v).get [p, 0] = 0 := fun p hp => by
    rw [odqdSpf_get dx v hp (by omega), if_neg (by omega)]
  have hq1 : ∀ p, p < l → (odqdSpf l num dx v).get [p, num - 1] = 0 := fun p hp => by
    rw [odqdSpf_get dx v hp (by omega), if_neg (by omega)]
  have hqk : ∀ p k, p < l → k < num - 2 → (odqdSpf l num dx v).get [p, k + 1]
      = v.get [k, p] / (Real.sqrt dx : ℂ) := fun p k hp hk => by
    rw [odqdSpf_get dx v hp (by omega), if_pos ⟨by omega, by omega⟩, Nat.add_sub_cancel]
  have hov : ∀ p q, p < l → q < l → (trapezoid num x fun i =>
      (starRingEnd ℂ) ((odqdSpf l num dx v).get [p, i]) * (odqdSpf l num dx v).get [q, i])
      = if p = q then 1 else 0 := by
    intro p q hp hq
    rw [odqd_inner hdx hx h3 E hp hl, ← E.orthonormal p q (by omega) (by omega), Finset.mul_sum]
    refine Finset.sum_congr rfl fun k hk => ?_
    rw [hqk q k hq (Finset.mem_range.1 hk)]
    field_simp
  have heye : ∀ p q, p < l → (eye l : NDArray ℂ).get [p, q] = if p = q then 1 else 0 := fun p q hp =>
    eye_get l p q hp
  have hhe : ∀ p q, p < l → q < l → (ofFn .complex128 [l, l] (fun i => if i.getD 0 0 = i.getD 1 0 then
        w.get [i.getD 0 0] else 0) : NDArray ℂ).get [p, q] = if p = q then w.get [p] else 0 :=
    fun p q hp hq => ofFn_get_of (by exact ⟨hp, hq, trivial⟩)
  refine ⟨fun p hp => ⟨hq0 p hp, hq1 p hp⟩, fun p q hp hq => ?_, fun p q hp hq => heye p q hp,
    fun p q hp hq => ?_, fun p q hp hq hpq => by rw [hhe p q hp hq, if_neg hpq], fun p q hpq hq => ?_⟩
  · rw [heye p q hp, hov p q hp hq]
  · rw [hhe p q hp hq, odqd_inner hdx hx h3 E hp hl]
    have hrow : ∀ k, k < num - 2 → gridHamiltonian dx' x V (fun i => (odqdSpf l num dx v).get [q, i]) (k + 1)
        = w.get [q] * v.get [k, q] / (Real.sqrt dx : ℂ) := by
      intro k hk
      rw [gridHamiltonian_interior V x dx' hk _ (hq0 q hq) (hq1 q hq), ← E.eigen q k (by omega) hk,
        Finset.sum_div]
      refine Finset.sum_congr rfl fun j hj => ?_
      have hj := Finset.mem_range.1 hj
      rw [hqk q j hq hj, hH, ofFn_get_of (by exact ⟨hk, hj, trivial⟩)]
      simp only [List.getD_cons_zero, List.getD_cons_succ]
      rw [mul_div_assoc]
    rw [Finset.sum_congr rfl (fun k hk => by rw [hrow k (Finset.mem_range.1 hk)])]
    have := E.orthonormal p q (by omega) (by omega)
    rw [Finset.sum_congr rfl (g := fun k => w.get [q] / (Real.sqrt dx : ℂ) *
      ((starRingEnd ℂ) (v.get [k, p]) * v.get [k, q])) (fun k _ => by ring), ← Finset.mul_sum, this]
    by_cases hpq : p = q
    · subst hpq
      rw [if_pos rfl, if_pos rfl]
      field_simp
    · rw [if_neg hpq, if_neg hpq]
      simp
  · rw [hhe p p (by omega) (by omega), hhe q q hq hq, if_pos rfl, if_pos rfl]
    exact E.sorted p q hpq (by omega)

/-- **C56** The functions are the lowest ones: a grid function that vanishes at the ends and is orthogonal to
the first `k` single-particle functions has at least the energy `h[k, k]` per norm. -/
theorem C56_lowest {eigh : NDArray ℂ → Except PyErr (NDArray ℂ × NDArray ℂ)} (he : IsEigh eigh)
    {l num : ℕ} {L : ℝ} (hL : 0 < L) (h3 : 3 ≤ num) (hl : l ≤ num - 2) (a alpha beta : ℝ)
    (V : ℝ → ℝ) (hm : Bool) (np : Module) (sp an : Bool) :
    ∃ b f h, odqd eigh l L num a alpha beta V hm np sp an = .ok b ∧ b.spf = some f ∧ b.h = some h ∧
      let x : ℕ → ℝ := fun i => -L + i * (2 * L / ((num : ℝ) - 1))
      let dx : ℝ := 2 * L / ((num : ℝ) - 1)
      ∀ k, k < l → ∀ φ : ℕ → ℂ, φ 0 = 0 → φ (num - 1) = 0 →
        (∀ p, p < k → (trapezoid num x fun i => (starRingEnd ℂ) (f.get [p, i]) * φ i) = 0) →
        (h.get [k, k]).re * (trapezoid num x fun i => (starRingEnd ℂ) (φ i) * φ i).re
          ≤ (trapezoid num x fun i => (starRingEnd ℂ) (φ i) * gridHamiltonian dx x V φ i).re := by
  obtain ⟨b, H, w, v, h1, hH, E, hb, hh, -⟩ := odqd_ok he L h3 hl a alpha beta V hm np sp an
  have hden : (0 : ℝ) < (num : ℝ) - 1 := by
    have : (3 : ℝ) ≤ num := by exact_mod_cast h3
    linarith
  have hd : (L - -L) / ((num : ℝ) - 1) = 2 * L / ((num : ℝ) - 1) := by ring
  rw [hd] at hb hH
  set dx := 2 * L / ((num : ℝ) - 1) with hdxe
  have hdx : 0 < dx := div_pos (by linarith) hden
  have hlin : TwoDim.linspace (-L) L num = fun i : ℕ => -L + i * dx := by
    funext i
    unfold TwoDim.linspace
    rw [hd]
  rw [hlin] at hH
  have hs : (Real.sqrt dx : ℂ) ≠ 0 := by exact_mod_cast (Real.sqrt_pos.2 hdx).ne'
  have hx : ∀ i : ℕ, (-L + ((i + 1 : ℕ) : ℝ) * dx) - (-L + i * dx) = dx := by intro i; push_cast; ring
  refine ⟨b, _, _, h1, hb.spf_eq, hh, ?_⟩
  intro x dx' k hk φ h0 hN ho
  rw [ofFn_get_of (by exact ⟨hk, hk, trivial⟩)]
  simp only [List.getD_cons_zero, List.getD_cons_succ, if_true]
  have hb := E.bound (fun j => φ (j + 1)) (k := k) (fun p hp => by
    have := ho p hp
    rw [odqd_inner hdx hx h3 E (by omega) hl] at this
    exact (mul_eq_zero.1 this).resolve_left hs)
  rw [trapezoid_ends hx (by omega) _ (by rw [h0, mul_zero]) (by rw [hN, mul_zero]),
    trapezoid_ends hx (by omega) _ (by rw [h0, map_zero, zero_mul]) (by rw [hN, map_zero, zero_mul]),
    Complex.re_ofReal_mul, Complex.re_ofReal_mul]
  have e : ∑ i ∈ Finset.range (num - 2), (starRingEnd ℂ) (φ (i + 1)) *
        ∑ j ∈ Finset.range (num - 2), H.get [i, j] * φ (j + 1)
      = ∑ i ∈ Finset.range (num - 2), (starRingEnd ℂ) (φ (i + 1)) * gridHamiltonian dx' x V φ (i + 1) := by
    refine Finset.sum_congr rfl fun i hi => ?_
    have hi := Finset.mem_range.1 hi
    rw [gridHamiltonian_interior V x dx' hi _ h0 hN]
    congr 1
    refine Finset.sum_congr rfl fun j hj => ?_
    have hj := Finset.mem_range.1 hj
    rw [hH, ofFn_get_of (by exact ⟨hi, hj, trivial⟩)]
    rfl
  rw [e] at hb
  calc _ = dx * ((w.get [k]).re * (∑ j ∈ Finset.range (num - 2),
        (starRingEnd ℂ) (φ (j + 1)) * φ (j + 1)).re) := by ring
    _ ≤ _ := mul_le_mul_of_nonneg_left hb hdx.le

/-- With one interior point (`L = 1`, three grid points, `V = x²`) the only function has the energy
`1/dx² + V(0) = 1`. -/
example : ∃ eigh, IsEigh eigh ∧ ∃ b h, odqd eigh 1 1 3 1 1 0 (fun x => x ^ 2) = .ok b ∧ b.h = some h ∧
    h.get [0, 0] = 1 := by
  obtain ⟨eigh, he⟩ := isEigh_exists
  obtain ⟨b, f, s, h, h1, h2, h3, h4, h5, h6, h7, h8, h9, h10, h11, -⟩ :=
    C56_functions he (l := 1) (num := 3) (L := 1) one_pos le_rfl (by norm_num) 1 1 0 (fun x => x ^ 2)
      false 0 false false
  refine ⟨eigh, he, b, h, h1, h4, ?_⟩
  have hn := h9 0 0 (by norm_num) (by norm_num)
  rw [h10 0 0 (by norm_num) (by norm_num), if_pos rfl] at hn
  rw [h11 0 0 (by norm_num) (by norm_num)]
  obtain ⟨e0, e2⟩ := h8 0 (by norm_num)
  norm_num at e2
  simp only [trapezoid, Finset.sum_range_succ, Finset.sum_range_zero] at hn ⊢
  norm_num [e0, e2, gridHamiltonian] at hn ⊢
  linear_combination -hn

/-! ## C57 -/

/-- **C57** The dipole elements of every `ODQD` object are the trapezoidal matrix elements of `x + β x²`, and
they form a Hermitian matrix. -/
theorem C57_dipole {eigh : NDArray ℂ → Except PyErr (NDArray ℂ × NDArray ℂ)} (he : IsEigh eigh)
    {l num : ℕ} {L : ℝ} (_hL : 0 < L) (h3 : 3 ≤ num) (hl : l ≤ num - 2) (a alpha beta : ℝ)
    (V : ℝ → ℝ) (hm : Bool) (np : Module) (sp an : Bool) :
    ∃ b f d, odqd eigh l L num a alpha beta V hm np sp an = .ok b ∧ b.spf = some f ∧
      b.dipole = some d ∧ d.shape = [1, l, l] ∧
      let x : ℕ → ℝ := fun i => -L + i * (2 * L / ((num : ℝ) - 1))
      ∀ p q, p < l → q < l →
        (d.get [0, p, q] = trapezoid num x fun i => (starRingEnd ℂ) (f.get [p, i])
          * ((x i + beta * x i ^ 2 : ℝ) : ℂ) * f.get [q, i]) ∧
        d.get [0, p, q] = (starRingEnd ℂ) (d.get [0, q, p]) := by
  obtain ⟨b, H, w, v, h1, hH, E, hb, hh, hd⟩ := odqd_ok he L h3 hl a alpha beta V hm np sp an
  have hlin : TwoDim.linspace (-L) L num = fun i : ℕ => -L + i * (2 * L / ((num : ℝ) - 1)) := by
    funext i
    unfold TwoDim.linspace
    ring
  rw [hlin] at hd
  refine ⟨b, _, _, h1, hb.spf_eq, hd, rfl, fun p q hp hq => ?_⟩
  rw [ofFn_get_of (by exact ⟨by omega, hp, hq, trivial⟩), ofFn_get_of (by exact ⟨by omega, hq, hp, trivial⟩)]
  refine ⟨rfl, ?_⟩
  rw [trapezoid_conj]
  refine trapezoid_congr fun i _ => ?_
  simp only [List.getD_cons_zero, List.getD_cons_succ, map_mul, Complex.conj_conj, Complex.conj_ofReal]
  ring

/-- With one interior point the function sits at the origin and has no dipole moment. -/
example : ∃ eigh, IsEigh eigh ∧ ∃ b d, odqd eigh 1 1 3 1 1 5 (fun x => x ^ 2) = .ok b ∧ b.dipole = some d ∧
    d.get [0, 0, 0] = 0 := by
  obtain ⟨eigh, he⟩ := isEigh_exists
  obtain ⟨b, f, d, h1, h2, h3, -, h4⟩ := C57_dipole he (l := 1) (num := 3) (L := 1) one_pos le_rfl (by norm_num)
    1 1 5 (fun x => x ^ 2) false 0 false false
  obtain ⟨b', f', s, h, h1', h2', -, -, -, -, -, h8, -⟩ :=
    C56_functions he (l := 1) (num := 3) (L := 1) one_pos le_rfl (by norm_num) 1 1 5 (fun x => x ^ 2)
      false 0 false false
  obtain rfl : b' = b := by rw [h1] at h1'; cases h1'; rfl
  obtain rfl : f' = f := by rw [h2] at h2'; cases h2'; rfl
  refine ⟨eigh, he, b', d, h1, h3, ?_⟩
  rw [(h4 0 0 (by norm_num) (by norm_num)).1]
  obtain ⟨e0, e2⟩ := h8 0 (by norm_num)
  norm_num at e2
  norm_num [trapezoid, Finset.sum_range_succ, e0, e2]

/-! ## C58 -/

theorem odhoDip_eq {omega : ℝ} (ho : 0 < omega) (n : ℕ) :
    odhoDip omega n = Real.sqrt ((n + 1) / (2 * omega)) := by
  have hN := ho_norm_sq ho n
  have hso : 0 < Real.sqrt omega := Real.sqrt_pos.2 ho
  have hn : (0 : ℝ) < (n : ℝ) + 1 := by positivity
  have h2 : (0 : ℝ) < 2 ^ n * n.factorial := by positivity
  have hs2 : Real.sqrt (2 * (n + 1)) ≠ 0 := (Real.sqrt_pos.2 (by positivity)).ne'
  have hup : normalization omega (n + 1) = normalization omega n / Real.sqrt (2 * (n + 1)) := by
    unfold normalization
    rw [show (2 : ℝ) ^ (n + 1) * ((n + 1).factorial : ℝ) = (2 ^ n * n.factorial) * (2 * (n + 1)) by
      rw [Nat.factorial_succ]; push_cast; ring, Real.sqrt_mul h2.le]
    have h3 : Real.sqrt (2 ^ n * n.factorial) ≠ 0 := (Real.sqrt_pos.2 h2).ne'
    field_simp
  unfold odhoDip
  rw [hup]
  have e1 : normalization omega n * (normalization omega n / Real.sqrt (2 * (n + 1))) * (n + 1)
      * Real.sqrt Real.pi * 2 ^ n * n.factorial / omega
      = (normalization omega n * normalization omega n / Real.sqrt omega
        * (2 ^ n * n.factorial * Real.sqrt Real.pi)) * (Real.sqrt omega * (n + 1)
          / (Real.sqrt (2 * (n + 1)) * omega)) := by
    field_simp
  rw [e1, hN, one_mul]
  symm
  rw [Real.sqrt_eq_iff_mul_self_eq (by positivity) (by positivity)]
  have h5 : Real.sqrt (2 * ((n : ℝ) + 1)) * Real.sqrt (2 * (n + 1)) = 2 * (n + 1) :=
    Real.mul_self_sqrt (by positivity)
  have h6 := Real.mul_self_sqrt ho.le
  rw [div_mul_div_comm, div_eq_div_iff (by positivity) (by positivity)]
  have : Real.sqrt omega * ((n : ℝ) + 1) * (Real.sqrt omega * (n + 1)) * (2 * omega)
      = (Real.sqrt omega * Real.sqrt omega) * (n + 1) * (n + 1) * (2 * omega) := by ring
  rw [this, h6]
  have : ((n : ℝ) + 1) * (Real.sqrt (2 * (n + 1)) * omega * (Real.sqrt (2 * (n + 1)) * omega))
      = ((n : ℝ) + 1) * (Real.sqrt (2 * (n + 1)) * Real.sqrt (2 * (n + 1))) * omega * omega := by ring
  rw [this, h5]
  ring

/-- **C58** The dipole elements of every `ODHO` object are `√((n+1)/(2ω))` between the levels `n` and
`n + 1` and zero elsewhere, they form a symmetric matrix, and the one-body elements are `ω (n + ½)` on the
diagonal and zero elsewhere. -/
theorem C58_elements (l : ℕ) (L : ℝ) {num : ℕ} (h2 : 2 ≤ num) {omega : ℝ} (ho : 0 < omega)
    (a alpha beta : ℝ) (np : Module) (sp an : Bool) :
    ∃ b h d, odho l L num omega a alpha beta np sp an = .ok b ∧ b.h = some h ∧ b.dipole = some d ∧
      h.shape = [l, l] ∧ d.shape = [1, l, l] ∧
      (∀ p q, p < l → q < l → h.get [p, q] = if p = q then ((omega * (p + 1 / 2) : ℝ) : ℂ) else 0) ∧
      (∀ n, n + 1 < l → d.get [0, n, n + 1] = ((Real.sqrt ((n + 1) / (2 * omega)) : ℝ) : ℂ)) ∧
      (∀ p q, p < l → q < l → p + 1 ≠ q → q + 1 ≠ p → d.get [0, p, q] = 0) ∧
      ∀ p q, p < l → q < l → d.get [0, p, q] = d.get [0, q, p] := by
  obtain ⟨b, h1, hb, hh, hd⟩ := odho_ok l L h2 omega a alpha beta np sp an
  have hde : ∀ p q, p < l → q < l → (ofFn .float64 [1, l, l] (fun i =>
        if i.getD 1 0 + 1 = i.getD 2 0 then (odhoDip omega (i.getD 1 0) : ℂ)
        else if i.getD 2 0 + 1 = i.getD 1 0 then (odhoDip omega (i.getD 2 0) : ℂ) else 0)).get [0, p, q]
      = if p + 1 = q then (odhoDip omega p : ℂ) else if q + 1 = p then (odhoDip omega q : ℂ) else 0 :=
    fun p q hp hq => ofFn_get_of (by exact ⟨by omega, hp, hq, trivial⟩)
  refine ⟨b, _, _, h1, hh, hd, rfl, rfl, fun p q hp hq => ?_, fun n hn => ?_, fun p q hp hq e1 e2 => ?_,
    fun p q hp hq => ?_⟩
  · rw [ofFn_get_of (by exact ⟨hp, hq, trivial⟩)]
    rfl
  · rw [hde n (n + 1) (by omega) hn, if_pos rfl, odhoDip_eq ho]
  · rw [hde p q hp hq, if_neg e1, if_neg e2]
  · rw [hde p q hp hq, hde q p hq hp]
    by_cases e1 : p + 1 = q
    · rw [if_pos e1, if_neg (by omega), if_pos e1]
    · by_cases e2 : q + 1 = p
      · rw [if_neg e1, if_pos e2, if_pos e2]
      · rw [if_neg e1, if_neg e2, if_neg e2, if_neg e1]

/-- Three levels with `ω = 2`: the element between the levels 1 and 2 is `√(2/4)`, the second energy is 3. -/
example : ∃ b h d, odho 3 10 11 2 1 1 0 = .ok b ∧ b.h = some h ∧ b.dipole = some d ∧ h.get [1, 1] = 3 ∧
    d.get [0, 2, 1] = ((Real.sqrt (1 / 2) : ℝ) : ℂ) ∧ d.get [0, 0, 2] = 0 := by
  obtain ⟨b, h, d, h1, h2, h3, -, -, h4, h5, h6, h7⟩ := C58_elements 3 10 (num := 11) (by norm_num)
    (omega := 2) (by norm_num) 1 1 0 0 false false
  refine ⟨b, h, d, h1, h2, h3, ?_, ?_, h6 0 2 (by norm_num) (by norm_num) (by norm_num) (by norm_num)⟩
  · rw [h4 1 1 (by norm_num) (by norm_num), if_pos rfl]
    push_cast
    norm_num
  · rw [h7 2 1 (by norm_num) (by norm_num), h5 1 (by norm_num)]
    congr 2
    norm_num

/-! ## C79 -/

theorem odhoDip_inner {omega : ℝ} (ho : 0 < omega) (n m : ℕ) :
    lineInner (hoFunction omega n) (fun x => x * hoFunction omega m x)
      = if n + 1 = m then odhoDip omega n else if m + 1 = n then odhoDip omega m else 0 := by
  have hso : Real.sqrt omega ≠ 0 := (Real.sqrt_pos.2 ho).ne'
  have h := ho_scale ho (fun x => x) n m
  have e : lineInner (hoFunction omega n) (fun x => x * hoFunction omega m x)
      = 1 / Real.sqrt omega * ∫ x, Real.sqrt omega * x * hoFunction omega n x * hoFunction omega m x := by
    unfold lineInner
    rw [← MeasureTheory.integral_const_mul]
    congr 1
    funext x
    field_simp
  have h6 := Real.mul_self_sqrt ho.le
  have e2 : 1 / Real.sqrt omega * (normalization omega n * normalization omega m / Real.sqrt omega)
      = normalization omega n * normalization omega m / omega := by
    rw [← h6]
    field_simp
    rw [Real.sqrt_sq (Real.sqrt_nonneg _)]
  rw [e, h, hermiteInt_x, ← mul_assoc, e2, hermiteInt_eq, hermiteInt_eq]
  by_cases h1 : n + 1 = m
  · subst h1
    rw [if_neg (by omega), if_pos (by omega), if_pos rfl, odhoDip]
    push_cast
    ring
  · rw [if_neg h1]
    by_cases h2 : m + 1 = n
    · subst h2
      rw [if_pos rfl, if_neg (by omega), if_pos rfl, odhoDip, Nat.factorial_succ]
      push_cast
      ring
    · rw [if_neg (by omega), if_neg h2]
      by_cases hm : m = 0
      · subst hm
        simp
      · rw [if_neg (by omega)]
        simp

/-- **C79** Every `ODHO` object holds exact oscillator quantities: there are orthonormal eigenfunctions of
`-½ d²/dx² + ½ ω² x²` on the line whose values at the grid points are in `spf`, whose overlaps are in `s`,
between which `h` holds the matrix elements of the Hamiltonian and `dipole_moment` those of `x`. -/
theorem C79_exact (l : ℕ) (L : ℝ) {num : ℕ} (h2 : 2 ≤ num) {omega : ℝ} (ho : 0 < omega)
    (a alpha beta : ℝ) (np : Module) (sp an : Bool) :
    ∃ b f s h d, odho l L num omega a alpha beta np sp an = .ok b ∧ b.spf = some f ∧ b.s = some s ∧
      b.h = some h ∧ b.dipole = some d ∧ ∃ ψ : ℕ → ℝ → ℝ,
        (∀ p x, lineHamiltonian (fun x => 1 / 2 * omega ^ 2 * x ^ 2) (ψ p) x = omega * (p + 1 / 2) * ψ p x) ∧
        (∀ p q, lineInner (ψ p) (ψ q) = if p = q then 1 else 0) ∧
        (∀ p i, p < l → i < num → f.get [p, i] = ((ψ p (-L + i * (2 * L / ((num : ℝ) - 1))) : ℝ) : ℂ)) ∧
        (∀ p q, p < l → q < l → s.get [p, q] = ((lineInner (ψ p) (ψ q) : ℝ) : ℂ)) ∧
        (∀ p q, p < l → q < l → h.get [p, q] =
          ((lineInner (ψ p) (lineHamiltonian (fun x => 1 / 2 * omega ^ 2 * x ^ 2) (ψ q)) : ℝ) : ℂ)) ∧
        ∀ p q, p < l → q < l → d.get [0, p, q] = ((lineInner (ψ p) (fun x => x * ψ q x) : ℝ) : ℂ) := by
  obtain ⟨b, h1, hb, hh, hd⟩ := odho_ok l L h2 omega a alpha beta np sp an
  refine ⟨b, _, _, _, _, h1, hb.spf_eq, hb.s_eq, hh, hd, hoFunction omega, ho_eigen ho, ho_orthonormal ho,
    fun p i hp hi => ?_, fun p q hp hq => ?_, fun p q hp hq => ?_, fun p q hp hq => ?_⟩
  · unfold odhoSpf
    rw [ofFn_get_of (by exact ⟨hp, hi, trivial⟩)]
    simp only [List.getD_cons_zero, List.getD_cons_succ, TwoDim.linspace]
    congr 3
    ring
  · rw [eye_get l p q hp, ho_orthonormal ho]
    by_cases hpq : p = q <;> simp [hpq]
  · rw [ofFn_get_of (by exact ⟨hp, hq, trivial⟩)]
    simp only [List.getD_cons_zero, List.getD_cons_succ]
    have e : lineInner (hoFunction omega p)
        (lineHamiltonian (fun x => 1 / 2 * omega ^ 2 * x ^ 2) (hoFunction omega q))
        = omega * (q + 1 / 2) * lineInner (hoFunction omega p) (hoFunction omega q) := by
      unfold lineInner
      rw [← MeasureTheory.integral_const_mul]
      congr 1
      funext x
      rw [ho_eigen ho]
      ring
    rw [e, ho_orthonormal ho]
    by_cases hpq : p = q
    · subst hpq; simp
    · simp [hpq]
  · rw [ofFn_get_of (by exact ⟨by omega, hp, hq, trivial⟩), odhoDip_inner ho]
    simp only [List.getD_cons_zero, List.getD_cons_succ]
    by_cases e1 : p + 1 = q
    · rw [if_pos e1, if_pos e1]
    · rw [if_neg e1, if_neg e1]
      by_cases e2 : q + 1 = p
      · rw [if_pos e2, if_pos e2]
      · rw [if_neg e2, if_neg e2, Complex.ofReal_zero]

/-- The first excited function at `x = 1` for `ω = 1`: `(4/π)^{1/4} e^{-1/2}`, up to the rounding of the
grid (three points on `[-1, 1]`). -/
example : ∃ b f, odho 2 1 3 1 1 1 0 = .ok b ∧ b.spf = some f ∧ f.get [1, 2] =
    ((1 / Real.sqrt 2 * (1 / Real.pi) ^ (1 / 4 : ℝ) * Real.exp (-(1 / 2)) * 2 : ℝ) : ℂ) := by
  obtain ⟨b, h1, hb, -⟩ := odho_ok 2 1 (num := 3) (by norm_num) 1 1 1 0 0 false false
  refine ⟨b, _, h1, hb.spf_eq, ?_⟩
  unfold odhoSpf
  rw [ofFn_get_of (by exact ⟨by norm_num, by norm_num, trivial⟩)]
  simp only [List.getD_cons_zero, List.getD_cons_succ, TwoDim.linspace, hoFunction, normalization, hermite]
  norm_num

/-! ## C80 -/

/-- **C80** `ODQD` never returns a basis set with more functions than there are interior grid points: it
raises instead. -/
theorem C80_rejects {eigh : NDArray ℂ → Except PyErr (NDArray ℂ × NDArray ℂ)} (he : IsEigh eigh)
    {l num : ℕ} {L : ℝ} {a alpha beta : ℝ} {V : ℝ → ℝ} {hm : Bool} {np : Module} {sp an : Bool}
    {b : BasisSet ℂ} (h : odqd eigh l L num a alpha beta V hm np sp an = .ok b) : 3 ≤ num ∧ l ≤ num - 2 := by
  have hg : Uniform _ num _ _ := linspace_uniform L
  have hbad : ∀ e, odqdMatrix V (linspaceArr (-L) L num) num = .error e → False := by
    intro e hE
    unfold odqd at h
    dsimp only at h
    simp only [BasisSet.setGrid, odqdSetup, PyM.run_bind, PyM.run_modify, PyM.run_get, orErr, PyM.run_liftM,
      BasisSet.init] at h
    rw [hE] at h
    cases h
  have h3 : 3 ≤ num := by
    by_contra hn
    by_cases h1 : num ≤ 1
    · refine hbad .index ?_
      unfold odqdMatrix getItem
      rw [if_neg (by rw [hg.shape]; intro hi; have := hi.1; omega)]
      rfl
    · obtain rfl : num = 2 := by omega
      refine hbad .value ?_
      unfold odqdMatrix
      rw [getItem_ok (by exact ⟨by omega, trivial⟩), getItem_ok (by exact ⟨by omega, trivial⟩)]
      simp only [ok_bind]
      rw [slice_one hg.shape]
      simp only [ok_bind]
      rw [if_pos (by omega)]
      rfl
  refine ⟨h3, ?_⟩
  by_contra hl
  obtain ⟨w, v, hwv, hE⟩ := he (num - 2) (ofFn .float64 [num - 2, num - 2] (fun i =>
      (fdEntry V (TwoDim.linspace (-L) L num) ((L - -L) / ((num : ℝ) - 1)) (i.getD 0 0) (i.getD 1 0) : ℂ)))
    rfl (by
      intro i j
      by_cases hi : i < num - 2 ∧ j < num - 2
      · rw [ofFn_get_of (by exact ⟨hi.1, hi.2, trivial⟩), ofFn_get_of (by exact ⟨hi.2, hi.1, trivial⟩)]
        simp only [List.getD_cons_zero, List.getD_cons_succ, Complex.conj_ofReal]
        rw [fdEntry_symm]
      · rw [ofFn_get, ofFn_get, if_neg (fun h => hi ⟨h.1, h.2.1⟩), if_neg (fun h => hi ⟨h.2.1, h.1⟩), map_zero])
  unfold odqd at h
  dsimp only at h
  simp only [BasisSet.setGrid, odqdSetup, PyM.run_bind, PyM.run_modify, PyM.run_get, orErr, PyM.run_liftM,
    BasisSet.init] at h
  rw [odqdMatrix_eq V hg h3, getItem_ok (by exact ⟨by omega, trivial⟩),
    getItem_ok (by exact ⟨by omega, trivial⟩)] at h
  dsimp only at h
  rw [hwv] at h
  dsimp only at h
  rw [slice_one hE.w_shape, slice_two hE.v_shape] at h
  dsimp only at h
  rw [BasisSet.setSpf_run (sh := [num]) (by rfl) (by rfl)] at h
  dsimp only at h
  split at h
  · rename_i hok
    split at hok
    · rename_i spf _ hsi
      rw [diag_zero rfl] at hok
      dsimp only at hok
      split at hok
      · rename_i hset
        obtain ⟨y, hy, hax, -⟩ := BasisSet.setH_inv hset
        cases hy
        have hd := hax (min l (num - 2) - min 0 (num - 2)) (by simp [toComplex])
        simp only at hd
        rw [← (Prod.mk.inj hsi).2] at hd
        dsimp only at hd
        omega
      · cases hok
    · cases hok
  · cases h

/-- Three grid points carry one function, not two. -/
example : ∃ eigh, IsEigh eigh ∧ ∀ b, odqd eigh 2 1 3 1 1 0 (fun x => x ^ 2) ≠ .ok b := by
  obtain ⟨eigh, he⟩ := isEigh_exists
  refine ⟨eigh, he, fun b h => ?_⟩
  have := (C80_rejects he h).2
  omega

/-! ## C81 -/

/-- **C81** as stated: the dipole elements of `ODHO`, like those of `ODQD`, are the matrix elements of
`x + β x²`. -/
def C81_statement : Prop :=
  ∀ (l : ℕ) (L : ℝ) (num : ℕ) (omega a alpha beta : ℝ) (np : Module) (sp an : Bool),
    2 ≤ num → 0 < omega → a ≠ 0 →
    ∃ b d, odho l L num omega a alpha beta np sp an = .ok b ∧ b.dipole = some d ∧
      ∀ p q, p < l → q < l → d.get [0, p, q] = ((lineInner (hoFunction omega p)
        (fun x => (x + beta * x ^ 2) * hoFunction omega q x) : ℝ) : ℂ)

/-- What holds: `beta` has no influence on an `ODHO` object. -/
theorem C81_actual (l : ℕ) (L : ℝ) (num : ℕ) (omega a alpha beta beta' : ℝ) (np : Module) (sp an : Bool) :
    odho l L num omega a alpha beta np sp an = odho l L num omega a alpha beta' np sp an := rfl

theorem ho_square_ground {omega : ℝ} (ho : 0 < omega) (beta : ℝ) :
    lineInner (hoFunction omega 0) (fun x => (x + beta * x ^ 2) * hoFunction omega 0 x)
      = beta / (2 * omega) := by
  have hso : Real.sqrt omega ≠ 0 := (Real.sqrt_pos.2 ho).ne'
  have h6 := Real.mul_self_sqrt ho.le
  have h := ho_scale ho (fun x => x / Real.sqrt omega + beta * (x / Real.sqrt omega) ^ 2) 0 0
  have e : lineInner (hoFunction omega 0) (fun x => (x + beta * x ^ 2) * hoFunction omega 0 x)
      = ∫ x, (Real.sqrt omega * x / Real.sqrt omega + beta * (Real.sqrt omega * x / Real.sqrt omega) ^ 2)
        * hoFunction omega 0 x * hoFunction omega 0 x := by
    unfold lineInner
    congr 1
    funext x
    rw [mul_div_cancel_left₀ _ hso]
    ring
  have e2 : ∫ x, (x / Real.sqrt omega + beta * (x / Real.sqrt omega) ^ 2) * hermite 0 x * hermite 0 x
        * Real.exp (-x ^ 2)
      = 1 / Real.sqrt omega * (∫ x, x * hermite 0 x * hermite 0 x * Real.exp (-x ^ 2))
        + beta / omega * ∫ x, x ^ 2 * hermite 0 x * hermite 0 x * Real.exp (-x ^ 2) := by
    have i1 := (hermite_integrable Polynomial.X 0 0).const_mul (1 / Real.sqrt omega)
    have i2 := (hermite_integrable (Polynomial.X ^ 2) 0 0).const_mul (beta / omega)
    simp only [Polynomial.eval_X, Polynomial.eval_pow] at i1 i2
    rw [← MeasureTheory.integral_const_mul, ← MeasureTheory.integral_const_mul,
      ← MeasureTheory.integral_add i1 i2]
    congr 1
    funext x
    rw [div_pow, sq (Real.sqrt omega), h6]
    ring
  rw [e, h, e2, hermiteInt_x, hermiteInt_x2]
  have hN := ho_norm_sq ho 0
  simp only [hermiteInt_eq]
  norm_num at hN ⊢
  linear_combination beta / (2 * omega) * hN

/-- **C81** is false: with `β = 1` the ground state element should be `1/(2ω)`, the code stores 0. -/
theorem C81_false : ¬ C81_statement := by
  intro hC
  obtain ⟨b, d, h1, h2, h3⟩ := hC 1 1 2 1 1 1 1 0 false false le_rfl one_pos one_ne_zero
  obtain ⟨b', h, d', h1', -, h2', -, -, -, -, h4, -⟩ := C58_elements 1 1 (num := 2) le_rfl (omega := 1) one_pos
    1 1 1 0 false false
  rw [h1] at h1'
  cases h1'
  rw [h2] at h2'
  cases h2'
  have h5 := h3 0 0 one_pos one_pos
  rw [h4 0 0 one_pos one_pos (by omega) (by omega), ho_square_ground one_pos] at h5
  norm_num at h5

/-- **C81** for `β = 0`.  Missing: all other values of `β`, for which the claim is false. -/
theorem C81_partial (l : ℕ) (L : ℝ) {num : ℕ} (h2 : 2 ≤ num) {omega : ℝ} (ho : 0 < omega)
    (a alpha : ℝ) (np : Module) (sp an : Bool) :
    ∃ b d, odho l L num omega a alpha 0 np sp an = .ok b ∧ b.dipole = some d ∧
      ∀ p q, p < l → q < l → d.get [0, p, q] = ((lineInner (hoFunction omega p)
        (fun x => (x + 0 * x ^ 2) * hoFunction omega q x) : ℝ) : ℂ) := by
  obtain ⟨b, h1, hb, hh, hd⟩ := odho_ok l L h2 omega a alpha 0 np sp an
  refine ⟨b, _, h1, hd, fun p q hp hq => ?_⟩
  simp only [zero_mul, add_zero]
  rw [ofFn_get_of (by exact ⟨by omega, hp, hq, trivial⟩), odhoDip_inner ho]
  simp only [List.getD_cons_zero, List.getD_cons_succ]
  by_cases e1 : p + 1 = q
  · rw [if_pos e1, if_pos e1]
  · rw [if_neg e1, if_neg e1]
    by_cases e2 : q + 1 = p
    · rw [if_pos e2, if_pos e2]
    · rw [if_neg e2, if_neg e2, Complex.ofReal_zero]

end QS.Props
