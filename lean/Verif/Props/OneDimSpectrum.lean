import Verif.Lemmas.Tridiagonal
import Verif.Props.OneDim

/-!
# Spectrum, parity and interaction bounds of the one-dimensional quantum dots (C86 - C88)
-/

namespace QS.Props

open OneDim NDArray Spec

/-- What the constructor of `ODQD` stores, in terms of functions on the grid. -/
structure OdqdFacts (l num : ℕ) (L a alpha beta : ℝ) (V : ℝ → ℝ) (f h d u : NDArray ℂ) : Prop where
  left : ∀ p, p < l → f.get [p, 0] = 0
  right : ∀ p, p < l → f.get [p, num - 1] = 0
  orthonormal : ∀ p q, p < l → q < l → (trapezoid num (fun i => -L + i * (2 * L / ((num : ℝ) - 1))) fun i =>
    (starRingEnd ℂ) (f.get [p, i]) * f.get [q, i]) = if p = q then 1 else 0
  eigen : ∀ p, p < l → GridEigen num (2 * L / ((num : ℝ) - 1)) (fun i => -L + i * (2 * L / ((num : ℝ) - 1))) V
    (h.get [p, p]) (fun i => f.get [p, i])
  real : ∀ p, p < l → (h.get [p, p]).im = 0
  sorted : ∀ p q, p ≤ q → q < l → (h.get [p, p]).re ≤ (h.get [q, q]).re
  dipole : ∀ p q, p < l → q < l → d.get [0, p, q] = trapezoid num (fun i => -L + i * (2 * L / ((num : ℝ) - 1)))
    fun i => (starRingEnd ℂ) (f.get [p, i]) * (((-L + i * (2 * L / ((num : ℝ) - 1)))
      + beta * (-L + i * (2 * L / ((num : ℝ) - 1))) ^ 2 : ℝ) : ℂ) * f.get [q, i]
  coulomb : ∀ p q r s, p < l → q < l → r < l → s < l → u.get [p, q, r, s] =
    coulombSum num (fun i => -L + i * (2 * L / ((num : ℝ) - 1))) (fun p i => f.get [p, i]) alpha a p q r s

theorem odqd_facts {eigh : NDArray ℂ → Except PyErr (NDArray ℂ × NDArray ℂ)} (he : IsEigh eigh)
    {l num : ℕ} {L : ℝ} (hL : 0 < L) (h3 : 3 ≤ num) (hl : l ≤ num - 2) (a alpha beta : ℝ)
    (V : ℝ → ℝ) (hm : Bool) (np : Module) (sp an : Bool) :
    ∃ b f h d u, odqd eigh l L num a alpha beta V hm np sp an = .ok b ∧ b.spf = some f ∧ b.h = some h ∧
      b.dipole = some d ∧ b.u = some u ∧ OdqdFacts l num L a alpha beta V f h d u := by
  obtain ⟨b, H, w, v, h1, hH, E, hb, hh, hdip⟩ := odqd_ok he L h3 hl a alpha beta V hm np sp an
  have hden : (0 : ℝ) < (num : ℝ) - 1 := by
    have : (3 : ℝ) ≤ num := by exact_mod_cast h3
    linarith
  have hd : (L - -L) / ((num : ℝ) - 1) = 2 * L / ((num : ℝ) - 1) := by ring
  rw [hd] at hb hH hdip
  have hue := hb.u_eq
  have hse := hb.spf_eq
  have hdx : 0 < 2 * L / ((num : ℝ) - 1) := div_pos (by linarith) hden
  have hlin : TwoDim.linspace (-L) L num = fun i : ℕ => -L + i * (2 * L / ((num : ℝ) - 1)) := by
    funext i
    unfold TwoDim.linspace
    rw [hd]
  rw [hlin] at hH hdip hue
  clear hb
  set dx := 2 * L / ((num : ℝ) - 1) with hdxe
  have hs : (Real.sqrt dx : ℂ) ≠ 0 := by exact_mod_cast (Real.sqrt_pos.2 hdx).ne'
  have hx : ∀ i : ℕ, (-L + ((i + 1 : ℕ) : ℝ) * dx) - (-L + i * dx) = dx := by intro i; push_cast; ring
  have hq0 : ∀ p, p < l → (odqdSpf l num dx v).get [p, 0] = 0 := fun p hp => by
    rw [odqdSpf_get dx v hp (by omega), if_neg (by omega)]
  have hq1 : ∀ p, p < l → (odqdSpf l num dx v).get [p, num - 1] = 0 := fun p hp => by
    rw [odqdSpf_get dx v hp (by omega), if_neg (by omega)]
  have hqk : ∀ p k, p < l → k < num - 2 → (odqdSpf l num dx v).get [p, k + 1]
      = v.get [k, p] / (Real.sqrt dx : ℂ) := fun p k hp hk => by
    rw [odqdSpf_get dx v hp (by omega), if_pos ⟨by omega, by omega⟩, Nat.add_sub_cancel]
  have hhe : ∀ p, p < l → (ofFn .complex128 [l, l] (fun i => if i.getD 0 0 = i.getD 1 0 then
        w.get [i.getD 0 0] else 0) : NDArray ℂ).get [p, p] = w.get [p] := fun p hp => by
    rw [ofFn_get_of (by exact ⟨hp, hp, trivial⟩)]
    exact if_pos rfl
  refine ⟨b, _, _, _, _, h1, hse, hh, hdip, hue, ⟨hq0, hq1, fun p q hp hq => ?_, fun p hp i hi1 hi2 => ?_,
    fun p hp => by rw [hhe p hp]; exact E.real _, fun p q hpq hq => ?_, fun p q hp hq => ?_,
    fun p q r s hp hq hr hs => ?_⟩⟩
  · rw [odqd_inner hdx hx h3 E hp hl, ← E.orthonormal p q (by omega) (by omega), Finset.mul_sum]
    refine Finset.sum_congr rfl fun k hk => ?_
    rw [hqk q k hq (Finset.mem_range.1 hk)]
    field_simp
  · obtain ⟨k, rfl⟩ : ∃ k, i = k + 1 := ⟨i - 1, by omega⟩
    have hk : k < num - 2 := by omega
    rw [hhe p hp, gridHamiltonian_interior V _ dx hk _ (hq0 p hp) (hq1 p hp)]
    dsimp only
    rw [hqk p k hp hk, mul_div_assoc', ← E.eigen p k (by omega) hk, Finset.sum_div]
    refine Finset.sum_congr rfl fun j hj => ?_
    have hj := Finset.mem_range.1 hj
    rw [hqk p j hp hj, hH, ofFn_get_of (by exact ⟨hk, hj, trivial⟩)]
    simp only [List.getD_cons_zero, List.getD_cons_succ]
    exact mul_div_assoc' _ _ _
  · rw [hhe p (by omega), hhe q hq]
    exact E.sorted p q hpq (by omega)
  · rw [ofFn_get_of (by exact ⟨by omega, hp, hq, trivial⟩)]
    rfl
  · rw [ofFn_get_of (by exact ⟨hp, hq, hr, hs, trivial⟩)]
    rfl

section

variable {l num : ℕ} {L a alpha beta : ℝ} {V : ℝ → ℝ} {f h d u : NDArray ℂ}

theorem OdqdFacts.ne (F : OdqdFacts l num L a alpha beta V f h d u) {p : ℕ} (hp : p < l) :
    ∃ i, i < num ∧ f.get [p, i] ≠ 0 := by
  by_contra hc
  push Not at hc
  have h1 := F.orthonormal p p hp hp
  rw [if_pos rfl, trapezoid_congr (g := fun _ => 0) (fun i hi => by rw [hc i hi, mul_zero])] at h1
  simp [trapezoid] at h1

theorem dx_pos (hL : 0 < L) (h3 : 3 ≤ num) : 0 < 2 * L / ((num : ℝ) - 1) := by
  have : (3 : ℝ) ≤ num := by exact_mod_cast h3
  exact div_pos (by linarith) (by linarith)

theorem OdqdFacts.one_ne (F : OdqdFacts l num L a alpha beta V f h d u) (hL : 0 < L) (h3 : 3 ≤ num) {p : ℕ}
    (hp : p < l) : f.get [p, 1] ≠ 0 := by
  intro hc
  obtain ⟨i, hi, hne⟩ := F.ne hp
  exact hne ((F.eigen p hp).zero (dx_pos hL h3).ne' (F.left p hp) hc i hi)

end

/-! ## C86 -/

/-- **C86** For a repulsive interaction (`alpha ≥ 0`) the two-body elements of every `ODQD` object satisfy the
Cauchy-Schwarz inequality, the direct elements are real and non-negative, and the exchange elements are at
most as large as the direct ones.  For `alpha > 0` the direct elements are positive. -/
theorem C86_odqd {eigh : NDArray ℂ → Except PyErr (NDArray ℂ × NDArray ℂ)} (he : IsEigh eigh)
    {l num : ℕ} {L : ℝ} (hL : 0 < L) (h3 : 3 ≤ num) (hl : l ≤ num - 2) {a : ℝ} (h0 : a ≠ 0) {alpha : ℝ}
    (ha : 0 ≤ alpha) (beta : ℝ) (V : ℝ → ℝ) (hm : Bool) (np : Module) (sp an : Bool) :
    ∃ b u, odqd eigh l L num a alpha beta V hm np sp an = .ok b ∧ b.u = some u ∧
      (∀ p q, p < l → q < l → (u.get [p, q, p, q]).im = 0 ∧ 0 ≤ (u.get [p, q, p, q]).re ∧
        (0 < alpha → 0 < (u.get [p, q, p, q]).re)) ∧
      (∀ p q r s, p < l → q < l → r < l → s < l →
        ‖u.get [p, q, r, s]‖ ^ 2 ≤ (u.get [p, q, p, q]).re * (u.get [r, s, r, s]).re) ∧
      ∀ p q, p < l → q < l → ‖u.get [p, q, q, p]‖ ≤ (u.get [p, q, p, q]).re := by
  obtain ⟨b, f, h, d, u, h1, -, -, -, h5, F⟩ := odqd_facts he hL h3 hl a alpha beta V hm np sp an
  have hdx := dx_pos hL h3
  have hx : ∀ i : ℕ, (-L + ((i + 1 : ℕ) : ℝ) * (2 * L / ((num : ℝ) - 1))) - (-L + i * (2 * L / ((num : ℝ) - 1)))
      = 2 * L / ((num : ℝ) - 1) := by intro i; push_cast; ring
  refine ⟨b, u, h1, h5, fun p q hp hq => ?_, fun p q r s hp hq hr hs => ?_, fun p q hp hq => ?_⟩
  · rw [F.coulomb p q p q hp hq hp hq]
    refine ⟨by rw [coulombSum_direct (by omega), Complex.ofReal_im],
      coulombSum_direct_nonneg (by omega) hx hdx.le _ ha a p q, fun hpos => ?_⟩
    obtain ⟨n, rfl⟩ : ∃ n, num = n + 2 := ⟨num - 2, by omega⟩
    exact coulombSum_direct_pos hx hdx _ hpos h0 (i := 1) (j := 1) ⟨le_rfl, by omega⟩ ⟨le_rfl, by omega⟩
      (F.one_ne hL h3 hp) (F.one_ne hL h3 hq)
  · rw [F.coulomb p q p q hp hq hp hq, F.coulomb r s r s hr hs hr hs, F.coulomb p q r s hp hq hr hs]
    exact coulombSum_schwarz (by omega) hx hdx.le _ ha a p q r s
  · rw [F.coulomb p q p q hp hq hp hq, F.coulomb p q q p hp hq hq hp]
    exact coulombSum_exchange (by omega) hx hdx.le _ ha a p q

/-- **C86** The same for every `ODHO` object. -/
theorem C86_odho (l : ℕ) {L : ℝ} (hL : 0 < L) {num : ℕ} (h2 : 2 ≤ num) (omega : ℝ) {a : ℝ} (_h0 : a ≠ 0)
    {alpha : ℝ} (ha : 0 ≤ alpha) (beta : ℝ) (np : Module) (sp an : Bool) :
    ∃ b u, odho l L num omega a alpha beta np sp an = .ok b ∧ b.u = some u ∧
      (∀ p q, p < l → q < l → (u.get [p, q, p, q]).im = 0 ∧ 0 ≤ (u.get [p, q, p, q]).re) ∧
      (∀ p q r s, p < l → q < l → r < l → s < l →
        ‖u.get [p, q, r, s]‖ ^ 2 ≤ (u.get [p, q, p, q]).re * (u.get [r, s, r, s]).re) ∧
      ∀ p q, p < l → q < l → ‖u.get [p, q, q, p]‖ ≤ (u.get [p, q, p, q]).re := by
  obtain ⟨b, h1, hb, -⟩ := odho_ok l L h2 omega a alpha beta np sp an
  have hden : (0 : ℝ) < (num : ℝ) - 1 := by
    have : (2 : ℝ) ≤ num := by exact_mod_cast h2
    linarith
  have hdx : 0 ≤ (L - -L) / ((num : ℝ) - 1) := div_nonneg (by linarith) hden.le
  have hx : ∀ i, TwoDim.linspace (-L) L num (i + 1) - TwoDim.linspace (-L) L num i = (L - -L) / ((num : ℝ) - 1) :=
    (linspace_uniform L).step
  have hu : ∀ p q r s, p < l → q < l → r < l → s < l → (ofFn .complex128 [l, l, l, l] (fun i =>
      coulombSum num (TwoDim.linspace (-L) L num) (fun p j => (odhoSpf l num L omega).get [p, j]) alpha a
          (i.getD 0 0) (i.getD 1 0) (i.getD 2 0) (i.getD 3 0))).get [p, q, r, s]
      = coulombSum num (TwoDim.linspace (-L) L num) (fun p j => (odhoSpf l num L omega).get [p, j]) alpha a
          p q r s := fun p q r s hp hq hr hs => ofFn_get_of (by exact ⟨hp, hq, hr, hs, trivial⟩)
  refine ⟨b, _, h1, hb.u_eq, fun p q hp hq => ?_, fun p q r s hp hq hr hs => ?_, fun p q hp hq => ?_⟩
  · rw [hu p q p q hp hq hp hq]
    exact ⟨by rw [coulombSum_direct (by omega), Complex.ofReal_im],
      coulombSum_direct_nonneg (by omega) hx hdx _ ha a p q⟩
  · rw [hu p q p q hp hq hp hq, hu r s r s hr hs hr hs, hu p q r s hp hq hr hs]
    exact coulombSum_schwarz (by omega) hx hdx _ ha a p q r s
  · rw [hu p q p q hp hq hp hq, hu p q q p hp hq hq hp]
    exact coulombSum_exchange (by omega) hx hdx _ ha a p q

/-- Two functions of a double well on seven points: the direct element is positive and bounds the exchange
element. -/
example : ∃ eigh, IsEigh eigh ∧ ∃ b u, odqd eigh 2 3 7 1 1 0 (fun x => (x ^ 2 - 1) ^ 2) = .ok b ∧
    b.u = some u ∧ 0 < (u.get [0, 1, 0, 1]).re ∧ ‖u.get [0, 1, 1, 0]‖ ≤ (u.get [0, 1, 0, 1]).re := by
  obtain ⟨eigh, he⟩ := isEigh_exists
  obtain ⟨b, u, h1, h2, h3, -, h5⟩ := C86_odqd he (l := 2) (num := 7) (L := 3) (by norm_num) (by norm_num)
    (by norm_num) (a := 1) one_ne_zero (alpha := 1) zero_le_one 0 (fun x => (x ^ 2 - 1) ^ 2) false 0 false false
  exact ⟨eigh, he, b, u, h1, h2, (h3 0 1 (by norm_num) (by norm_num)).2.2 one_pos,
    h5 0 1 (by norm_num) (by norm_num)⟩

/-! ## C87 -/

/-- **C87** Every single-particle function of an `ODQD` object satisfies the difference equation
`-½ f'' + V f = h[p, p] f` at the inner grid points; the energies are real, strictly ascending, larger than
the smallest and at most `2 / dx²` above the largest value of the potential at the inner points. -/
theorem C87_spectrum {eigh : NDArray ℂ → Except PyErr (NDArray ℂ × NDArray ℂ)} (he : IsEigh eigh)
    {l num : ℕ} {L : ℝ} (hL : 0 < L) (h3 : 3 ≤ num) (hl : l ≤ num - 2) (a alpha beta : ℝ)
    (V : ℝ → ℝ) (hm : Bool) (np : Module) (sp an : Bool) :
    ∃ b f h, odqd eigh l L num a alpha beta V hm np sp an = .ok b ∧ b.spf = some f ∧ b.h = some h ∧
      let x : ℕ → ℝ := fun i => -L + i * (2 * L / ((num : ℝ) - 1))
      let dx : ℝ := 2 * L / ((num : ℝ) - 1)
      (∀ p, p < l → ∀ i, 1 ≤ i → i < num - 1 →
        gridHamiltonian dx x V (fun i => f.get [p, i]) i = h.get [p, p] * f.get [p, i]) ∧
      (∀ p, p < l → (h.get [p, p]).im = 0) ∧
      (∀ p q, p < q → q < l → (h.get [p, p]).re < (h.get [q, q]).re) ∧
      (∀ m, (∀ i, 1 ≤ i → i < num - 1 → m ≤ V (x i)) → ∀ p, p < l → m < (h.get [p, p]).re) ∧
      ∀ m, (∀ i, 1 ≤ i → i < num - 1 → V (x i) ≤ m) → ∀ p, p < l → (h.get [p, p]).re ≤ m + 2 / dx ^ 2 := by
  obtain ⟨b, f, h, d, u, h1, h2, h3', -, -, F⟩ := odqd_facts he hL h3 hl a alpha beta V hm np sp an
  have hdx := dx_pos hL h3
  refine ⟨b, f, h, h1, h2, h3', F.eigen, F.real, fun p q hpq hq => ?_, fun m hV p hp => ?_, fun m hV p hp => ?_⟩
  · have hp : p < l := by omega
    refine lt_of_le_of_ne (F.sorted p q hpq.le hq) fun hc => ?_
    have hE : h.get [p, p] = h.get [q, q] :=
      Complex.ext hc (by rw [F.real p hp, F.real q hq])
    have hpr := (F.eigen p hp).proportional hdx.ne' (hE ▸ F.eigen q hq) (F.left p hp) (F.left q hq)
    have h4 := F.orthonormal p q hp hq
    have h5 := F.orthonormal q q hq hq
    rw [if_neg (by omega)] at h4
    rw [if_pos rfl] at h5
    have h6 := F.one_ne hL h3 hp
    have h7 := F.one_ne hL h3 hq
    have h8 : (starRingEnd ℂ) (f.get [q, 1]) * 0 = (starRingEnd ℂ) (f.get [p, 1]) * 1 := by
      rw [← h4, ← h5, trapezoid_mul, trapezoid_mul]
      refine trapezoid_congr fun i hi => ?_
      have := congrArg (starRingEnd ℂ) (hpr i hi)
      simp only [map_mul] at this
      linear_combination f.get [q, i] * this
    rw [mul_zero, mul_one, eq_comm, map_eq_zero] at h8
    exact h6 h8
  · obtain ⟨i, hi, hne⟩ := F.ne hp
    obtain ⟨n, rfl⟩ : ∃ n, num = n + 2 := ⟨num - 2, by omega⟩
    exact (F.eigen p hp).lower hdx (F.left p hp) (F.right p hp) hV hi hne
  · obtain ⟨i, hi, hne⟩ := F.ne hp
    obtain ⟨n, rfl⟩ : ∃ n, num = n + 2 := ⟨num - 2, by omega⟩
    exact (F.eigen p hp).upper hdx (F.left p hp) (F.right p hp) hV hi hne

/-- In the symmetric double well `(x² - 1)²` the two lowest levels are positive and different. -/
example : ∃ eigh, IsEigh eigh ∧ ∃ b h, odqd eigh 2 3 7 1 1 0 (fun x => (x ^ 2 - 1) ^ 2) = .ok b ∧
    b.h = some h ∧ 0 < (h.get [0, 0]).re ∧ (h.get [0, 0]).re < (h.get [1, 1]).re := by
  obtain ⟨eigh, he⟩ := isEigh_exists
  obtain ⟨b, f, h, h1, -, h3, -, -, h4, h5, -⟩ := C87_spectrum he (l := 2) (num := 7) (L := 3) (by norm_num)
    (by norm_num) (by norm_num) 1 1 0 (fun x => (x ^ 2 - 1) ^ 2) false 0 false false
  exact ⟨eigh, he, b, h, h1, h3, h5 0 (fun i _ _ => by positivity) 0 (by norm_num),
    h4 0 1 (by norm_num) (by norm_num)⟩

/-! ## C88 -/

theorem grid_reflect {L : ℝ} {num : ℕ} (h2 : 2 ≤ num) {i : ℕ} (hi : i < num) :
    -L + ((num - 1 - i : ℕ) : ℝ) * (2 * L / ((num : ℝ) - 1)) = -(-L + i * (2 * L / ((num : ℝ) - 1))) := by
  have : (2 : ℝ) ≤ num := by exact_mod_cast h2
  have hne : (num : ℝ) - 1 ≠ 0 := by linarith
  rw [Nat.cast_sub (by omega), Nat.cast_sub (by omega)]
  push_cast
  field_simp
  ring

/-- A double trapezoidal sum with functions of definite parity vanishes when the product of the parities is
`-1`. -/
theorem coulombSum_parity {n : ℕ} {x : ℕ → ℝ} {dx : ℝ} (hx : ∀ i, x (i + 1) - x i = dx)
    (hr : ∀ i, i < n → x (n - 1 - i) = -x i) {φ : ℕ → ℕ → ℂ} {σ : ℕ → ℂ} {p q r s : ℕ}
    (hσ : ∀ k, k = p ∨ k = q ∨ k = r ∨ k = s → (starRingEnd ℂ) (σ k) = σ k ∧
      ∀ i, i < n → φ k (n - 1 - i) = σ k * φ k i) (hm : σ p * σ q * σ r * σ s = -1) (alpha a : ℝ) :
    coulombSum n x φ alpha a p q r s = 0 := by
  have key : coulombSum n x φ alpha a p q r s = -1 * coulombSum n x φ alpha a p q r s := by
    conv_lhs => unfold coulombSum
    rw [← trapezoid_reflect hx]
    unfold coulombSum
    rw [trapezoid_mul]
    refine trapezoid_congr fun i hi => ?_
    rw [← trapezoid_reflect hx, trapezoid_mul]
    refine trapezoid_congr fun j hj => ?_
    obtain ⟨c1, e1⟩ := hσ p (by simp)
    obtain ⟨c2, e2⟩ := hσ q (by simp)
    obtain ⟨-, e3⟩ := hσ r (by simp)
    obtain ⟨-, e4⟩ := hσ s (by simp)
    rw [e1 i hi, e2 j hj, e3 i hi, e4 j hj, hr i hi, hr j hj, map_mul, map_mul, c1, c2,
      show (-x i - -x j) ^ 2 = (x i - x j) ^ 2 by ring, ← hm]
    ring
  linear_combination key / 2

theorem sign_real {c : ℂ} (h : c = 1 ∨ c = -1) : (starRingEnd ℂ) c = c := by
  rcases h with rfl | rfl <;> simp

/-- **C88** In a symmetric potential every single-particle function of an `ODQD` object is even or odd.  The
dipole elements (`beta = 0`) between functions of the same parity vanish, and so do the two-body elements
whose functions have parities with product `-1`. -/
theorem C88_odqd {eigh : NDArray ℂ → Except PyErr (NDArray ℂ × NDArray ℂ)} (he : IsEigh eigh)
    {l num : ℕ} {L : ℝ} (hL : 0 < L) (h3 : 3 ≤ num) (hl : l ≤ num - 2) {a : ℝ} (_h0 : a ≠ 0) (alpha beta : ℝ)
    {V : ℝ → ℝ} (hV : ∀ y, V (-y) = V y) (hm : Bool) (np : Module) (sp an : Bool) :
    ∃ b f d u, odqd eigh l L num a alpha beta V hm np sp an = .ok b ∧ b.spf = some f ∧ b.dipole = some d ∧
      b.u = some u ∧ ∃ σ : ℕ → ℂ, (∀ p, p < l → (σ p = 1 ∨ σ p = -1) ∧
        ∀ i, i < num → f.get [p, num - 1 - i] = σ p * f.get [p, i]) ∧
      (beta = 0 → ∀ p q, p < l → q < l → σ p = σ q → d.get [0, p, q] = 0) ∧
      ∀ p q r s, p < l → q < l → r < l → s < l → σ p * σ q * σ r * σ s = -1 → u.get [p, q, r, s] = 0 := by
  obtain ⟨b, f, h, d, u, h1, h2, -, h4, h5, F⟩ := odqd_facts he hL h3 hl a alpha beta V hm np sp an
  have hdx := dx_pos hL h3
  have hx : ∀ i : ℕ, (-L + ((i + 1 : ℕ) : ℝ) * (2 * L / ((num : ℝ) - 1))) - (-L + i * (2 * L / ((num : ℝ) - 1)))
      = 2 * L / ((num : ℝ) - 1) := by intro i; push_cast; ring
  have hpar : ∀ p, p < l → (f.get [p, num - 1 - 1] / f.get [p, 1] = 1 ∨ f.get [p, num - 1 - 1] / f.get [p, 1] = -1)
      ∧ ∀ i, i < num → f.get [p, num - 1 - i] = f.get [p, num - 1 - 1] / f.get [p, 1] * f.get [p, i] := by
    intro p hp
    have hne := F.one_ne hL h3 hp
    have hg : GridEigen num (2 * L / ((num : ℝ) - 1)) (fun i => -L + i * (2 * L / ((num : ℝ) - 1))) V
        (h.get [p, p]) (fun i => f.get [p, num - 1 - i]) := by
      intro i hi1 hi2
      have := F.eigen p hp (num - 1 - i) (by omega) (by omega)
      unfold gridHamiltonian at this ⊢
      dsimp only at this ⊢
      rw [grid_reflect (by omega) (by omega), hV] at this
      rw [show num - 1 - (i + 1) = num - 1 - i - 1 by omega, show num - 1 - (i - 1) = num - 1 - i + 1 by omega,
        ← this]
      ring
    have hpr := hg.proportional hdx.ne' (F.eigen p hp) (by
      rw [Nat.sub_zero]
      exact F.right p hp) (F.left p hp)
    have hall : ∀ i, i < num → f.get [p, num - 1 - i] = f.get [p, num - 1 - 1] / f.get [p, 1] * f.get [p, i] := by
      intro i hi
      have := hpr i hi
      field_simp
      linear_combination this
    refine ⟨?_, hall⟩
    have h6 := hall (num - 1 - 1) (by omega)
    have h8 := hall 1 (by omega)
    rw [show num - 1 - (num - 1 - 1) = 1 by omega] at h6
    generalize f.get [p, num - 1 - 1] / f.get [p, 1] = c at h6 h8
    have h7 : (c - 1) * (c + 1) = 0 := by
      have : f.get [p, 1] * ((c - 1) * (c + 1)) = 0 := by linear_combination -h6 - c * h8
      exact (mul_eq_zero.1 this).resolve_left hne
    rcases mul_eq_zero.1 h7 with h | h
    · exact Or.inl (sub_eq_zero.1 h)
    · exact Or.inr (eq_neg_of_add_eq_zero_left h)
  refine ⟨b, f, d, u, h1, h2, h4, h5, fun p => f.get [p, num - 1 - 1] / f.get [p, 1], hpar,
    fun hb p q hp hq hs => ?_, fun p q r s hp hq hr hs hm => ?_⟩
  · rw [F.dipole p q hp hq, hb]
    dsimp only at hs
    obtain ⟨s1, e1⟩ := hpar p hp
    obtain ⟨s2, e2⟩ := hpar q hq
    rw [← hs] at e2
    generalize f.get [p, num - 1 - 1] / f.get [p, 1] = c at e1 e2 s1
    have hcc : c * c = 1 := by rcases s1 with rfl | rfl <;> norm_num
    have key : ∀ T : ℕ → ℂ, (∀ i, i < num → T (num - 1 - i) = -T i) →
        trapezoid num (fun i : ℕ => -L + i * (2 * L / ((num : ℝ) - 1))) T = 0 := by
      intro T hT
      have h6 := trapezoid_reflect (n := num) (x := fun i : ℕ => -L + i * (2 * L / ((num : ℝ) - 1))) hx T
      rw [trapezoid_congr (g := fun i => -1 * T i) (fun i hi => by rw [hT i hi]; ring), ← trapezoid_mul] at h6
      linear_combination -h6 / 2
    refine key _ fun i hi => ?_
    rw [grid_reflect (by omega) hi, e1 i hi, e2 i hi, map_mul, sign_real s1, zero_mul, zero_mul, add_zero, add_zero,
      Complex.ofReal_neg]
    linear_combination -((starRingEnd ℂ) (f.get [p, i])
      * ((-L + i * (2 * L / ((num : ℝ) - 1)) : ℝ) : ℂ) * f.get [q, i]) * hcc
  · rw [F.coulomb p q r s hp hq hr hs]
    refine coulombSum_parity (x := fun i : ℕ => -L + i * (2 * L / ((num : ℝ) - 1))) hx
      (fun i hi => grid_reflect (L := L) (num := num) (by omega) hi)
      (σ := fun p => f.get [p, num - 1 - 1] / f.get [p, 1]) (fun k hk => ?_) hm alpha a
    have hk' : k < l := by rcases hk with rfl | rfl | rfl | rfl <;> assumption
    exact ⟨sign_real (hpar k hk').1, (hpar k hk').2⟩

theorem hermite_parity (n : ℕ) (x : ℝ) : hermite n (-x) = (-1) ^ n * hermite n x := by
  have key : ∀ n, hermite n (-x) = (-1) ^ n * hermite n x ∧
      hermite (n + 1) (-x) = (-1) ^ (n + 1) * hermite (n + 1) x := by
    intro n
    induction n with
    | zero => exact ⟨by simp [hermite], by simp [hermite]⟩
    | succ n ih =>
      refine ⟨ih.2, ?_⟩
      rw [show n + 1 + 1 = n + 2 by ring, hermite_succ_succ, hermite_succ_succ, ih.1, ih.2]
      ring
  exact (key n).1

/-- **C88** The single-particle functions of every `ODHO` object have the parity `(-1)^p`, and the two-body
elements with `p + q + r + s` odd vanish. -/
theorem C88_odho (l : ℕ) (L : ℝ) {num : ℕ} (h2 : 2 ≤ num) (omega : ℝ) {a : ℝ} (_h0 : a ≠ 0)
    (alpha beta : ℝ) (np : Module) (sp an : Bool) :
    ∃ b f u, odho l L num omega a alpha beta np sp an = .ok b ∧ b.spf = some f ∧ b.u = some u ∧
      (∀ p i, p < l → i < num → f.get [p, num - 1 - i] = (-1) ^ p * f.get [p, i]) ∧
      ∀ p q r s, p < l → q < l → r < l → s < l → Odd (p + q + r + s) → u.get [p, q, r, s] = 0 := by
  obtain ⟨b, h1, hb, -⟩ := odho_ok l L h2 omega a alpha beta np sp an
  have hr : ∀ i, i < num → TwoDim.linspace (-L) L num (num - 1 - i) = -TwoDim.linspace (-L) L num i := by
    intro i hi
    have := grid_reflect (L := L) h2 hi
    unfold TwoDim.linspace
    rw [show (L - -L) / ((num : ℝ) - 1) = 2 * L / ((num : ℝ) - 1) by ring]
    exact this
  have hf : ∀ p i, p < l → i < num → (odhoSpf l num L omega).get [p, num - 1 - i]
      = (-1) ^ p * (odhoSpf l num L omega).get [p, i] := by
    intro p i hp hi
    unfold odhoSpf
    rw [ofFn_get_of (by exact ⟨hp, by omega, trivial⟩), ofFn_get_of (by exact ⟨hp, hi, trivial⟩)]
    simp only [List.getD_cons_zero, List.getD_cons_succ]
    rw [hr i hi]
    unfold hoFunction
    rw [mul_neg, hermite_parity, neg_sq]
    push_cast
    ring
  refine ⟨b, _, _, h1, hb.spf_eq, hb.u_eq, hf, fun p q r s hp hq hr' hs ho => ?_⟩
  rw [ofFn_get_of (by exact ⟨hp, hq, hr', hs, trivial⟩)]
  refine coulombSum_parity (linspace_uniform L).step hr (σ := fun k => (-1) ^ k) (fun k hk => ?_) ?_ alpha a
  · have hk' : k < l := by rcases hk with rfl | rfl | rfl | rfl <;> assumption
    exact ⟨by simp, fun i hi => hf k i hk' hi⟩
  · simp only [List.getD_cons_zero, List.getD_cons_succ, ← pow_add]
    exact ho.neg_one_pow

/-- A function in a symmetric double well has no dipole moment, although `V` has two minima. -/
example : ∃ eigh, IsEigh eigh ∧ ∃ b d, odqd eigh 2 3 7 1 1 0 (fun x => (x ^ 2 - 1) ^ 2) = .ok b ∧
    b.dipole = some d ∧ d.get [0, 0, 0] = 0 ∧ d.get [0, 1, 1] = 0 := by
  obtain ⟨eigh, he⟩ := isEigh_exists
  obtain ⟨b, f, d, u, h1, -, h3, -, σ, -, h5, -⟩ := C88_odqd he (l := 2) (num := 7) (L := 3) (by norm_num)
    (by norm_num) (by norm_num) (a := 1) one_ne_zero 1 0 (V := fun x => (x ^ 2 - 1) ^ 2)
    (fun y => by ring) false 0 false false
  exact ⟨eigh, he, b, d, h1, h3, h5 rfl 0 0 (by norm_num) (by norm_num) rfl, h5 rfl 1 1 (by norm_num) (by norm_num) rfl⟩

end QS.Props
