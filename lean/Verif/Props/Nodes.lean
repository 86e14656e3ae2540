import Verif.Lemmas.Nodes
import Verif.Props.GridSpectrum

/-!
# The nodes of the one-dimensional functions (C117)
-/

namespace QS.Props

open OneDim NDArray Spec BasisSet PyM Finset

/-- The real solution that starts with `0, 1`. -/
noncomputable def realSolution (D : ℕ → ℝ) (e : ℝ) : ℕ → ℝ
  | 0 => 0
  | 1 => 1
  | i + 2 => (D (i + 1) - e) * realSolution D e (i + 1) - realSolution D e i

theorem nodes_scale {n : ℕ} {c : ℝ} (hc : c ≠ 0) {r r' : ℕ → ℝ} (h : ∀ i < n + 2, r' i = c * r i) :
    nodes n r' = nodes n r := by
  unfold nodes
  congr 2
  · refine filter_congr fun i hi => ?_
    rw [h i (by have := mem_Icc.1 hi; omega)]
    simp [hc]
  · refine filter_congr fun i hi => ?_
    have hi := mem_range.1 hi
    have e : c * r i * (c * r (i + 1)) = c ^ 2 * (r i * r (i + 1)) := by ring
    rw [h i (by omega), h (i + 1) (by omega), e]
    have : 0 < c ^ 2 := by positivity
    exact ⟨fun h => by
      by_contra hn
      exact absurd h (not_lt.2 (mul_nonneg this.le (not_lt.1 hn))), fun h => mul_neg_of_pos_of_neg this h⟩

/-- The real eigenvectors of a grid. -/
theorem fam_jacobi {V : ℝ → ℝ} {L : ℝ} (hL : 0 < L) {n : ℕ} (hn : 1 ≤ n) {w : ℕ → ℝ} {f : ℕ → ℕ → ℂ}
    (F : GridLimit.Fam V L (n + 2) w f) : ∃ D W r, Nodes.Jacobi n D W r ∧
      ∀ p < n, f p 1 ≠ 0 ∧ ∀ i < n + 2, f p i = f p 1 * (r p i : ℂ) := by
  have hdx : 0 < GridLimit.dx L (n + 2) := GridLimit.dx_pos hL (by omega)
  set d := GridLimit.dx L (n + 2) with hd
  set D : ℕ → ℝ := fun i => 2 + 2 * d ^ 2 * V (-L + i * d) with hD
  set r : ℕ → ℕ → ℝ := fun p => realSolution D (2 * d ^ 2 * w p) with hr
  have hr2 : ∀ p i, r p (i + 2) = (D (i + 1) - 2 * d ^ 2 * w p) * r p (i + 1) - r p i := fun p i => rfl
  have hfr : ∀ p < n, ∀ i, (i < n + 2 → f p i = f p 1 * (r p i : ℂ)) ∧
      (i + 1 < n + 2 → f p (i + 1) = f p 1 * (r p (i + 1) : ℂ)) := by
    intro p hp i
    induction i with
    | zero =>
      refine ⟨fun _ => ?_, fun _ => ?_⟩
      · rw [F.left p hp, show r p 0 = 0 from rfl]
        simp
      · rw [show r p (0 + 1) = 1 from rfl]
        simp
    | succ i ih =>
      refine ⟨ih.2, fun hi => ?_⟩
      have := (F.eigen p hp).step hdx.ne' (i := i) (by omega)
      rw [show i + 1 + 1 = i + 2 from rfl, this, ih.1 (by omega), ih.2 (by omega), hr2, hD]
      push_cast
      ring
  have hor : ∀ p q, p < n → q < n → (d : ℂ) * ((starRingEnd ℂ) (f p 1) * f q 1)
      * ((∑ i ∈ range n, r p (i + 1) * r q (i + 1) : ℝ) : ℂ) = if p = q then 1 else 0 := by
    intro p q hp hq
    rw [← F.orth p q hp hq, Complex.ofReal_sum, mul_assoc, mul_sum]
    congr 1
    refine sum_congr rfl fun i hi => ?_
    have hi := mem_range.1 hi
    rw [(hfr p hp (i + 1)).1 (by omega), (hfr q hq (i + 1)).1 (by omega), map_mul, Complex.conj_ofReal]
    push_cast
    ring
  have hne : ∀ p < n, f p 1 ≠ 0 := fun p hp h => by
    have := hor p p hp hp
    rw [h, if_pos rfl] at this
    simp at this
  have hpos : ∀ p < n, 0 < ∑ i ∈ range n, r p (i + 1) * r p (i + 1) := fun p hp => by
    refine lt_of_le_of_ne (sum_nonneg fun i _ => mul_self_nonneg _) fun h => ?_
    have := hor p p hp hp
    rw [← h, if_pos rfl] at this
    simp at this
  have horth : ∀ p q, p < n → q < n → p ≠ q → ∑ i ∈ range n, r p (i + 1) * r q (i + 1) = 0 := by
    intro p q hp hq hpq
    have := hor p q hp hq
    rw [if_neg hpq] at this
    rcases mul_eq_zero.1 this with h | h
    · exfalso
      rcases mul_eq_zero.1 h with h | h
      · exact hdx.ne' (by exact_mod_cast h)
      · exact mul_ne_zero ((map_ne_zero _).2 (hne p hp)) (hne q hq) h
    · exact_mod_cast h
  refine ⟨D, fun p => 2 * d ^ 2 * w p, r, ⟨fun p _ => rfl, fun p hp => ?_, fun p hp i hi => ?_,
    fun p q hpq hq => ?_, horth, hpos⟩, fun p hp => ⟨hne p hp, fun i hi => (hfr p hp i).1 hi⟩⟩
  · have h1 := (hfr p hp (n + 1)).1 (by omega)
    have h2 := F.right p hp
    rw [show n + 2 - 1 = n + 1 from rfl, h1] at h2
    rcases mul_eq_zero.1 h2 with h | h
    · exact absurd h (hne p hp)
    · exact_mod_cast h
  · rw [hr2]
    ring
  · refine lt_of_le_of_ne (mul_le_mul_of_nonneg_left (F.sorted p q hpq.le hq) (by positivity)) fun h => ?_
    have e : r p = r q := by
      simp only [hr]
      rw [h]
    have h1 := horth p q (by omega) hq hpq.ne
    rw [e] at h1
    exact (hpos q hq).ne' h1

/-- **C117** Up to a phase, the `k`-th function of every `ODQD` object is real and has exactly `k` nodes, for every
potential and every grid. -/
theorem C117_nodes {eigh : NDArray ℂ → Except PyErr (NDArray ℂ × NDArray ℂ)} (he : IsEigh eigh) {l num : ℕ} {L : ℝ}
    (hL : 0 < L) (h3 : 3 ≤ num) (hl : l ≤ num - 2) (a alpha beta : ℝ) (V : ℝ → ℝ) (hm : Bool) (np : Module)
    (sp an : Bool) : ∃ b s, odqd eigh l L num a alpha beta V hm np sp an = .ok b ∧ b.spf = some s ∧ ∀ k < l,
      (∃ (c : ℂ) (r : ℕ → ℝ), ‖c‖ = 1 ∧ ∀ i < num, s.get [k, i] = c * (r i : ℂ)) ∧
      ∀ (c : ℂ) (r : ℕ → ℝ), c ≠ 0 → (∀ i < num, s.get [k, i] = c * (r i : ℂ)) → nodes (num - 2) r = k := by
  obtain ⟨w, f, F, h⟩ := odqd_states he hL V h3
  obtain ⟨b, s, H, d, u, k1, k2, -, -, -, -, k6⟩ := h l hl a alpha beta hm np sp an
  obtain ⟨n, rfl⟩ : ∃ n, num = n + 2 := ⟨num - 2, by omega⟩
  obtain ⟨D, W, r, J, hf⟩ := fam_jacobi hL (by omega) F
  refine ⟨b, s, k1, k2, fun k hk => ?_⟩
  have hkn : k < n := by omega
  obtain ⟨h1, h2⟩ := hf k hkn
  have hs : ∀ i < n + 2, s.get [k, i] = f k 1 * (r k i : ℂ) := fun i hi => by rw [(k6 k hk).2 i hi, h2 i hi]
  constructor
  · have hn : (‖f k 1‖ : ℂ) ≠ 0 := by exact_mod_cast norm_ne_zero_iff.2 h1
    refine ⟨f k 1 / ‖f k 1‖, fun i => ‖f k 1‖ * r k i, ?_, fun i hi => ?_⟩
    · rw [norm_div, Complex.norm_real, norm_norm, div_self (norm_ne_zero_iff.2 h1)]
    · rw [hs i hi]
      push_cast
      field_simp
  · intro c r' hc hr'
    show nodes n r' = k
    rw [← J.nodes_eq hkn]
    have he : ∀ i < n + 2, (r' i : ℂ) = f k 1 / c * (r k i : ℂ) := fun i hi => by
      have := (hr' i hi).symm.trans (hs i hi)
      field_simp
      linear_combination this
    obtain ⟨i, hi, hne⟩ : ∃ i < n, r k (i + 1) ≠ 0 := by
      by_contra hcon
      push Not at hcon
      have := J.pos k hkn
      rw [sum_eq_zero fun i hi => by rw [hcon i (mem_range.1 hi), mul_zero]] at this
      exact lt_irrefl _ this
    have hq : f k 1 / c = ((r' (i + 1) / r k (i + 1) : ℝ) : ℂ) := by
      have hz : (r k (i + 1) : ℂ) ≠ 0 := by exact_mod_cast hne
      rw [Complex.ofReal_div, he (i + 1) (by omega)]
      field_simp
    refine nodes_scale (c := r' (i + 1) / r k (i + 1)) (fun h0 => ?_) fun j hj => ?_
    · rw [h0, Complex.ofReal_zero] at hq
      exact div_ne_zero h1 hc hq
    · have := he j hj
      rw [hq] at this
      exact_mod_cast this

theorem pos_of_nodes {n : ℕ} {r : ℕ → ℝ} (h : nodes n r = 0) (h1 : 0 < r 1) : ∀ i, 1 ≤ i → i ≤ n → 0 < r i := by
  classical
  have hz := Nat.eq_zero_of_add_eq_zero h
  intro i hi
  induction i, hi using Nat.le_induction with
  | base => exact fun _ => h1
  | succ i hi ih =>
    intro hin
    have hp := ih (by omega)
    have a : r (i + 1) ≠ 0 := fun h0 => by
      have := card_eq_zero.1 hz.1
      exact notMem_empty (i + 1) (this ▸ mem_filter.2 ⟨mem_Icc.2 ⟨by omega, hin⟩, h0⟩)
    have b : ¬r i * r (i + 1) < 0 := fun h0 => by
      have := card_eq_zero.1 hz.2
      exact notMem_empty i (this ▸ mem_filter.2 ⟨mem_range.2 (by omega), h0⟩)
    refine lt_of_le_of_ne (not_lt.1 fun hneg => b (mul_neg_of_pos_of_neg hp hneg)) (Ne.symm a)

/-- **C117** Up to a phase the lowest function is positive at all inner grid points. -/
theorem C117_ground {eigh : NDArray ℂ → Except PyErr (NDArray ℂ × NDArray ℂ)} (he : IsEigh eigh) {l num : ℕ} {L : ℝ}
    (hL : 0 < L) (h3 : 3 ≤ num) (hl : l ≤ num - 2) (h0 : 0 < l) (a alpha beta : ℝ) (V : ℝ → ℝ) (hm : Bool) (np : Module)
    (sp an : Bool) : ∃ b s, odqd eigh l L num a alpha beta V hm np sp an = .ok b ∧ b.spf = some s ∧
      ∃ (c : ℂ) (r : ℕ → ℝ), ‖c‖ = 1 ∧ (∀ i < num, s.get [0, i] = c * (r i : ℂ)) ∧ ∀ i, 1 ≤ i → i ≤ num - 2 → 0 < r i := by
  obtain ⟨b, s, k1, k2, h⟩ := C117_nodes he hL h3 hl a alpha beta V hm np sp an
  obtain ⟨⟨c, r, hc, hs⟩, hn⟩ := h 0 h0
  have hc0 : c ≠ 0 := norm_ne_zero_iff.1 (by rw [hc]; exact one_ne_zero)
  have hnod := hn c r hc0 hs
  have h1 : r 1 ≠ 0 := fun hz => by
    have := (Nat.eq_zero_of_add_eq_zero hnod).1
    exact notMem_empty 1 (card_eq_zero.1 this ▸ mem_filter.2 ⟨mem_Icc.2 ⟨le_rfl, by omega⟩, hz⟩)
  rcases lt_or_gt_of_ne h1 with hneg | hpos
  · have hs' : ∀ i < num, s.get [0, i] = -c * ((-r i : ℝ) : ℂ) := fun i hi => by
      rw [hs i hi]
      push_cast
      ring
    exact ⟨b, s, k1, k2, -c, fun i => -r i, by rwa [norm_neg], hs',
      pos_of_nodes (hn (-c) (fun i => -r i) (neg_ne_zero.2 hc0) hs') (by linarith)⟩
  · exact ⟨b, s, k1, k2, c, r, hc, hs, pos_of_nodes hnod hpos⟩

/-- **C117** In a symmetric potential the `p`-th function of an `ODQD` object has the parity `(-1)^p`: even and odd
functions alternate.  So the dipole elements (`beta = 0`) vanish unless `p + q` is odd, and the two-body elements unless
`p + q + r + s` is even. -/
theorem C117_parity {eigh : NDArray ℂ → Except PyErr (NDArray ℂ × NDArray ℂ)} (he : IsEigh eigh) {l num : ℕ} {L : ℝ}
    (hL : 0 < L) (h3 : 3 ≤ num) (hl : l ≤ num - 2) {a : ℝ} (ha : a ≠ 0) (alpha beta : ℝ) {V : ℝ → ℝ}
    (hV : ∀ y, V (-y) = V y) (hm : Bool) (np : Module) (sp an : Bool) :
    ∃ b f d u, odqd eigh l L num a alpha beta V hm np sp an = .ok b ∧ b.spf = some f ∧ b.dipole = some d ∧
      b.u = some u ∧ (∀ p < l, ∀ i < num, f.get [p, num - 1 - i] = (-1) ^ p * f.get [p, i]) ∧
      (beta = 0 → ∀ p q, p < l → q < l → Even (p + q) → d.get [0, p, q] = 0) ∧
      ∀ p q r s, p < l → q < l → r < l → s < l → Odd (p + q + r + s) → u.get [p, q, r, s] = 0 := by
  obtain ⟨b, s, d, u, h1, h2, h4, h5, σ, hσ, hd, hu⟩ := C88_odqd he hL h3 hl ha alpha beta hV hm np sp an
  have key : ∀ p < l, σ p = (-1) ^ p := by
    obtain ⟨w, f, F, h⟩ := odqd_states he hL V h3
    obtain ⟨b', s', H, d', u', k1, k2, -, -, -, -, k6⟩ := h l hl a alpha beta hm np sp an
    obtain rfl : b' = b := Except.ok.inj (k1.symm.trans h1)
    obtain rfl : s' = s := Option.some.inj (k2.symm.trans h2)
    obtain ⟨n, rfl⟩ : ∃ n, num = n + 2 := ⟨num - 2, by omega⟩
    obtain ⟨D, W, r, J, hf⟩ := fam_jacobi hL (by omega) F
    intro p hp
    have hpn : p < n := by omega
    obtain ⟨g1, g2⟩ := hf p hpn
    have hs : ∀ i < n + 2, s'.get [p, i] = f p 1 * (r p i : ℂ) := fun i hi => by rw [(k6 p hp).2 i hi, g2 i hi]
    have hsign := Nodes.sign_eq (J.left p hpn) (J.right p hpn) (J.eigen p hpn) (by
      by_contra hcon
      push Not at hcon
      have := J.pos p hpn
      rw [sum_eq_zero fun i hi => by rw [hcon i (mem_range.1 hi), mul_zero]] at this
      exact lt_irrefl _ this)
    rw [J.nodes_eq hpn] at hsign
    have hmir := (hσ p hp).2 1 (by omega)
    rw [show n + 2 - 1 - 1 = n by omega, hs n (by omega), hs 1 (by omega), mul_left_comm] at hmir
    have hrn : (r p n : ℂ) = σ p * r p 1 := mul_left_cancel₀ g1 hmir
    rcases (hσ p hp).1 with hs1 | hs1 <;> rcases neg_one_pow_eq_or ℝ p with hp1 | hp1
    · rw [hs1]
      exact_mod_cast hp1.symm
    · exfalso
      rw [hs1, one_mul] at hrn
      have : r p n = r p 1 := by exact_mod_cast hrn
      rw [hp1, this] at hsign
      nlinarith [mul_self_nonneg (r p 1)]
    · exfalso
      rw [hs1] at hrn
      have : r p n = -r p 1 := by
        have e : ((r p n : ℝ) : ℂ) = ((-r p 1 : ℝ) : ℂ) := by rw [hrn]; push_cast; ring
        exact_mod_cast e
      rw [hp1, this] at hsign
      nlinarith [mul_self_nonneg (r p 1)]
    · rw [hs1]
      exact_mod_cast hp1.symm
  refine ⟨b, s, d, u, h1, h2, h4, h5, fun p hp i hi => ?_, fun hb p q hp hq hpq => ?_, fun p q r t hp hq hr ht hodd => ?_⟩
  · rw [(hσ p hp).2 i hi, key p hp]
  · refine hd hb p q hp hq ?_
    rw [key p hp, key q hq]
    rcases Nat.even_or_odd p with hep | hop
    · rw [hep.neg_one_pow, ((Nat.even_add.1 hpq).1 hep).neg_one_pow]
    · rw [hop.neg_one_pow, (Nat.not_even_iff_odd.1 fun h => (Nat.not_even_iff_odd.2 hop) ((Nat.even_add.1 hpq).2 h)).neg_one_pow]
  · refine hu p q r t hp hq hr ht ?_
    rw [key p hp, key q hq, key r hr, key t ht, ← pow_add, ← pow_add, ← pow_add, hodd.neg_one_pow]

/-- Example: the dipole elements between the first and the third function in a symmetric double well vanish. -/
example {eigh : NDArray ℂ → Except PyErr (NDArray ℂ × NDArray ℂ)} (he : IsEigh eigh) : ∃ b d,
    odqd eigh 3 4 101 0.25 1 0 (fun x => (x ^ 2 - 1) ^ 2) false 0 false false = .ok b ∧ b.dipole = some d ∧
      d.get [0, 0, 2] = 0 := by
  obtain ⟨b, f, d, u, h1, -, h3, -, -, h6, -⟩ := C117_parity he (l := 3) (num := 101) (L := 4) (by norm_num) (by norm_num)
    (by norm_num) (a := 0.25) (by norm_num) 1 0 (V := fun x => (x ^ 2 - 1) ^ 2) (fun y => by ring) false 0 false false
  exact ⟨b, d, h1, h3, h6 rfl 0 2 (by norm_num) (by norm_num) (by decide)⟩

/-- Example: `sin (2π i / 4)` has one node, the point in the middle. -/
example : nodes 3 (fun i => if i = 1 then 1 else if i = 3 then -1 else 0) = 1 := by
  unfold nodes
  rw [show Finset.Icc 1 3 = {1, 2, 3} from rfl]
  simp [Finset.filter_insert, Finset.filter_singleton, Finset.range_add_one]

end QS.Props
