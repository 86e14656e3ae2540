import Verif.Spec.Nodes
import Mathlib.LinearAlgebra.Dimension.Constructions
import Mathlib.LinearAlgebra.FiniteDimensional.Lemmas
import Mathlib.LinearAlgebra.FiniteDimensional.Basic
import Mathlib.Tactic.LinearCombination
import Mathlib.Tactic.FieldSimp
import Mathlib.Tactic.Positivity
import Mathlib.Algebra.BigOperators.Fin

/-!
# Eigenvectors of tridiagonal matrices and their nodes
-/

namespace QS.Nodes

open Spec Finset

/-- All eigenvectors of the tridiagonal matrix with diagonal `D` and `-1` beside it. -/
structure Jacobi (n : ℕ) (D : ℕ → ℝ) (w : ℕ → ℝ) (r : ℕ → ℕ → ℝ) : Prop where
  left : ∀ k < n, r k 0 = 0
  right : ∀ k < n, r k (n + 1) = 0
  eigen : ∀ k < n, ∀ i < n, D (i + 1) * r k (i + 1) - (r k (i + 2) + r k i) = w k * r k (i + 1)
  mono : ∀ p q, p < q → q < n → w p < w q
  orth : ∀ p q, p < n → q < n → p ≠ q → ∑ i ∈ range n, r p (i + 1) * r q (i + 1) = 0
  pos : ∀ p < n, 0 < ∑ i ∈ range n, r p (i + 1) * r p (i + 1)

/-- The energy form in terms of the quotient with a solution. -/
theorem form_nonneg {n : ℕ} {D : ℕ → ℝ} {e : ℝ} {r Ψ : ℕ → ℝ} (hr1 : r (n + 1) = 0)
    (hr : ∀ i < n, D (i + 1) * r (i + 1) - (r (i + 2) + r i) = e * r (i + 1)) (h0 : Ψ 0 = 0) (h1 : Ψ (n + 1) = 0)
    (hz : ∀ i ∈ Icc 1 n, r i = 0 → Ψ i = 0)
    (hb : ∀ i < n + 1, r i * r (i + 1) < 0 → Ψ i * r (i + 1) = Ψ (i + 1) * r i) :
    0 ≤ ∑ i ∈ range n, Ψ (i + 1) * (D (i + 1) * Ψ (i + 1) - (Ψ (i + 2) + Ψ i) - e * Ψ (i + 1)) := by
  have hterm : ∀ i ∈ range n, Ψ (i + 1) * (D (i + 1) * Ψ (i + 1) - (Ψ (i + 2) + Ψ i) - e * Ψ (i + 1))
      = (r (i + 2) * Ψ (i + 1) ^ 2 / r (i + 1) - Ψ (i + 1) * Ψ (i + 2))
        + (r i * Ψ (i + 1) ^ 2 / r (i + 1) - Ψ (i + 1) * Ψ i) := by
    intro i hi
    have hi := mem_range.1 hi
    by_cases h : r (i + 1) = 0
    · rw [hz (i + 1) (mem_Icc.2 ⟨by omega, by omega⟩) h, h]
      ring
    · have := hr i hi
      field_simp
      linear_combination Ψ (i + 1) ^ 2 * this
  rw [sum_congr rfl hterm, sum_add_distrib]
  have e1 : ∑ i ∈ range n, (r (i + 2) * Ψ (i + 1) ^ 2 / r (i + 1) - Ψ (i + 1) * Ψ (i + 2))
      = ∑ i ∈ range (n + 1), (r (i + 1) * Ψ i ^ 2 / r i - Ψ i * Ψ (i + 1)) := by
    rw [sum_range_succ' _ n, h0]
    ring_nf
  have e2 : ∑ i ∈ range n, (r i * Ψ (i + 1) ^ 2 / r (i + 1) - Ψ (i + 1) * Ψ i)
      = ∑ i ∈ range (n + 1), (r i * Ψ (i + 1) ^ 2 / r (i + 1) - Ψ (i + 1) * Ψ i) := by
    rw [sum_range_succ _ n, h1]
    ring_nf
  rw [e1, e2, ← sum_add_distrib]
  refine sum_nonneg fun i hi => ?_
  have hi := mem_range.1 hi
  have hzi : ∀ j < n + 2, r j = 0 → Ψ j = 0 := fun j hj hrj => by
    rcases Nat.eq_zero_or_pos j with rfl | hp
    · exact h0
    rcases Nat.lt_or_ge j (n + 1) with hl | hg
    · exact hz j (mem_Icc.2 ⟨hp, by omega⟩) hrj
    · rw [show j = n + 1 by omega, h1]
  by_cases ha : r i = 0
  · rw [ha, hzi i (by omega) ha]
    simp
  by_cases hc : r (i + 1) = 0
  · rw [hc, hzi (i + 1) (by omega) hc]
    simp
  have e : r (i + 1) * Ψ i ^ 2 / r i - Ψ i * Ψ (i + 1) + (r i * Ψ (i + 1) ^ 2 / r (i + 1) - Ψ (i + 1) * Ψ i)
      = (Ψ i * r (i + 1) - Ψ (i + 1) * r i) ^ 2 / (r i * r (i + 1)) := by
    field_simp
    ring
  rw [e]
  rcases lt_or_ge (r i * r (i + 1)) 0 with hneg | hpos
  · rw [hb i hi hneg, sub_self]
    simp
  · positivity

/-- Linear conditions on more coefficients than there are conditions. -/
theorem exists_coeff {m : ℕ} {ι : Type} [Fintype ι] (hc : Fintype.card ι < m) (A : ι → ℕ → ℝ) :
    ∃ c : ℕ → ℝ, (∃ j < m, c j ≠ 0) ∧ ∀ i, ∑ j ∈ range m, c j * A i j = 0 := by
  let T : (Fin m → ℝ) →ₗ[ℝ] (ι → ℝ) := LinearMap.pi fun i => ∑ j : Fin m, A i j • LinearMap.proj j
  have hker : T.ker ≠ ⊥ := LinearMap.ker_ne_bot_of_finrank_lt (by
    rw [Module.finrank_fintype_fun_eq_card, Module.finrank_fintype_fun_eq_card, Fintype.card_fin]
    exact hc)
  obtain ⟨x, hx, hne⟩ := Submodule.exists_mem_ne_zero_of_ne_bot hker
  obtain ⟨j, hj⟩ : ∃ j, x j ≠ 0 := by
    by_contra h
    push Not at h
    exact hne (funext h)
  refine ⟨fun j => if h : j < m then x ⟨j, h⟩ else 0, ⟨j, j.2, by simpa using hj⟩, fun i => ?_⟩
  have := congrFun (LinearMap.mem_ker.1 hx) i
  rw [Finset.sum_range]
  simp only [Fin.is_lt, dite_true, Fin.eta]
  simpa [T, mul_comm] using this

/-- The `k`-th eigenvector has at least `k` nodes. -/
theorem Jacobi.nodes_ge {n : ℕ} {D w : ℕ → ℝ} {r : ℕ → ℕ → ℝ} (J : Jacobi n D w r) {k : ℕ} (hk : k < n) :
    k ≤ nodes n (r k) := by
  classical
  by_contra hcon
  push Not at hcon
  set m := nodes n (r k) with hm
  set Z := (Icc 1 n).filter fun i => r k i = 0 with hZ
  set B := (range (n + 1)).filter fun i => r k i * r k (i + 1) < 0 with hB
  have hmc : m = Z.card + B.card := by
    rw [hm, nodes]
  obtain ⟨c, ⟨j0, hj0, hcj⟩, hc⟩ := exists_coeff (m := m + 1) (ι := Z ⊕ B) (by
    rw [Fintype.card_sum, Fintype.card_coe, Fintype.card_coe]
    omega) (fun s j => Sum.elim (fun i : Z => r j i) (fun i : B => r j i * r k (i + 1) - r j (i + 1) * r k i) s)
  set Ψ : ℕ → ℝ := fun i => ∑ j ∈ range (m + 1), c j * r j i with hΨ
  have hlt : ∀ j ∈ range (m + 1), j < n := fun j hj => by have := mem_range.1 hj; omega
  have hnn := form_nonneg (Ψ := Ψ) (J.right k hk) (J.eigen k hk)
    (sum_eq_zero fun j hj => by rw [J.left j (hlt j hj), mul_zero])
    (sum_eq_zero fun j hj => by rw [J.right j (hlt j hj), mul_zero])
    (fun i hi h => hc (Sum.inl ⟨i, mem_filter.2 ⟨hi, h⟩⟩))
    (fun i hi h => by
      have := hc (Sum.inr ⟨i, mem_filter.2 ⟨mem_range.2 hi, h⟩⟩)
      simp only [Sum.elim_inr] at this
      rw [hΨ, sum_mul, sum_mul, ← sub_eq_zero, ← sum_sub_distrib, ← this]
      exact sum_congr rfl fun j _ => by ring)
  have hrow : ∀ i ∈ range n, Ψ (i + 1) * (D (i + 1) * Ψ (i + 1) - (Ψ (i + 2) + Ψ i) - w k * Ψ (i + 1))
      = ∑ j ∈ range (m + 1), ∑ j' ∈ range (m + 1), c j * c j' * (w j' - w k) * (r j (i + 1) * r j' (i + 1)) := by
    intro i hi
    have hi := mem_range.1 hi
    have e1 : D (i + 1) * Ψ (i + 1) - (Ψ (i + 2) + Ψ i) - w k * Ψ (i + 1)
        = ∑ j' ∈ range (m + 1), c j' * (w j' - w k) * r j' (i + 1) := by
      simp only [hΨ]
      rw [mul_sum, mul_sum, ← sum_add_distrib, ← sum_sub_distrib, ← sum_sub_distrib]
      refine sum_congr rfl fun j hj => ?_
      linear_combination c j * J.eigen j (hlt j hj) i hi
    rw [e1]
    simp only [hΨ]
    rw [sum_mul_sum]
    exact sum_congr rfl fun j _ => sum_congr rfl fun j' _ => by ring
  rw [sum_congr rfl hrow, sum_comm] at hnn
  have hdiag : ∀ j ∈ range (m + 1), (∑ i ∈ range n, ∑ j' ∈ range (m + 1),
      c j * c j' * (w j' - w k) * (r j (i + 1) * r j' (i + 1)))
      = c j ^ 2 * (w j - w k) * ∑ i ∈ range n, r j (i + 1) * r j (i + 1) := by
    intro j hj
    rw [sum_comm, sum_eq_single j]
    · rw [mul_sum]
      exact sum_congr rfl fun i _ => by ring
    · intro j' hj' hne
      rw [← mul_sum, J.orth j j' (hlt j hj) (hlt j' hj') (Ne.symm hne), mul_zero]
    · exact fun h => absurd hj h
  rw [sum_congr rfl hdiag] at hnn
  have hneg : ∑ j ∈ range (m + 1), c j ^ 2 * (w j - w k) * ∑ i ∈ range n, r j (i + 1) * r j (i + 1) < 0 := by
    have hw : ∀ j ∈ range (m + 1), w j - w k < 0 := fun j hj =>
      sub_neg.2 (J.mono j k (by have := mem_range.1 hj; omega) hk)
    refine sum_neg' (fun j hj => ?_) ⟨j0, mem_range.2 hj0, ?_⟩
    · exact mul_nonpos_of_nonpos_of_nonneg (mul_nonpos_of_nonneg_of_nonpos (sq_nonneg _) (hw j hj).le)
        (J.pos j (hlt j hj)).le
    · exact mul_neg_of_neg_of_pos (mul_neg_of_pos_of_neg (by positivity) (hw j0 (mem_range.2 hj0)))
        (J.pos j0 (hlt j0 (mem_range.2 hj0)))
  exact absurd hneg (not_lt.2 hnn)

/-- Two neighbouring zeros make a solution vanish. -/
theorem zero_of_pair {n : ℕ} {D : ℕ → ℝ} {e : ℝ} {r : ℕ → ℝ}
    (hr : ∀ i < n, D (i + 1) * r (i + 1) - (r (i + 2) + r i) = e * r (i + 1)) {i : ℕ} (hi : i < n + 1)
    (h0 : r i = 0) (h1 : r (i + 1) = 0) : ∀ j < n + 2, r j = 0 := by
  have up : ∀ d, i + d < n + 1 → r (i + d) = 0 ∧ r (i + d + 1) = 0 := by
    intro d
    induction d with
    | zero => exact fun _ => ⟨h0, h1⟩
    | succ d ih =>
      intro h
      obtain ⟨a, b⟩ := ih (by omega)
      refine ⟨b, ?_⟩
      have := hr (i + d) (by omega)
      rw [b, a] at this
      show r (i + d + 2) = 0
      linarith
  have down : ∀ d ≤ i, r (i - d) = 0 ∧ r (i - d + 1) = 0 := by
    intro d
    induction d with
    | zero => exact fun _ => ⟨h0, h1⟩
    | succ d ih =>
      intro h
      obtain ⟨a, b⟩ := ih (by omega)
      have e : i - d = i - (d + 1) + 1 := by omega
      rw [e] at a b
      refine ⟨?_, a⟩
      have := hr (i - (d + 1)) (by omega)
      rw [a, show i - (d + 1) + 2 = i - (d + 1) + 1 + 1 from rfl, b] at this
      linarith
  intro j hj
  rcases Nat.lt_or_ge j i with h | h
  · have := (down (i - j) (by omega)).1
    rwa [show i - (i - j) = j by omega] at this
  rcases Nat.eq_or_lt_of_le h with rfl | h
  · exact h0
  · have := (up (j - i - 1) (by omega)).2
    rwa [show i + (j - i - 1) + 1 = j by omega] at this

/-- Every second sign reversed. -/
def alternate (r : ℕ → ℝ) (i : ℕ) : ℝ := (-1) ^ i * r i

theorem alternate_mul (r r' : ℕ → ℝ) (i : ℕ) : alternate r i * alternate r' i = r i * r' i := by
  unfold alternate
  have : ((-1 : ℝ) ^ i) * (-1) ^ i = 1 := by rw [← mul_pow]; simp
  linear_combination (r i * r' i) * this

/-- The reversed spectrum. -/
theorem Jacobi.reverse {n : ℕ} {D w : ℕ → ℝ} {r : ℕ → ℕ → ℝ} (J : Jacobi n D w r) :
    Jacobi n (fun i => -D i) (fun k => -w (n - 1 - k)) fun k => alternate (r (n - 1 - k)) where
  left k hk := by rw [alternate, J.left _ (by omega), mul_zero]
  right k hk := by rw [alternate, J.right _ (by omega), mul_zero]
  eigen k hk i hi := by
    have := J.eigen (n - 1 - k) (by omega) i hi
    unfold alternate
    rw [pow_succ, show i + 2 = i + 1 + 1 from rfl, pow_succ, pow_succ]
    linear_combination ((-1 : ℝ) ^ i) * this
  mono p q hpq hq := neg_lt_neg (J.mono _ _ (by omega) (by omega))
  orth p q hp hq hne := by
    simp only [alternate_mul]
    exact J.orth _ _ (by omega) (by omega) (by omega)
  pos p hp := by
    simp only [alternate_mul]
    exact J.pos _ (by omega)

/-- The nodes of an eigenvector and of the alternated one. -/
theorem nodes_add {n : ℕ} {D : ℕ → ℝ} {e : ℝ} {r : ℕ → ℝ} (h0 : r 0 = 0) (h1 : r (n + 1) = 0)
    (hr : ∀ i < n, D (i + 1) * r (i + 1) - (r (i + 2) + r i) = e * r (i + 1)) (hne : ∃ i < n, r (i + 1) ≠ 0) :
    nodes n r + nodes n (alternate r) ≤ n - 1 := by
  classical
  obtain ⟨i0, hi0, hne⟩ := hne
  have hpair : ∀ i < n + 1, r i = 0 → r (i + 1) ≠ 0 := fun i hi a b =>
    hne (zero_of_pair hr hi a b (i0 + 1) (by omega))
  set Z := (Icc 1 n).filter fun i => r i = 0 with hZ
  set B := (range (n + 1)).filter fun i => r i * r (i + 1) < 0 with hB
  set P := (range (n + 1)).filter fun i => 0 < r i * r (i + 1) with hP
  have e1 : nodes n r = Z.card + B.card := by
    rw [nodes]
  have e2 : nodes n (alternate r) = Z.card + P.card := by
    rw [nodes]
    congr 1
    · congr 1
      refine filter_congr fun i _ => ?_
      simp [alternate]
    · congr 1
      refine filter_congr fun i _ => ?_
      have : alternate r i * alternate r (i + 1) = -(r i * r (i + 1)) := by
        unfold alternate
        have h : ((-1 : ℝ) ^ i) * (-1) ^ i = 1 := by rw [← mul_pow]; simp
        rw [pow_succ]
        linear_combination (-(r i * r (i + 1))) * h
      rw [this, neg_lt_zero]
  set Z' := Z.image fun i => i - 1 with hZ'
  have hzb : ∀ i ∈ Z, 2 ≤ i ∧ i < n := by
    intro i hi
    obtain ⟨hi, hz⟩ := mem_filter.1 hi
    have hi := mem_Icc.1 hi
    constructor
    · by_contra h
      obtain rfl : i = 1 := by omega
      exact hpair 0 (by omega) h0 hz
    · by_contra h
      obtain rfl : i = n := by omega
      exact hpair i (by omega) hz h1
  have hz0 : ∀ i ∈ Z, r i = 0 := fun i hi => (mem_filter.1 hi).2
  have hZ'c : Z'.card = Z.card := card_image_of_injOn fun a ha b hb h => by
    have := (hzb a ha).1
    have := (hzb b hb).1
    have h : a - 1 = b - 1 := h
    omega
  have hZ'z : ∀ i ∈ Z', r (i + 1) = 0 ∧ 1 ≤ i ∧ i + 1 < n := by
    intro i hi
    obtain ⟨a, ha, rfl⟩ := mem_image.1 hi
    have := hzb a ha
    rw [show a - 1 + 1 = a by omega]
    exact ⟨hz0 a ha, by omega, by omega⟩
  have d1 : Disjoint Z Z' := disjoint_left.2 fun i hi hi' =>
    hpair i (by have := hzb i hi; omega) (hz0 i hi) (hZ'z i hi').1
  have d2 : Disjoint B P := disjoint_left.2 fun i hi hi' =>
    absurd (mem_filter.1 hi).2 (not_lt.2 (mem_filter.1 hi').2.le)
  have d3 : Disjoint (Z ∪ Z') (B ∪ P) := disjoint_left.2 fun i hi hi' => by
    have hz : r i * r (i + 1) = 0 := by
      rcases mem_union.1 hi with h | h
      · rw [hz0 i h, zero_mul]
      · rw [(hZ'z i h).1, mul_zero]
    rcases mem_union.1 hi' with h | h
    · exact absurd (mem_filter.1 h).2 (by rw [hz]; exact lt_irrefl _)
    · exact absurd (mem_filter.1 h).2 (by rw [hz]; exact lt_irrefl _)
  have hsub : (Z ∪ Z') ∪ (B ∪ P) ⊆ Ico 1 n := by
    intro i hi
    have key : i < n + 1 → r i * r (i + 1) ≠ 0 → i ∈ Ico 1 n := fun hi h => by
      rw [mem_Ico]
      constructor
      · by_contra hc
        obtain rfl : i = 0 := by omega
        exact h (by rw [h0, zero_mul])
      · by_contra hc
        obtain rfl : i = n := by omega
        exact h (by rw [h1, mul_zero])
    rcases mem_union.1 hi with h | h
    · rcases mem_union.1 h with h | h
      · have := hzb i h
        exact mem_Ico.2 ⟨by omega, by omega⟩
      · have := hZ'z i h
        exact mem_Ico.2 ⟨by omega, by omega⟩
    · rcases mem_union.1 h with h | h
      · exact key (mem_range.1 (mem_filter.1 h).1) (mem_filter.1 h).2.ne
      · exact key (mem_range.1 (mem_filter.1 h).1) (mem_filter.1 h).2.ne'
  have := card_le_card hsub
  rw [card_union_of_disjoint d3, card_union_of_disjoint d1, card_union_of_disjoint d2, Nat.card_Ico, hZ'c] at this
  omega

/-- The `k`-th eigenvector has exactly `k` nodes. -/
theorem Jacobi.nodes_eq {n : ℕ} {D w : ℕ → ℝ} {r : ℕ → ℕ → ℝ} (J : Jacobi n D w r) {k : ℕ} (hk : k < n) :
    nodes n (r k) = k := by
  have h1 := J.nodes_ge hk
  have h2 := J.reverse.nodes_ge (k := n - 1 - k) (by omega)
  rw [show n - 1 - (n - 1 - k) = k by omega] at h2
  have h3 := nodes_add (J.left k hk) (J.right k hk) (J.eigen k hk) (by
    by_contra h
    push Not at h
    have := J.pos k hk
    rw [sum_eq_zero fun i hi => by rw [h i (mem_range.1 hi), mul_zero]] at this
    exact lt_irrefl _ this)
  omega

/-- The number of nodes up to a point. -/
noncomputable def upTo (r : ℕ → ℝ) (j : ℕ) : ℕ :=
  open Classical in ((Icc 1 j).filter fun i => r i = 0).card + ((range j).filter fun i => r i * r (i + 1) < 0).card

theorem upTo_succ (r : ℕ → ℝ) (j : ℕ) : upTo r (j + 1)
    = upTo r j + (open Classical in (if r (j + 1) = 0 then 1 else 0) + if r j * r (j + 1) < 0 then 1 else 0) := by
  classical
  unfold upTo
  rw [← insert_Icc_right_eq_Icc_add_one (by omega), range_add_one, filter_insert, filter_insert]
  split_ifs <;> simp <;> omega

/-- The nodes tell whether the signs at both ends agree. -/
theorem sign_eq {n : ℕ} {D : ℕ → ℝ} {e : ℝ} {r : ℕ → ℝ} (h0 : r 0 = 0) (h1 : r (n + 1) = 0)
    (hr : ∀ i < n, D (i + 1) * r (i + 1) - (r (i + 2) + r i) = e * r (i + 1)) (hne : ∃ i < n, r (i + 1) ≠ 0) :
    0 < (-1) ^ nodes n r * (r 1 * r n) := by
  classical
  obtain ⟨i0, hi0, hne⟩ := hne
  have hpair : ∀ i < n + 1, r i = 0 → r (i + 1) ≠ 0 := fun i hi a b =>
    hne (zero_of_pair hr hi a b (i0 + 1) (by omega))
  have key : ∀ j, j < n → (r (j + 1) ≠ 0 → 0 < (-1) ^ upTo r (j + 1) * (r 1 * r (j + 1))) ∧
      (r (j + 1) = 0 → 0 < (-1) ^ upTo r (j + 1) * (r 1 * r (j + 2))) := by
    intro j
    induction j with
    | zero =>
      intro hj
      have hn1 := hpair 0 (by omega) h0
      refine ⟨fun _ => ?_, fun h => absurd h hn1⟩
      have : upTo r (0 + 1) = 0 := by
        rw [upTo_succ, if_neg hn1, if_neg (by rw [h0, zero_mul]; exact lt_irrefl _)]
        simp [upTo]
      rw [this, pow_zero, one_mul]
      exact mul_self_pos.2 hn1
    | succ j ih =>
      intro hj
      obtain ⟨ha, hb⟩ := ih (by omega)
      refine ⟨fun hz => ?_, fun hz => ?_⟩
      · rw [upTo_succ, if_neg hz]
        by_cases hj0 : r (j + 1) = 0
        · rw [if_neg (by rw [hj0, zero_mul]; exact lt_irrefl _)]
          exact hb hj0
        · have hA := ha hj0
          split_ifs with hneg
          · rw [zero_add, pow_succ]
            nlinarith [mul_pos_of_neg_of_neg (neg_lt_zero.2 hA) hneg, mul_self_pos.2 hj0]
          · have hpos : 0 < r (j + 1) * r (j + 1 + 1) :=
              lt_of_le_of_ne (not_lt.1 hneg) (Ne.symm (mul_ne_zero hj0 hz))
            rw [add_zero, add_zero]
            nlinarith [mul_pos hA hpos, mul_self_pos.2 hj0]
      · have hj0 : r (j + 1) ≠ 0 := fun h => hpair (j + 1) (by omega) h hz
        rw [upTo_succ, if_pos hz, if_neg (by rw [hz, mul_zero]; exact lt_irrefl _), add_zero, pow_succ]
        have h2 := hr (j + 1) hj
        rw [show j + 1 + 1 = j + 2 from rfl] at hz h2
        rw [hz] at h2
        have h3 : r (j + 1 + 2) = -r (j + 1) := by linarith
        rw [h3]
        have := ha hj0
        linarith
  have hn := hpair
  obtain ⟨m, rfl⟩ : ∃ m, n = m + 1 := ⟨n - 1, by omega⟩
  have hlast : r (m + 1) ≠ 0 := fun h => hpair (m + 1) (by omega) h h1
  have : nodes (m + 1) r = upTo r (m + 1) := by
    unfold nodes upTo
    congr 1
    rw [range_add_one, filter_insert, if_neg (by rw [h1, mul_zero]; exact lt_irrefl _)]
  rw [this]
  exact (key m (by omega)).1 hlast

end QS.Nodes
