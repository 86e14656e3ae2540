import Verif.Lemmas.Multiplets
import Verif.Props.Sectors
import Verif.Props.ManyBodySpin

/-!
# Property C143: the total spin of `N` electrons
-/

namespace QS.Props

open Finset NDArray BasisSet PyM Function TwoDim Coulomb OneDim Spec Idx

variable {G : Type}

/-! ## Counting the states -/

/-- States with an energy, a total, a number of electrons with the second spin and a total spin. -/
structure JointStates [AddCommMonoid G] (g : ℕ → G) (l N : ℕ) (H U : NDArray ℂ) (D : ℕ) (E : ℕ → ℝ)
    (Ψ : ℕ → Wave ℂ N (2 * l)) (Q : ℕ → G) (n k : ℕ → ℕ) : Prop extends
    LabelledSpectrum (spinLabel g l) (spinOne l H) (spinTwo l U) D E Ψ (fun i => (Q i, k i)) where
  square : ∀ i < D, squareOp (Ψ i) = fun x => (spinValue (n i) : ℂ) * Ψ i x

section
variable [AddCommMonoid G] {g : ℕ → G} {l N : ℕ} {H U : NDArray ℂ} {D : ℕ} {E : ℕ → ℝ} {Ψ : ℕ → Wave ℂ N (2 * l)}
  {Q : ℕ → G} {n k : ℕ → ℕ}

theorem JointStates.sector (S : JointStates g l N H U D E Ψ Q n k) {i : ℕ} (hi : i < D) :
    Sector g (Q i) (k i) (spinValue (n i)) (Ψ i) :=
  ⟨S.label i hi, S.square i hi⟩

theorem JointStates.ne_zero (S : JointStates g l N H U D E Ψ Q n k) {i : ℕ} (hi : i < D) : Ψ i ≠ fun _ => 0 := fun h0 => by
  have h1 := S.orth i hi i hi
  rw [if_pos rfl, h0, show waveInner (fun _ => 0 : Wave ℂ N (2 * l)) (fun _ => 0) = 0 from
    sum_eq_zero fun x _ => mul_zero _] at h1
  exact zero_ne_one h1

theorem JointStates.values (S : JointStates g l N H U D E Ψ Q n k) {i : ℕ} (hi : i < D) :
    ∃ j, n i + 2 * j = N ∧ j ≤ k i ∧ k i ≤ j + n i := by
  obtain ⟨m, j, h1, h2, h3, h4⟩ := (S.sector hi).value (S.ne_zero hi)
  obtain rfl := spinValue_injective h4
  exact ⟨j, h1, h2, h3⟩

/-- At most one electron per orbital has the second spin. -/
theorem second_spins {Ψ : Wave ℂ N (2 * l)} (ha : Antisymmetric Ψ) {q : G} {m : ℕ} (ht : HasTotal (spinLabel g l) (q, m) Ψ)
    (hne : Ψ ≠ fun _ => 0) : m ≤ l := by
  obtain ⟨x, hx⟩ : ∃ x, Ψ x ≠ 0 := by
    by_contra hc
    push Not at hc
    exact hne (funext hc)
  have hinj : Injective x := by
    by_contra hni
    exact hx (not_injective_zero ha hni)
  have h1 : total (spinLabel g l) x = (q, m) := by
    by_contra hc
    exact hx (ht x hc)
  rw [total_spin] at h1
  have h2 : ∑ i, (x i).1 % 2 = m := congrArg Prod.snd h1
  have h3 : ∑ i, (x i).1 % 2 = (univ.filter fun i => (x i).1 % 2 = 1).card := by
    rw [card_filter]
    refine sum_congr rfl fun i _ => ?_
    split_ifs with h
    · exact h
    · omega
  rw [← h2, h3]
  have h4 := card_le_card_of_injOn (s := univ.filter fun i => (x i).1 % 2 = 1) (t := range l) (fun i => (x i).1 / 2)
    (fun i _ => by
      have := (x i).2
      simp only [coe_range, Set.mem_Iio]
      omega)
    (fun i hi j hj hij => by
      have hi' := (mem_filter.1 hi).2
      have hj' := (mem_filter.1 hj).2
      dsimp only at hij
      exact hinj (Fin.ext (by omega)))
  simpa using h4

/-- Raising the component maps the states with one component to those with the next. -/
theorem JointStates.step (S : JointStates g l N H U D E Ψ Q n k) (hh : HermMat l H) (hu : HermU l U) (P : ℝ → Prop) {q : G}
    {s j m : ℕ} (hs : s + 2 * j = N) (h1 : j ≤ m) (h2 : m + 1 ≤ j + s) :
    Nat.card {i : Fin D // P (E i) ∧ Q i = q ∧ n i = s ∧ k i = m + 1} =
      Nat.card {i : Fin D // P (E i) ∧ Q i = q ∧ n i = s ∧ k i = m} := by
  classical
  set A := univ.filter fun i : Fin D => P (E i) ∧ Q i = q ∧ n i = s ∧ k i = m + 1 with hA
  set B := univ.filter fun i : Fin D => P (E i) ∧ Q i = q ∧ n i = s ∧ k i = m with hB
  set c : ℝ := spinValue s - compValue N (m + 1) * (compValue N (m + 1) + 1) with hc
  have hc' : spinValue s - compValue N m * (compValue N m - 1) = c := by
    rw [hc, compValue_succ]
    ring
  have hpos : 0 < c := by
    have e1 : c = ((m : ℝ) + 1 - j) * (j + s - m) := by
      rw [hc]
      unfold spinValue compValue
      have : (N : ℝ) = s + 2 * j := by exact_mod_cast hs.symm
      rw [this]
      push_cast
      ring
    rw [e1]
    have a : (j : ℝ) ≤ m := by exact_mod_cast h1
    have b : (m : ℝ) + 1 ≤ j + s := by exact_mod_cast h2
    exact mul_pos (by linarith) (by linarith)
  -- the raised states
  have sA : ∀ i ∈ A, Sector g q (m + 1) (spinValue s) (Ψ i) := fun i hi => by
    obtain ⟨-, -, a, b, d⟩ := mem_filter.1 hi
    have := S.sector i.2
    rwa [a, b, d] at this
  have sB : ∀ i ∈ B, Sector g q m (spinValue s) (Ψ i) := fun i hi => by
    obtain ⟨-, -, a, b, d⟩ := mem_filter.1 hi
    have := S.sector i.2
    rwa [a, b, d] at this
  have eR : ∀ i : Fin D, hamiltonOp (spinOne l H) (spinTwo l U) (raise (Ψ i)) = fun x => (E i : ℂ) * raise (Ψ i) x :=
    fun i => by
      unfold raise
      rw [← spin_comm, S.eigen i i.2]
      exact funext fun x => oneBodyOp_smul_right _ _ _ x
  have eL : ∀ i : Fin D, hamiltonOp (spinOne l H) (spinTwo l U) (lower (Ψ i)) = fun x => (E i : ℂ) * lower (Ψ i) x :=
    fun i => by
      unfold lower
      rw [← spin_comm, S.eigen i i.2]
      exact funext fun x => oneBodyOp_smul_right _ _ _ x
  have norm1 : ∀ i : Fin D, waveInner (Ψ i) (Ψ i) = 1 := fun i => by rw [S.orth i i.2 i i.2, if_pos rfl]
  have pA : ∀ i ∈ A, ∑ b ∈ B, ‖waveInner (Ψ b) (raise (Ψ i))‖ ^ 2 = c := fun i hi => by
    have e1 := (sA i hi).norm_raise
    rw [norm1, mul_one, (S.parseval (Φ := raise (Ψ i)) (oneBodyOp_antisymmetric _ (S.anti i i.2))).1] at e1
    have e2 : ∑ b ∈ range D, ‖waveInner (Ψ b) (raise (Ψ i))‖ ^ 2 = c := by exact_mod_cast e1
    rw [← e2, sum_range]
    refine sum_subset (subset_univ _) fun b _ hb => ?_
    have : waveInner (Ψ b) (raise (Ψ i)) = 0 := by
      by_contra hne
      refine hb (mem_filter.2 ⟨mem_univ _, ?_⟩)
      have hE : E b = E i := by
        by_contra h
        exact hne (inner_energies (spinOne_herm hh) (spinTwo_herm hu) (S.eigen b b.2) (eR i) h)
      have hq : (Q b, k b) = (q, m) := by
        by_contra h
        exact hne (inner_total (S.label b b.2) (sA i hi).raise.total h)
      have hn : n b = s := by
        by_contra h
        exact hne (inner_energies squareOne_herm squareTwo_herm (S.square b b.2) (sA i hi).raise.square
          fun h' => h (spinValue_injective h'))
      refine ⟨?_, congrArg Prod.fst hq, hn, congrArg Prod.snd hq⟩
      rw [hE]
      exact (mem_filter.1 hi).2.1
    rw [this, norm_zero, sq, zero_mul]
  have pB : ∀ b ∈ B, ∑ i ∈ A, ‖waveInner (Ψ b) (raise (Ψ i))‖ ^ 2 = c := fun b hb => by
    have e1 := (sB b hb).norm_lower
    rw [norm1, mul_one, hc', (S.parseval (Φ := lower (Ψ b)) (oneBodyOp_antisymmetric _ (S.anti b b.2))).1] at e1
    have e2 : ∑ i ∈ range D, ‖waveInner (Ψ i) (lower (Ψ b))‖ ^ 2 = c := by exact_mod_cast e1
    rw [← e2, sum_range]
    have e3 : ∀ i : Fin D, ‖waveInner (Ψ b) (raise (Ψ i))‖ = ‖waveInner (Ψ i) (lower (Ψ b))‖ := fun i => by
      rw [← lower_adjoint, ← waveInner_star, norm_star]
    simp only [e3]
    refine sum_subset (subset_univ _) fun i _ hi => ?_
    have : waveInner (Ψ i) (lower (Ψ b)) = 0 := by
      by_contra hne
      refine hi (mem_filter.2 ⟨mem_univ _, ?_⟩)
      have hE : E i = E b := by
        by_contra h
        exact hne (inner_energies (spinOne_herm hh) (spinTwo_herm hu) (S.eigen i i.2) (eL b) h)
      have hq : (Q i, k i) = (q, m + 1) := by
        by_contra h
        exact hne (inner_total (S.label i i.2) (sB b hb).lower.total h)
      have hn : n i = s := by
        by_contra h
        exact hne (inner_energies squareOne_herm squareTwo_herm (S.square i i.2) (sB b hb).lower.square
          fun h' => h (spinValue_injective h'))
      refine ⟨?_, congrArg Prod.fst hq, hn, congrArg Prod.snd hq⟩
      rw [hE]
      exact (mem_filter.1 hb).2.1
    rw [this, norm_zero, sq, zero_mul]
  have e1 : (A.card : ℝ) * c = B.card * c := by
    have e2 : ∑ i ∈ A, ∑ b ∈ B, ‖waveInner (Ψ b) (raise (Ψ i))‖ ^ 2 = A.card * c := by
      rw [sum_congr rfl pA, sum_const, nsmul_eq_mul]
    rw [← e2, sum_comm, sum_congr rfl pB, sum_const, nsmul_eq_mul]
  rw [Nat.card_eq_fintype_card, Nat.card_eq_fintype_card, Fintype.card_subtype, Fintype.card_subtype]
  exact_mod_cast mul_right_cancel₀ hpos.ne' e1

theorem JointStates.multiplet (S : JointStates g l N H U D E Ψ Q n k) (hh : HermMat l H) (hu : HermU l U) (P : ℝ → Prop)
    {q : G} {s j : ℕ} (hs : s + 2 * j = N) : ∀ d ≤ s,
    Nat.card {i : Fin D // P (E i) ∧ Q i = q ∧ n i = s ∧ k i = j + d} =
      Nat.card {i : Fin D // P (E i) ∧ Q i = q ∧ n i = s ∧ k i = j} := by
  intro d
  induction d with
  | zero => exact fun _ => rfl
  | succ d ih => exact fun hd => (S.step hh hu P hs (m := j + d) (by omega) (by omega)).trans (ih (by omega))

theorem JointStates.bound (S : JointStates g l N H U D E Ψ Q n k) (hh : HermMat l H) (hu : HermU l U) {i : ℕ} (hi : i < D) :
    n i + N ≤ 2 * l := by
  obtain ⟨j, h1, h2, h3⟩ := S.values hi
  have e1 := S.multiplet hh hu (fun _ => True) (q := Q i) h1 (k i - j) (by omega)
  have e2 := S.multiplet hh hu (fun _ => True) (q := Q i) h1 (n i) le_rfl
  rw [show j + (k i - j) = k i by omega, ← e2] at e1
  have h4 : 0 < Nat.card {i' : Fin D // True ∧ Q i' = Q i ∧ n i' = n i ∧ k i' = k i} :=
    Nat.card_pos_iff.2 ⟨⟨⟨⟨i, hi⟩, trivial, rfl, rfl, rfl⟩⟩, inferInstance⟩
  rw [e1] at h4
  obtain ⟨⟨⟨i', -, -, -, hk⟩⟩, -⟩ := Nat.card_pos_iff.1 h4
  have h5 := second_spins (S.anti i' i'.2) (S.label i' i'.2) (S.ne_zero i'.2)
  omega

theorem JointStates.choices (S : JointStates g l N H U D E Ψ Q n k) (q : G) (m : ℕ) :
    Nat.card {i : Fin D // Q i = q ∧ k i = m} = choices g l N q m := by
  have h1 := C125_count S.toLabelledSpectrum (q, m)
  unfold QS.choices
  rw [Nat.card_congr (Equiv.subtypeEquivRight fun i : Fin D => Prod.mk_inj (a₁ := Q i) (a₂ := q) (b₁ := k i) (b₂ := m))] at h1
  rw [h1]
  refine Nat.card_congr (Equiv.subtypeEquivRight fun s => ?_)
  rw [show ∑ p ∈ s, spinLabel g l p = (∑ p ∈ s, g (p.1 / 2), ∑ p ∈ s, p.1 % 2) from Prod.ext Prod.fst_sum Prod.snd_sum,
    Prod.mk_inj]

/-- The number of states with the component equal to the total spin. -/
theorem JointStates.number (S : JointStates g l N H U D E Ψ Q n k) (hh : HermMat l H) (hu : HermU l U) {q : G} {s j : ℕ}
    (hs : s + 2 * j = N) : Nat.card {i : Fin D // Q i = q ∧ n i = s ∧ k i = j} +
      (if j = 0 then 0 else QS.choices g l N q (j - 1)) = QS.choices g l N q j := by
  classical
  -- the states with a component, by their total spin
  have part : ∀ m, QS.choices g l N q m =
      ∑ a ∈ range (N + 1), Nat.card {i : Fin D // Q i = q ∧ n i = a ∧ k i = m} := fun m => by
    rw [← S.choices q m, Nat.card_eq_fintype_card, Fintype.card_subtype,
      card_eq_sum_card_fiberwise (f := fun i : Fin D => n i) (t := range (N + 1)) fun i hi => by
        obtain ⟨j, h1, -⟩ := S.values i.2
        simp only [coe_range, Set.mem_Iio]
        omega]
    refine sum_congr rfl fun a _ => ?_
    rw [Nat.card_eq_fintype_card, Fintype.card_subtype, filter_filter]
    refine congrArg card (filter_congr fun i _ => ?_)
    tauto
  have empty : ∀ a m, (¬ ∃ j, a + 2 * j = N ∧ j ≤ m ∧ m ≤ j + a) → Nat.card {i : Fin D // Q i = q ∧ n i = a ∧ k i = m} = 0 :=
    fun a m hne => by
      rw [Nat.card_eq_zero]
      refine Or.inl ⟨fun i => hne ?_⟩
      obtain ⟨i, -, ha, hm⟩ := i
      obtain ⟨j, h1, h2, h3⟩ := S.values i.2
      rw [ha, hm] at *
      exact ⟨j, h1, h2, h3⟩
  rcases Nat.eq_zero_or_pos j with rfl | hj
  · rw [if_pos rfl, add_zero, part 0, sum_eq_single s]
    · intro a _ ha
      refine empty a 0 ?_
      rintro ⟨i, h1, h2, h3⟩
      omega
    · intro h
      exact absurd (mem_range.2 (by omega)) h
  · obtain ⟨m, rfl⟩ : ∃ m, j = m + 1 := ⟨j - 1, by omega⟩
    rw [if_neg (by omega), Nat.add_sub_cancel, part m, part (m + 1), ← add_sum_erase (range (N + 1)) _ (mem_range.2
      (show s < N + 1 by omega)), ← add_sum_erase (range (N + 1)) (fun a => Nat.card {i : Fin D // Q i = q ∧ n i = a ∧ k i =
      m + 1}) (mem_range.2 (show s < N + 1 by omega)), empty s m (by rintro ⟨i, h1, h2, h3⟩; omega), zero_add]
    congr 1
    refine sum_congr rfl fun a ha => ?_
    obtain ⟨ha, -⟩ := mem_erase.1 ha
    by_cases hx : ∃ i, a + 2 * i = N ∧ i ≤ m ∧ m + 1 ≤ i + a
    · obtain ⟨i, h1, h2, h3⟩ := hx
      have := S.step hh hu (fun _ => True) (q := q) h1 h2 h3
      simpa using this.symm
    · rw [empty a m, empty a (m + 1)]
      · rintro ⟨i, h1, h2, h3⟩
        exact hx ⟨i, h1, by omega, h3⟩
      · rintro ⟨i, h1, h2, h3⟩
        exact hx ⟨i, h1, by omega, by omega⟩

end

/-! ## The states -/

theorem arrayTwo_isDoubled {l : ℕ} {U U' : NDArray ℂ} (h : IsDoubledTwoBody l U U') : arrayTwo (2 * l) U' = spinTwo l U := by
  funext p q r s
  have := h.2 (p.1 / 2) (by omega) (q.1 / 2) (by omega) (r.1 / 2) (by omega) (s.1 / 2) (by omega) (p.1 % 2) (by omega)
    (q.1 % 2) (by omega) (r.1 % 2) (by omega) (s.1 % 2) (by omega)
  rw [Nat.div_add_mod, Nat.div_add_mod, Nat.div_add_mod, Nat.div_add_mod] at this
  exact this

/-- The states of `N` electrons for elements that do not act on the spin. -/
theorem spin_states [AddCommMonoid G] {g : ℕ → G} {l : ℕ} {H U : NDArray ℂ} (hh : HermMat l H) (hu : HermU l U)
    (hc : Conserves g l H U) (N : ℕ) : ∃ E Ψ Q n k,
      SpinStates g l N (hamiltonOp (spinOne l H) (spinTwo l U)) squareOp compOp E Ψ Q n k := by
  obtain ⟨D, E, Ψ, q, e, S, hS⟩ := joint_exists (spinOne_herm hh) (spinTwo_herm hu) (conserves_spin hc) N
  obtain rfl := C120_count S.toSpectrum
  have hv : ∀ i < (2 * l).choose N, ∃ n : ℕ, e i = spinValue n := fun i hi => by
    obtain ⟨n, j, -, -, -, h⟩ := Sector.value (g := g) (Q := (q i).1) (k := (q i).2) (e := e i) ⟨S.label i hi, hS i hi⟩
      fun h0 => by
        have h1 := S.orth i hi i hi
        rw [if_pos rfl, h0, show waveInner (fun _ => 0 : Wave ℂ N (2 * l)) (fun _ => 0) = 0 from
          sum_eq_zero fun x _ => mul_zero _] at h1
        exact zero_ne_one h1
    exact ⟨n, h⟩
  choose! n hn using hv
  have J : JointStates g l N H U ((2 * l).choose N) E Ψ (fun i => (q i).1) n (fun i => (q i).2) :=
    ⟨S, fun i hi => by rw [← hn i hi]; exact hS i hi⟩
  refine ⟨E, Ψ, fun i => (q i).1, n, fun i => (q i).2, ?_⟩
  exact {
    sorted := S.sorted
    anti := S.anti
    eigen := S.eigen
    orth := S.orth
    complete := S.complete
    orbital := fun i hi x hx => S.label i hi x fun h => hx (by
      rw [total_spin] at h
      exact congrArg Prod.fst h)
    spin := fun i hi => by
      rw [J.square i hi]
      unfold spinValue
      push_cast
      rfl
    component := fun i hi => comp_total (S.label i hi)
    bound := fun i hi => ⟨J.bound hh hu hi, J.values hi⟩
    multiplet := fun ε q s j m hs h1 h2 => by
      have := J.multiplet hh hu (fun x => x = ε) (q := q) hs (m - j) (by omega)
      rwa [show j + (m - j) = m by omega] at this
    number := fun q s j hs => J.number hh hu hs }

/-- Operators that agree on antisymmetric functions have the same states. -/
theorem spinStates_congr [AddCommMonoid G] {g : ℕ → G} {l N : ℕ} {ham square comp ham' square' comp' :
    Wave ℂ N (2 * l) → Wave ℂ N (2 * l)} {E : ℕ → ℝ} {Ψ : ℕ → Wave ℂ N (2 * l)} {Q : ℕ → G} {n k : ℕ → ℕ}
    (S : SpinStates g l N ham square comp E Ψ Q n k) (h1 : ∀ Φ, Antisymmetric Φ → ham' Φ = ham Φ)
    (h2 : ∀ Φ, Antisymmetric Φ → square' Φ = square Φ) (h3 : ∀ Φ, Antisymmetric Φ → comp' Φ = comp Φ) :
    SpinStates g l N ham' square' comp' E Ψ Q n k := { S with
  eigen := fun i hi => (h1 _ (S.anti i hi)).trans (S.eigen i hi)
  spin := fun i hi => (h2 _ (S.anti i hi)).trans (S.spin i hi)
  component := fun i hi => (h3 _ (S.anti i hi)).trans (S.component i hi) }

theorem spinStates_rotate [AddCommMonoid G] {g : ℕ → G} {l N : ℕ} {H U : NDArray ℂ} {E : ℕ → ℝ} {Ψ : ℕ → Wave ℂ N (2 * l)}
    {Q : ℕ → G} {n k : ℕ → ℕ} (S : SpinStates g l N (hamiltonOp (spinOne l H) (spinTwo l U)) squareOp compOp E Ψ Q n k)
    {V : ℕ → ℕ → ℂ} (hV : UnitaryTwo V) :
    SpinStates g l N (hamiltonOp (spinOne l H) (spinTwo l U)) squareOp
      (oneBodyOp (spinMatrix l fun a b => 1 / 2 * (star (V 0 a) * V 0 b - star (V 1 a) * V 1 b))) E (fun i => QS.rotate V (Ψ i))
      Q n k := { S with
  anti := fun i hi => prodOp_antisymmetric _ (S.anti i hi)
  eigen := fun i hi => by
    rw [rotate_hamilton hV, S.eigen i hi]
    exact prodOp_smul _ _ _
  orth := fun i hi j hj => by rw [rotate_inner hV, S.orth i hi j hj]
  complete := fun Φ hΦ x => rotate_complete hV S.complete hΦ x
  orbital := fun i hi => rotate_total V (S.orbital i hi)
  spin := fun i hi => by
    rw [rotate_square hV, S.spin i hi]
    exact prodOp_smul _ _ _
  component := fun i hi => by
    have h1 := rotate_one hV updown (Ψ i)
    have h2 : oneBodyOp (spinMatrix l updown) (Ψ i) = compOp (Ψ i) := rfl
    rw [h2, S.component i hi] at h1
    have h3 : QS.rotate V (fun x => ((N : ℂ) / 2 - k i) * Ψ i x) = fun x => ((N : ℂ) / 2 - k i) * QS.rotate V (Ψ i) x :=
      prodOp_smul _ _ _
    rw [← h3, ← h1]
    congr 2
    funext a b
    unfold updown
    simp only [if_true, zero_ne_one, one_ne_zero, if_false]
    ring }

/-- The Hamilton operator of the stored elements; the two-body elements are anti-symmetrised or not. -/
noncomputable def storedHam (l N : ℕ) (anti : Bool) (h u : NDArray ℂ) (Ψ : Wave ℂ N (2 * l)) : Wave ℂ N (2 * l) := fun x =>
  oneBodyOp (arrayOne (2 * l) h) Ψ x + (if anti then 1 / 4 else 1 / 2) * twoBodyOp (arrayTwo (2 * l) u) Ψ x

/-- The square of the total spin of the stored elements `spin_2` and `spin_2_tb`, anti-symmetrised or not. -/
noncomputable def storedSquare (l N : ℕ) (anti : Bool) (s2 tb : NDArray ℂ) (Ψ : Wave ℂ N (2 * l)) : Wave ℂ N (2 * l) := fun x =>
  oneBodyOp (arrayOne (2 * l) s2) Ψ x + (if anti then 1 / 2 else 1) * twoBodyOp (arrayTwo (2 * l) tb) Ψ x

/-- The stored elements are those of the electrons, on antisymmetric functions. -/
theorem storedHam_eq {l N : ℕ} {anti : Bool} {H U h' u' : NDArray ℂ} (Gh : IsDoubledOneBody l l H h')
    (Gu : if anti = true then IsDoubledAntiTwoBody l U u' else IsDoubledTwoBody l U u') {Φ : Wave ℂ N (2 * l)}
    (hΦ : Antisymmetric Φ) : storedHam l N anti h' u' Φ = hamiltonOp (spinOne l H) (spinTwo l U) Φ := by
  unfold storedHam hamiltonOp
  rw [arrayOne_doubled Gh]
  funext x
  congr 1
  cases anti with
  | false =>
    rw [if_neg (by simp)] at Gu
    rw [arrayTwo_isDoubled Gu, if_neg (by simp)]
  | true =>
    rw [if_pos rfl] at Gu
    rw [twoBodyOp_anti (spinTwo l U) hΦ, if_pos rfl, show arrayTwo (2 * l) u' = fun p q r s => spinTwo l U p q r s -
      spinTwo l U p q s r from funext fun p => funext fun q => funext fun r => funext fun s => doubledAnti_get Gu p q r s]
    ring

/-- The stored elements of the square of the spin are those of the electrons, on antisymmetric functions. -/
theorem storedSquare_eq {b b' : BasisSet ℂ} {l N : ℕ} {a₀ a₁ b₀ b₁ : ℂ} {r anti : Bool} {s s2 tb : NDArray ℂ}
    (hb : WellFormed b l) (hsp : b.includesSpin = false) (hna : b.antiSym = false)
    (run : (changeToGeneralBase [a₀, a₁] [b₀, b₁] anti).run b = (.ok r, b')) (ho : OrthoSpin a₀ a₁ b₀ b₁)
    (hs : b.s = some s) (hov : ∀ p < l, ∀ q < l, s.get [p, q] = kd p q) (es : b'.spin2 = some s2) (et : b'.spin2tb = some tb)
    {Φ : Wave ℂ N (2 * l)} (hΦ : Antisymmetric Φ) : storedSquare l N anti s2 tb Φ = squareOp Φ := by
  obtain ⟨-, -, -, s2', tb', -, -, -, es', et', -, hs2, -⟩ := C19_angular_momentum hb hsp run ho hs hov
  obtain rfl := Option.some.inj (es.symm.trans es')
  obtain ⟨tb', et', -, htb⟩ := C102_spin_2_tb hb hsp run ho hs
  obtain rfl := Option.some.inj (et.symm.trans et')
  unfold storedSquare squareOp hamiltonOp
  have e1 : arrayOne (2 * l) s2 = squareOne l := by
    funext p q
    rw [arrayOne, hs2.2 p p.2 q q.2, squareOne, kd, mul_ite, mul_one, mul_zero]
    exact if_congr Fin.ext_iff.symm rfl rfl
  have dot : ∀ p q r v : Fin (2 * l), spinDot s (p.1 / 2) (q.1 / 2) (r.1 / 2) (v.1 / 2) (p.1 % 2) (q.1 % 2) (r.1 % 2)
      (v.1 % 2) = 1 / 2 * squareTwo l p q r v := fun p q r v => by
    rw [squareTwo_eq, spinDot, hov _ (by omega) _ (by omega), hov _ (by omega) _ (by omega)]
    unfold kd
    by_cases h1 : p.1 / 2 = r.1 / 2
    · by_cases h2 : q.1 / 2 = v.1 / 2
      · simp only [h1, h2, if_true, and_self]
        rcases Nat.mod_two_eq_zero_or_one p.1 with hp | hp <;> rcases Nat.mod_two_eq_zero_or_one q.1 with hq | hq <;>
          rcases Nat.mod_two_eq_zero_or_one r.1 with hr | hr <;> rcases Nat.mod_two_eq_zero_or_one v.1 with hv | hv <;>
          simp [hp, hq, hr, hv] <;> norm_num
      · simp [h2]
    · simp [h1]
  have e2 : ∀ p q r v : Fin (2 * l), arrayTwo (2 * l) tb p q r v = if anti = true then
      1 / 2 * squareTwo l p q r v - 1 / 2 * squareTwo l p q v r else 1 / 2 * squareTwo l p q r v := fun p q r v => by
    have := htb (p.1 / 2) (by omega) (q.1 / 2) (by omega) (r.1 / 2) (by omega) (v.1 / 2) (by omega) (p.1 % 2) (by omega)
      (q.1 % 2) (by omega) (r.1 % 2) (by omega) (v.1 % 2) (by omega)
    rw [Nat.div_add_mod, Nat.div_add_mod, Nat.div_add_mod, Nat.div_add_mod, dot, dot] at this
    rw [arrayTwo, this]
    simp only [hna, and_true]
  rw [e1]
  funext x
  congr 1
  cases anti with
  | false =>
    rw [if_neg (by simp), one_mul, show arrayTwo (2 * l) tb = fun p q r v => 1 / 2 * squareTwo l p q r v from
      funext fun p => funext fun q => funext fun r => funext fun v => by rw [e2, if_neg (by simp)], twoBodyOp_smul_left]
  | true =>
    rw [if_pos rfl, ← twoBodyOp_smul_left (1 / 2) (squareTwo l), twoBodyOp_anti (fun p q r s => 1 / 2 * squareTwo l p q r s) hΦ,
      show arrayTwo (2 * l) tb = fun p q r v => 1 / 2 * squareTwo l p q r v - 1 / 2 * squareTwo l p q v r from
        funext fun p => funext fun q => funext fun r => funext fun v => by rw [e2, if_pos rfl]]

/-- **C143** The arrays that the doubling of an orthonormal basis set stores, for every orthonormal spin basis and with or without
anti-symmetrisation: the states of any number `N` of electrons can be chosen with an energy, a total quantum number of the
orbitals, a total spin and a component of the spin along the axis of `spin_z`. -/
theorem C143_stored [AddCommMonoid G] {g : ℕ → G} {b b' : BasisSet ℂ} {l : ℕ} {a₀ a₁ b₀ b₁ : ℂ} {r anti : Bool}
    {s H U : NDArray ℂ} (hb : WellFormed b l) (hsp : b.includesSpin = false) (hna : b.antiSym = false)
    (run : (changeToGeneralBase [a₀, a₁] [b₀, b₁] anti).run b = (.ok r, b')) (ho : OrthoSpin a₀ a₁ b₀ b₁)
    (hs : b.s = some s) (hov : ∀ p < l, ∀ q < l, s.get [p, q] = kd p q) (eh : b.h = some H) (eu : b.u = some U)
    (hh : HermMat l H) (hu : HermU l U) (hc : Conserves g l H U) :
    ∃ h' u' Sz s2 tb, b'.h = some h' ∧ b'.u = some u' ∧ b'.spinZ = some Sz ∧ b'.spin2 = some s2 ∧ b'.spin2tb = some tb ∧
      ∀ N, ∃ E Ψ Q n k, SpinStates g l N (storedHam l N anti h' u') (storedSquare l N anti s2 tb)
        (oneBodyOp (arrayOne (2 * l) Sz)) E Ψ Q n k ∧ ElectronEnergies l H U N E := by
  obtain ⟨-, Gen, -, -⟩ := C16_general hb hsp run
  have Gh := Gen.h
  have Gu := Gen.u
  rw [eh] at Gh
  rw [eu] at Gu
  obtain ⟨-, -, -, az⟩ := orthonormal_doubled hb hsp run hs hov
  obtain ⟨-, -, Sz, s2, tb, -, -, ez, e2, et, -⟩ := C19_angular_momentum hb hsp run ho hs hov
  cases eh' : b'.h with
  | none => rw [eh'] at Gh; exact Gh.elim
  | some h' =>
  cases eu' : b'.u with
  | none =>
    rw [eu'] at Gu
    split_ifs at Gu <;> exact Gu.elim
  | some u' =>
  rw [eh'] at Gh
  rw [eu'] at Gu
  refine ⟨h', u', Sz, s2, tb, rfl, rfl, ez, e2, et, fun N => ?_⟩
  obtain ⟨E, Ψ, Q, n, k, S⟩ := spin_states hh hu hc N
  -- the spin basis as a rotation
  let V : ℕ → ℕ → ℂ := fun c a => if a = 0 then (if c = 0 then a₀ else a₁) else (if c = 0 then b₀ else b₁)
  have hV : UnitaryTwo V := by
    have h1 := ho.aa
    have h2 := ho.bb
    have h3 := ho.ab
    have h4 : star b₀ * a₀ + star b₁ * a₁ = 0 := by
      have := congrArg star ho.ab
      simp only [spinor, star_add, star_mul', star_star, star_zero] at this
      linear_combination this
    simp only [spinor] at h1 h2 h3
    intro a ha c hc
    rcases lt_two ha with rfl | rfl <;> rcases lt_two hc with rfl | rfl <;> simp only [V, if_true, one_ne_zero, zero_ne_one,
      if_false]
    · exact h1
    · exact h3
    · exact h4
    · exact h2
  have R := spinStates_rotate S hV
  refine ⟨E, _, Q, n, k, spinStates_congr R (fun Φ hΦ => ?_) (fun Φ hΦ => ?_) (fun Φ _ => ?_), Ψ, S.sorted, S.anti, S.eigen, S.orth,
    S.complete⟩
  · refine storedHam_eq Gh ?_ hΦ
    cases anti with
    | false => rwa [if_neg (by simp)] at Gu
    | true => rwa [if_pos ⟨rfl, hna⟩] at Gu
  · exact storedSquare_eq hb hsp hna run ho hs hov e2 et hΦ
  · congr 1
    funext p q
    rw [arrayOne, az Sz ez p p.2 q q.2, spinAct, spinMatrix]
    refine if_congr Iff.rfl ?_ rfl
    congr 1
    rcases Nat.mod_two_eq_zero_or_one p.1 with hp | hp <;> rcases Nat.mod_two_eq_zero_or_one q.1 with hq | hq <;>
      simp only [hp, hq, sigmaZMat, pauliOf_get00, pauliOf_get01, pauliOf_get10, pauliOf_get11, V, if_true, one_ne_zero,
        if_false] <;> ring

/-! ## Consequences -/

/-- **C143** Every energy occurs with the smallest possible component of the spin: `0` for an even number of electrons and `1/2`
for an odd number. -/
theorem C143_smallest [AddCommMonoid G] {g : ℕ → G} {l N : ℕ} {ham square comp : Wave ℂ N (2 * l) → Wave ℂ N (2 * l)}
    {E : ℕ → ℝ} {Ψ : ℕ → Wave ℂ N (2 * l)} {Q : ℕ → G} {n k : ℕ → ℕ} (S : SpinStates g l N ham square comp E Ψ Q n k) {i : ℕ}
    (hi : i < (2 * l).choose N) :
    ∃ i' < (2 * l).choose N, E i' = E i ∧ Q i' = Q i ∧ n i' = n i ∧ k i' = N / 2 := by
  obtain ⟨-, j, h1, h2, h3⟩ := S.bound i hi
  have e1 := S.multiplet (E i) (Q i) (n i) j (k i) h1 h2 h3
  have e2 := S.multiplet (E i) (Q i) (n i) j (N / 2) h1 (by omega) (by omega)
  have h4 : 0 < Nat.card {i' : Fin ((2 * l).choose N) // E i' = E i ∧ Q i' = Q i ∧ n i' = n i ∧ k i' = k i} :=
    Nat.card_pos_iff.2 ⟨⟨⟨⟨i, hi⟩, rfl, rfl, rfl, rfl⟩⟩, inferInstance⟩
  rw [e1, ← e2] at h4
  obtain ⟨⟨⟨i', h⟩⟩, -⟩ := Nat.card_pos_iff.1 h4
  exact ⟨i', i'.2, h⟩

/-- The choices of spin orbitals when there is no quantum number. -/
theorem choices_free (l : ℕ) {N k : ℕ} (hk : k ≤ N) :
    choices (fun _ => (0 : ℕ)) l N 0 k = l.choose k * l.choose (N - k) := by
  classical
  have half : ∀ σ < 2, (univ.filter fun p : Fin (2 * l) => p.1 % 2 = σ).card = l := fun σ hσ => by
    have e : (univ.filter fun p : Fin (2 * l) => p.1 % 2 = σ) =
        univ.image fun p : Fin l => (⟨2 * p.1 + σ, by omega⟩ : Fin (2 * l)) := by
      ext p
      simp only [mem_filter, mem_univ, true_and, mem_image]
      constructor
      · intro h
        exact ⟨⟨p.1 / 2, by omega⟩, Fin.ext (by simp only; omega)⟩
      · rintro ⟨q, rfl⟩
        simp only
        omega
    rw [e, card_image_of_injective _ fun p q h => by
      have := congrArg Fin.val h
      simp only at this
      exact Fin.ext (by omega), card_univ, Fintype.card_fin]
  have ones : ∀ s : Finset (Fin (2 * l)), ∑ p ∈ s, p.1 % 2 = (s.filter fun p => p.1 % 2 = 1).card := fun s => by
    rw [card_filter]
    refine sum_congr rfl fun p _ => ?_
    split_ifs with h
    · exact h
    · omega
  have parts : ∀ s : Finset (Fin (2 * l)), (s.filter fun p => p.1 % 2 = 1).card + (s.filter fun p => p.1 % 2 = 0).card = s.card :=
    fun s => by
      rw [← card_filter_add_card_filter_not (s := s) fun p => p.1 % 2 = 1]
      congr 2
      refine filter_congr fun p _ => ?_
      omega
  unfold choices
  rw [Nat.card_eq_fintype_card, Fintype.card_subtype]
  have e : l.choose k * l.choose (N - k) = (powersetCard k (univ.filter fun p : Fin (2 * l) => p.1 % 2 = 1) ×ˢ
      powersetCard (N - k) (univ.filter fun p : Fin (2 * l) => p.1 % 2 = 0)).card := by
    rw [card_product, card_powersetCard, card_powersetCard, half 1 (by omega), half 0 (by omega)]
  rw [e]
  refine card_nbij' (fun s => (s.filter fun p => p.1 % 2 = 1, s.filter fun p => p.1 % 2 = 0)) (fun z => z.1 ∪ z.2) ?_ ?_ ?_ ?_
  · intro s hs
    obtain ⟨-, h1, -, h3⟩ := mem_filter.1 hs
    rw [ones] at h3
    refine mem_product.2 ⟨mem_powersetCard.2 ⟨filter_subset_filter _ (subset_univ _), h3⟩, mem_powersetCard.2
      ⟨filter_subset_filter _ (subset_univ _), ?_⟩⟩
    have := parts s
    dsimp only
    omega
  · intro z hz
    obtain ⟨h1, h2⟩ := mem_product.1 hz
    obtain ⟨h1, h3⟩ := mem_powersetCard.1 h1
    obtain ⟨h2, h4⟩ := mem_powersetCard.1 h2
    have d : Disjoint z.1 z.2 := disjoint_left.2 fun p hp hp' => by
      have a := (mem_filter.1 (h1 hp)).2
      have b := (mem_filter.1 (h2 hp')).2
      omega
    refine mem_filter.2 ⟨mem_univ _, ?_, sum_const_zero, ?_⟩
    · rw [card_union_of_disjoint d]
      omega
    · rw [sum_union d, sum_congr rfl fun p hp => (mem_filter.1 (h1 hp)).2, sum_congr rfl fun p hp => (mem_filter.1 (h2 hp)).2]
      simpa using h3
  · intro s _
    ext p
    simp only [mem_union, mem_filter]
    constructor
    · rintro (h | h) <;> exact h.1
    · intro h
      rcases Nat.mod_two_eq_zero_or_one p.1 with h' | h'
      · exact Or.inr ⟨h, h'⟩
      · exact Or.inl ⟨h, h'⟩
  · intro z hz
    obtain ⟨h1, h2⟩ := mem_product.1 hz
    obtain ⟨h1, -⟩ := mem_powersetCard.1 h1
    obtain ⟨h2, -⟩ := mem_powersetCard.1 h2
    refine Prod.ext ?_ ?_
    · ext p
      simp only [mem_union, mem_filter]
      constructor
      · rintro ⟨h | h, h'⟩
        · exact h
        · have := (mem_filter.1 (h2 h)).2
          omega
      · exact fun h => ⟨Or.inl h, (mem_filter.1 (h1 h)).2⟩
    · ext p
      simp only [mem_union, mem_filter]
      constructor
      · rintro ⟨h | h, h'⟩
        · have := (mem_filter.1 (h1 h)).2
          omega
        · exact h
      · exact fun h => ⟨Or.inr h, (mem_filter.1 (h2 h)).2⟩

/-- **C143** The number of the multiplets with the total spin `s / 2`, where `s + 2 j = N`:
`C(l, j) C(l, N - j) - C(l, j - 1) C(l, N - j + 1)`. -/
theorem C143_count {l N : ℕ} {ham square comp : Wave ℂ N (2 * l) → Wave ℂ N (2 * l)} {E : ℕ → ℝ} {Ψ : ℕ → Wave ℂ N (2 * l)}
    {Q : ℕ → ℕ} {n k : ℕ → ℕ} (S : SpinStates (fun _ => (0 : ℕ)) l N ham square comp E Ψ Q n k) {s j m : ℕ} (hs : s + 2 * j = N)
    (h1 : j ≤ m) (h2 : m ≤ j + s) : Nat.card {i : Fin ((2 * l).choose N) // n i = s ∧ k i = m} +
      (if j = 0 then 0 else l.choose (j - 1) * l.choose (N - j + 1)) = l.choose j * l.choose (N - j) := by
  classical
  have hQ : ∀ i < (2 * l).choose N, Q i = 0 := fun i hi => by
    by_contra hne
    have h0 : waveInner (Ψ i) (Ψ i) = 0 := sum_eq_zero fun x _ => by
      rw [S.orbital i hi x (by
        rw [show total (fun _ : Fin (2 * l) => (0 : ℕ)) x = 0 from sum_const_zero]
        exact fun h => hne h.symm), mul_zero]
    rw [S.orth i hi i hi, if_pos rfl] at h0
    exact one_ne_zero h0
  -- the multiplets of all energies together
  have e1 : ∀ m, Nat.card {i : Fin ((2 * l).choose N) // n i = s ∧ k i = m} = ∑ ε ∈ (range ((2 * l).choose N)).image E,
      Nat.card {i : Fin ((2 * l).choose N) // E i = ε ∧ Q i = 0 ∧ n i = s ∧ k i = m} := fun m => by
    rw [Nat.card_eq_fintype_card, Fintype.card_subtype, card_eq_sum_card_fiberwise (f := fun i : Fin ((2 * l).choose N) => E i)
      (t := (range ((2 * l).choose N)).image E) fun i _ => by
        simp only [coe_image, Set.mem_image, coe_range, Set.mem_Iio]
        exact ⟨i, i.2, rfl⟩]
    refine sum_congr rfl fun ε _ => ?_
    rw [Nat.card_eq_fintype_card, Fintype.card_subtype, filter_filter]
    refine congrArg card (filter_congr fun i _ => ?_)
    have := hQ i i.2
    tauto
  have e2 : Nat.card {i : Fin ((2 * l).choose N) // n i = s ∧ k i = m} =
      Nat.card {i : Fin ((2 * l).choose N) // n i = s ∧ k i = j} := by
    rw [e1, e1]
    exact sum_congr rfl fun ε _ => S.multiplet ε 0 s j m hs h1 h2
  have e3 := S.number 0 s j hs
  rw [choices_free l (show j ≤ N by omega)] at e3
  rw [e2, ← e3, Nat.card_congr (Equiv.subtypeEquivRight fun i : Fin ((2 * l).choose N) =>
    show n i = s ∧ k i = j ↔ Q i = 0 ∧ n i = s ∧ k i = j from ⟨fun h => ⟨hQ i i.2, h⟩, fun h => h.2⟩)]
  congr 1
  split_ifs with hj
  · rfl
  · rw [choices_free l (show j - 1 ≤ N by omega), show N - (j - 1) = N - j + 1 by omega]

/-- The operator is linear. -/
def LinearOp {N L : ℕ} (op : Wave ℂ N L → Wave ℂ N L) : Prop :=
  (∀ Φ Ψ, op (fun x => Φ x + Ψ x) = fun x => op Φ x + op Ψ x) ∧ ∀ (c : ℂ) Ψ, op (fun x => c * Ψ x) = fun x => c * op Ψ x

theorem LinearOp.comb {N L : ℕ} {op : Wave ℂ N L → Wave ℂ N L} (h : LinearOp op) (D : ℕ) (c : ℕ → ℂ) (Φ : ℕ → Wave ℂ N L) :
    op (fun x => ∑ i ∈ range D, c i * Φ i x) = fun x => ∑ i ∈ range D, c i * op (Φ i) x := by
  induction D with
  | zero =>
    have := h.2 0 (fun _ => 0)
    simpa using this
  | succ D ih =>
    simp only [sum_range_succ]
    rw [h.1, ih, h.2]

theorem linear_orth {N L D : ℕ} {op : Wave ℂ N L → Wave ℂ N L} (hl : LinearOp op) {Ψ : ℕ → Wave ℂ N L} {e : ℕ → ℂ}
    (h1 : ∀ i < D, op (Ψ i) = fun x => e i * Ψ i x) (ho : ∀ i < D, ∀ j < D, waveInner (Ψ i) (Ψ j) = if i = j then 1 else 0)
    {Φ : Wave ℂ N L} (hc : ∀ x, Φ x = ∑ i ∈ range D, waveInner (Ψ i) Φ * Ψ i x) {e' : ℂ} (h2 : op Φ = fun x => e' * Φ x) {i : ℕ}
    (hi : i < D) (hne : e i ≠ e') : waveInner (Ψ i) Φ = 0 := by
  have key : ∀ a : ℕ → ℂ, waveInner (Ψ i) (fun x => ∑ j ∈ range D, a j * Ψ j x) = a i := fun a => by
    rw [waveInner_comb, sum_eq_single i]
    · rw [ho i hi i hi, if_pos rfl, mul_one]
    · intro j hj hji
      rw [ho i hi j (mem_range.1 hj), if_neg (Ne.symm hji), mul_zero]
    · exact fun h => absurd (mem_range.2 hi) h
  have e1 : op Φ = fun x => ∑ j ∈ range D, (waveInner (Ψ j) Φ * e j) * Ψ j x := by
    conv_lhs => rw [funext hc]
    rw [hl.comb]
    funext x
    refine sum_congr rfl fun j hj => ?_
    rw [h1 j (mem_range.1 hj)]
    ring
  have e2 := key fun j => waveInner (Ψ j) Φ * e j
  rw [← e1, h2, inner_smul_right] at e2
  have e3 : (e i - e') * waveInner (Ψ i) Φ = 0 := by linear_combination -e2
  exact (mul_eq_zero.1 e3).resolve_left (sub_ne_zero.2 hne)

theorem spinStates_unique [AddCommMonoid G] {g : ℕ → G} {l N : ℕ} {ham square comp : Wave ℂ N (2 * l) → Wave ℂ N (2 * l)}
    (L1 : LinearOp ham) (L2 : LinearOp square) (L3 : LinearOp comp) {E E' : ℕ → ℝ} {Ψ Ψ' : ℕ → Wave ℂ N (2 * l)} {Q Q' : ℕ → G}
    {n k n' k' : ℕ → ℕ} (S : SpinStates g l N ham square comp E Ψ Q n k) (S' : SpinStates g l N ham square comp E' Ψ' Q' n' k')
    (ε : ℝ) (q : G) (s m : ℕ) :
    Nat.card {i : Fin ((2 * l).choose N) // E i = ε ∧ Q i = q ∧ n i = s ∧ k i = m} =
      Nat.card {i : Fin ((2 * l).choose N) // E' i = ε ∧ Q' i = q ∧ n' i = s ∧ k' i = m} := by
  classical
  set D := (2 * l).choose N
  have zero : ∀ i j : Fin D, ¬ (E i = E' j ∧ Q i = Q' j ∧ n i = n' j ∧ k i = k' j) → ‖waveInner (Ψ i) (Ψ' j)‖ ^ 2 = 0 :=
    fun i j hij => by
      have : waveInner (Ψ i) (Ψ' j) = 0 := by
        by_contra hne
        refine hij ⟨?_, ?_, ?_, ?_⟩
        · by_contra h
          refine hne (linear_orth L1 (e := fun i => (E i : ℂ)) S.eigen S.orth (S.complete _ (S'.anti j j.2)) (S'.eigen j j.2) i.2
            fun h' => h ?_)
          exact_mod_cast h'
        · by_contra h
          exact hne (inner_total (S.orbital i i.2) (S'.orbital j j.2) h)
        · by_contra h
          refine hne (linear_orth L2 (e := fun i => (n i : ℂ) / 2 * ((n i : ℂ) / 2 + 1)) S.spin S.orth
            (S.complete _ (S'.anti j j.2)) (S'.spin j j.2) i.2 fun h' => h (spinValue_injective ?_))
          have h3 : ((spinValue (n i) : ℝ) : ℂ) = (spinValue (n' j) : ℝ) := by
            unfold spinValue
            push_cast
            exact h'
          exact_mod_cast h3
        · by_contra h
          refine hne (linear_orth L3 (e := fun i => (N : ℂ) / 2 - k i) S.component S.orth
            (S.complete _ (S'.anti j j.2)) (S'.component j j.2) i.2 fun h' => h ?_)
          have : (k i : ℂ) = k' j := by linear_combination -h'
          exact_mod_cast this
      rw [this, norm_zero, sq, zero_mul]
  have pars : ∀ {Ψ : ℕ → Wave ℂ N (2 * l)} {Φ : Wave ℂ N (2 * l)}, (∀ x, Φ x = ∑ i ∈ range D, waveInner (Ψ i) Φ * Ψ i x) →
      waveInner Φ Φ = 1 → ∑ i : Fin D, ‖waveInner (Ψ i) Φ‖ ^ 2 = 1 := fun {Ψ Φ} hc h1 => by
    have e1 : waveInner Φ Φ = ∑ i ∈ range D, waveInner (Ψ i) Φ * waveInner Φ (Ψ i) := by
      conv_lhs => rw [show waveInner Φ Φ = waveInner Φ (fun x => ∑ i ∈ range D, waveInner (Ψ i) Φ * Ψ i x) from
        congrArg (waveInner Φ) (funext hc)]
      rw [waveInner_comb]
    have e2 : ∀ i, waveInner (Ψ i) Φ * waveInner Φ (Ψ i) = ((‖waveInner (Ψ i) Φ‖ ^ 2 : ℝ) : ℂ) := fun i => by
      rw [← waveInner_star (Ψ i) Φ]
      have := Complex.mul_conj (waveInner (Ψ i) Φ)
      rw [Complex.normSq_eq_norm_sq] at this
      exact this
    rw [h1, sum_congr rfl fun i _ => e2 i, sum_range] at e1
    exact_mod_cast e1.symm
  have h1 : ∀ i : Fin D, ∑ j : Fin D, ‖waveInner (Ψ i) (Ψ' j)‖ ^ 2 = 1 := fun i => by
    rw [← pars (S'.complete _ (S.anti i i.2)) (by rw [S.orth i i.2 i i.2, if_pos rfl])]
    exact sum_congr rfl fun j _ => by rw [← waveInner_star, norm_star]
  have h2 : ∀ j : Fin D, ∑ i : Fin D, ‖waveInner (Ψ i) (Ψ' j)‖ ^ 2 = 1 := fun j =>
    pars (S.complete _ (S'.anti j j.2)) (by rw [S'.orth j j.2 j j.2, if_pos rfl])
  set A := univ.filter fun i : Fin D => E i = ε ∧ Q i = q ∧ n i = s ∧ k i = m with hA
  set B := univ.filter fun i : Fin D => E' i = ε ∧ Q' i = q ∧ n' i = s ∧ k' i = m with hB
  have e1 : ∑ i ∈ A, ∑ j ∈ B, ‖waveInner (Ψ i) (Ψ' j)‖ ^ 2 = A.card := by
    rw [card_eq_sum_ones, Nat.cast_sum]
    refine sum_congr rfl fun i hi => ?_
    rw [Nat.cast_one, ← h1 i]
    refine sum_subset (filter_subset _ _) fun j _ hj => zero i j fun h => hj ?_
    obtain ⟨-, a, b, c, d⟩ := mem_filter.1 hi
    exact mem_filter.2 ⟨mem_univ _, h.1.symm.trans a, h.2.1.symm.trans b, h.2.2.1.symm.trans c, h.2.2.2.symm.trans d⟩
  have e2 : ∑ j ∈ B, ∑ i ∈ A, ‖waveInner (Ψ i) (Ψ' j)‖ ^ 2 = B.card := by
    rw [card_eq_sum_ones, Nat.cast_sum]
    refine sum_congr rfl fun j hj => ?_
    rw [Nat.cast_one, ← h2 j]
    refine sum_subset (filter_subset _ _) fun i _ hi => zero i j fun h => hi ?_
    obtain ⟨-, a, b, c, d⟩ := mem_filter.1 hj
    exact mem_filter.2 ⟨mem_univ _, h.1.trans a, h.2.1.trans b, h.2.2.1.trans c, h.2.2.2.trans d⟩
  rw [sum_comm, e2] at e1
  rw [Nat.card_eq_fintype_card, Nat.card_eq_fintype_card, Fintype.card_subtype, Fintype.card_subtype]
  exact_mod_cast e1.symm

theorem oneBodyOp_linear {N L : ℕ} (A : Fin L → Fin L → ℂ) : LinearOp (oneBodyOp (N := N) A) :=
  ⟨fun Φ Ψ => funext fun x => oneBodyOp_add_right A Φ Ψ x, fun c Ψ => funext fun x => oneBodyOp_smul_right c A Ψ x⟩

theorem stored_linear {N L : ℕ} (A : Fin L → Fin L → ℂ) (c : ℂ) (u : Fin L → Fin L → Fin L → Fin L → ℂ) :
    LinearOp (fun (Ψ : Wave ℂ N L) x => oneBodyOp A Ψ x + c * twoBodyOp u Ψ x) := by
  refine ⟨fun Φ Ψ => funext fun x => ?_, fun d Ψ => funext fun x => ?_⟩
  · dsimp only
    rw [oneBodyOp_add_right, show twoBodyOp u (fun x => Φ x + Ψ x) x = twoBodyOp u Φ x + twoBodyOp u Ψ x by
      unfold twoBodyOp
      simp only [mul_add, sum_add_distrib]]
    ring
  · dsimp only
    rw [oneBodyOp_smul_right, show twoBodyOp u (fun x => d * Ψ x) x = d * twoBodyOp u Ψ x by
      unfold twoBodyOp
      simp only [mul_sum]
      refine sum_congr rfl fun i _ => sum_congr rfl fun j _ => sum_congr rfl fun y _ => sum_congr rfl fun z _ => ?_
      ring]
    ring

/-- **C143** How often an energy occurs with a total quantum number, a total spin and a component follows from the stored arrays,
whatever states are chosen. -/
theorem C143_unique [AddCommMonoid G] {g : ℕ → G} {l N : ℕ} {anti : Bool} {h u s2 tb Sz : NDArray ℂ} {E E' : ℕ → ℝ}
    {Ψ Ψ' : ℕ → Wave ℂ N (2 * l)} {Q Q' : ℕ → G} {n k n' k' : ℕ → ℕ}
    (S : SpinStates g l N (storedHam l N anti h u) (storedSquare l N anti s2 tb) (oneBodyOp (arrayOne (2 * l) Sz)) E Ψ Q n k)
    (S' : SpinStates g l N (storedHam l N anti h u) (storedSquare l N anti s2 tb) (oneBodyOp (arrayOne (2 * l) Sz)) E' Ψ' Q' n' k')
    (ε : ℝ) (q : G) (s m : ℕ) :
    Nat.card {i : Fin ((2 * l).choose N) // E i = ε ∧ Q i = q ∧ n i = s ∧ k i = m} =
      Nat.card {i : Fin ((2 * l).choose N) // E' i = ε ∧ Q' i = q ∧ n' i = s ∧ k' i = m} :=
  spinStates_unique (stored_linear _ _ _) (stored_linear _ _ _) (oneBodyOp_linear _) S S' ε q s m

/-! ## Systems -/

theorem conserves_free (l : ℕ) (H U : NDArray ℂ) : Conserves (fun _ => (0 : ℕ)) l H U :=
  ⟨fun _ _ _ _ h => absurd rfl h, fun _ _ _ _ _ _ _ _ h => absurd rfl h⟩

/-- The states of any number of electrons in the doubled basis set. -/
def DoubledStates [AddCommMonoid G] (g : ℕ → G) (l : ℕ) (anti : Bool) (b b' : BasisSet ℂ) : Prop :=
  ∃ h u h' u' Sz s2 tb, b.h = some h ∧ b.u = some u ∧ b'.h = some h' ∧ b'.u = some u' ∧ b'.spinZ = some Sz ∧
    b'.spin2 = some s2 ∧ b'.spin2tb = some tb ∧
    ∀ N, ∃ E Ψ Q n k, SpinStates g l N (storedHam l N anti h' u') (storedSquare l N anti s2 tb)
      (oneBodyOp (arrayOne (2 * l) Sz)) E Ψ Q n k ∧ ElectronEnergies l h u N E

theorem doubled_states [AddCommMonoid G] {g : ℕ → G} {b : BasisSet ℂ} {l d : ℕ} {np : Module}
    (cons : Consistent b l d np false false) {h u : NDArray ℂ} (eh : b.h = some h) (eu : b.u = some u) (hc : Conserves g l h u)
    {a₀ a₁ b₀ b₁ : ℂ} (ho : OrthoSpin a₀ a₁ b₀ b₁) (anti : Bool) :
    ∃ b', (changeToGeneralBase [a₀, a₁] [b₀, b₁] anti).run b = (.ok true, b') ∧ DoubledStates g l anti b b' := by
  obtain ⟨s, es, hov⟩ := cons.s
  obtain ⟨h', eh', Hh⟩ := cons.h
  obtain rfl := Option.some.inj (eh.symm.trans eh')
  obtain ⟨u', eu', Hu, -⟩ := cons.u
  obtain rfl := Option.some.inj (eu.symm.trans eu')
  obtain ⟨b', run⟩ := C16_succeeds anti cons.wf cons.spin_eq (by rw [es]; rfl) ho
  obtain ⟨h', u', Sz, s2, tb, e1, e2, e3, e4, e5, e6⟩ := C143_stored cons.wf cons.spin_eq cons.anti_eq run ho es hov eh eu Hh Hu hc
  exact ⟨b', run, _, _, h', u', Sz, s2, tb, eh, eu, e1, e2, e3, e4, e5, e6⟩

/-- **C143** Every basis set that a class of the package sets up (`Consistent`, see C91), doubled with any orthonormal spin basis. -/
theorem C143_consistent {b : BasisSet ℂ} {l d : ℕ} {np : Module} (cons : Consistent b l d np false false)
    {a₀ a₁ b₀ b₁ : ℂ} (ho : OrthoSpin a₀ a₁ b₀ b₁) (anti : Bool) :
    ∃ b', (changeToGeneralBase [a₀, a₁] [b₀, b₁] anti).run b = (.ok true, b') ∧
      DoubledStates (fun _ => (0 : ℕ)) l anti b b' := by
  obtain ⟨h, eh, -⟩ := cons.h
  obtain ⟨u, eu, -⟩ := cons.u
  exact doubled_states cons eh eu (conserves_free l h u) ho anti

/-- **C143** `TwoDimensionalHarmonicOscillator`: angular momentum, spin and component. -/
theorem C143_tdho (l num : ℕ) (radiusLength omega mass : ℝ) (np : Module) {a₀ a₁ b₀ b₁ : ℂ} (ho : OrthoSpin a₀ a₁ b₀ b₁)
    (anti : Bool) :
    ∃ b b', tdho (getCoulombElementsRaw l) l num radiusLength omega mass np = .ok b ∧
      (changeToGeneralBase [a₀, a₁] [b₀, b₁] anti).run b = (.ok true, b') ∧
      DoubledStates (fun p => (getIndicesNm p).2) l anti b b' := by
  obtain ⟨b, h, u, h1, hh, hu, hc⟩ := C100_tdho l num radiusLength omega mass np false false
  obtain ⟨b', h1', cons⟩ := C91_tdho l num radiusLength omega mass np
  obtain rfl : b = b' := by simpa using h1.symm.trans h1'
  obtain ⟨b', run, D⟩ := doubled_states cons hh hu hc ho anti
  exact ⟨b, b', h1, run, D⟩

/-- **C143** `TwoDimHarmonicOscB`: angular momentum, spin and component. -/
theorem C143_magnetic {l num : ℕ} {radiusLength omega0 mass omegaC : ℝ} {np : Module} {b : BasisSet ℂ} {df : List Row}
    (h : oscB l num radiusLength omega0 mass omegaC np = .ok (b, df)) {a₀ a₁ b₀ b₁ : ℂ} (ho : OrthoSpin a₀ a₁ b₀ b₁)
    (anti : Bool) : ∃ b', (changeToGeneralBase [a₀, a₁] [b₀, b₁] anti).run b = (.ok true, b') ∧
      DoubledStates (fun p => (indicesNmB df p).2) l anti b b' := by
  obtain ⟨x, u, hh, hu, hc⟩ := C100_magnetic h
  exact doubled_states (C91_magnetic h) hh hu hc ho anti

/-- **C143** `TwoDimensionalDoubleWell`: parity, spin and component. -/
theorem C143_double_well (l num : ℕ) (radiusLength omega mass barrier : ℝ) (axis : ℕ) (np : Module) {a₀ a₁ b₀ b₁ : ℂ}
    (ho : OrthoSpin a₀ a₁ b₀ b₁) (anti : Bool) :
    ∃ b b', doubleWell (getCoulombElementsRaw l) l num radiusLength omega mass barrier axis np = .ok b ∧
      (changeToGeneralBase [a₀, a₁] [b₀, b₁] anti).run b = (.ok true, b') ∧
      DoubledStates (fun p => ((getIndicesNm p).2 : ZMod 2)) l anti b b' := by
  obtain ⟨b, h, u, h1, hh, hu, hc⟩ := C100_double_well l num radiusLength omega mass barrier axis np false false
  obtain ⟨b', h1', cons⟩ := C91_double_well l num radiusLength omega mass barrier axis np
  obtain rfl : b = b' := by simpa using h1.symm.trans h1'
  obtain ⟨b', run, D⟩ := doubled_states cons hh hu hc ho anti
  exact ⟨b, b', h1, run, D⟩

/-- **C143** `ODHO`: parity, spin and component. -/
theorem C143_odho (l : ℕ) (L : ℝ) {num : ℕ} (h2 : 2 ≤ num) (omega : ℝ) {a : ℝ} (h0 : a ≠ 0) (alpha beta : ℝ) (np : Module)
    {a₀ a₁ b₀ b₁ : ℂ} (ho : OrthoSpin a₀ a₁ b₀ b₁) (anti : Bool) :
    ∃ b b', odho l L num omega a alpha beta np false false = .ok b ∧
      (changeToGeneralBase [a₀, a₁] [b₀, b₁] anti).run b = (.ok true, b') ∧
      DoubledStates (fun p => (p : ZMod 2)) l anti b b' := by
  obtain ⟨b, h, u, h1, hh, hu, hc⟩ := C100_odho l L h2 omega h0 alpha beta np false false
  obtain ⟨b', h1', cons⟩ := C91_odho l L h2 omega a alpha beta np false false
  obtain rfl : b = b' := by simpa using h1.symm.trans h1'
  obtain ⟨b', run, D⟩ := doubled_states cons hh hu hc ho anti
  exact ⟨b, b', h1, run, D⟩

/-- Two electrons in three orbitals: six singlets and three triplets. -/
example {ham square comp : Wave ℂ 2 (2 * 3) → Wave ℂ 2 (2 * 3)} {E : ℕ → ℝ} {Ψ : ℕ → Wave ℂ 2 (2 * 3)} {Q : ℕ → ℕ} {n k : ℕ → ℕ}
    (S : SpinStates (fun _ => (0 : ℕ)) 3 2 ham square comp E Ψ Q n k) :
    Nat.card {i : Fin ((2 * 3).choose 2) // n i = 0 ∧ k i = 1} = 6 ∧
    Nat.card {i : Fin ((2 * 3).choose 2) // n i = 2 ∧ k i = 0} = 3 ∧
    Nat.card {i : Fin ((2 * 3).choose 2) // n i = 2 ∧ k i = 2} = 3 := by
  have e1 := C143_count S (s := 0) (j := 1) (m := 1) rfl le_rfl (by omega)
  have e2 := C143_count S (s := 2) (j := 0) (m := 0) rfl le_rfl (by omega)
  have e3 := C143_count S (s := 2) (j := 0) (m := 2) rfl (by omega) (by omega)
  exact ⟨Nat.add_right_cancel (m := 3) e1, e2, e3⟩

end QS.Props
