import Verif.Spec.ManyBody
import Mathlib.Tactic.FieldSimp
import Mathlib.Tactic.Ring

/-! # Slater determinants (helper file) -/

namespace QS

open Finset Function Equiv.Perm

variable {K : Type} [PyScalar K] {N L : ℕ}

theorem slater_antisymmetric (o : Fin N → Fin L) : Antisymmetric (slater (K := K) o) := by
  intro σ x
  unfold slater
  exact Matrix.det_permute σ (Matrix.of fun i j => if x i = o j then (1 : K) else 0)

theorem slater_self {o : Fin N → Fin L} (ho : Injective o) : slater (K := K) o o = 1 := by
  unfold slater
  rw [show (Matrix.of fun i j => if o i = o j then (1 : K) else 0) = 1 from ?_, Matrix.det_one]
  ext i j
  simp [Matrix.one_apply, ho.eq_iff]

theorem slater_missing {o x : Fin N → Fin L} {i : Fin N} (h : ∀ j, x i ≠ o j) : slater (K := K) o x = 0 := by
  unfold slater
  exact Matrix.det_eq_zero_of_row_eq_zero i fun j => by simp [h j]

theorem slater_repeat {o x : Fin N → Fin L} {i j : Fin N} (hij : i ≠ j) (h : x i = x j) :
    slater (K := K) o x = 0 := by
  unfold slater
  exact Matrix.det_zero_of_row_eq hij (by ext k; simp [h])

theorem star_slater (o x : Fin N → Fin L) : star (slater (K := K) o x) = slater o x := by
  unfold slater
  have := (starRingEnd K).map_det (Matrix.of fun i j => if x i = o j then (1 : K) else 0)
  rw [starRingEnd_apply] at this
  rw [this]
  congr 1
  ext i j
  simp only [RingHom.mapMatrix_apply, Matrix.map_apply, Matrix.of_apply]
  split_ifs <;> simp

theorem slater_sum (o x : Fin N → Fin L) :
    slater (K := K) o x = ∑ σ : Equiv.Perm (Fin N), ((sign σ : ℤ) : K) * if x ∘ σ = o then 1 else 0 := by
  unfold slater
  rw [Matrix.det_apply']
  refine sum_congr rfl fun σ _ => ?_
  congr 1
  by_cases h : x ∘ σ = o
  · rw [if_pos h]
    exact prod_eq_one fun i _ => by
      have := congrFun h i
      simp only [Function.comp] at this
      simp [this]
  · rw [if_neg h]
    obtain ⟨i, hi⟩ : ∃ i, x (σ i) ≠ o i := by
      by_contra hc
      push Not at hc
      exact h (funext hc)
    exact prod_eq_zero (mem_univ i) (by simp [hi])

theorem sign_mul_self (σ : Equiv.Perm (Fin N)) : ((sign σ : ℤ) : K) * ((sign σ : ℤ) : K) = 1 := by
  rw [← Int.cast_mul, ← Units.val_mul, Int.units_mul_self]
  simp

/-- The inner product with a determinant picks one value, `N!` times. -/
theorem slater_inner (o : Fin N → Fin L) {G : Wave K N L} (hG : Antisymmetric G) :
    waveInner (slater o) G = (N.factorial : K) * G o := by
  unfold waveInner
  simp only [star_slater]
  simp only [slater_sum, sum_mul]
  rw [sum_comm]
  have : ∀ σ : Equiv.Perm (Fin N), ∑ x, ((sign σ : ℤ) : K) * (if x ∘ σ = o then 1 else 0) * G x = G o := by
    intro σ
    rw [sum_eq_single (o ∘ σ.symm)]
    · rw [if_pos (by funext i; simp), hG σ.symm o, sign_symm, mul_one, ← mul_assoc, sign_mul_self, one_mul]
    · intro x _ hne
      rw [if_neg, mul_zero, zero_mul]
      intro h
      exact hne (by rw [← h]; funext i; simp)
    · intro h; exact absurd (mem_univ _) h
  rw [sum_congr rfl fun σ _ => this σ, sum_const, card_univ, Fintype.card_perm, Fintype.card_fin, nsmul_eq_mul]

theorem update_comp (x : Fin N → Fin L) (σ : Equiv.Perm (Fin N)) (i : Fin N) (y : Fin L) :
    update (x ∘ σ) i y = update x (σ i) y ∘ σ := by
  funext j
  by_cases h : j = i
  · subst h; simp
  · have : σ j ≠ σ i := fun e => h (σ.injective e)
    simp [h, this]

theorem oneBodyOp_antisymmetric (h : Fin L → Fin L → K) {Ψ : Wave K N L} (hΨ : Antisymmetric Ψ) :
    Antisymmetric (oneBodyOp h Ψ) := by
  intro σ x
  unfold oneBodyOp
  simp only [update_comp, hΨ σ, Function.comp, mul_sum]
  rw [Equiv.sum_comp σ (fun i => ∑ y, h (x i) y * (((sign σ : ℤ) : K) * Ψ (update x i y)))]
  exact sum_congr rfl fun i _ => sum_congr rfl fun y _ => by ring

theorem twoBodyOp_eq (u : Fin L → Fin L → Fin L → Fin L → K) (Ψ : Wave K N L) (x : Fin N → Fin L) :
    twoBodyOp u Ψ x = ∑ i, ∑ j, if i = j then 0 else
      ∑ y, ∑ z, u (x i) (x j) y z * Ψ (update (update x i y) j z) := by
  unfold twoBodyOp
  refine sum_congr rfl fun i _ => ?_
  rw [← add_sum_erase univ _ (mem_univ i), if_pos rfl, zero_add]
  refine sum_congr rfl fun j hj => ?_
  rw [if_neg (fun h => (mem_erase.1 hj).1 h.symm)]

theorem twoBodyOp_antisymmetric (u : Fin L → Fin L → Fin L → Fin L → K) {Ψ : Wave K N L}
    (hΨ : Antisymmetric Ψ) : Antisymmetric (twoBodyOp u Ψ) := by
  intro σ x
  rw [twoBodyOp_eq, twoBodyOp_eq]
  simp only [update_comp, hΨ σ, Function.comp, mul_sum]
  rw [← Equiv.sum_comp σ (fun i => ∑ j, ((sign σ : ℤ) : K) * if i = j then 0 else _)]
  refine sum_congr rfl fun i _ => ?_
  rw [← Equiv.sum_comp σ (fun j => ((sign σ : ℤ) : K) * if σ i = j then 0 else _)]
  refine sum_congr rfl fun j _ => ?_
  by_cases hij : i = j
  · subst hij; simp
  · rw [if_neg hij, if_neg (fun e => hij (σ.injective e)), mul_sum]
    refine sum_congr rfl fun y _ => ?_
    rw [mul_sum]
    exact sum_congr rfl fun z _ => by ring

theorem hamiltonOp_antisymmetric (h : Fin L → Fin L → K) (u : Fin L → Fin L → Fin L → Fin L → K)
    {Ψ : Wave K N L} (hΨ : Antisymmetric Ψ) : Antisymmetric (hamiltonOp h u Ψ) := by
  intro σ x
  unfold hamiltonOp
  rw [oneBodyOp_antisymmetric h hΨ, twoBodyOp_antisymmetric u hΨ]
  ring

theorem slater_update {o : Fin N → Fin L} (ho : Injective o) (i : Fin N) (y : Fin L) :
    slater (K := K) o (update o i y) = if y = o i then 1 else 0 := by
  by_cases h : y = o i
  · rw [if_pos h, h, update_eq_self, slater_self ho]
  · rw [if_neg h]
    by_cases h2 : ∃ j, y = o j
    · obtain ⟨j, rfl⟩ := h2
      have hij : i ≠ j := fun e => h (by rw [e])
      exact slater_repeat hij (by simp [hij.symm])
    · push Not at h2
      exact slater_missing (i := i) fun j => by simpa using h2 j

theorem slater_update2 {o : Fin N → Fin L} (ho : Injective o) {i j : Fin N} (hij : i ≠ j) (y z : Fin L) :
    slater (K := K) o (update (update o i y) j z) =
      (if y = o i ∧ z = o j then 1 else 0) - if y = o j ∧ z = o i then 1 else 0 := by
  have nij : o i ≠ o j := fun e => hij (ho e)
  have vi : update (update o i y) j z i = y := by simp [hij]
  have vj : update (update o i y) j z j = z := by simp
  have vk : ∀ k, k ≠ i → k ≠ j → update (update o i y) j z k = o k := fun k h1 h2 => by simp [h1, h2]
  by_cases hy : ∃ a, y = o a
  swap
  · push Not at hy
    rw [slater_missing (i := i) fun k => by rw [vi]; exact hy k, if_neg fun h => hy i h.1, if_neg fun h => hy j h.1,
      sub_zero]
  by_cases hz : ∃ b, z = o b
  swap
  · push Not at hz
    rw [slater_missing (i := j) fun k => by rw [vj]; exact hz k, if_neg fun h => hz j h.2, if_neg fun h => hz i h.2,
      sub_zero]
  obtain ⟨a, rfl⟩ := hy
  obtain ⟨b, rfl⟩ := hz
  simp only [ho.eq_iff]
  by_cases hai : a = i
  · subst hai
    by_cases hbj : b = j
    · subst hbj
      rw [update_eq_self, update_eq_self, slater_self ho, if_pos ⟨rfl, rfl⟩, if_neg fun h => hij h.1, sub_zero]
    · rw [if_neg fun h => hbj h.2, if_neg fun h => hij h.1, sub_zero]
      by_cases hba : b = a
      · subst hba
        exact slater_repeat hij (by rw [vi, vj])
      · exact slater_repeat (i := b) (j := j) hbj (by rw [vj, vk b hba hbj])
  · by_cases haj : a = j
    · subst haj
      by_cases hbi : b = i
      · subst hbi
        rw [if_neg fun h => hai h.1, if_pos ⟨rfl, rfl⟩, zero_sub]
        have e : update (update o b (o a)) a (o b) = o ∘ Equiv.swap b a := by
          funext k
          by_cases h1 : k = b
          · subst h1; simp [hij]
          · by_cases h2 : k = a
            · subst h2; simp
            · simp [h1, h2, Equiv.swap_apply_of_ne_of_ne h1 h2]
        rw [e, slater_antisymmetric o, slater_self ho, sign_swap hij]
        simp
      · rw [if_neg fun h => hai h.1, if_neg fun h => hbi h.2, sub_zero]
        by_cases hba : b = a
        · subst hba
          exact slater_repeat hij (by rw [vi, vj])
        · exact slater_repeat (i := b) (j := a) hba (by rw [vj, vk b hbi hba])
    · rw [if_neg fun h => hai h.1, if_neg fun h => haj h.1, sub_zero]
      exact slater_repeat (i := a) (j := i) hai (by rw [vi, vk a hai haj])

/-- **Slater–Condon rule** for the expectation value. -/
theorem hamilton_slater (h : Fin L → Fin L → K) (u : Fin L → Fin L → Fin L → Fin L → K) {o : Fin N → Fin L}
    (ho : Injective o) : hamiltonOp h u (slater o) o = ∑ i, h (o i) (o i) +
      1 / 2 * ∑ i, ∑ j, (u (o i) (o j) (o i) (o j) - u (o i) (o j) (o j) (o i)) := by
  unfold hamiltonOp
  congr 1
  · unfold oneBodyOp
    exact sum_congr rfl fun i _ => by simp [slater_update ho]
  · rw [twoBodyOp_eq]
    congr 1
    refine sum_congr rfl fun i _ => sum_congr rfl fun j _ => ?_
    by_cases hij : i = j
    · subst hij; simp
    · rw [if_neg hij]
      simp [slater_update2 ho hij, mul_sub, ite_and, sum_sub_distrib]

theorem slater_excited {o : Fin N → Fin L} {a : Fin L} (ha : ∀ j, a ≠ o j) {k : Fin N} {x : Fin N → Fin L}
    (hx : x k = a) : slater (K := K) o x = 0 :=
  slater_missing (i := k) fun j => by rw [hx]; exact ha j

/-- **Slater–Condon rule** for one replaced orbital. -/
theorem hamilton_single (h : Fin L → Fin L → K) (u : Fin L → Fin L → Fin L → Fin L → K) {o : Fin N → Fin L}
    (ho : Injective o) (k : Fin N) {a : Fin L} (ha : ∀ j, a ≠ o j) :
    hamiltonOp h u (slater o) (update o k a) = h a (o k) +
      1 / 2 * (∑ j, (u a (o j) (o k) (o j) - u a (o j) (o j) (o k)) +
        ∑ j, (u (o j) a (o j) (o k) - u (o j) a (o k) (o j))) := by
  unfold hamiltonOp
  congr 1
  · unfold oneBodyOp
    rw [sum_eq_single k]
    · simp [slater_update ho]
    · intro i _ hik
      refine sum_eq_zero fun y _ => ?_
      rw [slater_excited ha (k := k) (by simp [hik.symm]), mul_zero]
    · intro hk; exact absurd (mem_univ k) hk
  · rw [twoBodyOp_eq]
    congr 1
    rw [← add_sum_erase univ _ (mem_univ k)]
    congr 1
    · refine sum_congr rfl fun j _ => ?_
      by_cases hkj : k = j
      · subst hkj; simp
      · rw [if_neg hkj]
        simp [slater_update2 ho hkj, mul_sub, ite_and, sum_sub_distrib, Ne.symm hkj]
    · rw [← add_sum_erase univ (fun j => u (o j) a (o j) (o k) - u (o j) a (o k) (o j)) (mem_univ k), sub_self,
        zero_add]
      refine sum_congr rfl fun i hi => ?_
      have hik : i ≠ k := (mem_erase.1 hi).1
      rw [sum_eq_single k]
      · rw [if_neg hik]
        have e : ∀ y z, update (update (update o k a) i y) k z = update (update o i y) k z := fun y z => by
          rw [update_comm hik.symm, update_idem]
        simp [e, slater_update2 ho hik, mul_sub, ite_and, sum_sub_distrib, hik]
      · intro j _ hjk
        split_ifs with hij
        · rfl
        · refine sum_eq_zero fun y _ => sum_eq_zero fun z _ => ?_
          rw [slater_excited ha (k := k) (by simp [hik.symm, hjk.symm]), mul_zero]
      · intro hk; exact absurd (mem_univ k) hk

theorem excited_injective {o : Fin N → Fin L} (ho : Injective o) (k : Fin N) {a : Fin L} (ha : ∀ j, a ≠ o j) :
    Injective (update o k a) := by
  intro i j hij
  by_cases h1 : i = k <;> by_cases h2 : j = k
  · rw [h1, h2]
  · subst h1; simp [h2] at hij; exact absurd hij (ha j)
  · subst h2; simp [h1] at hij; exact absurd hij.symm (ha i)
  · simp [h1, h2] at hij; exact ho hij

/-- On antisymmetric functions the elements can be anti-symmetrised. -/
theorem twoBodyOp_anti (u : Fin L → Fin L → Fin L → Fin L → K) {Ψ : Wave K N L} (hΨ : Antisymmetric Ψ) :
    twoBodyOp u Ψ = fun x => 1 / 2 * twoBodyOp (fun p q r s => u p q r s - u p q s r) Ψ x := by
  funext x
  rw [twoBodyOp_eq, twoBodyOp_eq, mul_sum]
  refine sum_congr rfl fun i _ => ?_
  rw [mul_sum]
  refine sum_congr rfl fun j _ => ?_
  split_ifs with hij
  · simp
  · have e : ∑ y, ∑ z, u (x i) (x j) z y * Ψ (update (update x i y) j z) =
        -∑ y, ∑ z, u (x i) (x j) y z * Ψ (update (update x i y) j z) := by
      rw [sum_comm, ← sum_neg_distrib]
      refine sum_congr rfl fun y _ => ?_
      rw [← sum_neg_distrib]
      refine sum_congr rfl fun z _ => ?_
      have : update (update x i z) j y = update (update x i y) j z ∘ Equiv.swap i j := by
        funext k
        by_cases h1 : k = i
        · subst h1; simp [hij]
        · by_cases h2 : k = j
          · subst h2; simp [hij]
          · simp [h1, h2, Equiv.swap_apply_of_ne_of_ne h1 h2]
      rw [this, hΨ, sign_swap hij]
      simp
    simp only [sub_mul, sum_sub_distrib]
    rw [e]
    have h2 : (2 : K) ≠ 0 := two_ne_zero
    field_simp
    ring

end QS
