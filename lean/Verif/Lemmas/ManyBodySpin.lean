import Verif.Lemmas.ManyBodyChange

/-! # Products and commutators of many-body operators (helper file) -/

namespace QS

open Finset Function

variable {K : Type} [PyScalar K] {N L : ℕ}

theorem prodOp_two_apply (A B : Matrix (Fin L) (Fin L) K) (Ψ : Wave K N L) (x : Fin N → Fin L) :
    twoBodyOp (fun p q r s => A p r * B q s) Ψ x =
      ∑ i, ∑ j ∈ univ.erase i, prodOp (update (update (fun _ => 1) i A) j B) Ψ x := by
  unfold twoBodyOp
  refine sum_congr rfl fun i _ => sum_congr rfl fun j hj => ?_
  rw [prodOp_two_at (mem_erase.1 hj).1.symm]

theorem update_mul_same (i : Fin N) (A B : Matrix (Fin L) (Fin L) K) :
    (fun k => update (fun _ => (1 : Matrix (Fin L) (Fin L) K)) i A k *
      update (fun _ => (1 : Matrix (Fin L) (Fin L) K)) i B k) = update (fun _ => 1) i (A * B) := by
  funext k
  by_cases h : k = i
  · subst h; simp
  · simp [h]

/-- The product of two sums over the particles. -/
theorem oneBodyOp_comp (A B : Fin L → Fin L → K) (Ψ : Wave K N L) (x : Fin N → Fin L) :
    oneBodyOp A (oneBodyOp B Ψ) x =
      oneBodyOp (fun p q => ∑ k, A p k * B k q) Ψ x + twoBodyOp (fun p q r s => A p r * B q s) Ψ x := by
  have e : (Matrix.of fun p q => ∑ k, A p k * B k q) = Matrix.of A * Matrix.of B := by
    ext p q; simp [Matrix.mul_apply]
  have t := prodOp_two_apply (Matrix.of A) (Matrix.of B) Ψ x
  simp only [Matrix.of_apply] at t
  rw [t, oneBodyOp_eq A, oneBodyOp_eq B, oneBodyOp_eq (fun p q => _), e,
    ← sum_add_distrib]
  refine sum_congr rfl fun i _ => ?_
  simp only [prodOp_sum]
  rw [← add_sum_erase univ _ (mem_univ i)]
  congr 1
  · rw [prodOp_comp, update_mul_same]
  · refine sum_congr rfl fun j hj => ?_
    rw [prodOp_comp, update_mul i _ _ (mem_erase.1 hj).1.symm]

theorem twoBodyOp_swap (u : Fin L → Fin L → Fin L → Fin L → K) (Ψ : Wave K N L) (x : Fin N → Fin L) :
    twoBodyOp (fun p q r s => u q p s r) Ψ x = twoBodyOp u Ψ x := by
  rw [twoBodyOp_eq, twoBodyOp_eq, sum_comm]
  refine sum_congr rfl fun i _ => sum_congr rfl fun j _ => ?_
  by_cases h : i = j
  · subst h; simp
  · rw [if_neg h, if_neg (Ne.symm h), sum_comm]
    exact sum_congr rfl fun y _ => sum_congr rfl fun z _ => by rw [update_comm (Ne.symm h)]

/-- Commutator of two sums over the particles. -/
theorem oneBodyOp_comm (A B : Fin L → Fin L → K) (Ψ : Wave K N L) (x : Fin N → Fin L) :
    oneBodyOp A (oneBodyOp B Ψ) x - oneBodyOp B (oneBodyOp A Ψ) x =
      oneBodyOp (fun p q => ∑ k, A p k * B k q - ∑ k, B p k * A k q) Ψ x := by
  rw [oneBodyOp_comp, oneBodyOp_comp, ← twoBodyOp_swap (fun p q r s => B p r * A q s)]
  have : (fun p q r s : Fin L => B q s * A p r) = fun p q r s => A p r * B q s := by
    funext p q r s; ring
  rw [this, add_sub_add_right_eq_sub]
  unfold oneBodyOp
  simp only [sub_mul, sum_sub_distrib]

/-- Operators on different particles commute. -/
theorem prodOp_commute {i j k : Fin N} (hi : k ≠ i) (hj : k ≠ j) (A E F : Matrix (Fin L) (Fin L) K) (Ψ : Wave K N L) :
    prodOp (update (fun _ => 1) k A) (prodOp (update (update (fun _ => 1) i E) j F) Ψ) =
      prodOp (update (update (fun _ => 1) i E) j F) (prodOp (update (fun _ => 1) k A) Ψ) := by
  rw [prodOp_comp, prodOp_comp]
  congr 1
  funext m
  by_cases h1 : m = k
  · subst h1; simp [hi, hj]
  · simp [h1]

theorem commutator_pair {i j : Fin N} (hij : i ≠ j) (A E F : Matrix (Fin L) (Fin L) K) (Ψ : Wave K N L)
    (x : Fin N → Fin L) :
    ∑ k, (prodOp (update (fun _ => 1) k A) (prodOp (update (update (fun _ => 1) i E) j F) Ψ) x -
      prodOp (update (update (fun _ => 1) i E) j F) (prodOp (update (fun _ => 1) k A) Ψ) x) =
    prodOp (update (update (fun _ => 1) i (A * E)) j F) Ψ x - prodOp (update (update (fun _ => 1) i (E * A)) j F) Ψ x +
      (prodOp (update (update (fun _ => 1) i E) j (A * F)) Ψ x -
        prodOp (update (update (fun _ => 1) i E) j (F * A)) Ψ x) := by
  rw [← add_sum_erase univ _ (mem_univ i), ← add_sum_erase (univ.erase i) _ (mem_erase.2 ⟨hij.symm, mem_univ j⟩),
    sum_eq_zero, add_zero]
  · congr 1
    · rw [prodOp_comp, prodOp_comp]
      congr 2
      · funext m
        by_cases h1 : m = j
        · subst h1; simp [hij.symm]
        · by_cases h2 : m = i
          · subst h2; simp [hij]
          · simp [h1, h2]
      · funext m
        by_cases h1 : m = j
        · subst h1; simp [hij.symm]
        · by_cases h2 : m = i
          · subst h2; simp [hij]
          · simp [h1, h2]
    · rw [prodOp_comp, prodOp_comp]
      congr 2
      · funext m
        by_cases h1 : m = j
        · subst h1; simp
        · by_cases h2 : m = i
          · subst h2; simp [hij]
          · simp [h1, h2]
      · funext m
        by_cases h1 : m = j
        · subst h1; simp
        · by_cases h2 : m = i
          · subst h2; simp [hij]
          · simp [h1, h2]
  · intro k hk
    simp only [mem_erase] at hk
    rw [prodOp_commute hk.2.1 hk.1, sub_self]

/-- Commutator of a sum over the particles and a sum over pairs. -/
theorem oneBodyOp_twoBodyOp_comm (A : Fin L → Fin L → K) (u : Fin L → Fin L → Fin L → Fin L → K) (Ψ : Wave K N L)
    (x : Fin N → Fin L) :
    oneBodyOp A (twoBodyOp u Ψ) x - twoBodyOp u (oneBodyOp A Ψ) x =
      twoBodyOp (fun p q r s => ∑ k, (A p k * u k q r s + A q k * u p k r s) -
        ∑ k, (u p q k s * A k r + u p q r k * A k s)) Ψ x := by
  rw [twoBodyOp_eq_prod u (oneBodyOp A Ψ), twoBodyOp_eq_prod u Ψ]
  simp only [oneBodyOp_eq A, prodOp_sum, prodOp_smul]
  -- bring the sum over `k` inside
  have h1 : ∑ k, ∑ i, ∑ j ∈ univ.erase i, ∑ a, ∑ b, ∑ c, ∑ d, u a b c d *
        prodOp (update (fun _ => 1) k (Matrix.of A)) (prodOp (update (update (fun _ => 1) i (Matrix.single a c 1)) j
          (Matrix.single b d 1)) Ψ) x =
      ∑ i, ∑ j ∈ univ.erase i, ∑ a, ∑ b, ∑ c, ∑ d, u a b c d * ∑ k,
        prodOp (update (fun _ => 1) k (Matrix.of A)) (prodOp (update (update (fun _ => 1) i (Matrix.single a c 1)) j
          (Matrix.single b d 1)) Ψ) x := by
    rw [sum_comm]; refine sum_congr rfl fun i _ => ?_
    rw [sum_comm]; refine sum_congr rfl fun j _ => ?_
    rw [sum_comm]; refine sum_congr rfl fun a _ => ?_
    rw [sum_comm]; refine sum_congr rfl fun b _ => ?_
    rw [sum_comm]; refine sum_congr rfl fun c _ => ?_
    rw [sum_comm]; refine sum_congr rfl fun d _ => ?_
    rw [mul_sum]
  rw [h1]
  simp only [← sum_sub_distrib, ← mul_sub]
  unfold twoBodyOp
  refine sum_congr rfl fun i _ => sum_congr rfl fun j hj => ?_
  have hij : i ≠ j := (mem_erase.1 hj).1.symm
  simp only [commutator_pair hij]
  simp only [prodOp_two_at hij]
  have e1 : ∀ (a c p r : Fin L), (Matrix.of A * Matrix.single a c (1 : K)) p r = if c = r then A p a else 0 := by
    intro a c p r
    simp [Matrix.mul_apply, Matrix.single_apply, ite_and]
  have e2 : ∀ (a c p r : Fin L), (Matrix.single a c (1 : K) * Matrix.of A) p r = if a = p then A c r else 0 := by
    intro a c p r
    simp [Matrix.mul_apply, Matrix.single_apply, ite_and]
  simp only [e1, e2, Matrix.single_apply, ite_and]
  simp only [← sum_sub_distrib, ← sum_add_distrib, mul_sum]
  have comm : ∀ f : Fin L → Fin L → Fin L → Fin L → Fin L → Fin L → K,
      ∑ a, ∑ b, ∑ c, ∑ d, ∑ y, ∑ z, f a b c d y z = ∑ y, ∑ z, ∑ a, ∑ b, ∑ c, ∑ d, f a b c d y z := by
    intro f
    have h6 : ∀ a b c, ∑ d, ∑ y, ∑ z, f a b c d y z = ∑ y, ∑ z, ∑ d, f a b c d y z := fun a b c => by
      rw [sum_comm]; exact sum_congr rfl fun y _ => sum_comm
    have h5 : ∀ a b, ∑ c, ∑ y, ∑ z, ∑ d, f a b c d y z = ∑ y, ∑ z, ∑ c, ∑ d, f a b c d y z := fun a b => by
      rw [sum_comm]; exact sum_congr rfl fun y _ => sum_comm
    have h4 : ∀ a, ∑ b, ∑ y, ∑ z, ∑ c, ∑ d, f a b c d y z = ∑ y, ∑ z, ∑ b, ∑ c, ∑ d, f a b c d y z := fun a => by
      rw [sum_comm]; exact sum_congr rfl fun y _ => sum_comm
    simp only [h6, h5, h4]
    rw [sum_comm]; exact sum_congr rfl fun y _ => sum_comm
  rw [comm]
  refine sum_congr rfl fun y _ => sum_congr rfl fun z _ => ?_
  simp only [mul_add, mul_sub, sum_add_distrib, sum_sub_distrib, ite_mul, mul_ite, zero_mul, mul_zero, one_mul, mul_one,
    sum_ite_eq', mem_univ, if_true, add_mul, sub_mul, sum_mul]
  have hs : ∀ f : Fin L → K, ∀ c : Prop, [Decidable c] → ∑ a, (if c then f a else 0) = if c then ∑ a, f a else 0 := by
    intro f c _
    split_ifs <;> simp
  simp only [hs, sum_ite_eq', mem_univ, if_true]
  have c1 : ∀ k : Fin L, u k (x j) y z * (A (x i) k * Ψ (update (update x i y) j z)) =
      A (x i) k * u k (x j) y z * Ψ (update (update x i y) j z) := fun k => by ring
  have c2 : ∀ k : Fin L, u (x i) k y z * (A (x j) k * Ψ (update (update x i y) j z)) =
      A (x j) k * u (x i) k y z * Ψ (update (update x i y) j z) := fun k => by ring
  simp only [c1, c2, ← mul_assoc]
  ring

/-- A sum over the particles acts on a determinant orbital by orbital. -/
theorem oneBodyOp_slater (A : Fin L → Fin L → K) (o : Fin N → Fin L) (x : Fin N → Fin L) :
    oneBodyOp A (slater o) x = ∑ j, ∑ a, A a (o j) * slater (update o j a) x := by
  have d : ∀ (j : Fin N) (z : Fin N → Fin L), ∑ y, A (z j) y * (if update z j y = o then (1 : K) else 0) =
      ∑ a, A a (o j) * if z = update o j a then 1 else 0 := by
    intro j z
    have l1 : ∀ y, update z j y = o ↔ (y = o j ∧ ∀ k, k ≠ j → z k = o k) := by
      intro y
      constructor
      · rintro rfl; exact ⟨by simp, fun k hk => by simp [hk]⟩
      · rintro ⟨rfl, h⟩
        funext k
        by_cases hk : k = j
        · subst hk; simp
        · simp [hk, h k hk]
    have l2 : ∀ a, z = update o j a ↔ (z j = a ∧ ∀ k, k ≠ j → z k = o k) := by
      intro a
      constructor
      · rintro rfl; exact ⟨by simp, fun k hk => by simp [hk]⟩
      · rintro ⟨rfl, h⟩
        funext k
        by_cases hk : k = j
        · subst hk; simp
        · simp [hk, h k hk]
    simp only [l1, l2, ite_and]
    simp
  unfold oneBodyOp
  simp only [slater_sum, mul_sum]
  have lhs : ∑ i, ∑ y, ∑ σ : Equiv.Perm (Fin N), A (x i) y * (((Equiv.Perm.sign σ : ℤ) : K) *
        if update x i y ∘ σ = o then 1 else 0) =
      ∑ σ : Equiv.Perm (Fin N), ((Equiv.Perm.sign σ : ℤ) : K) * ∑ j, ∑ y, A ((x ∘ σ) j) y *
        if update (x ∘ σ) j y = o then 1 else 0 := by
    have : ∀ i : Fin N, ∑ y, ∑ σ : Equiv.Perm (Fin N), A (x i) y * (((Equiv.Perm.sign σ : ℤ) : K) *
        if update x i y ∘ σ = o then 1 else 0) = ∑ σ : Equiv.Perm (Fin N), ∑ y, A (x i) y *
        (((Equiv.Perm.sign σ : ℤ) : K) * if update x i y ∘ σ = o then 1 else 0) := fun i => sum_comm
    rw [sum_congr rfl fun i _ => this i, sum_comm]
    refine sum_congr rfl fun σ _ => ?_
    rw [← Equiv.sum_comp σ, mul_sum]
    refine sum_congr rfl fun j _ => ?_
    rw [mul_sum]
    refine sum_congr rfl fun y _ => ?_
    rw [update_comp]
    simp only [Function.comp_apply]
    ring
  rw [lhs]
  simp only [d]
  have rhs : ∑ j, ∑ a, ∑ σ : Equiv.Perm (Fin N), A a (o j) * (((Equiv.Perm.sign σ : ℤ) : K) *
        if x ∘ σ = update o j a then 1 else 0) =
      ∑ σ : Equiv.Perm (Fin N), ∑ j, ∑ a, A a (o j) * (((Equiv.Perm.sign σ : ℤ) : K) *
        if x ∘ σ = update o j a then 1 else 0) := by
    have : ∀ j : Fin N, ∑ a, ∑ σ : Equiv.Perm (Fin N), A a (o j) * (((Equiv.Perm.sign σ : ℤ) : K) *
        if x ∘ σ = update o j a then 1 else 0) = ∑ σ : Equiv.Perm (Fin N), ∑ a, A a (o j) *
        (((Equiv.Perm.sign σ : ℤ) : K) * if x ∘ σ = update o j a then 1 else 0) := fun j => sum_comm
    rw [sum_congr rfl fun j _ => this j, sum_comm]
  rw [rhs]
  refine sum_congr rfl fun σ _ => ?_
  rw [mul_sum]
  refine sum_congr rfl fun j _ => ?_
  rw [mul_sum]
  exact sum_congr rfl fun a _ => by ring

end QS
