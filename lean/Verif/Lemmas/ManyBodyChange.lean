import Verif.Lemmas.ManyBody
import Mathlib.Algebra.BigOperators.Ring.Finset
import Mathlib.Data.Matrix.Basis
import Mathlib.LinearAlgebra.Matrix.NonsingularInverse

/-! # Many-body operators and changes of basis (helper file) -/

namespace QS

open Finset Function

variable {K : Type} [PyScalar K] {N L M P : ℕ}

/-- A product of operators on the single particles. -/
def prodOp (A : Fin N → Matrix (Fin L) (Fin M) K) (Ψ : Wave K N M) : Wave K N L := fun x =>
  ∑ y, (∏ k, A k (x k) (y k)) * Ψ y

theorem liftWave_eq (C : Fin L → Fin M → K) (Ψ : Wave K N M) : liftWave C Ψ = prodOp (fun _ => Matrix.of C) Ψ := rfl

theorem prodOp_comp (A : Fin N → Matrix (Fin L) (Fin M) K) (B : Fin N → Matrix (Fin M) (Fin P) K) (Ψ : Wave K N P) :
    prodOp A (prodOp B Ψ) = prodOp (fun k => A k * B k) Ψ := by
  funext x
  unfold prodOp
  simp only [mul_sum]
  rw [sum_comm]
  refine sum_congr rfl fun y _ => ?_
  simp only [Matrix.mul_apply]
  rw [prod_univ_sum, Fintype.piFinset_univ, sum_mul]
  refine sum_congr rfl fun z _ => ?_
  rw [prod_mul_distrib]
  ring

theorem prodOp_sum {ι : Type} (s : Finset ι) (A : Fin N → Matrix (Fin L) (Fin M) K) (Ψ : ι → Wave K N M) :
    prodOp A (fun x => ∑ i ∈ s, Ψ i x) = fun x => ∑ i ∈ s, prodOp A (Ψ i) x := by
  funext x
  unfold prodOp
  simp only [mul_sum]
  rw [sum_comm]

theorem prodOp_smul (A : Fin N → Matrix (Fin L) (Fin M) K) (c : K) (Ψ : Wave K N M) :
    prodOp A (fun x => c * Ψ x) = fun x => c * prodOp A Ψ x := by
  funext x
  unfold prodOp
  rw [mul_sum]
  exact sum_congr rfl fun y _ => by ring

theorem prodOp_add (A : Fin N → Matrix (Fin L) (Fin M) K) (Φ Ψ : Wave K N M) :
    prodOp A (fun x => Φ x + Ψ x) = fun x => prodOp A Φ x + prodOp A Ψ x := by
  funext x
  unfold prodOp
  rw [← sum_add_distrib]
  exact sum_congr rfl fun y _ => by ring

/-- One operator that is not the identity. -/
theorem prodOp_one_at (i : Fin N) (A : Matrix (Fin L) (Fin L) K) (Ψ : Wave K N L) (x : Fin N → Fin L) :
    prodOp (update (fun _ => 1) i A) Ψ x = ∑ y, A (x i) y * Ψ (update x i y) := by
  unfold prodOp
  symm
  refine sum_of_injOn (fun y => update x i y) ?_ (fun _ _ => mem_coe.2 (mem_univ _)) ?_ ?_
  · intro y _ z _ h
    have := congrFun h i
    simpa using this
  · intro w _ hw
    have : ∃ k, k ≠ i ∧ x k ≠ w k := by
      by_contra hc
      push Not at hc
      refine hw ⟨w i, by simp, ?_⟩
      funext k
      by_cases hk : k = i
      · subst hk; simp
      · simp [hk, hc k hk]
    obtain ⟨k, hk, hne⟩ := this
    rw [prod_eq_zero (mem_univ k), zero_mul]
    simp [hk, hne]
  · intro y _
    congr 1
    rw [prod_eq_single i]
    · simp
    · intro k _ hk
      simp [hk]
    · intro h; exact absurd (mem_univ i) h

theorem update_mul (i : Fin N) (A B : Matrix (Fin L) (Fin L) K) {j : Fin N} (hij : i ≠ j) :
    (fun k => update (fun _ => (1 : Matrix (Fin L) (Fin L) K)) i A k *
      update (fun _ => (1 : Matrix (Fin L) (Fin L) K)) j B k) =
      update (update (fun _ => 1) i A) j B := by
  funext k
  by_cases h1 : k = j
  · subst h1; simp [hij.symm]
  · by_cases h2 : k = i
    · subst h2; simp [h1]
    · simp [h1, h2]

/-- Two operators that are not the identity. -/
theorem prodOp_two_at {i j : Fin N} (hij : i ≠ j) (A B : Matrix (Fin L) (Fin L) K) (Ψ : Wave K N L)
    (x : Fin N → Fin L) :
    prodOp (update (update (fun _ => 1) i A) j B) Ψ x =
      ∑ y, ∑ z, A (x i) y * B (x j) z * Ψ (update (update x i y) j z) := by
  rw [← update_mul i A B hij, ← prodOp_comp, prodOp_one_at]
  refine sum_congr rfl fun y _ => ?_
  rw [prodOp_one_at, mul_sum]
  refine sum_congr rfl fun z _ => ?_
  rw [update_of_ne hij.symm]
  ring

theorem oneBodyOp_eq (h : Fin L → Fin L → K) (Ψ : Wave K N L) :
    oneBodyOp h Ψ = fun x => ∑ i, prodOp (update (fun _ => 1) i (Matrix.of h)) Ψ x := by
  funext x
  unfold oneBodyOp
  exact sum_congr rfl fun i _ => by rw [prodOp_one_at]; rfl

theorem sandwich_update {Ct : Matrix (Fin M) (Fin L) K} {C : Matrix (Fin L) (Fin M) K} (hC : Ct * C = 1) (i : Fin N)
    (A : Matrix (Fin L) (Fin L) K) :
    (fun k => Ct * (update (fun _ => (1 : Matrix (Fin L) (Fin L) K)) i A k * C)) = update (fun _ => 1) i (Ct * A * C) := by
  funext k
  by_cases h : k = i
  · subst h; simp [Matrix.mul_assoc]
  · simp [h, hC]

theorem sandwich_update2 {Ct : Matrix (Fin M) (Fin L) K} {C : Matrix (Fin L) (Fin M) K} (hC : Ct * C = 1) (i j : Fin N)
    (A B : Matrix (Fin L) (Fin L) K) :
    (fun k => Ct * (update (update (fun _ => (1 : Matrix (Fin L) (Fin L) K)) i A) j B k * C)) =
      update (update (fun _ => 1) i (Ct * A * C)) j (Ct * B * C) := by
  funext k
  by_cases h1 : k = j
  · subst h1; simp [Matrix.mul_assoc]
  · by_cases h2 : k = i
    · subst h2; simp [h1, Matrix.mul_assoc]
    · simp [h1, h2, hC]

theorem oneBodyOp_sandwich {Ct : Matrix (Fin M) (Fin L) K} {C : Matrix (Fin L) (Fin M) K} (hC : Ct * C = 1)
    (h : Fin L → Fin L → K) (Ψ : Wave K N M) :
    prodOp (fun _ => Ct) (oneBodyOp h (prodOp (fun _ => C) Ψ)) = oneBodyOp (fun p q => (Ct * Matrix.of h * C) p q) Ψ := by
  rw [oneBodyOp_eq h, oneBodyOp_eq (fun p q => (Ct * Matrix.of h * C) p q), prodOp_sum]
  funext x
  refine sum_congr rfl fun i _ => ?_
  rw [prodOp_comp, prodOp_comp]
  simp only [Matrix.mul_assoc]
  rw [sandwich_update hC]
  simp only [Matrix.mul_assoc]
  rfl

/-- A two-body operator is a sum of products of one-body operators. -/
theorem twoBodyOp_eq_prod (u : Fin L → Fin L → Fin L → Fin L → K) (Ψ : Wave K N L) :
    twoBodyOp u Ψ = fun x => ∑ i, ∑ j ∈ univ.erase i, ∑ a, ∑ b, ∑ c, ∑ d,
      u a b c d * prodOp (update (update (fun _ => 1) i (Matrix.single a c 1)) j (Matrix.single b d 1)) Ψ x := by
  funext x
  unfold twoBodyOp
  refine sum_congr rfl fun i _ => sum_congr rfl fun j hj => ?_
  have hij : i ≠ j := (mem_erase.1 hj).1.symm
  simp only [prodOp_two_at hij, Matrix.single_apply, ite_and]
  simp

theorem twoBodyOp_sandwich {Ct : Matrix (Fin M) (Fin L) K} {C : Matrix (Fin L) (Fin M) K} (hC : Ct * C = 1)
    (u : Fin L → Fin L → Fin L → Fin L → K) (Ψ : Wave K N M) :
    prodOp (fun _ => Ct) (twoBodyOp u (prodOp (fun _ => C) Ψ)) =
      twoBodyOp (fun p q r s => ∑ a, ∑ b, ∑ c, ∑ d, Ct p a * Ct q b * u a b c d * C c r * C d s) Ψ := by
  rw [twoBodyOp_eq_prod]
  simp only [prodOp_sum, prodOp_smul, prodOp_comp, sandwich_update2 hC]
  funext x
  unfold twoBodyOp
  refine sum_congr rfl fun i _ => sum_congr rfl fun j hj => ?_
  have hij : i ≠ j := (mem_erase.1 hj).1.symm
  have e : ∀ (a c : Fin L) (p r : Fin M), (Ct * Matrix.single a c (1 : K) * C) p r = Ct p a * C c r := by
    intro a c p r
    simp [Matrix.mul_apply, Matrix.single_apply, ite_and]
  simp only [prodOp_two_at hij, e]
  simp only [mul_sum, sum_mul]
  -- move the sums over the new indices outside
  have comm : ∀ f : Fin L → Fin L → Fin L → Fin L → Fin M → Fin M → K,
      ∑ a, ∑ b, ∑ c, ∑ d, ∑ y, ∑ z, f a b c d y z = ∑ y, ∑ z, ∑ a, ∑ b, ∑ c, ∑ d, f a b c d y z := by
    intro f
    have h6 : ∀ a b c, ∑ d, ∑ y, ∑ z, f a b c d y z = ∑ y, ∑ z, ∑ d, f a b c d y z := fun a b c => by
      rw [sum_comm]; exact sum_congr rfl fun y _ => sum_comm
    have h5 : ∀ a b, ∑ c, ∑ y, ∑ z, ∑ d, f a b c d y z = ∑ y, ∑ z, ∑ c, ∑ d, f a b c d y z := fun a b => by
      rw [sum_comm]; exact sum_congr rfl fun y _ => sum_comm
    have h4 : ∀ a, ∑ b, ∑ y, ∑ z, ∑ c, ∑ d, f a b c d y z = ∑ y, ∑ z, ∑ b, ∑ c, ∑ d, f a b c d y z := fun a => by
      rw [sum_comm]; exact sum_congr rfl fun y _ => sum_comm
    simp only [h6, h5, h4]
    rw [sum_comm]; exact sum_congr rfl fun y _ => sum_comm
  rw [comm]
  refine sum_congr rfl fun y _ => sum_congr rfl fun z _ => sum_congr rfl fun a _ => sum_congr rfl fun b _ =>
    sum_congr rfl fun c _ => sum_congr rfl fun d _ => ?_
  ring

/-- The transformed elements are those of the Hamilton operator between products of new functions. -/
theorem hamiltonOp_sandwich {Ct : Matrix (Fin M) (Fin L) K} {C : Matrix (Fin L) (Fin M) K} (hC : Ct * C = 1)
    (h : Fin L → Fin L → K) (u : Fin L → Fin L → Fin L → Fin L → K) (Ψ : Wave K N M) :
    prodOp (fun _ => Ct) (hamiltonOp h u (prodOp (fun _ => C) Ψ)) =
      hamiltonOp (fun p q => (Ct * Matrix.of h * C) p q)
        (fun p q r s => ∑ a, ∑ b, ∑ c, ∑ d, Ct p a * Ct q b * u a b c d * C c r * C d s) Ψ := by
  unfold hamiltonOp
  rw [prodOp_add, prodOp_smul, oneBodyOp_sandwich hC, twoBodyOp_sandwich hC]

theorem prodOp_one (Ψ : Wave K N L) : prodOp (fun _ => 1) Ψ = Ψ := by
  funext x
  unfold prodOp
  rw [sum_eq_single x]
  · simp
  · intro y _ hne
    obtain ⟨k, hk⟩ : ∃ k, x k ≠ y k := by
      by_contra hc
      push Not at hc
      exact hne (funext fun k => (hc k).symm)
    rw [prod_eq_zero (mem_univ k), zero_mul]
    simp [hk]
  · intro h; exact absurd (mem_univ x) h

theorem prodOp_inverse {Ct : Matrix (Fin M) (Fin L) K} {C : Matrix (Fin L) (Fin M) K} (hC : Ct * C = 1)
    (Ψ : Wave K N M) : prodOp (fun _ => Ct) (prodOp (fun _ => C) Ψ) = Ψ := by
  rw [prodOp_comp]
  simp only [hC]
  exact prodOp_one Ψ

/-- Adjoint of a product operator. -/
theorem waveInner_prodOp (C : Matrix (Fin L) (Fin M) K) (Φ : Wave K N M) (Ψ : Wave K N L) :
    waveInner (prodOp (fun _ => C) Φ) Ψ = waveInner Φ (prodOp (fun _ => C.conjTranspose) Ψ) := by
  unfold waveInner prodOp
  simp only [star_sum, sum_mul, mul_sum]
  rw [sum_comm]
  refine sum_congr rfl fun y _ => sum_congr rfl fun x _ => ?_
  simp only [star_mul', star_prod, Matrix.conjTranspose_apply]
  ring

theorem prodOp_antisymmetric (C : Matrix (Fin L) (Fin M) K) {Ψ : Wave K N M} (hΨ : Antisymmetric Ψ) :
    Antisymmetric (prodOp (fun _ => C) Ψ) := by
  intro σ x
  unfold prodOp
  rw [← Equiv.sum_comp (σ.symm.arrowCongr (Equiv.refl (Fin M))), mul_sum]
  refine sum_congr rfl fun y _ => ?_
  have e : (σ.symm.arrowCongr (Equiv.refl (Fin M))) y = y ∘ σ := by
    funext k; simp [Equiv.arrowCongr]
  rw [e, hΨ]
  have : ∏ k, C ((x ∘ σ) k) ((y ∘ σ) k) = ∏ k, C (x k) (y k) :=
    Equiv.prod_comp σ (fun k => C (x k) (y k))
  rw [this]
  ring

/-- Determinants become determinants. -/
theorem prodOp_slater (C : Matrix (Fin L) (Fin M) K) (o : Fin N → Fin M) (x : Fin N → Fin L) :
    prodOp (fun _ => C) (slater o) x = Matrix.det (Matrix.of fun i j => C (x i) (o j)) := by
  unfold prodOp
  simp only [slater_sum, mul_sum]
  rw [sum_comm, Matrix.det_apply']
  refine sum_congr rfl fun σ _ => ?_
  rw [sum_eq_single (o ∘ σ.symm)]
  · rw [if_pos (by funext i; simp), mul_one, mul_comm]
    congr 1
    rw [← Equiv.prod_comp σ]
    simp
  · intro y _ hne
    rw [if_neg, mul_zero, mul_zero]
    intro h
    exact hne (by rw [← h]; funext i; simp)
  · intro h; exact absurd (mem_univ _) h

end QS
