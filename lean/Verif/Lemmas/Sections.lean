import Verif.Lemmas.ManyBodyPositive
import Mathlib.GroupTheory.Perm.Fin
import Mathlib.Logic.Equiv.Fin.Basic

/-! # Wave functions with some of the particles fixed (helper file) -/

namespace QS

open Finset Function

variable {N L : ℕ}

/-- The mean value of a one-body operator of the particle `i`. -/
noncomputable def oneMean (h : Fin L → Fin L → ℂ) (Ψ : Wave ℂ N L) (i : Fin N) : ℂ :=
  ∑ x, star (Ψ x) * ∑ y, h (x i) y * Ψ (update x i y)

/-- The mean value of a two-body operator of the particles `i` and `j`. -/
noncomputable def twoMean (u : Fin L → Fin L → Fin L → Fin L → ℂ) (Ψ : Wave ℂ N L) (i j : Fin N) : ℂ :=
  ∑ x, star (Ψ x) * ∑ y, ∑ z, u (x i) (x j) y z * Ψ (update (update x i y) j z)

theorem waveInner_oneMean (h : Fin L → Fin L → ℂ) (Ψ : Wave ℂ N L) :
    waveInner Ψ (oneBodyOp h Ψ) = ∑ i, oneMean h Ψ i := by
  unfold waveInner oneBodyOp oneMean
  rw [sum_comm]
  exact sum_congr rfl fun x _ => mul_sum _ _ _

theorem waveInner_twoMean (u : Fin L → Fin L → Fin L → Fin L → ℂ) (Ψ : Wave ℂ N L) :
    waveInner Ψ (twoBodyOp u Ψ) = ∑ i, ∑ j ∈ univ.erase i, twoMean u Ψ i j := by
  unfold waveInner twoBodyOp twoMean
  rw [sum_congr rfl fun i _ => sum_comm, sum_comm]
  refine sum_congr rfl fun x _ => ?_
  rw [mul_sum]
  exact sum_congr rfl fun i _ => mul_sum _ _ _

theorem star_sign_mul (σ : Equiv.Perm (Fin N)) (a b : ℂ) :
    star (((Equiv.Perm.sign σ : ℤ) : ℂ) * a) * (((Equiv.Perm.sign σ : ℤ) : ℂ) * b) = star a * b := by
  rcases Int.units_eq_one_or (Equiv.Perm.sign σ) with h | h <;> rw [h] <;> simp

theorem update_comp_perm (x : Fin N → Fin L) (σ : Equiv.Perm (Fin N)) (i : Fin N) (y : Fin L) :
    update (x ∘ σ) i y = update x (σ i) y ∘ σ := by
  rw [update_comp_equiv, Equiv.symm_apply_apply]

theorem oneMean_perm (h : Fin L → Fin L → ℂ) {Ψ : Wave ℂ N L} (hΨ : Antisymmetric Ψ) (σ : Equiv.Perm (Fin N)) (i : Fin N) :
    oneMean h Ψ i = oneMean h Ψ (σ i) := by
  unfold oneMean
  rw [← Equiv.sum_comp (Equiv.arrowCongr σ.symm (Equiv.refl (Fin L)))]
  refine sum_congr rfl fun x _ => ?_
  have e : (Equiv.arrowCongr σ.symm (Equiv.refl (Fin L))) x = x ∘ σ := rfl
  rw [e, hΨ σ x]
  simp only [update_comp_perm, hΨ σ, comp_apply, mul_left_comm _ (((Equiv.Perm.sign σ : ℤ) : ℂ)), ← mul_sum]
  exact (mul_left_comm _ _ _).trans (star_sign_mul σ _ _)

theorem twoMean_perm (u : Fin L → Fin L → Fin L → Fin L → ℂ) {Ψ : Wave ℂ N L} (hΨ : Antisymmetric Ψ)
    (σ : Equiv.Perm (Fin N)) (i j : Fin N) : twoMean u Ψ i j = twoMean u Ψ (σ i) (σ j) := by
  unfold twoMean
  rw [← Equiv.sum_comp (Equiv.arrowCongr σ.symm (Equiv.refl (Fin L)))]
  refine sum_congr rfl fun x _ => ?_
  have e : (Equiv.arrowCongr σ.symm (Equiv.refl (Fin L))) x = x ∘ σ := rfl
  rw [e, hΨ σ x]
  simp only [update_comp_perm, hΨ σ, comp_apply, mul_left_comm _ (((Equiv.Perm.sign σ : ℤ) : ℂ)), ← mul_sum]
  exact (mul_left_comm _ _ _).trans (star_sign_mul σ _ _)

/-- All particles have the same mean values. -/
theorem exists_means (h : Fin L → Fin L → ℂ) (u : Fin L → Fin L → Fin L → Fin L → ℂ) {Ψ : Wave ℂ N L} (hΨ : Antisymmetric Ψ) :
    ∃ a b : ℂ, (∀ i, oneMean h Ψ i = a) ∧ ∀ i j, i ≠ j → twoMean u Ψ i j = b := by
  obtain ⟨a, ha⟩ : ∃ a, ∀ i, oneMean h Ψ i = a := by
    rcases isEmpty_or_nonempty (Fin N) with he | ⟨⟨i⟩⟩
    · exact ⟨0, fun i => he.elim i⟩
    · refine ⟨oneMean h Ψ i, fun j => ?_⟩
      rw [oneMean_perm h hΨ (Equiv.swap i j) i, Equiv.swap_apply_left]
  obtain ⟨b, hb⟩ : ∃ b, ∀ i j, i ≠ j → twoMean u Ψ i j = b := by
    by_cases hex : ∃ i j : Fin N, i ≠ j
    · obtain ⟨i, j, hij⟩ := hex
      refine ⟨twoMean u Ψ i j, fun k l hkl => ?_⟩
      rw [twoMean_perm u hΨ (Equiv.swap k i) k l, Equiv.swap_apply_left]
      set l' := Equiv.swap k i l with hl'
      have hne : i ≠ l' := fun h => hkl ((Equiv.swap k i).injective ((Equiv.swap_apply_left k i).trans h))
      rw [twoMean_perm u hΨ (Equiv.swap l' j) i l', Equiv.swap_apply_of_ne_of_ne hne hij, Equiv.swap_apply_left]
    · push Not at hex
      exact ⟨0, fun i j hij => absurd (hex i j) hij⟩
  exact ⟨a, b, ha, hb⟩

/-- The wave function of the first `n` particles with the others fixed. -/
def sectionWave {n m : ℕ} (Ψ : Wave ℂ (n + m) L) (z : Fin m → Fin L) : Wave ℂ n L := fun y => Ψ (Fin.append y z)

theorem append_update_left {n m : ℕ} (y : Fin n → Fin L) (z : Fin m → Fin L) (i : Fin n) (a : Fin L) :
    Fin.append (update y i a) z = update (Fin.append y z) (Fin.castAdd m i) a := by
  funext k
  refine Fin.addCases (fun j => ?_) (fun j => ?_) k
  · rw [Fin.append_left]
    by_cases h : j = i
    · subst h
      rw [update_self, update_self]
    · rw [update_of_ne h, update_of_ne (fun h' => h (Fin.castAdd_injective _ _ h')), Fin.append_left]
  · rw [Fin.append_right, update_of_ne (fun h' => ?_), Fin.append_right]
    have := congrArg Fin.val h'
    simp at this
    omega

/-- A permutation of the first particles. -/
def extendPerm {n : ℕ} (m : ℕ) (σ : Equiv.Perm (Fin n)) : Equiv.Perm (Fin (n + m)) :=
  finSumFinEquiv.permCongr (Equiv.Perm.sumCongr σ 1)

theorem append_perm {n m : ℕ} (y : Fin n → Fin L) (z : Fin m → Fin L) (σ : Equiv.Perm (Fin n)) :
    Fin.append (y ∘ σ) z = Fin.append y z ∘ extendPerm m σ := by
  funext k
  refine Fin.addCases (fun j => ?_) (fun j => ?_) k
  · simp [extendPerm, Equiv.permCongr_apply]
  · simp [extendPerm, Equiv.permCongr_apply]

theorem section_anti {n m : ℕ} {Ψ : Wave ℂ (n + m) L} (hΨ : Antisymmetric Ψ) (z : Fin m → Fin L) :
    Antisymmetric (sectionWave Ψ z) := fun σ y => by
  unfold sectionWave
  rw [append_perm, hΨ]
  congr 2
  simp [extendPerm, Equiv.Perm.sign_permCongr, Equiv.Perm.sign_sumCongr]

theorem sum_append {n m : ℕ} {A : Type} [AddCommMonoid A] (g : (Fin (n + m) → Fin L) → A) :
    ∑ z : Fin m → Fin L, ∑ y : Fin n → Fin L, g (Fin.append y z) = ∑ x, g x := by
  rw [← Equiv.sum_comp (Fin.appendEquiv n m), Fintype.sum_prod_type, sum_comm]
  rfl

theorem section_oneMean {n m : ℕ} (h : Fin L → Fin L → ℂ) (Ψ : Wave ℂ (n + m) L) (i : Fin n) :
    ∑ z, oneMean h (sectionWave Ψ z) i = oneMean h Ψ (Fin.castAdd m i) := by
  unfold oneMean sectionWave
  rw [← sum_append]
  refine sum_congr rfl fun z _ => sum_congr rfl fun y _ => ?_
  simp only [append_update_left, Fin.append_left]

theorem section_twoMean {n m : ℕ} (u : Fin L → Fin L → Fin L → Fin L → ℂ) (Ψ : Wave ℂ (n + m) L) (i j : Fin n) :
    ∑ z, twoMean u (sectionWave Ψ z) i j = twoMean u Ψ (Fin.castAdd m i) (Fin.castAdd m j) := by
  unfold twoMean sectionWave
  rw [← sum_append]
  refine sum_congr rfl fun z _ => sum_congr rfl fun y _ => ?_
  simp only [append_update_left, Fin.append_left]

/-- The mean energy of the first `n` particles. -/
theorem section_energy {n m : ℕ} {h : Fin L → Fin L → ℂ} {u : Fin L → Fin L → Fin L → Fin L → ℂ} {Ψ : Wave ℂ (n + m) L} {a b : ℂ}
    (ha : ∀ i, oneMean h Ψ i = a) (hb : ∀ i j, i ≠ j → twoMean u Ψ i j = b) (c : ℂ) :
    ∑ z, waveInner (sectionWave Ψ z) (hamiltonOp (fun p q => c * h p q) u (sectionWave Ψ z)) =
      n * c * a + n * (n - 1 : ℕ) / 2 * b := by
  have e1 : ∀ Φ : Wave ℂ n L, waveInner Φ (oneBodyOp (fun p q => c * h p q) Φ) = c * ∑ i, oneMean h Φ i := fun Φ => by
    rw [← waveInner_oneMean]
    unfold waveInner oneBodyOp
    rw [mul_sum]
    refine sum_congr rfl fun x _ => ?_
    simp only [mul_assoc, ← mul_sum]
    ring
  simp only [waveInner_hamiltonOp, e1, waveInner_twoMean]
  rw [sum_add_distrib, ← mul_sum, ← mul_sum, sum_comm]
  have e2 : ∑ i : Fin n, ∑ z, oneMean h (sectionWave Ψ z) i = n * a := by
    rw [sum_congr rfl fun i _ => (section_oneMean h Ψ i).trans (ha _)]
    simp
  have e3 : ∑ z, ∑ i : Fin n, ∑ j ∈ univ.erase i, twoMean u (sectionWave Ψ z) i j = n * (n - 1 : ℕ) * b := by
    rw [sum_comm]
    have : ∀ i : Fin n, ∑ z, ∑ j ∈ univ.erase i, twoMean u (sectionWave Ψ z) i j = (n - 1 : ℕ) * b := fun i => by
      rw [sum_comm]
      rw [sum_congr rfl fun j hj => (section_twoMean u Ψ i j).trans
        (hb _ _ fun h => (mem_erase.1 hj).1 (Fin.castAdd_injective _ _ h).symm)]
      simp [card_erase_of_mem]
    rw [sum_congr rfl fun i _ => this i]
    simp [mul_assoc]
  rw [e2, e3]
  ring

theorem section_norm {n m : ℕ} (Ψ : Wave ℂ (n + m) L) : ∑ z, waveInner (sectionWave Ψ z) (sectionWave Ψ z) = waveInner Ψ Ψ :=
  sum_append fun x => star (Ψ x) * Ψ x

end QS
