import Verif.Spec.Sectors
import Verif.Lemmas.ManyBodySpectrum
import Mathlib.Data.Fin.Tuple.Sort

/-!
# Conserved quantum numbers of `N` particles
-/

namespace QS

open Finset Function

variable {N L : ℕ} {G : Type}

/-! ## Totals -/

theorem total_erase [AddCommMonoid G] (g : Fin L → G) (x : Fin N → Fin L) (i : Fin N) :
    total g x = g (x i) + ∑ k ∈ univ.erase i, g (x k) :=
  (add_sum_erase _ _ (mem_univ i)).symm

theorem total_update [AddCommMonoid G] (g : Fin L → G) (x : Fin N → Fin L) (i : Fin N) (y : Fin L) :
    total g (update x i y) = g y + ∑ k ∈ univ.erase i, g (x k) := by
  rw [total_erase g _ i, update_self]
  congr 1
  exact sum_congr rfl fun k hk => by rw [update_of_ne (mem_erase.1 hk).1]

theorem total_update_one [AddCommMonoid G] {g : Fin L → G} {x : Fin N → Fin L} {i : Fin N} {y : Fin L}
    (h : g (x i) = g y) : total g (update x i y) = total g x := by
  rw [total_update, ← h, ← total_erase]

theorem total_update_two [AddCommMonoid G] {g : Fin L → G} {x : Fin N → Fin L} {i j : Fin N} (hij : i ≠ j) {y z : Fin L}
    (h : g (x i) + g (x j) = g y + g z) : total g (update (update x i y) j z) = total g x := by
  have e : ∀ w : Fin N → Fin L, total g w = (g (w i) + g (w j)) + ∑ k ∈ (univ.erase i).erase j, g (w k) := fun w => by
    rw [total_erase g w i, ← add_sum_erase (univ.erase i) _ (mem_erase.2 ⟨hij.symm, mem_univ j⟩), add_assoc]
  rw [e, e x, update_self, update_of_ne hij, update_self, h]
  congr 1
  refine sum_congr rfl fun k hk => ?_
  have h1 := mem_erase.1 hk
  rw [update_of_ne h1.1, update_of_ne (mem_erase.1 h1.2).1]

theorem total_perm [AddCommMonoid G] (g : Fin L → G) (x : Fin N → Fin L) (σ : Equiv.Perm (Fin N)) :
    total g (x ∘ σ) = total g x :=
  Equiv.sum_comp σ fun i => g (x i)

/-! ## The part of a wave function with a total -/

open Classical in
/-- The part with the total `Q`. -/
noncomputable def part [AddCommMonoid G] (g : Fin L → G) (Q : G) (Ψ : Wave ℂ N L) : Wave ℂ N L := fun x =>
  if total g x = Q then Ψ x else 0

theorem part_total [AddCommMonoid G] (g : Fin L → G) (Q : G) (Ψ : Wave ℂ N L) : HasTotal g Q (part g Q Ψ) :=
  fun _ hx => if_neg hx

theorem part_of [AddCommMonoid G] {g : Fin L → G} {Q : G} {Ψ : Wave ℂ N L} (h : HasTotal g Q Ψ) : part g Q Ψ = Ψ := by
  funext x
  unfold part
  split_ifs with hx
  · rfl
  · exact (h x hx).symm

theorem part_anti [AddCommMonoid G] (g : Fin L → G) (Q : G) {Ψ : Wave ℂ N L} (h : Antisymmetric Ψ) :
    Antisymmetric (part g Q Ψ) := fun σ x => by
  unfold part
  rw [total_perm, h σ x]
  split_ifs
  · rfl
  · rw [mul_zero]

theorem part_hamilton [AddCommMonoid G] {g : Fin L → G} {h : Fin L → Fin L → ℂ} {u : Fin L → Fin L → Fin L → Fin L → ℂ}
    (hc : ConservesTotal g h u) (Q : G) (Ψ : Wave ℂ N L) :
    hamiltonOp h u (part g Q Ψ) = part g Q (hamiltonOp h u Ψ) := by
  classical
  funext x
  have h1 : ∀ i y, h (x i) y * part g Q Ψ (update x i y) = if total g x = Q then h (x i) y * Ψ (update x i y) else 0 :=
    fun i y => by
      by_cases hg : g (x i) = g y
      · unfold part
        rw [total_update_one hg, mul_ite, mul_zero]
      · rw [hc.one _ _ hg, zero_mul, zero_mul, ite_self]
  have h2 : ∀ i, ∀ j ∈ univ.erase i, ∀ y z, u (x i) (x j) y z * part g Q Ψ (update (update x i y) j z) =
      if total g x = Q then u (x i) (x j) y z * Ψ (update (update x i y) j z) else 0 := fun i j hj y z => by
    by_cases hg : g (x i) + g (x j) = g y + g z
    · unfold part
      rw [total_update_two (mem_erase.1 hj).1.symm hg, mul_ite, mul_zero]
    · rw [hc.two _ _ _ _ hg, zero_mul, zero_mul, ite_self]
  have e1 : oneBodyOp h (part g Q Ψ) x = if total g x = Q then oneBodyOp h Ψ x else 0 := by
    unfold oneBodyOp
    rw [sum_congr rfl fun i _ => sum_congr rfl fun y _ => h1 i y]
    split_ifs <;> simp
  have e2 : twoBodyOp u (part g Q Ψ) x = if total g x = Q then twoBodyOp u Ψ x else 0 := by
    unfold twoBodyOp
    rw [sum_congr rfl fun i _ => sum_congr rfl fun j hj => sum_congr rfl fun y _ => sum_congr rfl fun z _ => h2 i j hj y z]
    split_ifs <;> simp
  unfold hamiltonOp
  rw [e1, e2]
  unfold part
  split_ifs <;> simp

theorem hamilton_total [AddCommMonoid G] {g : Fin L → G} {h : Fin L → Fin L → ℂ}
    {u : Fin L → Fin L → Fin L → Fin L → ℂ} (hc : ConservesTotal g h u) {Q : G} {Ψ : Wave ℂ N L} (hΨ : HasTotal g Q Ψ) :
    HasTotal g Q (hamiltonOp h u Ψ) := by
  rw [← part_of hΨ, part_hamilton hc]
  exact part_total g Q _

theorem sum_part [AddCommMonoid G] [DecidableEq G] (g : Fin L → G) (Ψ : Wave ℂ N L) (x : Fin N → Fin L) :
    ∑ Q ∈ univ.image (total (N := N) g), part g Q Ψ x = Ψ x := by
  rw [sum_eq_single (f := fun Q => part g Q Ψ x) (total g x) (fun Q _ hQ => if_neg hQ.symm)
    fun h => absurd (mem_image_of_mem _ (mem_univ x)) h]
  exact if_pos rfl

theorem inner_total [AddCommMonoid G] {g : Fin L → G} {Q Q' : G} {Φ Ψ : Wave ℂ N L} (hΦ : HasTotal g Q Φ)
    (hΨ : HasTotal g Q' Ψ) (hne : Q ≠ Q') : waveInner Φ Ψ = 0 := by
  refine sum_eq_zero fun x _ => ?_
  by_cases hx : total g x = Q
  · rw [hΨ x (hx ▸ hne), mul_zero]
  · rw [hΦ x hx, star_zero, zero_mul]

theorem inner_part [AddCommMonoid G] {g : Fin L → G} {Q : G} {Φ : Wave ℂ N L} (hΦ : HasTotal g Q Φ) (Ψ : Wave ℂ N L) :
    waveInner Φ (part g Q Ψ) = waveInner Φ Ψ := by
  refine sum_congr rfl fun x _ => ?_
  unfold part
  split_ifs with hx
  · rfl
  · rw [hΦ x hx, star_zero, zero_mul, zero_mul]

/-- A one-body operator that changes the quantum number of a function by one of the numbers in `Δ` changes the total by one
of them. -/
theorem oneBody_shift [AddCommMonoid G] {g : Fin L → G} {d : Fin L → Fin L → ℂ} {Δ : Set G}
    (hd : ∀ p q, (∀ δ ∈ Δ, g p ≠ g q + δ) → d p q = 0) {Q : G} {Ψ : Wave ℂ N L} (hΨ : HasTotal g Q Ψ) {x : Fin N → Fin L}
    (hx : ∀ δ ∈ Δ, total g x ≠ Q + δ) : oneBodyOp d Ψ x = 0 := by
  refine sum_eq_zero fun i _ => sum_eq_zero fun y _ => ?_
  by_cases hq : total g (update x i y) = Q
  · rw [hd, zero_mul]
    intro δ hδ h
    refine hx δ hδ ?_
    rw [← hq, total_update, total_erase g x i, h]
    abel
  · rw [hΨ _ hq, mul_zero]

/-! ## Bases of invariant subspaces -/

/-- The Hamilton operator on a subspace has a basis of eigenstates. -/
theorem subspace_basis {h : Fin L → Fin L → ℂ} {u : Fin L → Fin L → Fin L → Fin L → ℂ}
    (hh : ∀ p q, star (h p q) = h q p) (hu : ∀ p q r s, star (u p q r s) = u r s p q)
    (W : Submodule ℂ (EuclideanSpace ℂ (Fin N → Fin L)))
    (hW : ∀ v ∈ W, WithLp.toLp 2 (hamiltonOp h u fun x => v x) ∈ W) :
    ∃ (d : ℕ) (e : Fin d → ℝ) (B : Fin d → Wave ℂ N L), (∀ i, WithLp.toLp 2 (B i) ∈ W) ∧
      (∀ i, hamiltonOp h u (B i) = fun x => (e i : ℂ) * B i x) ∧
      (∀ i j, waveInner (B i) (B j) = if i = j then 1 else 0) ∧
      ∀ Φ : Wave ℂ N L, WithLp.toLp 2 Φ ∈ W → ∀ x, Φ x = ∑ i, waveInner (B i) Φ * B i x := by
  have hin : ∀ v w : W, inner ℂ v w = waveInner (fun x => v.1 x) (fun x => w.1 x) := fun v w => by
    rw [Submodule.coe_inner, PiLp.inner_apply]
    unfold waveInner
    refine sum_congr rfl fun x _ => ?_
    rw [RCLike.inner_apply, mul_comm]
    rfl
  let M : W →ₗ[ℂ] W :=
    { toFun := fun v => ⟨WithLp.toLp 2 (hamiltonOp h u fun x => v.1 x), hW v.1 v.2⟩
      map_add' := fun v w => by
        apply Subtype.ext
        ext x
        exact hamiltonOp_add h u (fun x => v.1 x) (fun x => w.1 x) x
      map_smul' := fun c v => by
        apply Subtype.ext
        ext x
        exact hamiltonOp_smul h u c (fun x => v.1 x) x }
  have hT : LinearMap.IsSymmetric (𝕜 := ℂ) (E := W) M := fun v w => by
    rw [hin, hin]
    exact hamiltonOp_symm hh hu (fun x => v.1 x) (fun x => w.1 x)
  obtain ⟨d, hd⟩ : ∃ d, Module.finrank ℂ W = d := ⟨_, rfl⟩
  set B := hT.eigenvectorBasis hd with hB
  refine ⟨d, hT.eigenvalues hd, fun i x => (B i).1 x, fun i => (B i).2, fun i => ?_, fun i j => ?_, fun Φ hΦ x => ?_⟩
  · have h1 := hT.apply_eigenvectorBasis hd i
    funext x
    exact congrArg (fun v : W => v.1 x) h1
  · rw [← hin, orthonormal_iff_ite.1 B.orthonormal]
  · have h1 := B.sum_repr' ⟨WithLp.toLp 2 Φ, hΦ⟩
    have h2 := congrArg (fun v : W => v.1 x) h1
    dsimp only at h2
    refine h2.symm.trans ?_
    rw [Submodule.coe_sum, WithLp.ofLp_sum, Finset.sum_apply]
    refine sum_congr rfl fun i _ => ?_
    show inner ℂ (B i) _ * (B i).1 x = _
    rw [hin]

/-- The antisymmetric wave functions with a total. -/
def totalSpace [AddCommMonoid G] (N : ℕ) (g : Fin L → G) (Q : G) : Submodule ℂ (EuclideanSpace ℂ (Fin N → Fin L)) where
  carrier := {v | v ∈ antiSpace N L ∧ HasTotal g Q fun x => v x}
  add_mem' := fun {v w} hv hw => ⟨(antiSpace N L).add_mem hv.1 hw.1, fun x hx => by
    have h1 := hv.2 x hx
    have h2 := hw.2 x hx
    dsimp only at h1 h2
    show (v + w).ofLp x = 0
    rw [PiLp.add_apply, h1, h2, add_zero]⟩
  zero_mem' := ⟨(antiSpace N L).zero_mem, fun x _ => rfl⟩
  smul_mem' := fun c v hv => ⟨(antiSpace N L).smul_mem c hv.1, fun x hx => by
    have h1 := hv.2 x hx
    dsimp only at h1
    show (c • v).ofLp x = 0
    rw [PiLp.smul_apply, h1, smul_zero]⟩

/-- A complete orthonormal family of eigenstates gives the energies in ascending order. -/
theorem spectrum_of_family {h : Fin L → Fin L → ℂ} {u : Fin L → Fin L → Fin L → Fin L → ℂ} {ι : Type} [Fintype ι]
    [DecidableEq ι] {e : ι → ℝ} {B : ι → Wave ℂ N L} (anti : ∀ i, Antisymmetric (B i))
    (eigen : ∀ i, hamiltonOp h u (B i) = fun x => (e i : ℂ) * B i x)
    (orth : ∀ i j, waveInner (B i) (B j) = if i = j then 1 else 0)
    (complete : ∀ Φ : Wave ℂ N L, Antisymmetric Φ → ∀ x, Φ x = ∑ i, waveInner (B i) Φ * B i x) :
    ∃ (D : ℕ) (E : ℕ → ℝ) (Ψ : ℕ → Wave ℂ N L) (f : Fin D ≃ ι), Spectrum h u D E Ψ ∧
      ∀ i : Fin D, E i = e (f i) ∧ Ψ i = B (f i) := by
  classical
  set f₀ := (Fintype.equivFin ι).symm with hf₀
  set f : Fin (Fintype.card ι) ≃ ι := (Tuple.sort (e ∘ f₀)).trans f₀ with hf
  have hm : Monotone (e ∘ f) := Tuple.monotone_sort (e ∘ f₀)
  refine ⟨Fintype.card ι, fun i => if hi : i < Fintype.card ι then e (f ⟨i, hi⟩) else 0,
    fun i => if hi : i < Fintype.card ι then B (f ⟨i, hi⟩) else fun _ => 0, f,
    ⟨fun i j hij hj => ?_, fun i hi => ?_, fun i hi => ?_, fun i hi j hj => ?_, fun Φ hΦ x => ?_⟩, fun i => ?_⟩
  · rw [dif_pos hj, dif_pos (by omega : i < _)]
    exact hm (show (⟨i, _⟩ : Fin _) ≤ ⟨j, _⟩ from hij)
  · rw [dif_pos hi]
    exact anti _
  · rw [dif_pos hi, dif_pos hi]
    exact eigen _
  · rw [dif_pos hi, dif_pos hj, orth]
    refine if_congr ?_ rfl rfl
    rw [f.apply_eq_iff_eq, Fin.mk.injEq]
  · rw [complete Φ hΦ x, sum_range, ← Equiv.sum_comp f]
    exact sum_congr rfl fun i _ => by rw [dif_pos i.2, Fin.eta]
  · exact ⟨dif_pos i.2, dif_pos i.2⟩

/-- States with a total can be chosen. -/
theorem labelled_exists [AddCommMonoid G] {g : Fin L → G} {h : Fin L → Fin L → ℂ}
    {u : Fin L → Fin L → Fin L → Fin L → ℂ} (hh : ∀ p q, star (h p q) = h q p)
    (hu : ∀ p q r s, star (u p q r s) = u r s p q) (hc : ConservesTotal g h u) (N : ℕ) :
    ∃ (D : ℕ) (E : ℕ → ℝ) (Ψ : ℕ → Wave ℂ N L) (q : ℕ → G), LabelledSpectrum g h u D E Ψ q := by
  classical
  have hW : ∀ Q, ∀ v ∈ totalSpace N g Q, WithLp.toLp 2 (hamiltonOp h u fun x => v x) ∈ totalSpace N g Q := fun Q v hv =>
    ⟨hamiltonOp_antisymmetric h u hv.1, hamilton_total hc hv.2⟩
  choose d e B h1 h2 h3 h4 using fun Q => subspace_basis hh hu (totalSpace N g Q) (hW Q)
  obtain ⟨D, E, Ψ, f, S, hS⟩ := spectrum_of_family (ι := Σ Q : univ.image (total (N := N) g), Fin (d Q.1)) (h := h) (u := u)
    (e := fun i => e i.1.1 i.2) (B := fun i => B i.1.1 i.2) (fun i => (h1 i.1.1 i.2).1) (fun i => h2 i.1.1 i.2)
    (fun i j => by
      obtain ⟨⟨Q, hQ⟩, i⟩ := i
      obtain ⟨⟨Q', hQ'⟩, j⟩ := j
      by_cases hq : Q = Q'
      · subst hq
        dsimp only
        rw [h3]
        refine if_congr ⟨fun h => by rw [h], fun h => ?_⟩ rfl rfl
        simpa using h
      · rw [inner_total (h1 Q i).2 (h1 Q' j).2 hq, if_neg]
        intro h
        exact hq (congrArg (fun z : Σ Q : univ.image (total (N := N) g), Fin (d Q.1) => z.1.1) h))
    (fun Φ hΦ x => by
      rw [← sum_part g Φ x, Fintype.sum_sigma, ← sum_coe_sort (univ.image (total (N := N) g))]
      refine sum_congr rfl fun Q _ => ?_
      rw [h4 Q.1 (part g Q.1 Φ) ⟨part_anti g Q.1 hΦ, part_total g Q.1 Φ⟩ x]
      exact sum_congr rfl fun i _ => by rw [inner_part (h1 Q.1 i).2])
  refine ⟨D, E, Ψ, fun i => if hi : i < D then (f ⟨i, hi⟩).1.1 else 0, ⟨S, fun i hi => ?_⟩⟩
  rw [dif_pos hi, (hS ⟨i, hi⟩).2]
  exact (h1 _ _).2

/-! ## Overlaps of eigenstates -/

theorem inner_smul_right (Φ Ψ : Wave ℂ N L) (c : ℂ) : waveInner Φ (fun x => c * Ψ x) = c * waveInner Φ Ψ := by
  unfold waveInner
  rw [mul_sum]
  exact sum_congr rfl fun x _ => by ring

theorem inner_smul_left (Φ Ψ : Wave ℂ N L) (c : ℂ) : waveInner (fun x => c * Φ x) Ψ = star c * waveInner Φ Ψ := by
  unfold waveInner
  rw [mul_sum]
  exact sum_congr rfl fun x _ => by rw [star_mul']; ring

theorem inner_energies {h : Fin L → Fin L → ℂ} {u : Fin L → Fin L → Fin L → Fin L → ℂ}
    (hh : ∀ p q, star (h p q) = h q p) (hu : ∀ p q r s, star (u p q r s) = u r s p q) {Φ Ψ : Wave ℂ N L} {e e' : ℝ}
    (h1 : hamiltonOp h u Φ = fun x => (e : ℂ) * Φ x) (h2 : hamiltonOp h u Ψ = fun x => (e' : ℂ) * Ψ x) (hne : e ≠ e') :
    waveInner Φ Ψ = 0 := by
  have h3 := hamiltonOp_symm hh hu Φ Ψ
  rw [h1, h2, inner_smul_left, inner_smul_right] at h3
  have h4 : star (e : ℂ) = e := Complex.conj_ofReal e
  rw [h4] at h3
  have h5 : ((e : ℂ) - e') * waveInner Φ Ψ = 0 := by linear_combination h3
  rcases mul_eq_zero.1 h5 with h | h
  · exact absurd (by exact_mod_cast sub_eq_zero.1 h) hne
  · exact h

end QS
