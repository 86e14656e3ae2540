import Verif.Lemmas.Sectors
import Verif.Props.Levels
import Verif.Props.FockSymmetry
import Verif.Props.Consistent
import Verif.Props.DipoleRules

/-!
# Property C125: conserved quantum numbers of `N` electrons
-/

namespace QS.Props

open Finset NDArray BasisSet PyM Coulomb TwoDim OneDim Idx Spec Function

variable {G : Type}

/-! ## The general statements -/

/-- **C125** Elements that conserve a quantum number conserve its total for `N` particles. -/
theorem C125_conserved [AddCommMonoid G] {N L : ℕ} {g : Fin L → G} {h : Fin L → Fin L → ℂ}
    {u : Fin L → Fin L → Fin L → Fin L → ℂ} (hc : ConservesTotal g h u) {Q : G} {Ψ : Wave ℂ N L} (hΨ : HasTotal g Q Ψ) :
    HasTotal g Q (hamiltonOp h u Ψ) :=
  hamilton_total hc hΨ

/-- The elements between spin orbitals also conserve the number of electrons with the second spin. -/
theorem conserves_spin [AddCommMonoid G] {g : ℕ → G} {l : ℕ} {H U : NDArray ℂ} (hc : Conserves g l H U) :
    ConservesTotal (spinLabel g l) (spinOne l H) (spinTwo l U) := by
  refine ⟨fun p q hne => ?_, fun p q r s hne => ?_⟩
  · unfold spinOne
    split_ifs with h
    · exact hc.one _ (by omega) _ (by omega) fun h' => hne (Prod.ext h' h)
    · rfl
  · unfold spinTwo
    split_ifs with h
    · refine hc.two _ (by omega) _ (by omega) _ (by omega) _ (by omega) fun h' => hne (Prod.ext h' ?_)
      show p.1 % 2 + q.1 % 2 = r.1 % 2 + s.1 % 2
      rw [h.1, h.2]
    · rfl

theorem spinOne_herm {l : ℕ} {H : NDArray ℂ} (hh : HermMat l H) (p q) : star (spinOne l H p q) = spinOne l H q p := by
  unfold spinOne
  by_cases h : p.1 % 2 = q.1 % 2
  · rw [if_pos h, if_pos h.symm]
    exact (hh _ (by omega) _ (by omega)).symm
  · rw [if_neg h, if_neg (Ne.symm h), star_zero]

theorem spinTwo_herm {l : ℕ} {U : NDArray ℂ} (hu : HermU l U) (p q r s) :
    star (spinTwo l U p q r s) = spinTwo l U r s p q := by
  unfold spinTwo
  by_cases h : p.1 % 2 = r.1 % 2 ∧ q.1 % 2 = s.1 % 2
  · rw [if_pos h, if_pos ⟨h.1.symm, h.2.symm⟩]
    exact (hu _ (by omega) _ (by omega) _ (by omega) _ (by omega)).symm
  · rw [if_neg h, if_neg fun h' => h ⟨h'.1.symm, h'.2.symm⟩, star_zero]

theorem total_orbitals [AddCommMonoid G] {N L : ℕ} (g : Fin L → G) (s : {s : Finset (Fin L) // s.card = N}) :
    total g (orbitalsOf s) = ∑ p ∈ s.1, g p := by
  unfold total orbitalsOf
  conv_rhs => rw [← Finset.map_orderEmbOfFin_univ s.1 s.2]
  rw [sum_map]
  rfl

/-- **C125** There are as many states with the total `Q` as choices of `N` functions with this total. -/
theorem C125_count [AddCommMonoid G] {N L D : ℕ} {g : Fin L → G} {h : Fin L → Fin L → ℂ}
    {u : Fin L → Fin L → Fin L → Fin L → ℂ} {E : ℕ → ℝ} {Ψ : ℕ → Wave ℂ N L} {q : ℕ → G}
    (S : LabelledSpectrum g h u D E Ψ q) (Q : G) :
    Nat.card {i : Fin D // q i = Q} = Nat.card {s : Finset (Fin L) // s.card = N ∧ ∑ p ∈ s, g p = Q} := by
  classical
  have hf : ((N.factorial : ℕ) : ℝ) ≠ 0 := Nat.cast_ne_zero.2 (Nat.factorial_ne_zero _)
  -- the sum of the squares of the overlaps of the determinants with all states
  have h4 : ∀ i < D, ∀ s : {s : Finset (Fin L) // s.card = N}, ‖waveInner (Ψ i) (slater (orbitalsOf s))‖ ^ 2 =
      (N.factorial : ℝ) ^ 2 * ‖Ψ i (orbitalsOf s)‖ ^ 2 := fun i hi s => by
    rw [← waveInner_star, norm_star, slater_inner _ (S.anti i hi), norm_mul, Complex.norm_natCast, mul_pow]
  have h0 : ∀ i < D, ∀ s : {s : Finset (Fin L) // s.card = N}, ∑ p ∈ s.1, g p ≠ q i →
      ‖waveInner (Ψ i) (slater (orbitalsOf s))‖ ^ 2 = 0 := fun i hi s hs => by
    rw [h4 i hi, S.label i hi _ (by rwa [total_orbitals])]
    simp
  have h1 : ∀ i < D, ∑ s : {s : Finset (Fin L) // s.card = N},
      ‖waveInner (Ψ i) (slater (orbitalsOf s))‖ ^ 2 = N.factorial := fun i hi => by
    have h2 : waveInner (Ψ i) (Ψ i) = 1 := by rw [S.orth i hi i hi, if_pos rfl]
    rw [waveInner_self, sum_anti (S.anti i hi)] at h2
    have h3 : (N.factorial : ℝ) * ∑ s : {s : Finset (Fin L) // s.card = N}, ‖Ψ i (orbitalsOf s)‖ ^ 2 = 1 := by
      exact_mod_cast h2
    rw [sum_congr rfl fun s _ => h4 i hi s, ← mul_sum, pow_two, mul_assoc, h3, mul_one]
  have h5 : ∀ s : {s : Finset (Fin L) // s.card = N}, ∑ i : Fin D, ‖waveInner (Ψ i) (slater (orbitalsOf s))‖ ^ 2 =
      N.factorial := fun s => by
    have h6 := (S.parseval (slater_antisymmetric (orbitalsOf s))).1
    rw [(C106_determinants (orbitalsOf_injective s)).2.2.1] at h6
    rw [← sum_range fun i => ‖waveInner (Ψ i) (slater (orbitalsOf s))‖ ^ 2]
    exact_mod_cast h6.symm
  have e1 : ∑ i ∈ univ.filter (fun i : Fin D => q i = Q), ∑ s ∈ univ.filter
      (fun s : {s : Finset (Fin L) // s.card = N} => ∑ p ∈ s.1, g p = Q),
      ‖waveInner (Ψ i) (slater (orbitalsOf s))‖ ^ 2 = (univ.filter (fun i : Fin D => q i = Q)).card * N.factorial := by
    rw [← nsmul_eq_mul, ← sum_const]
    refine sum_congr rfl fun i hi => ?_
    rw [← h1 i i.2]
    refine sum_subset (filter_subset _ _) fun s _ hs => h0 i i.2 s fun h => hs ?_
    rw [mem_filter]
    exact ⟨mem_univ _, h.trans (mem_filter.1 hi).2⟩
  have e2 : ∑ s ∈ univ.filter (fun s : {s : Finset (Fin L) // s.card = N} => ∑ p ∈ s.1, g p = Q),
      ∑ i ∈ univ.filter (fun i : Fin D => q i = Q), ‖waveInner (Ψ i) (slater (orbitalsOf s))‖ ^ 2 =
      (univ.filter (fun s : {s : Finset (Fin L) // s.card = N} => ∑ p ∈ s.1, g p = Q)).card * N.factorial := by
    rw [← nsmul_eq_mul, ← sum_const]
    refine sum_congr rfl fun s hs => ?_
    rw [← h5 s]
    refine sum_subset (filter_subset _ _) fun i _ hi => h0 i i.2 s fun h => hi ?_
    rw [mem_filter]
    exact ⟨mem_univ _, h.symm.trans (mem_filter.1 hs).2⟩
  rw [sum_comm, e2] at e1
  have e3 := mul_right_cancel₀ hf e1
  have e4 : (univ.filter (fun s : {s : Finset (Fin L) // s.card = N} => ∑ p ∈ s.1, g p = Q)).card =
      (univ.filter (fun i : Fin D => q i = Q)).card := by exact_mod_cast e3
  rw [Nat.card_eq_fintype_card, Fintype.card_subtype, ← e4, ← Fintype.card_subtype, ← Nat.card_eq_fintype_card]
  exact Nat.card_congr (Equiv.subtypeSubtypeEquivSubtypeInter (fun s : Finset (Fin L) => s.card = N)
    fun s => ∑ p ∈ s, g p = Q)

/-- **C125** The elements determine how many states have which energy and which total. -/
theorem C125_unique [AddCommMonoid G] {N L D D' : ℕ} {g : Fin L → G} {h : Fin L → Fin L → ℂ}
    {u : Fin L → Fin L → Fin L → Fin L → ℂ} (hh : ∀ p q, star (h p q) = h q p)
    (hu : ∀ p q r s, star (u p q r s) = u r s p q) {E E' : ℕ → ℝ} {Ψ Ψ' : ℕ → Wave ℂ N L} {q q' : ℕ → G}
    (S : LabelledSpectrum g h u D E Ψ q) (S' : LabelledSpectrum g h u D' E' Ψ' q') (ε : ℝ) (Q : G) :
    multiplicity D E q ε Q = multiplicity D' E' q' ε Q := by
  classical
  have h0 : ∀ (i : Fin D) (j : Fin D'), ¬ (E i = E' j ∧ q i = q' j) → ‖waveInner (Ψ i) (Ψ' j)‖ ^ 2 = 0 := fun i j hij => by
    have : waveInner (Ψ i) (Ψ' j) = 0 := by
      by_cases he : E i = E' j
      · exact inner_total (S.label i i.2) (S'.label j j.2) fun h => hij ⟨he, h⟩
      · exact inner_energies hh hu (S.eigen i i.2) (S'.eigen j j.2) he
    rw [this]
    simp
  have h1 : ∀ i : Fin D, ∑ j : Fin D', ‖waveInner (Ψ i) (Ψ' j)‖ ^ 2 = 1 := fun i => by
    have h6 := (S'.parseval (S.anti i i.2)).1
    rw [S.orth i i.2 i i.2, if_pos rfl] at h6
    rw [sum_congr rfl fun (j : Fin D') _ => show ‖waveInner (Ψ i) (Ψ' j)‖ ^ 2 = ‖waveInner (Ψ' j) (Ψ i)‖ ^ 2 by
      rw [← waveInner_star, norm_star], ← sum_range fun j => ‖waveInner (Ψ' j) (Ψ i)‖ ^ 2]
    exact_mod_cast h6.symm
  have h2 : ∀ j : Fin D', ∑ i : Fin D, ‖waveInner (Ψ i) (Ψ' j)‖ ^ 2 = 1 := fun j => by
    have h6 := (S.parseval (S'.anti j j.2)).1
    rw [S'.orth j j.2 j j.2, if_pos rfl] at h6
    rw [← sum_range fun i => ‖waveInner (Ψ i) (Ψ' j)‖ ^ 2]
    exact_mod_cast h6.symm
  have e1 : ∑ i ∈ univ.filter (fun i : Fin D => E i = ε ∧ q i = Q), ∑ j ∈ univ.filter
      (fun j : Fin D' => E' j = ε ∧ q' j = Q), ‖waveInner (Ψ i) (Ψ' j)‖ ^ 2 =
        ((univ.filter (fun i : Fin D => E i = ε ∧ q i = Q)).card : ℝ) := by
    rw [card_eq_sum_ones, Nat.cast_sum]
    refine sum_congr rfl fun i hi => ?_
    rw [Nat.cast_one, ← h1 i]
    refine sum_subset (filter_subset _ _) fun j _ hj => h0 i j fun h => hj ?_
    obtain ⟨-, a, b⟩ := mem_filter.1 hi
    rw [mem_filter]
    exact ⟨mem_univ _, h.1.symm.trans a, h.2.symm.trans b⟩
  have e2 : ∑ j ∈ univ.filter (fun j : Fin D' => E' j = ε ∧ q' j = Q), ∑ i ∈ univ.filter
      (fun i : Fin D => E i = ε ∧ q i = Q), ‖waveInner (Ψ i) (Ψ' j)‖ ^ 2 =
        ((univ.filter (fun j : Fin D' => E' j = ε ∧ q' j = Q)).card : ℝ) := by
    rw [card_eq_sum_ones, Nat.cast_sum]
    refine sum_congr rfl fun j hj => ?_
    rw [Nat.cast_one, ← h2 j]
    refine sum_subset (filter_subset _ _) fun i _ hi => h0 i j fun h => hi ?_
    obtain ⟨-, a, b⟩ := mem_filter.1 hj
    rw [mem_filter]
    exact ⟨mem_univ _, h.1.trans a, h.2.trans b⟩
  rw [sum_comm, e2] at e1
  unfold multiplicity
  rw [Nat.card_eq_fintype_card, Nat.card_eq_fintype_card, Fintype.card_subtype, Fintype.card_subtype]
  exact_mod_cast e1.symm

/-- **C125** A state whose energy occurs only once has a total. -/
theorem C125_nondegenerate [AddCommMonoid G] {N L D : ℕ} {g : Fin L → G} {h : Fin L → Fin L → ℂ}
    {u : Fin L → Fin L → Fin L → Fin L → ℂ} (hh : ∀ p q, star (h p q) = h q p)
    (hu : ∀ p q r s, star (u p q r s) = u r s p q) (hc : ConservesTotal g h u) {E : ℕ → ℝ} {Ψ : ℕ → Wave ℂ N L}
    (S : Spectrum h u D E Ψ) {i : ℕ} (hi : i < D) (hE : ∀ j < D, j ≠ i → E j ≠ E i) : ∃ Q, HasTotal g Q (Ψ i) := by
  have key : ∀ Q, ∃ c, part g Q (Ψ i) = fun x => c * Ψ i x := fun Q => by
    have hp : hamiltonOp h u (part g Q (Ψ i)) = fun x => (E i : ℂ) * part g Q (Ψ i) x := by
      rw [part_hamilton hc, S.eigen i hi]
      funext x
      unfold part
      rw [mul_ite, mul_zero]
    refine ⟨waveInner (Ψ i) (part g Q (Ψ i)), funext fun x => ?_⟩
    rw [S.complete _ (part_anti g Q (S.anti i hi)) x, sum_eq_single i]
    · intro j hj hji
      rw [inner_energies hh hu (S.eigen j (mem_range.1 hj)) hp (hE j (mem_range.1 hj) hji), zero_mul]
    · exact fun h => absurd (mem_range.2 hi) h
  obtain ⟨x, hx⟩ : ∃ x, Ψ i x ≠ 0 := by
    by_contra hcon
    push Not at hcon
    have h1 := S.orth i hi i hi
    rw [if_pos rfl, show waveInner (Ψ i) (Ψ i) = 0 from sum_eq_zero fun x _ => by rw [hcon x, mul_zero]] at h1
    exact zero_ne_one h1
  obtain ⟨c, hc'⟩ := key (total g x)
  have h1 := congrFun hc' x
  rw [show part g (total g x) (Ψ i) x = Ψ i x from if_pos rfl] at h1
  have h2 : c = 1 := by
    have : (c - 1) * Ψ i x = 0 := by linear_combination -h1
    rcases mul_eq_zero.1 this with h | h
    · exact sub_eq_zero.1 h
    · exact absurd h hx
  refine ⟨total g x, ?_⟩
  have h3 := part_total g (total g x) (Ψ i)
  rw [hc', h2] at h3
  simpa using h3

/-- **C125** The lowest energy of the states with a total bounds the energy of every antisymmetric wave function with this
total from below. -/
theorem C125_lowest [AddCommMonoid G] {N L D : ℕ} {g : Fin L → G} {h : Fin L → Fin L → ℂ}
    {u : Fin L → Fin L → Fin L → Fin L → ℂ} {E : ℕ → ℝ} {Ψ : ℕ → Wave ℂ N L} {q : ℕ → G}
    (S : LabelledSpectrum g h u D E Ψ q) {Q : G} {Φ : Wave ℂ N L} (hΦ : Antisymmetric Φ) (hQ : HasTotal g Q Φ) {m : ℝ}
    (hm : ∀ i < D, q i = Q → m ≤ E i) : m * (waveInner Φ Φ).re ≤ (waveInner Φ (hamiltonOp h u Φ)).re := by
  obtain ⟨h1, h2⟩ := S.parseval hΦ
  rw [h1, h2, Complex.ofReal_re, Complex.ofReal_re, mul_sum]
  refine sum_le_sum fun i hi => ?_
  by_cases hq : q i = Q
  · exact mul_le_mul_of_nonneg_right (hm i (mem_range.1 hi) hq) (sq_nonneg _)
  · rw [inner_total (S.label i (mem_range.1 hi)) hQ hq]
    simp

/-- **C125** A one-body operator that changes the quantum number of a function by one of the numbers in `Δ` has no elements
between states whose totals differ by anything else. -/
theorem C125_transitions [AddCommMonoid G] {N L : ℕ} {g : Fin L → G} {d : Fin L → Fin L → ℂ} {Δ : Set G}
    (hd : ∀ p q, (∀ δ ∈ Δ, g p ≠ g q + δ) → d p q = 0) {Q Q' : G} {Φ Ψ : Wave ℂ N L} (hΦ : HasTotal g Q' Φ)
    (hΨ : HasTotal g Q Ψ) (hne : ∀ δ ∈ Δ, Q' ≠ Q + δ) : waveInner Φ (oneBodyOp d Ψ) = 0 := by
  refine sum_eq_zero fun x _ => ?_
  by_cases hx : total g x = Q'
  · rw [oneBody_shift hd hΨ (hx ▸ hne), mul_zero]
  · rw [hΦ x hx, star_zero, zero_mul]

/-! ## Symmetries of the sectors -/

theorem hamilton_relabel {N L : ℕ} {h : Fin L → Fin L → ℂ} {u : Fin L → Fin L → Fin L → Fin L → ℂ}
    (π : Equiv.Perm (Fin L)) (hh : ∀ p q, h (π p) (π q) = h p q) (hu : ∀ p q r s, u (π p) (π q) (π r) (π s) = u p q r s)
    (Ψ : Wave ℂ N L) (x) : hamiltonOp h u (fun x => Ψ (π ∘ x)) x = hamiltonOp h u Ψ (π ∘ x) := by
  have e1 : ∀ (x : Fin N → Fin L) i y, π ∘ update x i y = update (π ∘ x) i (π y) := fun x i y => by
    funext k
    by_cases hk : k = i
    · subst hk; simp
    · simp [hk]
  unfold hamiltonOp oneBodyOp twoBodyOp
  congr 1
  · refine sum_congr rfl fun i _ => ?_
    rw [← Equiv.sum_comp π fun y => h ((π ∘ x) i) y * Ψ (update (π ∘ x) i y)]
    refine sum_congr rfl fun y _ => ?_
    dsimp only
    rw [e1, comp_apply, hh]
  · congr 1
    refine sum_congr rfl fun i _ => sum_congr rfl fun j _ => ?_
    rw [← Equiv.sum_comp π fun y => ∑ z, u ((π ∘ x) i) ((π ∘ x) j) y z * Ψ (update (update (π ∘ x) i y) j z)]
    refine sum_congr rfl fun y _ => ?_
    rw [← Equiv.sum_comp π fun z => u ((π ∘ x) i) ((π ∘ x) j) (π y) z * Ψ (update (update (π ∘ x) i (π y)) j z)]
    refine sum_congr rfl fun z _ => ?_
    dsimp only
    rw [e1, e1, comp_apply, comp_apply, hu]

theorem inner_relabel {N L : ℕ} (π : Equiv.Perm (Fin L)) (Φ Ψ : Wave ℂ N L) :
    waveInner (fun x => Φ (π ∘ x)) (fun x => Ψ (π ∘ x)) = waveInner Φ Ψ :=
  Equiv.sum_comp (Equiv.arrowCongr (Equiv.refl (Fin N)) π) fun x => star (Φ x) * Ψ x

/-- A symmetry of the elements maps the states with the total `Q` to states with the total `τ Q` and the same energy. -/
theorem relabel_spectrum [AddCommMonoid G] {N L D : ℕ} {g : Fin L → G} {h : Fin L → Fin L → ℂ}
    {u : Fin L → Fin L → Fin L → Fin L → ℂ} {E : ℕ → ℝ} {Ψ : ℕ → Wave ℂ N L} {q : ℕ → G}
    (S : LabelledSpectrum g h u D E Ψ q) {π : Equiv.Perm (Fin L)} (h2 : ∀ p, π (π p) = p)
    (hh : ∀ p q, h (π p) (π q) = h p q) (hu : ∀ p q r s, u (π p) (π q) (π r) (π s) = u p q r s) {τ : G → G}
    (hτ : ∀ x : Fin N → Fin L, total g (π ∘ x) = τ (total g x)) :
    LabelledSpectrum g h u D E (fun i x => Ψ i (π ∘ x)) fun i => τ (q i) := by
  have e2 : ∀ x : Fin N → Fin L, π ∘ (π ∘ x) = x := fun x => funext fun k => h2 (x k)
  refine ⟨⟨S.sorted, fun i hi σ x => S.anti i hi σ (π ∘ x), fun i hi => funext fun x => ?_, fun i hi j hj => ?_,
    fun Φ hΦ x => ?_⟩, fun i hi x hx => ?_⟩
  · rw [hamilton_relabel π hh hu, S.eigen i hi]
  · rw [inner_relabel, S.orth i hi j hj]
  · have h3 := S.complete (fun x => Φ (π ∘ x)) (fun σ x => hΦ σ (π ∘ x)) (π ∘ x)
    rw [e2] at h3
    rw [h3]
    refine sum_congr rfl fun i _ => ?_
    have h4 := inner_relabel π (fun x => Ψ i (π ∘ x)) Φ
    simp only [e2] at h4
    rw [h4]
  · refine S.label i hi _ fun h => hx ?_
    rw [← h, ← hτ, e2]

theorem multiplicity_congr {D : ℕ} {E : ℕ → ℝ} {q : ℕ → G} {τ : G → G} {ε : ℝ} {Q Q' : G}
    (h : ∀ i < D, τ (q i) = Q ↔ q i = Q') : multiplicity D E (fun i => τ (q i)) ε Q = multiplicity D E q ε Q' :=
  Nat.card_congr (Equiv.subtypeEquivRight fun i => by rw [h i i.2])

/-! ## Electrons -/

/-- The spin orbital with the other spin. -/
def flipSpin (l : ℕ) : Equiv.Perm (Fin (2 * l)) where
  toFun p := ⟨2 * (p.1 / 2) + (1 - p.1 % 2), by omega⟩
  invFun p := ⟨2 * (p.1 / 2) + (1 - p.1 % 2), by omega⟩
  left_inv p := Fin.ext (by simp only; omega)
  right_inv p := Fin.ext (by simp only; omega)

theorem flipSpin_div {l : ℕ} (p : Fin (2 * l)) : (flipSpin l p).1 / 2 = p.1 / 2 := by
  show (2 * (p.1 / 2) + (1 - p.1 % 2)) / 2 = p.1 / 2
  omega

theorem flipSpin_mod {l : ℕ} (p : Fin (2 * l)) : (flipSpin l p).1 % 2 = 1 - p.1 % 2 := by
  show (2 * (p.1 / 2) + (1 - p.1 % 2)) % 2 = 1 - p.1 % 2
  omega

theorem total_spin [AddCommMonoid G] {N l : ℕ} (g : ℕ → G) (x : Fin N → Fin (2 * l)) :
    total (spinLabel g l) x = (∑ i, g ((x i).1 / 2), ∑ i, (x i).1 % 2) := by
  unfold total spinLabel
  exact Prod.ext Prod.fst_sum Prod.snd_sum

theorem total_flip [AddCommMonoid G] {N l : ℕ} (g : ℕ → G) (x : Fin N → Fin (2 * l)) :
    total (spinLabel g l) (flipSpin l ∘ x) = ((total (spinLabel g l) x).1, N - (total (spinLabel g l) x).2) := by
  rw [total_spin, total_spin]
  refine Prod.ext ?_ ?_
  · show ∑ i, g ((flipSpin l (x i)).1 / 2) = ∑ i, g ((x i).1 / 2)
    exact sum_congr rfl fun i _ => by rw [flipSpin_div]
  · show ∑ i, (flipSpin l (x i)).1 % 2 = N - ∑ i, (x i).1 % 2
    have h1 : ∑ i, (flipSpin l (x i)).1 % 2 + ∑ i, (x i).1 % 2 = N := by
      rw [← sum_add_distrib, sum_congr rfl fun i _ => show (flipSpin l (x i)).1 % 2 + (x i).1 % 2 = 1 by
        rw [flipSpin_mod]; omega]
      simp
    omega

/-- A label that belongs to a state is the total of some choice of functions. -/
theorem label_total [AddCommMonoid G] {N L D : ℕ} {g : Fin L → G} {h : Fin L → Fin L → ℂ}
    {u : Fin L → Fin L → Fin L → Fin L → ℂ} {E : ℕ → ℝ} {Ψ : ℕ → Wave ℂ N L} {q : ℕ → G}
    (S : LabelledSpectrum g h u D E Ψ q) {i : ℕ} (hi : i < D) : ∃ x : Fin N → Fin L, total g x = q i := by
  by_contra hcon
  push Not at hcon
  have h1 := S.orth i hi i hi
  rw [if_pos rfl, show waveInner (Ψ i) (Ψ i) = 0 from sum_eq_zero fun x _ => by
    rw [S.label i hi x (hcon x), mul_zero]] at h1
  exact zero_ne_one h1

/-- **C125** If the elements conserve a quantum number, the states of `N` electrons can be chosen with a total quantum number
and a number of electrons with the second spin; there are as many of them as choices of `N` spin orbitals with these totals.
Exchanging the two spins does not change the energies. -/
theorem C125_electrons [AddCommMonoid G] {g : ℕ → G} {l : ℕ} {H U : NDArray ℂ} (hh : HermMat l H) (hu : HermU l U)
    (hc : Conserves g l H U) (N : ℕ) :
    ∃ E Ψ q, ElectronStates g l H U N E Ψ q := by
  obtain ⟨D, E, Ψ, q, S⟩ := labelled_exists (spinOne_herm hh) (spinTwo_herm hu) (conserves_spin hc) N
  obtain rfl := C120_count S.toSpectrum
  refine ⟨E, Ψ, q, S, fun Q k => ?_, fun ε Q k hk => ?_⟩
  · rw [C125_count S (Q, k)]
    refine Nat.card_congr (Equiv.subtypeEquivRight fun s => ?_)
    rw [Prod.ext_iff, Prod.fst_sum, Prod.snd_sum]
    rfl
  · have T := relabel_spectrum S (π := flipSpin l) (fun p => (flipSpin l).left_inv p)
      (fun p r => by
        unfold spinOne
        rw [flipSpin_div, flipSpin_div, flipSpin_mod, flipSpin_mod]
        exact if_congr (by omega) rfl rfl)
      (fun p r s t => by
        unfold spinTwo
        simp only [flipSpin_div, flipSpin_mod]
        exact if_congr (by omega) rfl rfl)
      (τ := fun z => (z.1, N - z.2)) (total_flip g)
    rw [C125_unique (spinOne_herm hh) (spinTwo_herm hu) S T ε (Q, k)]
    refine multiplicity_congr (τ := fun z : G × ℕ => (z.1, N - z.2)) fun i hi => ?_
    obtain ⟨x, hx⟩ := label_total S hi
    have h1 : (q i).2 ≤ N := by
      rw [← hx, total_spin]
      calc ∑ i, (x i).1 % 2 ≤ ∑ _i : Fin N, 1 := sum_le_sum fun i _ => by omega
        _ = N := by simp
    simp only [Prod.ext_iff]
    refine and_congr_right fun _ => ?_
    omega

/-! ## The dots -/

/-- A dipole moment between spin orbitals that changes the quantum number by one of the numbers in `Δ`. -/
theorem dipole_transitions [AddCommMonoid G] {g : ℕ → G} {l N c : ℕ} {d H U : NDArray ℂ} {Δ : Set G}
    (hd : ∀ p < l, ∀ q < l, (∀ δ ∈ Δ, g p ≠ g q + δ) → d.get [c, p, q] = 0) {E : ℕ → ℝ} {Ψ : ℕ → Wave ℂ N (2 * l)}
    {q : ℕ → G × ℕ} (S : ElectronStates g l H U N E Ψ q) {i j : ℕ} (hi : i < (2 * l).choose N) (hj : j < (2 * l).choose N)
    (hne : ∀ δ ∈ Δ, q j ≠ ((q i).1 + δ, (q i).2)) : waveInner (Ψ j) (oneBodyOp (spinDipole l d c) (Ψ i)) = 0 := by
  refine C125_transitions (g := spinLabel g l) (Δ := {z | z.1 ∈ Δ ∧ z.2 = 0}) (fun p r h => ?_) (S.states.label j hj)
    (S.states.label i hi) fun δ hδ h => hne δ.1 hδ.1 ?_
  · unfold spinDipole
    split_ifs with hpr
    · refine hd _ (by omega) _ (by omega) fun δ hδ h' => h (δ, 0) ⟨hδ, rfl⟩ (Prod.ext h' ?_)
      show p.1 % 2 = r.1 % 2 + 0
      omega
    · rfl
  · rw [h]
    refine Prod.ext rfl ?_
    show (q i).2 + δ.2 = (q i).2
    rw [hδ.2, add_zero]

/-- The orbital with the opposite angular momentum. -/
def mirror (p : ℕ) : ℕ := (getIndexP (getIndicesNm p).1 (-(getIndicesNm p).2)).toNat

theorem mirror_nm (p : ℕ) : getIndicesNm (mirror p) = ((getIndicesNm p).1, -(getIndicesNm p).2) :=
  (C42_numbers_of_index _ _ (C42_nonneg p)).2

theorem mirror_mirror (p : ℕ) : mirror (mirror p) = p :=
  getIndicesNm_injective (by rw [mirror_nm, mirror_nm, neg_neg])

theorem mirror_lt {K p : ℕ} (hp : p < K * (K + 1) / 2) : mirror p < K * (K + 1) / 2 := by
  obtain ⟨M, j, hj, rfl⟩ := exists_shell p
  have e : mirror (tri M + j) = tri M + (M - j) := by
    refine getIndicesNm_injective ?_
    rw [mirror_nm, getIndicesNm_shell M j hj, getIndicesNm_shell M (M - j) (by omega)]
    refine Prod.ext ?_ ?_
    · show min (j : ℤ) (M - j) = min ((M - j : ℕ) : ℤ) (M - (M - j : ℕ))
      rw [min_comm]
      congr 1 <;> omega
    · show -(2 * (j : ℤ) - M) = 2 * ((M - j : ℕ) : ℤ) - M
      omega
  rw [e]
  rw [← tri_eq] at hp ⊢
  have hM : M < K := by
    by_contra h
    have := tri_mono (Nat.le_of_not_lt h)
    omega
  have h1 := tri_mono (show M + 1 ≤ K from hM)
  have h2 : tri (M + 1) = tri M + (M + 1) := by
    have a := two_tri M
    have b := two_tri (M + 1)
    nlinarith
  omega

/-- The spin orbital with the opposite angular momentum. -/
def mirrorSpin {l : ℕ} (hl : ∀ p < l, mirror p < l) : Equiv.Perm (Fin (2 * l)) where
  toFun p := ⟨2 * mirror (p.1 / 2) + p.1 % 2, by have := hl (p.1 / 2) (by omega); omega⟩
  invFun p := ⟨2 * mirror (p.1 / 2) + p.1 % 2, by have := hl (p.1 / 2) (by omega); omega⟩
  left_inv p := Fin.ext (by
    show 2 * mirror ((2 * mirror (p.1 / 2) + p.1 % 2) / 2) + (2 * mirror (p.1 / 2) + p.1 % 2) % 2 = p.1
    rw [show (2 * mirror (p.1 / 2) + p.1 % 2) / 2 = mirror (p.1 / 2) by omega, mirror_mirror]
    omega)
  right_inv p := Fin.ext (by
    show 2 * mirror ((2 * mirror (p.1 / 2) + p.1 % 2) / 2) + (2 * mirror (p.1 / 2) + p.1 % 2) % 2 = p.1
    rw [show (2 * mirror (p.1 / 2) + p.1 % 2) / 2 = mirror (p.1 / 2) by omega, mirror_mirror]
    omega)

theorem mirrorSpin_div {l : ℕ} (hl : ∀ p < l, mirror p < l) (p : Fin (2 * l)) :
    (mirrorSpin hl p).1 / 2 = mirror (p.1 / 2) := by
  show (2 * mirror (p.1 / 2) + p.1 % 2) / 2 = mirror (p.1 / 2)
  omega

theorem mirrorSpin_mod {l : ℕ} (hl : ∀ p < l, mirror p < l) (p : Fin (2 * l)) : (mirrorSpin hl p).1 % 2 = p.1 % 2 := by
  show (2 * mirror (p.1 / 2) + p.1 % 2) % 2 = p.1 % 2
  omega

/-- **C125** `TwoDimensionalHarmonicOscillator`: the states of `N` interacting electrons have a total angular momentum and a
number of electrons with the second spin; the dipole moment connects only states whose total angular momenta differ by one and
whose spins are equal. With complete shells the energies with the angular momenta `M` and `-M` agree. -/
theorem C125_tdho (l num N : ℕ) (radiusLength : ℝ) {omega mass : ℝ} (ho : 0 < omega) (hm : 0 < mass) (np : Module) :
    ∃ b h u d E Ψ q, tdho (getCoulombElementsRaw l) l num radiusLength omega mass np = .ok b ∧ b.h = some h ∧ b.u = some u ∧
      b.dipole = some d ∧ ElectronStates (fun p => (getIndicesNm p).2) l h u N E Ψ q ∧
      (∀ c < 2, ∀ i < (2 * l).choose N, ∀ j < (2 * l).choose N, ¬ (|(q j).1 - (q i).1| = 1 ∧ (q j).2 = (q i).2) →
        waveInner (Ψ j) (oneBodyOp (spinDipole l d c) (Ψ i)) = 0) ∧
      ∀ K, l = K * (K + 1) / 2 → ∀ ε M k,
        multiplicity ((2 * l).choose N) E q ε (M, k) = multiplicity ((2 * l).choose N) E q ε (-M, k) := by
  obtain ⟨b, h, u, h1, hh, hu, hc⟩ := C100_tdho l num radiusLength omega mass np false false
  obtain ⟨b', h1', cons⟩ := C91_tdho l num radiusLength omega mass np
  obtain rfl : b = b' := by simpa using h1.symm.trans h1'
  obtain ⟨h', hh', Hh⟩ := cons.h
  obtain rfl := Option.some.inj (hh.symm.trans hh')
  obtain ⟨u', hu', Hu, -⟩ := cons.u
  obtain rfl := Option.some.inj (hu.symm.trans hu')
  obtain ⟨E, Ψ, q, S⟩ := C125_electrons Hh Hu hc N
  obtain ⟨u0, hu0, hs⟩ := C45_table l
  obtain ⟨b'', d, h1'', hd, -, hz⟩ := C103_dipole u0 l num radiusLength hm ho np
  rw [hu0] at h1'
  obtain rfl : b = b'' := by simpa using h1'.symm.trans h1''
  obtain ⟨b'', h1'', hf, hH⟩ := tdho_ok u0 l num radiusLength omega mass np
  obtain rfl : b = b'' := by simpa using h1'.symm.trans h1''
  obtain rfl := Option.some.inj (hh.symm.trans hH)
  obtain rfl := Option.some.inj (hu.symm.trans hf.u_eq)
  refine ⟨b, _, _, d, E, Ψ, q, h1, hh, hu, hd, S, fun c hc2 i hi j hj hne => ?_, fun K hK ε M k => ?_⟩
  · refine dipole_transitions (Δ := {1, -1}) (fun p hp r hr hpr => ?_) S hi hj fun δ hδ h => hne ?_
    · have hz' := hz p hp r hr (getIndicesNm p).1 (getIndicesNm p).2 (getIndicesNm r).1 (getIndicesNm r).2 rfl rfl
      have h2 := hz'.1 fun habs => by
        rcases (abs_eq zero_le_one).1 habs with h | h
        · exact hpr 1 (by simp) (show (getIndicesNm p).2 = (getIndicesNm r).2 + 1 by omega)
        · exact hpr (-1) (by simp) (show (getIndicesNm p).2 = (getIndicesNm r).2 + -1 by omega)
      rcases (show c = 0 ∨ c = 1 by omega) with rfl | rfl
      · exact h2.1
      · exact h2.2
    · rw [h]
      refine ⟨?_, rfl⟩
      rcases hδ with rfl | hδ
      · simp
      · rw [Set.mem_singleton_iff.1 hδ]; simp
  · have hl : ∀ p < l, mirror p < l := fun p hp => by rw [hK] at hp ⊢; exact mirror_lt hp
    have T := relabel_spectrum S.states (π := mirrorSpin hl) (fun p => (mirrorSpin hl).left_inv p)
      (fun p r => by
        unfold spinOne
        rw [mirrorSpin_div, mirrorSpin_div, mirrorSpin_mod, mirrorSpin_mod]
        refine if_congr Iff.rfl ?_ rfl
        unfold oscillatorH
        rw [NDArray.smul_get, NDArray.smul_get, ofFn_get_of (by exact ⟨hl _ (by omega), hl _ (by omega), trivial⟩),
          ofFn_get_of (by exact ⟨by omega, by omega, trivial⟩)]
        simp only [List.getD_cons_zero, List.getD_cons_succ, mirror_nm]
        by_cases hpr : p.1 / 2 = r.1 / 2
        · rw [if_pos hpr, if_pos (by rw [hpr])]
          unfold getShellEnergy
          rw [abs_neg]
        · rw [if_neg hpr, if_neg fun h => hpr (by rw [← mirror_mirror (p.1 / 2), h, mirror_mirror])])
      (fun p r s t => by
        unfold spinTwo
        simp only [mirrorSpin_div, mirrorSpin_mod]
        refine if_congr Iff.rfl ?_ rfl
        rw [NDArray.smul_get, NDArray.smul_get, (hs _ _ _ _ (by omega) (by omega) (by omega) (by omega)).2.2 _ _ _ _
          (hl _ (by omega)) (hl _ (by omega)) (hl _ (by omega)) (hl _ (by omega)) (mirror_nm _) (mirror_nm _) (mirror_nm _)
          (mirror_nm _)])
      (τ := fun z => (-z.1, z.2)) (fun x => by
        rw [total_spin, total_spin]
        refine Prod.ext ?_ ?_
        · show ∑ i, (getIndicesNm ((mirrorSpin hl (x i)).1 / 2)).2 = -∑ i, (getIndicesNm ((x i).1 / 2)).2
          rw [← sum_neg_distrib]
          exact sum_congr rfl fun i _ => by rw [mirrorSpin_div, mirror_nm]
        · show ∑ i, (mirrorSpin hl (x i)).1 % 2 = ∑ i, (x i).1 % 2
          exact sum_congr rfl fun i _ => mirrorSpin_mod hl (x i))
    rw [C125_unique (spinOne_herm Hh) (spinTwo_herm Hu) S.states T ε (M, k)]
    refine multiplicity_congr (τ := fun z : ℤ × ℕ => (-z.1, z.2)) fun i hi => ?_
    simp only [Prod.ext_iff]
    refine and_congr_left fun _ => ?_
    omega

/-- **C125** `TwoDimHarmonicOscB`: total angular momentum and spin of the states of `N` electrons, and the dipole selection
rule. -/
theorem C125_magnetic {l num : ℕ} (N : ℕ) {radiusLength omega0 mass omegaC : ℝ} {np : Module} {b : BasisSet ℂ}
    {df : List Row} (h : oscB l num radiusLength omega0 mass omegaC np = .ok (b, df)) (hm : 0 < mass) (ho : omega0 ≠ 0 ∨ omegaC ≠ 0) :
    ∃ x u d E Ψ q, b.h = some x ∧ b.u = some u ∧ b.dipole = some d ∧
      ElectronStates (fun p => (indicesNmB df p).2) l x u N E Ψ q ∧
      ∀ c < 2, ∀ i < (2 * l).choose N, ∀ j < (2 * l).choose N, ¬ (|(q j).1 - (q i).1| = 1 ∧ (q j).2 = (q i).2) →
        waveInner (Ψ j) (oneBodyOp (spinDipole l d c) (Ψ i)) = 0 := by
  obtain ⟨x, u, hh, hu, hc⟩ := C100_magnetic h
  have cons := C91_magnetic h
  obtain ⟨h', hh', Hh⟩ := cons.h
  obtain rfl := Option.some.inj (hh.symm.trans hh')
  obtain ⟨u', hu', Hu, -⟩ := cons.u
  obtain rfl := Option.some.inj (hu.symm.trans hu')
  obtain ⟨E, Ψ, q, S⟩ := C125_electrons Hh Hu hc N
  obtain ⟨d, hd, -, hz⟩ := C103_magnetic h hm ho
  refine ⟨_, _, d, E, Ψ, q, hh, hu, hd, S, fun c hc2 i hi j hj hne => ?_⟩
  refine dipole_transitions (Δ := {1, -1}) (fun p hp r hr hpr => ?_) S hi hj fun δ hδ h => hne ?_
  · have hz' := hz p hp r hr (indicesNmB df p).1 (indicesNmB df p).2 (indicesNmB df r).1 (indicesNmB df r).2 rfl rfl
    have h2 := hz'.1 fun habs => by
      rcases (abs_eq zero_le_one).1 habs with h | h
      · exact hpr 1 (by simp) (show (indicesNmB df p).2 = (indicesNmB df r).2 + 1 by omega)
      · exact hpr (-1) (by simp) (show (indicesNmB df p).2 = (indicesNmB df r).2 + -1 by omega)
    rcases (show c = 0 ∨ c = 1 by omega) with rfl | rfl
    · exact h2.1
    · exact h2.2
  · rw [h]
    refine ⟨?_, rfl⟩
    rcases hδ with rfl | hδ
    · simp
    · rw [Set.mem_singleton_iff.1 hδ]; simp

/-- **C125** `TwoDimensionalDoubleWell`: the states of `N` electrons have a parity and a spin; the dipole moment connects only
states of opposite parity and equal spin. -/
theorem C125_double_well (l num N : ℕ) (radiusLength : ℝ) {omega mass : ℝ} (ho : 0 < omega) (hm : 0 < mass) (barrier : ℝ)
    (axis : ℕ) (np : Module) :
    ∃ b h u d E Ψ q, doubleWell (getCoulombElementsRaw l) l num radiusLength omega mass barrier axis np = .ok b ∧
      b.h = some h ∧ b.u = some u ∧ b.dipole = some d ∧
      ElectronStates (fun p => ((getIndicesNm p).2 : ZMod 2)) l h u N E Ψ q ∧
      ∀ c < 2, ∀ i < (2 * l).choose N, ∀ j < (2 * l).choose N, ¬ ((q j).1 ≠ (q i).1 ∧ (q j).2 = (q i).2) →
        waveInner (Ψ j) (oneBodyOp (spinDipole l d c) (Ψ i)) = 0 := by
  obtain ⟨b, h, u, h1, hh, hu, hc⟩ := C100_double_well l num radiusLength omega mass barrier axis np false false
  obtain ⟨b', h1', cons⟩ := C91_double_well l num radiusLength omega mass barrier axis np
  obtain rfl : b = b' := by simpa using h1.symm.trans h1'
  obtain ⟨h', hh', Hh⟩ := cons.h
  obtain rfl := Option.some.inj (hh.symm.trans hh')
  obtain ⟨u', hu', Hu, -⟩ := cons.u
  obtain rfl := Option.some.inj (hu.symm.trans hu')
  obtain ⟨E, Ψ, q, S⟩ := C125_electrons Hh Hu hc N
  obtain ⟨u0, hu0, -⟩ := C45_table l
  obtain ⟨bt, d, ht, hd, -, hz⟩ := C103_dipole u0 l num radiusLength hm ho np
  obtain ⟨bt', b'', d', ht', h1'', hdt, hd'⟩ := C103_double_well u0 l num radiusLength hm ho barrier axis np
  obtain rfl : bt = bt' := by simpa using ht.symm.trans ht'
  obtain rfl := Option.some.inj (hd.symm.trans hdt)
  rw [hu0] at h1'
  obtain rfl : b = b'' := by simpa using h1'.symm.trans h1''
  refine ⟨b, _, _, d, E, Ψ, q, h1, hh, hu, hd', S, fun c hc2 i hi j hj hne => ?_⟩
  refine dipole_transitions (Δ := {1}) (fun p hp r hr hpr => ?_) S hi hj fun δ hδ h => hne ?_
  · have hz' := hz p hp r hr (getIndicesNm p).1 (getIndicesNm p).2 (getIndicesNm r).1 (getIndicesNm r).2 rfl rfl
    have h2 := hz'.1 fun habs => hpr 1 rfl (by
      rcases (abs_eq zero_le_one).1 habs with h | h
      · rw [show (getIndicesNm p).2 = (getIndicesNm r).2 + 1 by omega]; push_cast; rfl
      · rw [show (getIndicesNm p).2 = (getIndicesNm r).2 + -1 by omega]
        push_cast
        congr 1)
    rcases (show c = 0 ∨ c = 1 by omega) with rfl | rfl
    · exact h2.1
    · exact h2.2
  · rw [h, Set.mem_singleton_iff.1 hδ]
    refine ⟨fun h' => ?_, rfl⟩
    simp at h'

/-- **C125** `ODHO`: the states of `N` electrons have a parity and a spin; the dipole moment connects only states of opposite
parity and equal spin. -/
theorem C125_odho (l N : ℕ) (L : ℝ) {num : ℕ} (h2 : 2 ≤ num) (omega : ℝ) {a : ℝ} (h0 : a ≠ 0) (alpha beta : ℝ)
    (np : Module) (sp an : Bool) :
    ∃ b h u d E Ψ q, odho l L num omega a alpha beta np sp an = .ok b ∧ b.h = some h ∧ b.u = some u ∧ b.dipole = some d ∧
      ElectronStates (fun p => (p : ZMod 2)) l h u N E Ψ q ∧
      ∀ i < (2 * l).choose N, ∀ j < (2 * l).choose N, ¬ ((q j).1 ≠ (q i).1 ∧ (q j).2 = (q i).2) →
        waveInner (Ψ j) (oneBodyOp (spinDipole l d 0) (Ψ i)) = 0 := by
  obtain ⟨b, h, u, h1, hh, hu, hc⟩ := C100_odho l L h2 omega h0 alpha beta np sp an
  obtain ⟨b', h1', cons⟩ := C91_odho l L h2 omega a alpha beta np sp an
  obtain rfl : b = b' := by simpa using h1.symm.trans h1'
  obtain ⟨h', hh', Hh⟩ := cons.h
  obtain rfl := Option.some.inj (hh.symm.trans hh')
  obtain ⟨u', hu', Hu, -⟩ := cons.u
  obtain rfl := Option.some.inj (hu.symm.trans hu')
  obtain ⟨E, Ψ, q, S⟩ := C125_electrons Hh Hu hc N
  obtain ⟨b'', h1'', -, -, hd⟩ := odho_ok l L h2 omega a alpha beta np sp an
  obtain rfl : b = b'' := by simpa using h1.symm.trans h1''
  refine ⟨b, _, _, _, E, Ψ, q, h1, hh, hu, hd, S, fun i hi j hj hne => ?_⟩
  refine dipole_transitions (Δ := {1}) (fun p hp r hr hpr => ?_) S hi hj fun δ hδ h => hne ?_
  · rw [ofFn_get_of (by exact ⟨by omega, hp, hr, trivial⟩)]
    simp only [List.getD_cons_zero, List.getD_cons_succ]
    rw [if_neg, if_neg]
    · intro h
      refine hpr 1 rfl ?_
      rw [← h]
      push_cast
      rfl
    · intro h
      refine hpr 1 rfl ?_
      rw [← h, Nat.cast_add, Nat.cast_one, add_assoc, show (1 : ZMod 2) + 1 = 0 from rfl, add_zero]
  · rw [h, Set.mem_singleton_iff.1 hδ]
    refine ⟨fun h' => ?_, rfl⟩
    simp at h'

/-- **C125** `ODQD` in a symmetric well: the states of `N` electrons have a parity and a spin; the dipole moment connects only
states of opposite parity and equal spin if `beta = 0`. -/
theorem C125_odqd {eigh : NDArray ℂ → Except PyErr (NDArray ℂ × NDArray ℂ)} (he : IsEigh eigh)
    {l num : ℕ} (N : ℕ) {L : ℝ} (hL : 0 < L) (h3 : 3 ≤ num) (hl : l ≤ num - 2) {a : ℝ} (h0 : a ≠ 0) (alpha beta : ℝ)
    {V : ℝ → ℝ} (hV : ∀ y, V (-y) = V y) (hm : Bool) (np : Module) (sp an : Bool) :
    ∃ b f h u d g E Ψ q, odqd eigh l L num a alpha beta V hm np sp an = .ok b ∧ b.spf = some f ∧ b.h = some h ∧ b.u = some u ∧
      b.dipole = some d ∧ ElectronStates (G := ZMod 2) g l h u N E Ψ q ∧
      (∀ p < l, ∀ i < num, f.get [p, num - 1 - i] = (if g p = 0 then 1 else -1) * f.get [p, i]) ∧
      (beta = 0 → ∀ i < (2 * l).choose N, ∀ j < (2 * l).choose N, ¬ ((q j).1 ≠ (q i).1 ∧ (q j).2 = (q i).2) →
        waveInner (Ψ j) (oneBodyOp (spinDipole l d 0) (Ψ i)) = 0) := by
  obtain ⟨b, f, h, d, u, h1, hf, hh, hd, hu, g, hc, hg, hz⟩ := odqd_parity he hL h3 hl h0 alpha beta hV hm np sp an
  obtain ⟨b', h1', cons⟩ := C91_odqd he hL h3 hl a alpha beta V hm np sp an
  obtain rfl : b = b' := by simpa using h1.symm.trans h1'
  obtain ⟨h', hh', Hh⟩ := cons.h
  obtain rfl := Option.some.inj (hh.symm.trans hh')
  obtain ⟨u', hu', Hu, -⟩ := cons.u
  obtain rfl := Option.some.inj (hu.symm.trans hu')
  obtain ⟨E, Ψ, q, S⟩ := C125_electrons Hh Hu hc N
  refine ⟨b, f, _, _, d, g, E, Ψ, q, h1, hf, hh, hu, hd, S, hg, fun hb i hi j hj hne => ?_⟩
  refine dipole_transitions (Δ := {1}) (fun p hp r hr hpr => ?_) S hi hj fun δ hδ h => hne ?_
  · refine hz hb p hp r hr ?_
    have h2 := hpr 1 rfl
    have key : ∀ x y : ZMod 2, x ≠ y + 1 → x = y := by decide
    exact key _ _ h2
  · rw [h, Set.mem_singleton_iff.1 hδ]
    refine ⟨fun h' => ?_, rfl⟩
    simp at h'

/-- Two electrons in a two-dimensional dot of three functions (`m = 0, -1, 1`): of the fifteen states one has the total
angular momentum `2`, with opposite spins, and two have `1` with opposite spins; no state has `2` with equal spins. -/
example : ∃ b h u E Ψ q, tdho (getCoulombElementsRaw 3) 3 11 4 2 1 0 = .ok b ∧ b.h = some h ∧ b.u = some u ∧
    ElectronStates (fun p => (getIndicesNm p).2) 3 h u 2 E Ψ q ∧
    Nat.card {i : Fin 15 // q i = (2, 1)} = 1 ∧ Nat.card {i : Fin 15 // q i = (1, 1)} = 2 ∧
    Nat.card {i : Fin 15 // q i = (2, 0)} = 0 ∧ ∀ ε, multiplicity 15 E q ε (2, 1) = multiplicity 15 E q ε (-2, 1) := by
  obtain ⟨b, h, u, d, E, Ψ, q, h1, hh, hu, -, S, -, hK⟩ := C125_tdho 3 11 2 4 (omega := 2) (mass := 1) two_pos one_pos 0
  have hc : ∀ Q k, Nat.card {i : Fin 15 // q i = (Q, k)} = _ := S.count
  refine ⟨b, h, u, E, Ψ, q, h1, hh, hu, S, ?_, ?_, ?_, fun ε => hK 2 rfl ε 2 1⟩
  · rw [hc 2 1, Nat.card_eq_fintype_card]; decide +kernel
  · rw [hc 1 1, Nat.card_eq_fintype_card]; decide +kernel
  · rw [hc 2 0, Nat.card_eq_fintype_card]; decide +kernel

end QS.Props
