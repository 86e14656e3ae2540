import Verif.Lemmas.ManyBodySpectrum
import Verif.Lemmas.Magnetic
import Verif.Props.Magnetic

/-!
# A part of the basis functions: energies, rows of the data frame
-/

namespace QS

open Finset

variable {N L M : ℕ}

/-- The first `M` of `L` functions. -/
def firstMat (L M : ℕ) : Matrix (Fin L) (Fin M) ℂ := fun a p => if a.1 = p.1 then 1 else 0

theorem firstMat_sum (hM : M ≤ L) (p : Fin M) (f : Fin L → ℂ) :
    ∑ a, firstMat L M a p * f a = f (Fin.castLE hM p) := by
  unfold firstMat
  rw [sum_eq_single (Fin.castLE hM p)]
  · simp
  · intro a _ ha
    rw [if_neg, zero_mul]
    intro e
    exact ha (Fin.ext e)
  · simp

theorem firstMat_star (a : Fin L) (p : Fin M) : (firstMat L M).conjTranspose p a = firstMat L M a p := by
  rw [Matrix.conjTranspose_apply]
  unfold firstMat
  split_ifs <;> simp

theorem firstMat_isometry (hM : M ≤ L) : (firstMat L M).conjTranspose * firstMat L M = 1 := by
  ext p q
  rw [Matrix.mul_apply, sum_congr rfl fun a _ => by rw [firstMat_star], firstMat_sum hM, Matrix.one_apply]
  unfold firstMat
  simp [Fin.ext_iff]

/-- The energies with fewer functions are higher. -/
theorem Spectrum.restrict (hM : M ≤ L) {h : Fin L → Fin L → ℂ} {u : Fin L → Fin L → Fin L → Fin L → ℂ}
    {h' : Fin M → Fin M → ℂ} {u' : Fin M → Fin M → Fin M → Fin M → ℂ} {D D' : ℕ} {E E' : ℕ → ℝ} {Ψ : ℕ → Wave ℂ N L}
    {Ψ' : ℕ → Wave ℂ N M} (S : Spectrum h u D E Ψ) (S' : Spectrum h' u' D' E' Ψ')
    (hh : ∀ p q, h' p q = h (Fin.castLE hM p) (Fin.castLE hM q))
    (hu : ∀ p q r s, u' p q r s = u (Fin.castLE hM p) (Fin.castLE hM q) (Fin.castLE hM r) (Fin.castLE hM s)) :
    D' ≤ D ∧ ∀ k < D', E k ≤ E' k := by
  refine S.truncate (Ψ' := Ψ') (firstMat_isometry hM) ?_
  convert S' using 1
  · funext p q
    rw [hh, Matrix.mul_apply]
    have : ∀ x, (((firstMat L M).conjTranspose * Matrix.of h) p x) * firstMat L M x q =
        firstMat L M x q * h (Fin.castLE hM p) x := fun x => by
      rw [Matrix.mul_apply, sum_congr rfl fun a _ => by rw [firstMat_star], firstMat_sum hM, mul_comm]
      rfl
    rw [sum_congr rfl fun x _ => this x, firstMat_sum hM]
  · funext p q r s
    rw [hu]
    have e : ∀ a b c d, (firstMat L M).conjTranspose p a * (firstMat L M).conjTranspose q b * u a b c d *
        firstMat L M c r * firstMat L M d s =
        firstMat L M a p * (firstMat L M b q * (firstMat L M c r * (firstMat L M d s * u a b c d))) := fun a b c d => by
      rw [firstMat_star, firstMat_star]
      ring
    simp only [e, ← mul_sum]
    rw [firstMat_sum hM, firstMat_sum hM, firstMat_sum hM, firstMat_sum hM]

end QS

namespace QS.TwoDim

open Idx

theorem omegaB_gt {omega omegaC : ℝ} (ho : omega ≠ 0) : |omegaC| / 2 < omegaB omega omegaC := by
  unfold omegaB
  refine Real.lt_sqrt_of_sq_lt ?_
  rw [div_pow, sq_abs]
  have := pow_pos (abs_pos.2 ho) 2
  rw [sq_abs] at this
  linarith

theorem shellEnergyB_lt_m {omegaC omega : ℝ} (ho : |omegaC| / 2 < omega) {m m' : ℤ} (hm : 0 ≤ m)
    (h : m < m') (n : ℤ) : shellEnergyB n m omegaC omega < shellEnergyB n m' omegaC omega := by
  unfold shellEnergyB
  rw [abs_of_nonneg hm, abs_of_nonneg (hm.trans h.le)]
  have h1 : (m : ℝ) < m' := by exact_mod_cast h
  have h2 : omegaC ≤ |omegaC| := le_abs_self _
  push_cast
  nlinarith

theorem shellEnergyB_lt_neg {omegaC omega : ℝ} (ho : |omegaC| / 2 < omega) {m m' : ℤ} (hm : 0 ≤ m)
    (h : m < m') (n : ℤ) : shellEnergyB n (-m) omegaC omega < shellEnergyB n (-m') omegaC omega := by
  unfold shellEnergyB
  rw [abs_neg, abs_neg, abs_of_nonneg hm, abs_of_nonneg (hm.trans h.le)]
  have h1 : (m : ℝ) < m' := by exact_mod_cast h
  have h2 : -omegaC ≤ |omegaC| := neg_le_abs _
  push_cast
  nlinarith

theorem shellEnergyB_lt_n {omegaC omega : ℝ} (ho : 0 < omega) {n n' : ℤ} (h : n < n') (m : ℤ) :
    shellEnergyB n m omegaC omega < shellEnergyB n' m omegaC omega := by
  unfold shellEnergyB
  have : ((2 * n + |m| + 1 : ℤ) : ℝ) < ((2 * n' + |m| + 1 : ℤ) : ℝ) := by exact_mod_cast (by omega)
  have := mul_lt_mul_of_pos_left this ho
  linarith

/-- `l` states of the window that are below a given state outside of it. -/
theorem outside_window_lt {l : ℕ} (hl : 1 ≤ l) {omegaC omega : ℝ} (ho : |omegaC| / 2 < omega) {n m : ℤ} (hn : 0 ≤ n)
    (hout : ¬ (n < l ∧ -(l : ℤ) - 5 ≤ m ∧ m ≤ l + 5)) :
    ∃ (L : List Row) (e : ℝ), L.Nodup ∧ L ⊆ windowRows (nArray l) (mArray l) omegaC omega ∧ L.length = l ∧
      e < shellEnergyB n m omegaC omega ∧ ∀ r ∈ L, r.E ≤ e := by
  have ho' : 0 < omega := lt_of_le_of_lt (by positivity) ho
  by_cases h1 : (l : ℤ) + 5 < m
  · refine ⟨(List.range l).map fun i : ℕ => rowOf omegaC omega (0, (i : ℤ)), shellEnergyB 0 l omegaC omega, ?_, ?_,
      by simp, ?_, ?_⟩
    · exact List.Nodup.map (fun i j h => by simpa using rowOf_injective _ _ h) List.nodup_range
    · intro r hr
      obtain ⟨i, hi, rfl⟩ := List.mem_map.1 hr
      rw [List.mem_range] at hi
      exact mem_window.2 ⟨0, i, le_rfl, by omega, by omega, by omega, rfl⟩
    · exact (shellEnergyB_lt_m ho (by omega) (by omega) 0).trans_le (shellEnergyB_mono_n ho'.le hn m)
    · intro r hr
      obtain ⟨i, hi, rfl⟩ := List.mem_map.1 hr
      rw [List.mem_range] at hi
      exact shellEnergyB_mono_m ho.le (by omega) (by omega) 0
  by_cases h2 : m < -(l : ℤ) - 5
  · refine ⟨(List.range l).map fun i : ℕ => rowOf omegaC omega (0, -(i : ℤ)), shellEnergyB 0 (-(l : ℤ)) omegaC omega,
      ?_, ?_, by simp, ?_, ?_⟩
    · exact List.Nodup.map (fun i j h => by simpa using rowOf_injective _ _ h) List.nodup_range
    · intro r hr
      obtain ⟨i, hi, rfl⟩ := List.mem_map.1 hr
      rw [List.mem_range] at hi
      exact mem_window.2 ⟨0, -i, le_rfl, by omega, by omega, by omega, rfl⟩
    · have := shellEnergyB_lt_neg ho (m := l) (m' := -m) (by omega) (by omega) 0
      rw [neg_neg] at this
      exact this.trans_le (shellEnergyB_mono_n ho'.le hn m)
    · intro r hr
      obtain ⟨i, hi, rfl⟩ := List.mem_map.1 hr
      rw [List.mem_range] at hi
      exact shellEnergyB_mono_neg ho.le (by omega) (by omega) 0
  · refine ⟨(List.range l).map fun i : ℕ => rowOf omegaC omega ((i : ℤ), m), shellEnergyB (l - 1) m omegaC omega, ?_, ?_,
      by simp, ?_, ?_⟩
    · exact List.Nodup.map (fun i j h => by simpa using rowOf_injective _ _ h) List.nodup_range
    · intro r hr
      obtain ⟨i, hi, rfl⟩ := List.mem_map.1 hr
      rw [List.mem_range] at hi
      exact mem_window.2 ⟨i, m, by omega, by omega, by omega, by omega, rfl⟩
    · exact shellEnergyB_lt_n ho' (by omega) m
    · intro r hr
      obtain ⟨i, hi, rfl⟩ := List.mem_map.1 hr
      rw [List.mem_range] at hi
      exact shellEnergyB_mono_n ho'.le (by omega) m

/-- Rows with the same energy and the same `m` have the same `n`. -/
theorem rowLe_antisymm {omegaC omega : ℝ} (ho : 0 < omega) {k k' : ℤ × ℤ} (h1 : RowLe (rowOf omegaC omega k) (rowOf omegaC omega k'))
    (h2 : RowLe (rowOf omegaC omega k') (rowOf omegaC omega k)) : k = k' := by
  obtain ⟨n, m⟩ := k
  obtain ⟨n', m'⟩ := k'
  have hE : shellEnergyB n m omegaC omega = shellEnergyB n' m' omegaC omega :=
    le_antisymm h1.energy h2.energy
  have hm : m = m' := by
    rcases h1 with h1 | ⟨-, h1⟩
    · exact absurd hE (ne_of_lt h1)
    · rcases h2 with h2 | ⟨-, h2⟩
      · exact absurd hE.symm (ne_of_lt h2)
      · exact le_antisymm h1 h2
  subst hm
  rcases lt_trichotomy n n' with h | h | h
  · exact absurd hE (ne_of_lt (shellEnergyB_lt_n ho h m))
  · rw [h]
  · exact absurd hE.symm (ne_of_lt (shellEnergyB_lt_n ho h m))

/-- The rows of a smaller data frame are the first rows of a larger one. -/
theorem sortRows_take {l l' : ℕ} (hll : l ≤ l') {omegaC omega : ℝ} (ho : |omegaC| / 2 < omega) :
    (sortRows (windowRows (nArray l') (mArray l') omegaC omega)).take l =
      (sortRows (windowRows (nArray l) (mArray l) omegaC omega)).take l := by
  classical
  rcases Nat.eq_zero_or_pos l with rfl | hl
  · simp
  have ho' : 0 < omega := lt_of_le_of_lt (by positivity) ho
  set W := windowRows (nArray l) (mArray l) omegaC omega with hW
  set W' := windowRows (nArray l') (mArray l') omegaC omega with hW'
  set A := (sortRows W).take l with hA
  have hWn : W.Nodup := window_nodup _ _ _
  have hWn' : W'.Nodup := window_nodup _ _ _
  have hSn : (sortRows W).Nodup := (sortRows_perm W).nodup_iff.2 hWn
  have hlen : l ≤ (sortRows W).length := by
    rw [(sortRows_perm W).length_eq, hW, window_length]
    nlinarith
  have hsub : W ⊆ W' := fun r hr => by
    obtain ⟨n, m, h0, h1, h2, h3, e⟩ := mem_window.1 hr
    exact mem_window.2 ⟨n, m, h0, by omega, by omega, by omega, e⟩
  have hAW : A ⊆ W' := fun r hr => hsub ((sortRows_perm W).mem_iff.1 (List.mem_of_mem_take hr))
  have hAn : A.Nodup := hSn.sublist (List.take_sublist _ _)
  have hAlen : A.length = l := by rw [hA, List.length_take]; omega
  have hsorted := sortRows_sorted W
  have hbelow : ∀ a ∈ A, ∀ r ∈ W', r ∉ A → RowLe a r := fun a ha r hr hra => by
    obtain ⟨p, hp, rfl⟩ := List.mem_iff_getElem.1 ha
    have hp' : p < (sortRows W).length := by omega
    have e : A[p] = (sortRows W)[p] := List.getElem_take
    rw [e]
    by_cases hrW : r ∈ W
    · obtain ⟨i, hi, rfl⟩ := List.mem_iff_getElem.1 ((sortRows_perm W).mem_iff.2 hrW)
      have hli : l ≤ i := by
        by_contra hlt
        exact hra (List.mem_iff_getElem.2 ⟨i, by omega, List.getElem_take⟩)
      exact List.pairwise_iff_getElem.1 hsorted p i hp' hi (by omega)
    · obtain ⟨n, m, h0, h1, h2, h3, rfl⟩ := mem_window.1 hr
      have hout : ¬ (n < l ∧ -(l : ℤ) - 5 ≤ m ∧ m ≤ l + 5) := fun h =>
        hrW (mem_window.2 ⟨n, m, h0, h.1, h.2.1, h.2.2, rfl⟩)
      obtain ⟨K, e, hK, hKW, hKl, he, hKe⟩ := outside_window_lt hl ho h0 hout
      refine .inl (lt_of_le_of_lt ?_ he)
      refine energy_at hsorted ?_ hp'
      rw [(sortRows_perm _).countP_eq]
      exact lt_of_lt_of_le (by omega) (count_ge hK hKW hKe)
  have hperm : (A ++ sortRows (W'.filter (fun r => r ∉ A))).Perm (sortRows W') := by
    refine ((sortRows_perm _).append_left A).trans (List.Perm.trans ?_ (sortRows_perm W').symm)
    refine (List.perm_ext_iff_of_nodup ?_ hWn').2 fun r => ?_
    · refine List.Nodup.append hAn (hWn'.filter _) fun r h1 h2 => ?_
      have := (List.mem_filter.1 h2).2
      simp [h1] at this
    · rw [List.mem_append, List.mem_filter]
      constructor
      · rintro (h | h)
        · exact hAW h
        · exact h.1
      · intro h
        by_cases hr : r ∈ A
        · exact .inl hr
        · exact .inr ⟨h, by simpa using hr⟩
  have hpair : (A ++ sortRows (W'.filter (fun r => r ∉ A))).Pairwise RowLe := by
    refine List.pairwise_append.2 ⟨hsorted.sublist (List.take_sublist _ _), sortRows_sorted _, fun a ha r hr => ?_⟩
    have := List.mem_filter.1 ((sortRows_perm _).mem_iff.1 hr)
    exact hbelow a ha r this.1 (by simpa using this.2)
  have heq : A ++ sortRows (W'.filter (fun r => r ∉ A)) = sortRows W' := by
    refine hperm.eq_of_pairwise (fun a b ha hb h1 h2 => ?_) hpair (sortRows_sorted W')
    have hb' := (sortRows_perm W').mem_iff.1 hb
    have ha' := (sortRows_perm W').mem_iff.1 (hperm.mem_iff.1 ha)
    obtain ⟨n, m, -, -, -, -, rfl⟩ := mem_window.1 ha'
    obtain ⟨n', m', -, -, -, -, rfl⟩ := mem_window.1 hb'
    rw [rowLe_antisymm ho' h1 h2]
  rw [← heq, ← hAlen, List.take_left]

end QS.TwoDim
