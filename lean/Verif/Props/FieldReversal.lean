import Verif.Props.Magnetic
import Verif.Props.Coulomb
import Verif.Lemmas.PotentialOrder
import Mathlib.Data.Fin.Tuple.Sort

/-!
# Reversing the magnetic field (C150)
-/

namespace QS.Props

open TwoDim Idx NDArray Spec Finset

/-- No energy level is cut: every state of the infinite spectrum that is left out lies above all states that are kept. -/
def LevelsComplete (l : ℕ) (omega0 omegaC : ℝ) (df : List Row) : Prop :=
  ∀ k ∈ keptStates l df, ∀ n m : ℤ, 0 ≤ n → (n, m) ∉ keptStates l df → levelEnergy omega0 omegaC k < levelEnergy omega0 omegaC (n, m)

theorem levelEnergy_reversed (omega0 omegaC : ℝ) (n m : ℤ) :
    levelEnergy omega0 (-omegaC) (n, -m) = levelEnergy omega0 omegaC (n, m) := by
  unfold levelEnergy
  simp only [abs_neg, neg_sq]
  push_cast
  ring

/-- The reversed field keeps the mirrored states. -/
theorem mirrored_states {l : ℕ} {omega0 omegaC : ℝ} {df df' : List Row} (h : dataframeB l omega0 omegaC = .ok df)
    (h' : dataframeB l omega0 (-omegaC) = .ok df') (full : LevelsComplete l omega0 omegaC df) :
    ∀ p < l, ∃ p' < l, indicesNmB df' p' = ((indicesNmB df p).1, -(indicesNmB df p).2) := by
  obtain ⟨len, nd, nn, -⟩ := C51_lowest h
  obtain ⟨len', nd', nn', low'⟩ := C51_lowest h'
  have minj : Function.Injective fun k : ℤ × ℤ => (k.1, -k.2) := fun a b e => by
    simp only [Prod.mk.injEq, neg_inj] at e
    exact Prod.ext e.1 e.2
  set A := (keptStates l df).toFinset.image fun k : ℤ × ℤ => (k.1, -k.2) with hA
  set B := (keptStates l df').toFinset with hB
  have cA : #A = l := by rw [hA, card_image_of_injective _ minj, List.toFinset_card_of_nodup nd, len]
  have cB : #B = l := by rw [hB, List.toFinset_card_of_nodup nd', len']
  have sub : B ⊆ A := by
    by_contra hn
    obtain ⟨k, kB, kA⟩ := not_subset.1 hn
    have hn' : ¬A ⊆ B := fun s => hn (eq_of_subset_of_card_le s (by omega)).ge
    obtain ⟨j, jA, jB⟩ := not_subset.1 hn'
    obtain ⟨i, iA, rfl⟩ := mem_image.1 jA
    have iA := List.mem_toFinset.1 iA
    have kB := List.mem_toFinset.1 kB
    have h1 := low' k kB i.1 (-i.2) (nn i iA) fun e => jB (List.mem_toFinset.2 e)
    have h2 : (k.1, -k.2) ∉ keptStates l df := fun e => kA (mem_image.2 ⟨(k.1, -k.2), List.mem_toFinset.2 e, by simp⟩)
    have h3 := full i iA k.1 (-k.2) (nn' k kB) h2
    rw [levelEnergy_reversed] at h1
    have h4 := levelEnergy_reversed omega0 omegaC k.1 (-k.2)
    rw [neg_neg] at h4
    rw [← h4] at h3
    exact absurd h1 (not_le.2 h3)
  have eq : B = A := eq_of_subset_of_card_le sub (by omega)
  intro p hp
  have : ((indicesNmB df p).1, -(indicesNmB df p).2) ∈ B := by
    rw [eq]
    exact mem_image.2 ⟨indicesNmB df p, List.mem_toFinset.2 (List.mem_map.2 ⟨p, List.mem_range.2 hp, rfl⟩), rfl⟩
  obtain ⟨p', hp', e⟩ := List.mem_map.1 (List.mem_toFinset.1 this)
  exact ⟨p', List.mem_range.1 hp', e⟩

/-- Two ascending sequences, one of them the other one in another order. -/
theorem ascending_unique {l : ℕ} {f g : Fin l → ℝ} (hf : Monotone f) (hg : Monotone g) (σ : Equiv.Perm (Fin l))
    (e : ∀ p, f p = g (σ p)) : f = g := by
  have h1 : f = g ∘ σ := funext e
  have h2 := Tuple.comp_sort_eq_comp_iff_monotone.2 (h1 ▸ hf : Monotone (g ∘ σ))
  have h3 := Tuple.comp_sort_eq_comp_iff_monotone (f := g) (σ := 1) |>.2 hg
  rw [h1, h2, ← h3]
  rfl

/-- The arrays of `b'` are those of `b`, mirrored at the x axis, with the orbitals renumbered by `σ`. -/
structure Mirrored (l num : ℕ) (σ : ℕ → ℕ) (h u d f h' u' d' f' : NDArray ℂ) : Prop where
  shape_one : h.shape = [l, l]
  shape_two : u.shape = [l, l, l, l]
  lt : ∀ p < l, σ p < l
  inj : ∀ p < l, ∀ q < l, σ p = σ q → p = q
  one : ∀ p < l, ∀ q < l, h'.get [σ p, σ q] = h.get [p, q]
  two : ∀ p < l, ∀ q < l, ∀ r < l, ∀ s < l, u'.get [σ p, σ q, σ r, σ s] = u.get [p, q, r, s]
  x : ∀ p < l, ∀ q < l, d'.get [0, σ p, σ q] = d.get [0, p, q]
  y : ∀ p < l, ∀ q < l, d'.get [1, σ p, σ q] = -d.get [1, p, q]
  spf : ∀ p < l, ∀ i < num, ∀ j < num, f'.get [σ p, i, j] = star (f.get [p, i, j])

/-- **C150** `TwoDimHarmonicOscB` in the reversed field is, if no energy level is cut, the mirror image of the object in the field:
the same one-body energies in the same order, the same two-body elements and the same dipole elements along x for renumbered orbitals,
the dipole elements along y with the other sign, and the complex conjugate functions. -/
theorem C150_mirrored {l num : ℕ} {radiusLength omega0 mass omegaC : ℝ} {np np' : Module} {b b' : BasisSet ℂ} {df df' : List Row}
    (run : oscB l num radiusLength omega0 mass omegaC np = .ok (b, df))
    (run' : oscB l num radiusLength omega0 mass (-omegaC) np' = .ok (b', df')) (full : LevelsComplete l omega0 omegaC df) :
    ∃ h u d f h' u' d' f', b.h = some h ∧ b.u = some u ∧ b.dipole = some d ∧ b.spf = some f ∧
      b'.h = some h' ∧ b'.u = some u' ∧ b'.dipole = some d' ∧ b'.spf = some f' ∧
      (∀ p < l, ∀ q < l, h'.get [p, q] = h.get [p, q]) ∧ ∃ σ, Mirrored l num σ h u d f h' u' d' f' := by
  obtain ⟨hd, h, hh, hs, he⟩ := C51_one_body run
  obtain ⟨hd', h', hh', -, he'⟩ := C51_one_body run'
  have nd := (C51_lowest hd).2.1
  have hw : omegaB omega0 (-omegaC) = omegaB omega0 omegaC := by
    unfold omegaB
    rw [neg_sq]
  have ref := mirrored_states hd hd' full
  have hinj : ∀ p q, p < l → q < l → indicesNmB df p = indicesNmB df q → p = q := fun p q hp hq e =>
    (List.nodup_map_iff_inj_on List.nodup_range).1 nd p (List.mem_range.2 hp) q (List.mem_range.2 hq) e
  have hn : ∀ p < l, 0 ≤ (indicesNmB df p).1 := fun p hp => (kept_row hd hp).2.2.2
  obtain ⟨b₁, x₁, u₁, r₁, -, u1, -, -, -, -, -, u2, u3, u4⟩ := oscB_ok hd num radiusLength mass np
  rw [r₁] at run
  cases run
  obtain ⟨b₂, x₂, u₂, r₂, -, v1, -, -, -, -, -, v2, v3, v4⟩ := oscB_ok hd' num radiusLength mass np'
  rw [r₂] at run'
  cases run'
  rw [getCoulombElementsB_eq] at u1 v1
  cases u1
  cases v1
  rw [hw] at v2 v3 v4
  let σ : ℕ → ℕ := fun p => if hp : p < l then (ref p hp).choose else 0
  have hσ : ∀ p < l, σ p < l ∧ indicesNmB df' (σ p) = ((indicesNmB df p).1, -(indicesNmB df p).2) := fun p hp => by
    have := (ref p hp).choose_spec
    simp only [σ, dif_pos hp]
    exact this
  have σinj : ∀ p < l, ∀ q < l, σ p = σ q → p = q := fun p hp q hq e => by
    refine hinj p q hp hq ?_
    have h1 := (hσ p hp).2
    rw [e, (hσ q hq).2] at h1
    simp only [Prod.mk.injEq, neg_inj] at h1
    exact (Prod.ext h1.1 h1.2).symm
  have diag : ∀ p < l, levelEnergy omega0 (-omegaC) (indicesNmB df' (σ p)) = levelEnergy omega0 omegaC (indicesNmB df p) :=
    fun p hp => by rw [(hσ p hp).2, levelEnergy_reversed]
  have asc : ∀ {omegaC : ℝ} {df : List Row}, dataframeB l omega0 omegaC = .ok df →
      Monotone fun p : Fin l => levelEnergy omega0 omegaC (indicesNmB df p.1) := fun {omegaC df} hd p q hpq => by
    rcases hpq.lt_or_eq with hlt | rfl
    · obtain ⟨hp', -, h1, -⟩ := kept_row hd p.2
      obtain ⟨hq', -, h2, -⟩ := kept_row hd q.2
      have h3 := (List.pairwise_iff_getElem.1 (sortRows_sorted (windowRows (nArray l) (mArray l) omegaC (omegaB omega0 omegaC)))
        p.1 q.1 hp' hq' hlt).energy
      rw [h1, h2] at h3
      exact h3
    · exact le_rfl
  have same := ascending_unique (asc hd) (asc hd') (Equiv.ofBijective (fun p : Fin l => (⟨σ p.1, (hσ p.1 p.2).1⟩ : Fin l))
    (Finite.injective_iff_bijective.1 fun p q e => Fin.ext (σinj p.1 p.2 q.1 q.2 (congrArg Fin.val e)))) fun p => (diag p.1 p.2).symm
  have mirrorN : ∀ (n m : ℤ) (om : ℝ), spfNorm n (-m) mass om = spfNorm n m mass om := fun n m om => by
    unfold spfNorm
    rw [abs_neg]
  have mirrorR : ∀ (n m : ℤ) (om : ℝ), spfRadial n (-m) mass om = spfRadial n m mass om := fun n m om => by
    unfold spfRadial
    rw [Int.natAbs_neg]
  have mirrorD : ∀ p < l, ∀ q < l, |(indicesNmB df' (σ p)).2 - (indicesNmB df' (σ q)).2| =
      |(indicesNmB df p).2 - (indicesNmB df q).2| := fun p hp q hq => by
    rw [(hσ p hp).2, (hσ q hq).2, show -(indicesNmB df p).2 - -(indicesNmB df q).2 = -((indicesNmB df p).2 - (indicesNmB df q).2)
      by ring, abs_neg]
  refine ⟨h, _, _, _, h', _, _, _, hh, u2, u4, u3, hh', v2, v4, v3, fun p hp q hq => ?_, σ, hs, rfl, fun p hp => (hσ p hp).1, σinj,
    fun p hp q hq => ?_, fun p hp q hq r hr s hs => ?_, fun p hp q hq => ?_, fun p hp q hq => ?_, fun p hp i hi j hj => ?_⟩
  · rw [he p q hp hq, he' p q hp hq]
    have := congrFun same ⟨p, hp⟩
    dsimp only at this
    rw [this]
  · rw [he p q hp hq, he' _ _ (hσ p hp).1 (hσ q hq).1, diag p hp]
    exact if_congr ⟨σinj p hp q hq, fun e => by rw [e]⟩ rfl rfl
  · rw [toComplex_get, toComplex_get, smul, smul,
      ofFn_get_of (show InRange (ofFn _ [l, l, l, l] _).shape [σ p, σ q, σ r, σ s] from ⟨(hσ p hp).1, (hσ q hq).1, (hσ r hr).1, (hσ s hs).1, trivial⟩),
      ofFn_get_of (show InRange (ofFn _ [l, l, l, l] _).shape [p, q, r, s] from ⟨hp, hq, hr, hs, trivial⟩),
      ofFn_get_of (show InRange [l, l, l, l] [σ p, σ q, σ r, σ s] from ⟨(hσ p hp).1, (hσ q hq).1, (hσ r hr).1, (hσ s hs).1, trivial⟩),
      ofFn_get_of (show InRange [l, l, l, l] [p, q, r, s] from ⟨hp, hq, hr, hs, trivial⟩)]
    simp only [List.getD_cons_zero, List.getD_cons_succ]
    rw [(hσ p hp).2, (hσ q hq).2, (hσ r hr).2, (hσ s hs).2]
    obtain ⟨np, ep⟩ := Int.eq_ofNat_of_zero_le (hn p hp)
    obtain ⟨nq, eq⟩ := Int.eq_ofNat_of_zero_le (hn q hq)
    obtain ⟨nr, er⟩ := Int.eq_ofNat_of_zero_le (hn r hr)
    obtain ⟨ns, es⟩ := Int.eq_ofNat_of_zero_le (hn s hs)
    rw [ep, eq, er, es]
    dsimp only
    rw [(C45_quantum_numbers np nq nr ns (indicesNmB df p).2 (indicesNmB df q).2 (indicesNmB df r).2 (indicesNmB df s).2).2.2]
  · rw [toComplex_get, toComplex_get, ofFn_get_of (show InRange [2, l, l] [0, σ p, σ q] from ⟨by omega, (hσ p hp).1, (hσ q hq).1, trivial⟩),
      ofFn_get_of (show InRange [2, l, l] [0, p, q] from ⟨by omega, hp, hq, trivial⟩)]
    simp only [List.getD_cons_zero, List.getD_cons_succ]
    unfold dipoleEntry theta1
    rw [if_pos rfl, if_pos rfl, mirrorD p hp q hq, (hσ p hp).2, (hσ q hq).2]
    simp only [mirrorN, mirrorR]
  · rw [toComplex_get, toComplex_get, ofFn_get_of (show InRange [2, l, l] [1, σ p, σ q] from ⟨by omega, (hσ p hp).1, (hσ q hq).1, trivial⟩),
      ofFn_get_of (show InRange [2, l, l] [1, p, q] from ⟨by omega, hp, hq, trivial⟩)]
    simp only [List.getD_cons_zero, List.getD_cons_succ]
    unfold dipoleEntry theta2
    rw [if_neg one_ne_zero, if_neg one_ne_zero, mirrorD p hp q hq, (hσ p hp).2, (hσ q hq).2]
    simp only [mirrorN, mirrorR]
    split_ifs
    · push_cast
      ring
    · rw [neg_zero]
  · rw [toComplex_get, toComplex_get, setupSpf, setupSpf, ofFn_get_of (show InRange [l, num, num] [σ p, i, j] from ⟨(hσ p hp).1, hi, hj, trivial⟩),
      ofFn_get_of (show InRange [l, num, num] [p, i, j] from ⟨hp, hi, hj, trivial⟩)]
    simp only [List.getD_cons_zero, List.getD_cons_succ]
    unfold spfState spfTheta
    rw [(hσ p hp).2]
    simp only [mirrorN, mirrorR, star_mul', Complex.star_def, Complex.conj_ofReal, ← Complex.exp_conj, map_mul, Complex.conj_I]
    push_cast
    simp

/-- **C150** The energies of `N` electrons do not change when the field is reversed. -/
theorem C150_energies {l num : ℕ} {radiusLength omega0 mass omegaC : ℝ} {np np' : Module} {b b' : BasisSet ℂ} {df df' : List Row}
    (run : oscB l num radiusLength omega0 mass omegaC np = .ok (b, df))
    (run' : oscB l num radiusLength omega0 mass (-omegaC) np' = .ok (b', df')) (full : LevelsComplete l omega0 omegaC df)
    {h u h' u' : NDArray ℂ} (hh : b.h = some h) (hu : b.u = some u) (hh' : b'.h = some h') (hu' : b'.u = some u')
    {N : ℕ} {E E' : ℕ → ℝ} (S : ElectronEnergies l h u N E) (S' : ElectronEnergies l h' u' N E') :
    ∀ k < (2 * l).choose N, E' k = E k := by
  obtain ⟨_, _, d, f, _, _, d', f', k1, k2, -, -, k1', k2', -, -, -, σ, M⟩ := C150_mirrored run run' full
  obtain rfl := Option.some.inj (hh.symm.trans k1)
  obtain rfl := Option.some.inj (hu.symm.trans k2)
  obtain rfl := Option.some.inj (hh'.symm.trans k1')
  obtain rfl := Option.some.inj (hu'.symm.trans k2')
  set C : NDArray ℂ := ofFn .complex128 [l, l] fun i => if i.getD 0 0 = σ (i.getD 1 0) then 1 else 0 with hC
  have Cg : ∀ a < l, ∀ p < l, C.get [a, p] = if a = σ p then 1 else 0 := fun a ha p hp => ofFn_get_of (by exact ⟨ha, hp, trivial⟩)
  have Ct : ∀ a < l, ∀ p < l, C.conj.T.get [p, a] = if a = σ p then 1 else 0 := fun a ha p hp => by
    rw [conjT_get2 C rfl, Cg a ha p hp]
    split_ifs <;> simp
  have pick : ∀ p < l, ∀ F : ℕ → ℂ, ∑ a ∈ range l, (if a = σ p then 1 else 0) * F a = F (σ p) := fun p hp F => by
    rw [sum_eq_single_of_mem (σ p) (mem_range.2 (M.lt p hp)) fun a _ ha => by rw [if_neg ha, zero_mul], if_pos rfl, one_mul]
  refine fun k hk => (ElectronEnergies.transport (C := C) rfl (fun p hp q hq => ?_) ⟨M.shape_one, fun p hp q hq => ?_⟩
    ⟨M.shape_two, fun p hp q hq r hr s hs => ?_⟩ S' S k hk).symm
  · rw [sum_congr rfl fun a ha => by rw [Cg a (mem_range.1 ha) p hp, Cg a (mem_range.1 ha) q hq, apply_ite star, star_one, star_zero],
      pick p hp, kd]
    exact if_congr ⟨M.inj p hp q hq, fun e => by rw [e]⟩ rfl rfl
  · rw [← M.one p hp q hq, ← pick p hp fun a => h'.get [a, σ q]]
    refine sum_congr rfl fun a ha => ?_
    rw [Ct a (mem_range.1 ha) p hp, ← pick q hq fun b => h'.get [a, b], mul_sum]
    refine sum_congr rfl fun b hb => ?_
    rw [Cg b (mem_range.1 hb) q hq]
    ring
  · rw [← M.two p hp q hq r hr s hs, ← pick p hp fun a => u'.get [a, σ q, σ r, σ s]]
    refine sum_congr rfl fun a ha => ?_
    rw [← pick q hq fun b => u'.get [a, b, σ r, σ s], mul_sum]
    refine sum_congr rfl fun b hb => ?_
    rw [← pick r hr fun c => u'.get [a, b, c, σ s], mul_sum, mul_sum]
    refine sum_congr rfl fun c hc => ?_
    rw [← pick s hs fun d => u'.get [a, b, c, d], mul_sum, mul_sum, mul_sum]
    refine sum_congr rfl fun d hd => ?_
    rw [Ct a (mem_range.1 ha) p hp, Ct b (mem_range.1 hb) q hq, Cg c (mem_range.1 hc) r hr, Cg d (mem_range.1 hd) s hs]
    ring

/-- Two orbitals with `ω₀ = 3` and `ω_c = 8` are the states `m = 0, 1` with the energies `5` and `6`; no level is cut, and in the
reversed field the orbitals are `m = 0, -1`. -/
example {df df' : List Row} (h : dataframeB 2 3 8 = .ok df) (h' : dataframeB 2 3 (-8) = .ok df') :
    LevelsComplete 2 3 8 df ∧ (0, -1) ∈ keptStates 2 df' := by
  have sq : Real.sqrt ((3 : ℝ) ^ 2 + 8 ^ 2 / 4) = 5 := by
    rw [show (3 : ℝ) ^ 2 + 8 ^ 2 / 4 = 5 ^ 2 by norm_num]
    exact Real.sqrt_sq (by norm_num)
  have e1 : ∀ n m : ℤ, levelEnergy 3 8 (n, m) = ((5 * (2 * n + |m| + 1) - 4 * m : ℤ) : ℝ) := fun n m => by
    unfold levelEnergy
    rw [sq]
    push_cast
    ring
  obtain ⟨len, nd, nn, low⟩ := C51_lowest h
  have up : ∀ n m : ℤ, 0 ≤ n → (n, m) ≠ (0, 0) → (n, m) ≠ (0, 1) → 6 < 5 * (2 * n + |m| + 1) - 4 * m := fun n m hn h0 h1 => by
    rcases abs_cases m with ⟨ha, hm⟩ | ⟨ha, hm⟩ <;> rw [ha]
    · by_contra hc
      have : n = 0 ∧ (m = 0 ∨ m = 1) := by omega
      rcases this with ⟨rfl, rfl | rfl⟩
      · exact h0 rfl
      · exact h1 rfl
    · omega
  have mem : ∀ s : ℤ × ℤ, s = (0, 0) ∨ s = (0, 1) → s ∈ keptStates 2 df := fun s hs => by
    by_contra hout
    have sub : (keptStates 2 df).toFinset ⊆ (({(0, 0), (0, 1)} : Finset (ℤ × ℤ)).erase s) := fun k hk => by
      have hk := List.mem_toFinset.1 hk
      refine mem_erase.2 ⟨fun e => hout (e ▸ hk), ?_⟩
      by_contra hk'
      have ne0 : k ≠ (0, 0) := fun e => hk' (by rw [e]; simp)
      have ne1 : k ≠ (0, 1) := fun e => hk' (by rw [e]; simp)
      have h2 := low k hk s.1 s.2 (by rcases hs with rfl | rfl <;> exact le_rfl) hout
      obtain ⟨n, m⟩ := k
      have h3 := up n m (nn _ hk) ne0 ne1
      rw [e1, e1] at h2
      have h4 := Int.cast_le.1 h2
      rcases hs with rfl | rfl <;> norm_num at h4 <;> omega
    have := card_le_card sub
    rw [List.toFinset_card_of_nodup nd, len, card_erase_of_mem (by rcases hs with rfl | rfl <;> simp)] at this
    exact absurd this (by decide)
  have full : LevelsComplete 2 3 8 df := fun k hk n m hn hout => by
    have eq : (keptStates 2 df).toFinset = {(0, 0), (0, 1)} := (eq_of_subset_of_card_le (fun s hs => by
      simp only [mem_insert, mem_singleton] at hs
      exact List.mem_toFinset.2 (mem s hs)) (by rw [List.toFinset_card_of_nodup nd, len]; decide)).symm
    have hk' : k ∈ ({(0, 0), (0, 1)} : Finset (ℤ × ℤ)) := eq ▸ List.mem_toFinset.2 hk
    simp only [mem_insert, mem_singleton] at hk'
    have h3 := up n m hn (fun e => hout (e ▸ mem _ (.inl rfl))) fun e => hout (e ▸ mem _ (.inr rfl))
    rw [e1]
    rcases hk' with rfl | rfl
    · rw [e1]
      exact Int.cast_lt.2 (by norm_num; omega)
    · rw [e1]
      exact Int.cast_lt.2 (by norm_num; omega)
  refine ⟨full, ?_⟩
  obtain ⟨p, hp, e⟩ := List.mem_map.1 (mem (0, 1) (.inr rfl))
  obtain ⟨p', hp', e'⟩ := mirrored_states h h' full p (List.mem_range.1 hp)
  exact List.mem_map.2 ⟨p', List.mem_range.2 hp', by rw [e', e]⟩

/-! ## Levels that are cut -/

/-- Among states of the same energy the ones with the smallest `m` are kept. -/
theorem kept_order {l : ℕ} {omega0 omegaC : ℝ} {df : List Row} (h : dataframeB l omega0 omegaC = .ok df) {n m : ℤ} (hn : 0 ≤ n)
    (hnl : n < l) (hm : -(l : ℤ) - 5 ≤ m) (hm' : m ≤ l + 5) (hout : (n, m) ∉ keptStates l df) :
    ∀ k ∈ keptStates l df, levelEnergy omega0 omegaC k < levelEnergy omega0 omegaC (n, m) ∨
      levelEnergy omega0 omegaC k = levelEnergy omega0 omegaC (n, m) ∧ k.2 ≤ m := by
  intro k hk
  obtain ⟨p, hp, rfl⟩ := List.mem_map.1 hk
  rw [List.mem_range] at hp
  obtain ⟨hp', -, h1, -⟩ := kept_row h hp
  have hmem : rowOf omegaC (omegaB omega0 omegaC) (n, m)
      ∈ sortRows (windowRows (nArray l) (mArray l) omegaC (omegaB omega0 omegaC)) :=
    (sortRows_perm _).mem_iff.2 (mem_window.2 ⟨n, m, hn, hnl, hm, hm', rfl⟩)
  obtain ⟨i, hi, hrow⟩ := List.mem_iff_getElem.1 hmem
  have hli : l ≤ i := by
    by_contra hlt
    obtain ⟨hi', -, h3, -⟩ := kept_row h (show i < l by omega)
    exact hout (List.mem_map.2 ⟨i, List.mem_range.2 (by omega), rowOf_injective _ _ (h3.symm.trans hrow)⟩)
  have := List.pairwise_iff_getElem.1 (sortRows_sorted (windowRows (nArray l) (mArray l) omegaC (omegaB omega0 omegaC))) p i hp' hi
    (by omega)
  rw [hrow, h1] at this
  exact this

theorem levelEnergy_four_six (s : ℝ) (hs : s = 1 ∨ s = -1) (n m : ℤ) :
    levelEnergy 4 (s * 6) (n, m) = 5 * (2 * n + |m| + 1) - s * 3 * m := by
  have : Real.sqrt ((4 : ℝ) ^ 2 + (s * 6) ^ 2 / 4) = 5 := by
    rw [show (4 : ℝ) ^ 2 + (s * 6) ^ 2 / 4 = 5 ^ 2 by rcases hs with rfl | rfl <;> norm_num]
    exact Real.sqrt_sq (by norm_num)
  unfold levelEnergy
  rw [this]
  push_cast
  ring

/-- **C150** A level that is cut: with `ω₀ = 4`, `ω_c = ±6` and five orbitals the states `(0, -1)` and `(0, 4)` have the same
energy `13`, and the one with the smaller `m` is kept.  In the reversed field that is `(0, -4)`, not the mirror image `(0, 1)`: the
two objects describe different dots. -/
theorem C150_cut : ∃ df df', dataframeB 5 4 6 = .ok df ∧ dataframeB 5 4 (-6) = .ok df' ∧
    (0, -1) ∈ keptStates 5 df ∧ (0, 1) ∉ keptStates 5 df' := by
  have hfreq : ∀ c : ℝ, c ^ 2 = 36 → 2 / 10 ^ 6 ≤ omegaB 4 c := fun c hc => by
    unfold omegaB
    rw [hc, show (4 : ℝ) ^ 2 + 36 / 4 = 5 ^ 2 by norm_num, Real.sqrt_sq (by norm_num)]
    norm_num
  obtain ⟨df, h⟩ := dataframeB_succeeds (l := 5) (by norm_num) (hfreq 6 (by norm_num))
  obtain ⟨df', h'⟩ := dataframeB_succeeds (l := 5) (by norm_num) (hfreq (-6) (by norm_num))
  have e1 : ∀ n m : ℤ, levelEnergy 4 6 (n, m) = ((5 * (2 * n + |m| + 1) - 3 * m : ℤ) : ℝ) := fun n m => by
    have := levelEnergy_four_six 1 (.inl rfl) n m
    rw [one_mul] at this
    rw [this]
    push_cast
    ring
  have e2 : ∀ n m : ℤ, levelEnergy 4 (-6) (n, m) = ((5 * (2 * n + |m| + 1) + 3 * m : ℤ) : ℝ) := fun n m => by
    have := levelEnergy_four_six (-1) (.inr rfl) n m
    rw [neg_one_mul] at this
    rw [this]
    push_cast
    ring
  refine ⟨df, df', h, h', ?_, fun hin => ?_⟩
  · by_contra hout
    obtain ⟨len, nd, nn, -⟩ := C51_lowest h
    have ord := kept_order h (n := 0) (m := -1) le_rfl (by norm_num) (by norm_num) (by norm_num) hout
    have sub : (keptStates 5 df).toFinset ⊆ ({(0, 0), (0, 1), (0, 2), (0, 3)} : Finset (ℤ × ℤ)) := fun k hk => by
      have hk := List.mem_toFinset.1 hk
      have h0 := nn k hk
      obtain ⟨n, m⟩ := k
      have o := ord (n, m) hk
      rw [e1, e1] at o
      have o' : 5 * (2 * n + |m| + 1) - 3 * m < 13 ∨ 5 * (2 * n + |m| + 1) - 3 * m = 13 ∧ m ≤ -1 := by
        rcases o with o | ⟨o, o2⟩
        · exact .inl (by have := Int.cast_lt.1 o; simpa using this)
        · exact .inr ⟨by have := Int.cast_inj.1 o; simpa using this, o2⟩
      dsimp only at h0
      have hne : (n, m) ≠ (0, -1) := fun e => hout (e ▸ hk)
      rcases abs_cases m with ⟨ha, hm⟩ | ⟨ha, hm⟩
      · rw [ha] at o'
        obtain rfl : n = 0 := by omega
        have : m = 0 ∨ m = 1 ∨ m = 2 ∨ m = 3 := by omega
        rcases this with rfl | rfl | rfl | rfl <;> simp
      · rw [ha] at o'
        have : n = 0 ∧ m = -1 := by omega
        exact absurd (Prod.ext this.1 this.2) hne
    have := card_le_card sub
    rw [List.toFinset_card_of_nodup nd, len] at this
    exact absurd this (by decide)
  · obtain ⟨len, nd, -⟩ := C51_lowest h'
    have all : ∀ m : ℤ, -4 ≤ m → m ≤ 0 → (0, m) ∈ keptStates 5 df' := fun m h4 h0 => by
      by_contra hout
      have o := kept_order h' (n := 0) (m := m) le_rfl (by norm_num) (by push_cast; omega) (by push_cast; omega) hout (0, 1) hin
      rw [e2, e2, abs_of_nonpos h0, abs_one] at o
      rcases o with o | ⟨o, o2⟩
      · have := Int.cast_lt.1 o
        omega
      · dsimp only at o2
        omega
    have sub : ({(0, 1), (0, 0), (0, -1), (0, -2), (0, -3), (0, -4)} : Finset (ℤ × ℤ)) ⊆ (keptStates 5 df').toFinset := fun k hk => by
      simp only [mem_insert, mem_singleton] at hk
      refine List.mem_toFinset.2 ?_
      rcases hk with rfl | rfl | rfl | rfl | rfl | rfl
      · exact hin
      all_goals exact all _ (by norm_num) (by norm_num)
    have := card_le_card sub
    rw [List.toFinset_card_of_nodup nd, len] at this
    exact absurd this (by decide)

end QS.Props
