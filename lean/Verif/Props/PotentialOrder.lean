import Verif.Lemmas.PotentialOrder
import Verif.Props.GridSpectrum
import Verif.Props.Stark

/-!
# The energies as functions of the potential (C145)
-/

namespace QS.Props

open OneDim NDArray Spec BasisSet Potentials Finset SincDvr

/-! ## Electrons after `change_basis` -/

/-- **C120** A successful `change_basis` of spatial functions with orthonormal columns: the energies of electrons with spin do not
go down, and stay if the number of functions does. -/
theorem C120_electrons {b b' : BasisSet ℂ} {l n : ℕ} {C : NDArray ℂ} {v : Unit} (hb : WellFormed b l)
    (run : (changeBasis C none).run b = (.ok v, b')) (hC : C.shape = [l, n])
    (uni : ∀ p < n, ∀ q < n, ∑ a ∈ range l, star (C.get [a, p]) * C.get [a, q] = kd p q) {H U H' U' : NDArray ℂ}
    (hh : b.h = some H) (hu : b.u = some U) (hh' : b'.h = some H') (hu' : b'.u = some U') {N : ℕ} {E E' : ℕ → ℝ}
    (S : ElectronEnergies l H U N E) (S' : ElectronEnergies n H' U' N E') :
    (∀ k < (2 * n).choose N, E k ≤ E' k) ∧ (n = l → ∀ k < (2 * n).choose N, E' k = E k) := by
  obtain ⟨h1, h2⟩ := changed_elements hb run hC hh hu hh' hu'
  refine ⟨S.truncate hC uni h1 h2 S', ?_⟩
  rintro rfl
  exact S.transport hC uni h1 h2 S'

/-! ## One particle in `ODQD` -/

/-- The matrices for two potentials differ on the diagonal. -/
theorem gridMatrix_sub (V V' : ℝ → ℝ) (L : ℝ) {num p q : ℕ} (hp : p < num - 2) (hq : q < num - 2) :
    (gridMatrix V L num).get [p, q] - (gridMatrix V' L num).get [p, q] = if p = q then
      ((V (TwoDim.linspace (-L) L num (p + 1)) - V' (TwoDim.linspace (-L) L num (p + 1)) : ℝ) : ℂ) else 0 := by
  unfold gridMatrix
  rw [ofFn_get_of (by exact ⟨hp, hq, trivial⟩), ofFn_get_of (by exact ⟨hp, hq, trivial⟩)]
  simp only [List.getD_cons_zero, List.getD_cons_succ, fdEntry]
  split_ifs
  · push_cast; ring
  all_goals simp

/-- **C145** One particle in `ODQD`: if the second potential is at most `c` above the first one at the inner points of the
grid, its `k`-th energy is at most `c` above the first one.  The other arguments, but for the grid, and the eigenvalue solvers
may differ. -/
theorem C145_odqd {eigh eigh' : NDArray ℂ → Except PyErr (NDArray ℂ × NDArray ℂ)} (he : IsEigh eigh) (he' : IsEigh eigh')
    {num : ℕ} (h3 : 3 ≤ num) (L : ℝ) {V V' : ℝ → ℝ} {c : ℝ}
    (hV : ∀ i, 1 ≤ i → i < num - 1 → V' (TwoDim.linspace (-L) L num i) ≤ V (TwoDim.linspace (-L) L num i) + c)
    {l l' : ℕ} (hl : l ≤ num - 2) (hl' : l' ≤ num - 2) (a alpha beta a' alpha' beta' : ℝ) (hm hm' : Bool) (np np' : Module)
    (sp an sp' an' : Bool) :
    ∃ b h b' h', odqd eigh l L num a alpha beta V hm np sp an = .ok b ∧ b.h = some h ∧
      odqd eigh' l' L num a' alpha' beta' V' hm' np' sp' an' = .ok b' ∧ b'.h = some h' ∧
      ∀ k, k < l → k < l' → (h'.get [k, k]).re ≤ (h.get [k, k]).re + c := by
  obtain ⟨w, v, F, r⟩ := odqd_levels (L := L) he V h3
  obtain ⟨w', v', F', r'⟩ := odqd_levels (L := L) he' V' h3
  obtain ⟨b, h, g, hh, e⟩ := r l hl a alpha beta hm np sp an
  obtain ⟨b', h', g', hh', e'⟩ := r' l' hl' a' alpha' beta' hm' np' sp' an'
  refine ⟨b, h, b', h', g, hh, g', hh', fun k hk hk' => ?_⟩
  rw [e k hk, e' k hk']
  have := F.le_of_form F' (A := 1) (c := c) zero_le_one (fun f => ?_) (by omega : k < num - 2)
  · linarith
  have d : matForm (num - 2) (gridMatrix V L num) f - matForm (num - 2) (gridMatrix V' L num) f =
      ∑ p ∈ range (num - 2), (V (TwoDim.linspace (-L) L num (p + 1)) - V' (TwoDim.linspace (-L) L num (p + 1))) *
        ‖f p‖ ^ 2 := by
    unfold matForm
    rw [← Complex.sub_re, ← sum_sub_distrib, Complex.re_sum]
    refine sum_congr rfl fun p hp => ?_
    rw [← mul_sub, ← sum_sub_distrib, sum_congr rfl (g := fun q => if p = q then
        ((V (TwoDim.linspace (-L) L num (p + 1)) - V' (TwoDim.linspace (-L) L num (p + 1)) : ℝ) : ℂ) * f q else 0) fun q hq => by
        rw [← sub_mul, gridMatrix_sub V V' L (mem_range.1 hp) (mem_range.1 hq)]
        split_ifs <;> simp,
      sum_ite_eq, if_pos hp, mul_left_comm, Complex.conj_mul', ← Complex.ofReal_pow, ← Complex.ofReal_mul, Complex.ofReal_re]
  have s : -c * ∑ p ∈ range (num - 2), ‖f p‖ ^ 2 ≤ ∑ p ∈ range (num - 2),
      (V (TwoDim.linspace (-L) L num (p + 1)) - V' (TwoDim.linspace (-L) L num (p + 1))) * ‖f p‖ ^ 2 := by
    rw [mul_sum]
    refine sum_le_sum fun p hp => mul_le_mul_of_nonneg_right ?_ (sq_nonneg _)
    have := mem_range.1 hp
    linarith [hV (p + 1) (by omega) (by omega)]
  linarith

/-! ## Electrons in `ODQD` -/

/-- The interaction of two particles at inner points of the grid. -/
noncomputable def gridU (L alpha a : ℝ) (num : ℕ) : NDArray ℂ :=
  ofFn .complex128 [num - 2, num - 2, num - 2, num - 2] fun i => if i.getD 0 0 = i.getD 2 0 ∧ i.getD 1 0 = i.getD 3 0 then
    ((alpha / Real.sqrt ((TwoDim.linspace (-L) L num (i.getD 0 0 + 1) - TwoDim.linspace (-L) L num (i.getD 1 0 + 1)) ^ 2 +
      a ^ 2) : ℝ) : ℂ) else 0

/-- The functions of `ODQD` are orthonormal combinations of the points of the grid. -/
theorem odqd_grid {eigh : NDArray ℂ → Except PyErr (NDArray ℂ × NDArray ℂ)} (he : IsEigh eigh) {l num : ℕ} {L : ℝ}
    (hL : 0 < L) (h3 : 3 ≤ num) (hl : l ≤ num - 2) (a alpha beta : ℝ) (V : ℝ → ℝ) (hm : Bool) (np : Module) (sp an : Bool) :
    ∃ b H U C, odqd eigh l L num a alpha beta V hm np sp an = .ok b ∧ b.h = some H ∧ b.u = some U ∧ C.shape = [num - 2, l] ∧
      (∀ p < l, ∀ q < l, ∑ k ∈ range (num - 2), star (C.get [k, p]) * C.get [k, q] = kd p q) ∧
      IsOneBody C C.conj.T (num - 2) l (gridMatrix V L num) H ∧ IsTwoBody C C.conj.T (num - 2) l (gridU L alpha a num) U ∧
      ∃ d f, b.dipole = some d ∧ (∀ p < l, ∀ q < l, d.get [0, p, q] = ∑ k ∈ range (num - 2), star (C.get [k, p]) *
        ((TwoDim.linspace (-L) L num (k + 1) + beta * TwoDim.linspace (-L) L num (k + 1) ^ 2 : ℝ) : ℂ) * C.get [k, q]) ∧
      b.np = some np ∧ b.l = l ∧ b.dim = 1 ∧ b.spf = some f ∧ b.bra = some f.conj ∧ f.shape = [l, num] ∧ f.dtype = .complex128 ∧
      ∀ p < l, f.get [p, 0] = 0 ∧ f.get [p, num - 1] = 0 ∧
        ∀ k < num - 2, f.get [p, k + 1] = C.get [k, p] / (Real.sqrt (2 * L / ((num : ℝ) - 1)) : ℂ) := by
  obtain ⟨b, H, w, v, h1, hH, -, E, F, hh, hdip⟩ := odqd_ok' he L h3 hl a alpha beta V hm np sp an
  have hd : (L - -L) / ((num : ℝ) - 1) = 2 * L / ((num : ℝ) - 1) := by ring
  have hdx : 0 < 2 * L / ((num : ℝ) - 1) := dx_pos hL h3
  have hs : (Real.sqrt (2 * L / ((num : ℝ) - 1)) : ℂ) ≠ 0 := by exact_mod_cast (Real.sqrt_pos.2 hdx).ne'
  have hs2 : (Real.sqrt (2 * L / ((num : ℝ) - 1)) : ℂ) * Real.sqrt (2 * L / ((num : ℝ) - 1)) = (2 * L / ((num : ℝ) - 1) : ℝ) := by
    rw [← Complex.ofReal_mul, Real.mul_self_sqrt hdx.le]
  have hlin : TwoDim.linspace (-L) L num = fun i : ℕ => -L + i * (2 * L / ((num : ℝ) - 1)) := by
    funext i
    unfold TwoDim.linspace
    rw [hd]
  rw [hd] at F hdip
  have hu := F.u_eq
  set dx := 2 * L / ((num : ℝ) - 1) with hdxe
  set C : NDArray ℂ := ofFn .complex128 [num - 2, l] fun i => v.get [i.getD 0 0, i.getD 1 0] with hC
  have hCs : C.shape = [num - 2, l] := rfl
  have hCg : ∀ k < num - 2, ∀ p < l, C.get [k, p] = v.get [k, p] := fun k hk p hp => by
    rw [hC, ofFn_get_of (by exact ⟨hk, hp, trivial⟩)]
    rfl
  obtain rfl : H = gridMatrix V L num := hH
  have f0 : ∀ t < l, (odqdSpf l num dx v).get [t, 0] = 0 := fun t ht => by
    rw [odqdSpf_get dx v ht (by omega), if_neg (by omega)]
  have f1 : ∀ t < l, (odqdSpf l num dx v).get [t, num - 1] = 0 := fun t ht => by
    rw [odqdSpf_get dx v ht (by omega), if_neg (by omega)]
  have fk : ∀ t < l, ∀ k < num - 2, (odqdSpf l num dx v).get [t, k + 1] = C.get [k, t] / (Real.sqrt dx : ℂ) :=
    fun t ht k hk => by
      rw [odqdSpf_get dx v ht (by omega), if_pos ⟨by omega, by omega⟩, Nat.add_sub_cancel, hCg k hk t ht]
  refine ⟨b, _, _, C, h1, hh, hu, hCs, fun p hp q hq => ?_, ⟨rfl, fun p hp q hq => ?_⟩, ⟨rfl, fun p hp q hq r hr s hs' => ?_⟩,
    _, _, hdip, fun p hp q hq => ?_, F.np_eq, F.l_eq, F.dim_eq, F.spf_eq, ?_, F.spf_shape, rfl,
    fun p hp => ⟨f0 p hp, f1 p hp, fk p hp⟩⟩
  · rw [kd, ← E.orthonormal p q (by omega) (by omega)]
    exact sum_congr rfl fun k hk => by rw [hCg k (mem_range.1 hk) p hp, hCg k (mem_range.1 hk) q hq]; rfl
  · rw [ofFn_get_of (by exact ⟨hp, hq, trivial⟩), sum_congr rfl (g := fun i => w.get [q] *
      ((starRingEnd ℂ) (v.get [i, p]) * v.get [i, q])) fun i hi => ?_, ← mul_sum, E.orthonormal p q (by omega) (by omega)]
    · simp only [List.getD_cons_zero, List.getD_cons_succ]
      split_ifs with h
      · rw [h, mul_one]
      · rw [mul_zero]
    · have hi := mem_range.1 hi
      rw [show w.get [q] * ((starRingEnd ℂ) (v.get [i, p]) * v.get [i, q]) =
        (starRingEnd ℂ) (v.get [i, p]) * (w.get [q] * v.get [i, q]) by ring, ← E.eigen q i (by omega) hi, mul_sum]
      refine sum_congr rfl fun k hk => ?_
      rw [conjT_get2 C hCs, hCg i hi p hp, hCg k (mem_range.1 hk) q hq, mul_assoc]
      rfl
  · rw [ofFn_get_of (by exact ⟨hp, hq, hr, hs', trivial⟩)]
    simp only [List.getD_cons_zero, List.getD_cons_succ, coulombSum]
    rw [hlin, Oscillation.trapezoid_inner (by omega) L dx (by rw [f0 p hp]; simp [trapezoid]) (by rw [f1 p hp]; simp [trapezoid]), mul_sum]
    refine sum_congr rfl fun i hi => ?_
    have hi := mem_range.1 hi
    rw [Oscillation.trapezoid_inner (by omega) L dx (by rw [f0 q hq]; simp) (by rw [f1 q hq]; simp), mul_sum, mul_sum]
    refine sum_congr rfl fun j hj => ?_
    have hj := mem_range.1 hj
    rw [sum_eq_single i, sum_eq_single j]
    · unfold gridU
      rw [ofFn_get_of (by exact ⟨hi, hj, hi, hj, trivial⟩), fk p hp i hi, fk q hq j hj, fk r hr i hi, fk s hs' j hj,
        conjT_get2 C hCs, conjT_get2 C hCs, map_div₀, map_div₀, Complex.conj_ofReal, hlin]
      simp only [List.getD_cons_zero, List.getD_cons_succ, and_self, if_true]
      rw [← hs2]
      simp only [starRingEnd_apply]
      field_simp
    · intro k hk hne
      have hk := mem_range.1 hk
      unfold gridU
      rw [ofFn_get_of (by exact ⟨hi, hj, hi, hk, trivial⟩), if_neg fun h => hne h.2.symm]
      ring
    · exact fun h => absurd (mem_range.2 hj) h
    · intro k hk hne
      refine sum_eq_zero fun m hm' => ?_
      unfold gridU
      rw [ofFn_get_of (by exact ⟨hi, hj, mem_range.1 hk, mem_range.1 hm', trivial⟩), if_neg fun h => hne h.1.symm]
      ring
    · exact fun h => absurd (mem_range.2 hi) h
  · rw [ofFn_get_of (by exact ⟨one_pos, hp, hq, trivial⟩)]
    simp only [List.getD_cons_zero, List.getD_cons_succ]
    rw [hlin, Oscillation.trapezoid_inner (by omega) L dx (by rw [f0 p hp]; simp) (by rw [f1 p hp]; simp), mul_sum]
    refine sum_congr rfl fun k hk => ?_
    have hk := mem_range.1 hk
    rw [fk p hp k hk, fk q hq k hk, map_div₀, Complex.conj_ofReal, ← hs2]
    simp only [starRingEnd_apply]
    field_simp
  · unfold BasisSet.bra
    rw [F.bra_eq, F.spf_eq]
    rfl

theorem gridU_herm (L alpha a : ℝ) (num : ℕ) : HermU (num - 2) (gridU L alpha a num) := fun p hp q hq r hr s hs => by
  unfold gridU
  rw [ofFn_get_of (by exact ⟨hp, hq, hr, hs, trivial⟩), ofFn_get_of (by exact ⟨hr, hs, hp, hq, trivial⟩)]
  simp only [List.getD_cons_zero, List.getD_cons_succ]
  by_cases h : p = r ∧ q = s
  · rw [if_pos h, if_pos ⟨h.1.symm, h.2.symm⟩, h.1, h.2]
    simp
  · rw [if_neg h, if_neg fun e => h ⟨e.1.symm, e.2.symm⟩]
    simp

/-- The energies of electrons on the inner points of the grid. -/
theorem grid_energies (V : ℝ → ℝ) (L alpha a : ℝ) (num N : ℕ) :
    ∃ E, ElectronEnergies (num - 2) (gridMatrix V L num) (gridU L alpha a num) N E := by
  obtain ⟨-, ⟨E, Ψ, S⟩, -⟩ := C120_exist (l := num - 2) (H := gridMatrix V L num)
    (fun p _ q _ => gridMatrix_herm V L num p q) (gridU_herm L alpha a num) N
  exact ⟨E, Ψ, S⟩

/-- **C145** The energies of `N` electrons in `ODQD` are never below those of the electrons on the inner points of the grid, and
equal to them with `num - 2` functions. -/
theorem C145_complete {eigh : NDArray ℂ → Except PyErr (NDArray ℂ × NDArray ℂ)} (he : IsEigh eigh) {l num : ℕ} {L : ℝ}
    (hL : 0 < L) (h3 : 3 ≤ num) (hl : l ≤ num - 2) {a alpha beta : ℝ} {V : ℝ → ℝ} {hm : Bool} {np : Module} {sp an : Bool}
    {b : BasisSet ℂ} {h u : NDArray ℂ} (run : odqd eigh l L num a alpha beta V hm np sp an = .ok b) (hh : b.h = some h)
    (hu : b.u = some u) {N : ℕ} {E G : ℕ → ℝ} (S : ElectronEnergies l h u N E)
    (T : ElectronEnergies (num - 2) (gridMatrix V L num) (gridU L alpha a num) N G) :
    (∀ k < (2 * l).choose N, G k ≤ E k) ∧ (l = num - 2 → ∀ k < (2 * l).choose N, E k = G k) := by
  obtain ⟨b', H, U, C, run', hH, hU, hC, uni, one, two, -⟩ := odqd_grid he hL h3 hl a alpha beta V hm np sp an
  obtain rfl : b = b' := by simpa using run.symm.trans run'
  obtain rfl : h = H := by simpa using hh.symm.trans hH
  obtain rfl : u = U := by simpa using hu.symm.trans hU
  refine ⟨T.truncate hC uni one two S, ?_⟩
  rintro rfl
  exact T.transport hC uni one two S

/-- **C145** `N` electrons in `ODQD`: if the second potential is at most `c` above the first one at the inner points of the grid,
the `k`-th energy in the second one, with all `num - 2` functions, is at most `N c` above that in the first one, with any
number of functions. -/
theorem C145_electrons {eigh eigh' : NDArray ℂ → Except PyErr (NDArray ℂ × NDArray ℂ)} (he : IsEigh eigh) (he' : IsEigh eigh')
    {l num : ℕ} {L : ℝ} (hL : 0 < L) (h3 : 3 ≤ num) (hl : l ≤ num - 2) {V V' : ℝ → ℝ} {c : ℝ}
    (hV : ∀ i, 1 ≤ i → i < num - 1 → V' (TwoDim.linspace (-L) L num i) ≤ V (TwoDim.linspace (-L) L num i) + c)
    {a alpha beta beta' : ℝ} {hm hm' : Bool} {np np' : Module} {sp an sp' an' : Bool} {b b' : BasisSet ℂ} {h u h' u' : NDArray ℂ}
    (run : odqd eigh l L num a alpha beta V hm np sp an = .ok b) (hh : b.h = some h) (hu : b.u = some u)
    (run' : odqd eigh' (num - 2) L num a alpha beta' V' hm' np' sp' an' = .ok b') (hh' : b'.h = some h') (hu' : b'.u = some u')
    {N : ℕ} {E E' : ℕ → ℝ} (S : ElectronEnergies l h u N E) (S' : ElectronEnergies (num - 2) h' u' N E') :
    ∀ k < (2 * l).choose N, E' k ≤ E k + N * c := fun k hk => by
  obtain ⟨G, T⟩ := grid_energies V L alpha a num N
  obtain ⟨G', T'⟩ := grid_energies V' L alpha a num N
  have hk' : k < (2 * (num - 2)).choose N := hk.trans_le (Nat.choose_le_choose N (by omega))
  have h1 := (C145_complete he hL h3 hl run hh hu S T).1 k hk
  have h2 := (C145_complete he' hL h3 le_rfl run' hh' hu' S' T').2 rfl k hk'
  have h4 := T.le_of_diagonal T' (c := c) (fun p hp q hq => gridMatrix_sub V V' L hp hq)
    (fun p hp => by linarith [hV (p + 1) (by omega) (by omega)]) k hk'
  linarith

/-- **C145** The sum of the `m` lowest energies of `N` electrons is a concave function of the potential. -/
theorem C145_concave {eigh : NDArray ℂ → Except PyErr (NDArray ℂ × NDArray ℂ)} (he : IsEigh eigh)
    {l num : ℕ} {L : ℝ} (hL : 0 < L) (h3 : 3 ≤ num) (hl : l ≤ num - 2) {V V₁ V₂ : ℝ → ℝ} {lam : ℝ} (h0 : 0 ≤ lam) (h1 : lam ≤ 1)
    (hV : ∀ x, V x = (1 - lam) * V₁ x + lam * V₂ x) {a alpha beta : ℝ} {hm : Bool} {np : Module} {sp an : Bool}
    {b b₁ b₂ : BasisSet ℂ} {h u h₁ u₁ h₂ u₂ : NDArray ℂ}
    (run : odqd eigh l L num a alpha beta V hm np sp an = .ok b) (hh : b.h = some h) (hu : b.u = some u)
    (run₁ : odqd eigh (num - 2) L num a alpha beta V₁ hm np sp an = .ok b₁) (hh₁ : b₁.h = some h₁) (hu₁ : b₁.u = some u₁)
    (run₂ : odqd eigh (num - 2) L num a alpha beta V₂ hm np sp an = .ok b₂) (hh₂ : b₂.h = some h₂) (hu₂ : b₂.u = some u₂)
    {N : ℕ} {E E₁ E₂ : ℕ → ℝ} (S : ElectronEnergies l h u N E) (S₁ : ElectronEnergies (num - 2) h₁ u₁ N E₁)
    (S₂ : ElectronEnergies (num - 2) h₂ u₂ N E₂) {m : ℕ} (hk : m ≤ (2 * l).choose N) :
    (1 - lam) * ∑ i ∈ range m, E₁ i + lam * ∑ i ∈ range m, E₂ i ≤ ∑ i ∈ range m, E i := by
  obtain ⟨G, T⟩ := grid_energies V L alpha a num N
  obtain ⟨G₁, T₁⟩ := grid_energies V₁ L alpha a num N
  obtain ⟨G₂, T₂⟩ := grid_energies V₂ L alpha a num N
  have hk' : m ≤ (2 * (num - 2)).choose N := hk.trans (Nat.choose_le_choose N (by omega))
  have e : ∑ i ∈ range m, G i ≤ ∑ i ∈ range m, E i := sum_le_sum fun i hi =>
    (C145_complete he hL h3 hl run hh hu S T).1 i ((mem_range.1 hi).trans_le hk)
  have e₁ : ∑ i ∈ range m, E₁ i = ∑ i ∈ range m, G₁ i := sum_congr rfl fun i hi =>
    (C145_complete he hL h3 le_rfl run₁ hh₁ hu₁ S₁ T₁).2 rfl i ((mem_range.1 hi).trans_le hk')
  have e₂ : ∑ i ∈ range m, E₂ i = ∑ i ∈ range m, G₂ i := sum_congr rfl fun i hi =>
    (C145_complete he hL h3 le_rfl run₂ hh₂ hu₂ S₂ T₂).2 rfl i ((mem_range.1 hi).trans_le hk')
  rw [e₁, e₂]
  refine le_trans ?_ e
  obtain ⟨Ψ, T⟩ := T
  obtain ⟨Ψ₁, T₁⟩ := T₁
  obtain ⟨Ψ₂, T₂⟩ := T₂
  refine C134_concave h0 h1 (fun p q => ?_) (fun p q r s => ?_) T₁ T₂ T hk'
  · unfold spinOne
    split_ifs
    · have hp : p.1 / 2 < num - 2 := by omega
      have hq : q.1 / 2 < num - 2 := by omega
      have g1 := gridMatrix_sub V V₁ L hp hq
      have g2 := gridMatrix_sub V V₂ L hp hq
      split_ifs at g1 g2 with h
      · rw [hV] at g1 g2
        push_cast at g1 g2 ⊢
        linear_combination (1 - (lam : ℂ)) * g1 + (lam : ℂ) * g2
      · push_cast
        linear_combination (1 - (lam : ℂ)) * g1 + (lam : ℂ) * g2
    · simp
  · push_cast
    ring

/-! ## `ODSincDVR` -/

theorem sincH_sub (V V' : ℝ → ℝ) (L : ℝ) {l p q : ℕ} (hp : p < l) (hq : q < l) :
    (sincH l L V).get [p, q] - (sincH l L V').get [p, q] = if p = q then
      ((V (TwoDim.linspace (-L) L l p) - V' (TwoDim.linspace (-L) L l p) : ℝ) : ℂ) else 0 := by
  unfold sincH
  rw [ofFn_get_of (by exact ⟨hp, hq, trivial⟩), ofFn_get_of (by exact ⟨hp, hq, trivial⟩)]
  simp only [List.getD_cons_zero, List.getD_cons_succ]
  split_ifs
  · push_cast; ring
  · simp

/-- **C145** The same for `ODSincDVR` with the four-index representation of `u`, with potentials compared at the points of the
grid: bounds, and concave sums of energies. -/
theorem C145_sinc {l : ℕ} (h2 : 2 ≤ l) (L a alpha : ℝ) {beta beta' : ℝ} {V V' : ℝ → ℝ} {hm hm' : Bool} {np np' : Module}
    {sp an sp' an' : Bool} {b b' : BasisSet ℂ} {h u h' u' : NDArray ℂ}
    (run : odSincDvr l L a alpha beta V .four hm np sp an = .ok b) (hh : b.h = some h) (hu : b.u = some u)
    (run' : odSincDvr l L a alpha beta' V' .four hm' np' sp' an' = .ok b') (hh' : b'.h = some h') (hu' : b'.u = some u')
    {N : ℕ} {E E' : ℕ → ℝ} (S : ElectronEnergies l h u N E) (S' : ElectronEnergies l h' u' N E') :
    (∀ c, (∀ i < l, V' (TwoDim.linspace (-L) L l i) ≤ V (TwoDim.linspace (-L) L l i) + c) →
      ∀ k < (2 * l).choose N, E' k ≤ E k + N * c) ∧
    ∀ (lam : ℝ), 0 ≤ lam → lam ≤ 1 → ∀ (W : ℝ → ℝ), (∀ x, W x = (1 - lam) * V x + lam * V' x) → ∀ b'' h'' u'' E'',
      odSincDvr l L a alpha beta W .four hm np sp an = .ok b'' → b''.h = some h'' → b''.u = some u'' →
      ElectronEnergies l h'' u'' N E'' → ∀ m ≤ (2 * l).choose N,
        (1 - lam) * ∑ i ∈ range m, E i + lam * ∑ i ∈ range m, E' i ≤ ∑ i ∈ range m, E'' i := by
  have el : ∀ {V : ℝ → ℝ} {beta : ℝ} {hm : Bool} {np : Module} {sp an : Bool} {b : BasisSet ℂ} {h u : NDArray ℂ},
      odSincDvr l L a alpha beta V .four hm np sp an = .ok b → b.h = some h → b.u = some u →
      h = sincH l L V ∧ u = sincU l L alpha a .complex128 .four := fun {V beta hm np sp an b h u} run hh hu => by
    rw [odSincDvr_ok h2 L a alpha beta V (by simp) hm np sp an] at run
    obtain rfl := Except.ok.inj run
    exact ⟨(Option.some.inj hh).symm, (Option.some.inj hu).symm⟩
  obtain ⟨rfl, rfl⟩ := el run hh hu
  obtain ⟨rfl, rfl⟩ := el run' hh' hu'
  refine ⟨fun c hV => S.le_of_diagonal S' (fun p hp q hq => sincH_sub V V' L hp hq) fun p hp => by linarith [hV p hp],
    fun lam h0 h1 W hW b'' h'' u'' E'' run'' hh'' hu'' S'' m hm => ?_⟩
  obtain ⟨rfl, rfl⟩ := el run'' hh'' hu''
  obtain ⟨Ψ, S⟩ := S
  obtain ⟨Ψ', S'⟩ := S'
  obtain ⟨Ψ'', S''⟩ := S''
  refine C134_concave h0 h1 (fun p q => ?_) (fun p q r s => ?_) S S' S'' hm
  · unfold spinOne
    split_ifs
    · have hp : p.1 / 2 < l := by omega
      have hq : q.1 / 2 < l := by omega
      have g1 := sincH_sub W V L hp hq
      have g2 := sincH_sub W V' L hp hq
      split_ifs at g1 g2 with h
      · rw [hW] at g1 g2
        push_cast at g1 g2 ⊢
        linear_combination (1 - (lam : ℂ)) * g1 + (lam : ℂ) * g2
      · push_cast
        linear_combination (1 - (lam : ℂ)) * g1 + (lam : ℂ) * g2
    · simp
  · push_cast
    ring

/-! ## The exact levels -/

/-- **C145** The levels of the Schroedinger equation on `[-L, L]`, to which the energies of `ODQD` converge (C115): if one
continuous potential is at most `c` above another one, the `k`-th level is. -/
theorem C145_box {L : ℝ} (hL : 0 < L) {V V' : ℝ → ℝ} (cV : ContinuousOn V (Set.Icc (-L) L))
    (cV' : ContinuousOn V' (Set.Icc (-L) L)) {c : ℝ} (hV : ∀ x ∈ Set.Icc (-L) L, V' x ≤ V x + c) {E E' : ℕ → ℝ}
    (hE : StrictMono E) (all : ∀ e, BoxLevel V L e ↔ ∃ k, E k = e) (hE' : StrictMono E')
    (all' : ∀ e, BoxLevel V' L e ↔ ∃ k, E' k = e) (k : ℕ) : E' k ≤ E k + c := by
  obtain ⟨eigh, he⟩ := isEigh_exists
  refine le_of_forall_pos_le_add fun ε hε => ?_
  obtain ⟨n, h⟩ := C115_levels he hL cV hE all k (half_pos hε)
  obtain ⟨n', h'⟩ := C115_levels he hL cV' hE' all' k (half_pos hε)
  set num := n + n' + k + 3 with hnum
  obtain ⟨b, d, r, hb, e⟩ := h num (by omega) (k + 1) (by omega) (by omega) 1 1 0 false 0 true true
  obtain ⟨b', d', r', hb', e'⟩ := h' num (by omega) (k + 1) (by omega) (by omega) 1 1 0 false 0 true true
  have pts : ∀ i, 1 ≤ i → i < num - 1 → V' (TwoDim.linspace (-L) L num i) ≤ V (TwoDim.linspace (-L) L num i) + c :=
    fun i h1 h2 => hV _ (by
      have hd : (0 : ℝ) < 2 * L / ((num : ℝ) - 1) := dx_pos hL (by omega)
      have := grid_mem hL (num := num) (by omega) h1 h2
      unfold TwoDim.linspace
      rw [show (L - -L) / ((num : ℝ) - 1) = 2 * L / ((num : ℝ) - 1) by ring]
      constructor <;> linarith)
  obtain ⟨_, _, _, _, g, hg, g', hg', le⟩ := C145_odqd he he (num := num) (by omega) L pts (l := k + 1) (l' := k + 1)
    (by omega) (by omega) 1 1 0 1 1 0 false false 0 0 true true true true
  obtain rfl := Except.ok.inj (r.symm.trans g)
  obtain rfl := Except.ok.inj (r'.symm.trans g')
  obtain rfl := Option.some.inj (hb.symm.trans hg)
  obtain rfl := Option.some.inj (hb'.symm.trans hg')
  have h1 := (abs_le.1 ((Complex.abs_re_le_norm _).trans e)).2
  have h2 := (abs_le.1 ((Complex.abs_re_le_norm _).trans e')).1
  rw [Complex.sub_re, Complex.ofReal_re] at h1 h2
  linarith [le k (by omega) (by omega)]

/-! ## The classes of potentials -/

/-- **C145** The potential objects of the package that are deeper. -/
theorem C145_potentials {P P' : Potential} (h : Deeper P P') (x : ℝ) : P'.call x ≤ P.call x := by
  have gauss : ∀ {w w' c d : ℝ}, w ≤ w' → gaussianCall w' c d x ≤ gaussianCall w c d x := fun {w w' c d} h => by
    unfold gaussianCall
    nlinarith [Real.exp_pos (-(x - c) ^ 2 / (2.0 * d ^ 2))]
  cases h with
  | ho h =>
    simp only [Potential.call, hoCall]
    have := sq_le_sq.2 h
    nlinarith [sq_nonneg x]
  | @dw w w' l h =>
    simp only [Potential.call, hoCall]
    have := sq_le_sq.2 h
    have e : ∀ w : ℝ, 0.5 * w ^ 2 * x ^ 2 + 0.5 * w ^ 2 * (0.25 * l ^ 2 - l * |x|) = 1 / 2 * w ^ 2 * (|x| - l / 2) ^ 2 :=
      fun w => by rw [← sq_abs x]; ring
    rw [e, e]
    nlinarith [sq_nonneg (|x| - l / 2)]
  | symmetricDW ha hb hc =>
    simp only [Potential.call]
    nlinarith [mul_le_mul_of_nonneg_right ha (by positivity : 0 ≤ x ^ 6), mul_le_mul_of_nonneg_right hb (by positivity : 0 ≤ x ^ 4),
      mul_le_mul_of_nonneg_right hc (by positivity : 0 ≤ x ^ 2)]
  | asymmetricDW ha hc =>
    simp only [Potential.call]
    nlinarith [mul_le_mul_of_nonneg_right ha (by positivity : 0 ≤ x ^ 4), mul_le_mul_of_nonneg_right hc (by positivity : 0 ≤ x ^ 2)]
  | gaussian h => exact gauss h
  | @broader w c d d' h0 hd h =>
    simp only [Potential.call, gaussianCall]
    have h1 := sq_le_sq.2 h
    have h2 : 0 < d ^ 2 := by positivity
    have : Real.exp (-(x - c) ^ 2 / (2.0 * d ^ 2)) ≤ Real.exp (-(x - c) ^ 2 / (2.0 * d' ^ 2)) := by
      refine Real.exp_le_exp.2 ?_
      have h3 : 0 < d' ^ 2 := h2.trans_le h1
      rw [div_le_div_iff₀ (by positivity) (by positivity)]
      nlinarith [sq_nonneg (x - c)]
    nlinarith
  | noWall =>
    simp only [Potential.call]
    split_ifs <;> norm_num
  | wall hw h =>
    simp only [Potential.call]
    refine add_le_add (gauss hw) ?_
    split_ifs <;> first | (exfalso; linarith) | norm_num
  | charge h =>
    simp only [Potential.call]
    exact div_le_div_of_nonneg_right (by linarith) (Real.sqrt_nonneg _)
  | @softening Z c c' hZ hc h =>
    simp only [Potential.call]
    rw [neg_div, neg_div]
    have h1 : 0 < Real.sqrt (x ^ 2 + c') := Real.sqrt_pos.2 (by positivity)
    have h2 := Real.sqrt_le_sqrt (by linarith : x ^ 2 + c' ≤ x ^ 2 + c)
    exact neg_le_neg (div_le_div_of_nonneg_left hZ h1 h2)

/-- **C145** In a deeper potential of the package all energies are lower: of one particle, and of `N` electrons with all functions
of the grid. -/
theorem C145_deeper {P P' : Potential} (hP : Deeper P P') {eigh : NDArray ℂ → Except PyErr (NDArray ℂ × NDArray ℂ)}
    (he : IsEigh eigh) {num : ℕ} (h3 : 3 ≤ num) {L : ℝ} (hL : 0 < L) (a alpha beta : ℝ) (hm : Bool) (np : Module) (sp an : Bool) :
    (∀ l ≤ num - 2, ∃ b h b' h', odqd eigh l L num a alpha beta P.call hm np sp an = .ok b ∧ b.h = some h ∧
      odqd eigh l L num a alpha beta P'.call hm np sp an = .ok b' ∧ b'.h = some h' ∧
      ∀ k < l, (h'.get [k, k]).re ≤ (h.get [k, k]).re) ∧
    ∃ b h u b' h' u', odqd eigh (num - 2) L num a alpha beta P.call hm np sp an = .ok b ∧ b.h = some h ∧ b.u = some u ∧
      odqd eigh (num - 2) L num a alpha beta P'.call hm np sp an = .ok b' ∧ b'.h = some h' ∧ b'.u = some u' ∧
      ∀ N E E', ElectronEnergies (num - 2) h u N E → ElectronEnergies (num - 2) h' u' N E' →
        ∀ k < (2 * (num - 2)).choose N, E' k ≤ E k := by
  have hV : ∀ i, 1 ≤ i → i < num - 1 →
      P'.call (TwoDim.linspace (-L) L num i) ≤ P.call (TwoDim.linspace (-L) L num i) + 0 := fun i _ _ => by
    rw [add_zero]
    exact C145_potentials hP _
  refine ⟨fun l hl => ?_, ?_⟩
  · obtain ⟨b, h, b', h', g, hh, g', hh', le⟩ := C145_odqd he he h3 L hV hl hl a alpha beta a alpha beta hm hm np np sp an sp an
    exact ⟨b, h, b', h', g, hh, g', hh', fun k hk => by simpa using le k hk hk⟩
  · obtain ⟨b, H, U, -, r, hH, hU, -⟩ := odqd_grid he hL h3 le_rfl a alpha beta P.call hm np sp an
    obtain ⟨b', H', U', -, r', hH', hU', -⟩ := odqd_grid he hL h3 le_rfl a alpha beta P'.call hm np sp an
    exact ⟨b, H, U, b', H', U', r, hH, hU, r', hH', hU', fun N E E' S S' k hk => by
      simpa using C145_electrons he he hL h3 le_rfl hV r hH hU r' hH' hU' S S' k hk⟩

/-- Two electrons near a nucleus of charge 2 have lower energies than near one of charge 1, and a box with a hard wall has
higher energies than the well without it. -/
example {eigh : NDArray ℂ → Except PyErr (NDArray ℂ × NDArray ℂ)} (he : IsEigh eigh) :
    (∃ b h u b' h' u', odqd eigh 399 10 401 (1 / 4) 1 0 (Potential.atomic 1 1).call = .ok b ∧ b.h = some h ∧ b.u = some u ∧
      odqd eigh 399 10 401 (1 / 4) 1 0 (Potential.atomic 2 1).call = .ok b' ∧ b'.h = some h' ∧ b'.u = some u' ∧
      ∀ E E', ElectronEnergies 399 h u 2 E → ElectronEnergies 399 h' u' 2 E' → E' 0 ≤ E 0) ∧
    ∃ b h b' h', odqd eigh 3 10 401 (1 / 4) 1 0 (Potential.gaussianHardWall 1 0 2 5).call = .ok b ∧ b.h = some h ∧
      odqd eigh 3 10 401 (1 / 4) 1 0 (Potential.gaussian 1 0 2).call = .ok b' ∧ b'.h = some h' ∧
      (h'.get [2, 2]).re ≤ (h.get [2, 2]).re := by
  constructor
  · obtain ⟨-, b, h, u, b', h', u', r, hh, hu, r', hh', hu', le⟩ := C145_deeper (Deeper.charge (Z := 1) (Z' := 2) (c := 1)
      (by norm_num)) he (num := 401) (by norm_num) (L := 10) (by norm_num) (1 / 4) 1 0 false 0 false false
    exact ⟨b, h, u, b', h', u', r, hh, hu, r', hh', hu', fun E E' S S' => le 2 E E' S S' 0
      (Nat.choose_pos (by norm_num))⟩
  · obtain ⟨le, -⟩ := C145_deeper (Deeper.noWall (w := 1) (c := 0) (d := 2) (xw := 5)) he (num := 401) (by norm_num) (L := 10)
      (by norm_num) (1 / 4) 1 0 false 0 false false
    obtain ⟨b, h, b', h', r, hh, r', hh', le⟩ := le 3 (by norm_num)
    exact ⟨b, h, b', h', r, hh, r', hh', le 2 (by norm_num)⟩

end QS.Props
