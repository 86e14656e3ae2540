import Verif.Spec.Nested
import Verif.Lemmas.Nested
import Verif.Props.LevelBounds

/-!
# Property C123: larger basis sets contain smaller ones and lower the energies
-/

namespace QS.Props

open Finset NDArray BasisSet PyM Demo Function OneDim Spec TwoDim Coulomb Idx Filter Topology

/-! ## Energies -/

/-- **C123** If the functions of a basis set are the first functions of another one, no energy of any number of electrons is
higher in the larger basis set; the same for particles without spin. -/
theorem C123_energies {l l' : ℕ} (hl : l ≤ l') {b b' : BasisSet ℂ} (nest : Nested l b b') {H U H' U' : NDArray ℂ}
    (hh : b.h = some H) (hu : b.u = some U) (hh' : b'.h = some H') (hu' : b'.u = some U') (N : ℕ) :
    (∀ {E E'}, ElectronEnergies l H U N E → ElectronEnergies l' H' U' N E' → ∀ k < (2 * l).choose N, E' k ≤ E k) ∧
    (∀ {D D' E E' Ψ Ψ'}, Spectrum (N := N) (arrayOne l H) (arrayTwo l U) D E Ψ →
      Spectrum (N := N) (arrayOne l' H') (arrayTwo l' U') D' E' Ψ' → ∀ k < D, E' k ≤ E k) := by
  obtain ⟨_, _, e1, e2, one⟩ := nest.one
  obtain rfl := Option.some.inj (hh.symm.trans e1)
  obtain rfl := Option.some.inj (hh'.symm.trans e2)
  obtain ⟨_, _, e3, e4, two⟩ := nest.two
  obtain rfl := Option.some.inj (hu.symm.trans e3)
  obtain rfl := Option.some.inj (hu'.symm.trans e4)
  constructor
  · rintro E E' ⟨Ψ, S⟩ ⟨Ψ', S'⟩
    refine (S'.restrict (show 2 * l ≤ 2 * l' by omega) S (fun p q => ?_) (fun p q r s => ?_)).2
    · unfold spinOne
      rw [one _ (by omega) _ (by omega)]
      rfl
    · unfold spinTwo
      rw [two _ (by omega) _ (by omega) _ (by omega) _ (by omega)]
      rfl
  · intro D D' E E' Ψ Ψ' S S'
    refine (S'.restrict hl S (fun p q => ?_) (fun p q r s => ?_)).2
    · exact one _ p.2 _ q.2
    · exact two _ p.2 _ q.2 _ r.2 _ s.2

/-- For large basis sets there are more than `k` energies. -/
theorem eventually_choose {N : ℕ} (hN : 1 ≤ N) (k : ℕ) {l : ℕ} (hl : N + k ≤ l) : k < (2 * l).choose N := by
  obtain ⟨n, rfl⟩ := Nat.exists_eq_add_of_le hN
  have h1 : 1 + n ≤ 2 * l := by omega
  have h2 : (2 * l - n) ≤ (2 * l).choose (1 + n) := by
    have : ∀ m n : ℕ, m ≤ (m + n).choose (1 + n) := fun m n => by
      induction n with
      | zero => simp
      | succ n ih =>
        refine ih.trans ?_
        rw [show m + (n + 1) = (m + n) + 1 by ring, show 1 + (n + 1) = (1 + n) + 1 by ring, Nat.choose_succ_succ]
        omega
    have h3 := this (2 * l - n) n
    rwa [Nat.sub_add_cancel (by omega)] at h3
  omega

/-- Falling energies with a lower bound converge. -/
theorem levels_limit {N : ℕ} (hN : 1 ≤ N) (k : ℕ) {E : ℕ → ℕ → ℝ} {l₀ : ℕ} {c : ℝ}
    (fall : ∀ l l', l₀ ≤ l → l ≤ l' → k < (2 * l).choose N → E l' k ≤ E l k)
    (low : ∀ l, l₀ ≤ l → k < (2 * l).choose N → c ≤ E l k) :
    ∃ Einf, Tendsto (fun l => E l k) atTop (𝓝 Einf) ∧ c ≤ Einf ∧
      ∀ l, l₀ ≤ l → k < (2 * l).choose N → Einf ≤ E l k := by
  set n := l₀ + (N + k) with hn
  have hch : ∀ i, k < (2 * (i + n)).choose N := fun i => eventually_choose hN k (by omega)
  have anti : Antitone fun i => E (i + n) k := fun i j hij => fall _ _ (by omega) (by omega) (hch i)
  have bdd : BddBelow (Set.range fun i => E (i + n) k) := ⟨c, by
    rintro _ ⟨i, rfl⟩
    exact low _ (by omega) (hch i)⟩
  have hlim := tendsto_atTop_ciInf anti bdd
  refine ⟨⨅ i, E (i + n) k, (tendsto_add_atTop_iff_nat n).1 hlim, le_ciInf fun i => low _ (by omega) (hch i),
    fun l hl hk => (ciInf_le bdd l).trans (fall l _ hl (by omega) hk)⟩

/-! ## One dimension -/

theorem ofFn_first {l l' n : ℕ} (hl : l ≤ l') {dt : DType} (f : List ℕ → ℂ) {p : ℕ} (hp : p < l) (j : ℕ) :
    (ofFn dt [l, n] f).get [p, j] = (ofFn dt [l', n] f).get [p, j] := by
  by_cases hj : j < n
  · rw [ofFn_get_of (by exact ⟨hp, hj, trivial⟩), ofFn_get_of (by exact ⟨by omega, hj, trivial⟩)]
  · rw [ofFn_get, ofFn_get, if_neg (fun h => hj h.2.1), if_neg (fun h => hj h.2.1)]

theorem eye_first {l l' : ℕ} (hl : l ≤ l') {p : ℕ} (hp : p < l) (q : ℕ) :
    (eye l : NDArray ℂ).get [p, q] = (eye l' : NDArray ℂ).get [p, q] := by
  rw [eye_get _ _ _ hp, eye_get _ _ _ (hp.trans_le hl)]

/-- **C123** `ODHO`: a basis set with fewer functions is a part of one with more functions. -/
theorem C123_odho {l l' : ℕ} (hl : l ≤ l') (L : ℝ) {num : ℕ} (h2 : 2 ≤ num) (omega a alpha beta : ℝ) (np : Module)
    (sp an : Bool) : ∃ b b', odho l L num omega a alpha beta np sp an = .ok b ∧
      odho l' L num omega a alpha beta np sp an = .ok b' ∧ Nested l b b' := by
  obtain ⟨b, g, F, hh, hd⟩ := odho_ok l L h2 omega a alpha beta np sp an
  obtain ⟨b', g', F', hh', hd'⟩ := odho_ok l' L h2 omega a alpha beta np sp an
  refine ⟨b, b', g, g', ⟨_, _, hh, hh', fun p hp q hq => ?_⟩, ⟨_, _, F.s_eq, F'.s_eq, fun p hp q hq => eye_first hl hp q⟩,
    ⟨_, _, F.u_eq, F'.u_eq, fun p hp q hq r hr s hs => ?_⟩, F.dim_eq.trans F'.dim_eq.symm,
    ⟨_, _, hd, hd', fun k hk p hp q hq => ?_⟩, ⟨_, _, F.spf_eq, F'.spf_eq, rfl, fun p hp i hi => ?_⟩⟩
  · rw [ofFn_get_of (by exact ⟨hp, hq, trivial⟩), ofFn_get_of (by exact ⟨by omega, by omega, trivial⟩)]
  · rw [ofFn_get_of (by exact ⟨hp, hq, hr, hs, trivial⟩),
      ofFn_get_of (by exact ⟨by omega, by omega, by omega, by omega, trivial⟩)]
    simp only [List.getD_cons_zero, List.getD_cons_succ, coulombSum, odhoSpf, ofFn_first hl _ hp, ofFn_first hl _ hq,
      ofFn_first hl _ hr, ofFn_first hl _ hs]
  · rw [F.dim_eq] at hk
    rw [ofFn_get_of (by exact ⟨hk, hp, hq, trivial⟩), ofFn_get_of (by exact ⟨hk, by omega, by omega, trivial⟩)]
  · obtain ⟨j, rfl, hj⟩ := inRange_one.1 hi
    exact ofFn_first hl _ hp j

/-- **C123** `ODQD`: a basis set with fewer functions on the same grid is a part of one with more functions. -/
theorem C123_odqd {eigh : NDArray ℂ → Except PyErr (NDArray ℂ × NDArray ℂ)} (he : IsEigh eigh) {l l' num : ℕ} (hll : l ≤ l')
    (L : ℝ) (h3 : 3 ≤ num) (hl : l' ≤ num - 2) (a alpha beta : ℝ) (V : ℝ → ℝ) (hm : Bool) (np : Module) (sp an : Bool) :
    ∃ b b', odqd eigh l L num a alpha beta V hm np sp an = .ok b ∧
      odqd eigh l' L num a alpha beta V hm np sp an = .ok b' ∧ Nested l b b' := by
  obtain ⟨b, H, w, v, g, hH, ev, -, F, hh, hd⟩ := odqd_ok' he L h3 (hll.trans hl) a alpha beta V hm np sp an
  obtain ⟨b', H', w', v', g', hH', ev', -, F', hh', hd'⟩ := odqd_ok' he L h3 hl a alpha beta V hm np sp an
  obtain rfl : H = H' := hH.trans hH'.symm
  obtain ⟨rfl, rfl⟩ : w = w' ∧ v = v' := by simpa using ev.symm.trans ev'
  refine ⟨b, b', g, g', ⟨_, _, hh, hh', fun p hp q hq => ?_⟩, ⟨_, _, F.s_eq, F'.s_eq, fun p hp q hq => eye_first hll hp q⟩,
    ⟨_, _, F.u_eq, F'.u_eq, fun p hp q hq r hr s hs => ?_⟩, F.dim_eq.trans F'.dim_eq.symm,
    ⟨_, _, hd, hd', fun k hk p hp q hq => ?_⟩, ⟨_, _, F.spf_eq, F'.spf_eq, rfl, fun p hp i hi => ?_⟩⟩
  · rw [ofFn_get_of (by exact ⟨hp, hq, trivial⟩), ofFn_get_of (by exact ⟨by omega, by omega, trivial⟩)]
  · rw [ofFn_get_of (by exact ⟨hp, hq, hr, hs, trivial⟩),
      ofFn_get_of (by exact ⟨by omega, by omega, by omega, by omega, trivial⟩)]
    simp only [List.getD_cons_zero, List.getD_cons_succ, coulombSum, odqdSpf, ofFn_first hll _ hp, ofFn_first hll _ hq,
      ofFn_first hll _ hr, ofFn_first hll _ hs]
  · rw [F.dim_eq] at hk
    rw [ofFn_get_of (by exact ⟨hk, hp, hq, trivial⟩), ofFn_get_of (by exact ⟨hk, by omega, by omega, trivial⟩)]
    simp only [List.getD_cons_zero, List.getD_cons_succ, odqdSpf, ofFn_first hll _ hp, ofFn_first hll _ hq]
  · obtain ⟨j, rfl, hj⟩ := inRange_one.1 hi
    exact ofFn_first hll _ hp j

/-- **C123** `ODHO`: with more and more functions every energy of `N` electrons falls to a limit, which is not below the
sum of the lowest oscillator energies. -/
theorem C123_odho_limit {N : ℕ} (hN : 1 ≤ N) (k : ℕ) {L : ℝ} (hL : 0 ≤ L) {num : ℕ} (h2 : 2 ≤ num) {omega : ℝ}
    (ho : 0 ≤ omega) (a : ℝ) {alpha : ℝ} (h0 : 0 ≤ alpha) (ha : a ≠ 0) (beta : ℝ) (np : Module) (sp an : Bool)
    {E : ℕ → ℕ → ℝ} (hE : ∀ l, ∃ b h u, odho l L num omega a alpha beta np sp an = .ok b ∧ b.h = some h ∧ b.u = some u ∧
      ElectronEnergies l h u N (E l)) :
    (∀ l l', l ≤ l' → k < (2 * l).choose N → E l' k ≤ E l k) ∧
    ∃ Einf, Tendsto (fun l => E l k) atTop (𝓝 Einf) ∧ ∑ i ∈ range N, omega * ((i / 2 : ℕ) + 1 / 2) ≤ Einf ∧
      ∀ l, k < (2 * l).choose N → Einf ≤ E l k := by
  have fall : ∀ l l', l ≤ l' → k < (2 * l).choose N → E l' k ≤ E l k := fun l l' hll hk => by
    obtain ⟨b, h, u, g, hh, hu, S⟩ := hE l
    obtain ⟨b', h', u', g', hh', hu', S'⟩ := hE l'
    obtain ⟨_, _, i, i', nest⟩ := C123_odho hll L h2 omega a alpha beta np sp an
    obtain rfl : b = _ := by simpa using g.symm.trans i
    obtain rfl : b' = _ := by simpa using g'.symm.trans i'
    exact (C123_energies hll nest hh hu hh' hu' N).1 S S' k hk
  refine ⟨fall, ?_⟩
  obtain ⟨Einf, lim, low, le⟩ := levels_limit hN k (l₀ := 0) (c := ∑ i ∈ range N, omega * ((i / 2 : ℕ) + 1 / 2))
    (fun l l' _ => fall l l') (fun l _ hk => by
      obtain ⟨b, h, u, g, hh, hu, Ψ, S⟩ := hE l
      obtain ⟨_, _, _, _, _, _, E', _, i, -, ih, -, iu, -, ⟨Ψ', S'⟩, -, bd⟩ := C122_odho l N hL h2 ho h0 le_rfl ha le_rfl beta
        beta np np sp an sp an
      obtain rfl : b = _ := by simpa using g.symm.trans i
      obtain rfl := Option.some.inj (hh.symm.trans ih)
      obtain rfl := Option.some.inj (hu.symm.trans iu)
      rw [S.unique S' hk]
      exact (bd k hk).1)
  exact ⟨Einf, lim, low, fun l hk => le l (Nat.zero_le l) hk⟩

/-! ## Two dimensions -/

theorem setupSpf_first {nm nm' : ℕ → ℤ × ℤ} {l l' num : ℕ} (hl : l ≤ l') (hnm : ∀ p < l, nm p = nm' p)
    (radiusLength omega mass : ℝ) {p : ℕ} (hp : p < l) {i : List ℕ} (hi : InRange [num, num] i) :
    (setupSpf nm l num radiusLength omega mass).get (p :: i) = (setupSpf nm' l' num radiusLength omega mass).get (p :: i) := by
  obtain ⟨j, k, rfl, hj, hk⟩ := inRange_two.1 hi
  unfold setupSpf
  rw [ofFn_get_of (by exact ⟨hp, hj, hk, trivial⟩), ofFn_get_of (by exact ⟨by omega, hj, hk, trivial⟩)]
  simp only [List.getD_cons_zero, List.getD_cons_succ, spfState, hnm p hp]

theorem dipoleEntry_first {nm nm' : ℕ → ℤ × ℤ} {p q : ℕ} (hp : nm p = nm' p) (hq : nm q = nm' q) (omega mass : ℝ) (k : ℕ) :
    dipoleEntry nm omega mass k p q = dipoleEntry nm' omega mass k p q := by
  simp only [dipoleEntry, hp, hq]

/-- **C123** `TwoDimensionalHarmonicOscillator` and `TwoDimensionalDoubleWell`: a basis set with fewer functions is a part of
one with more functions. -/
theorem C123_tdho {l l' : ℕ} (hl : l ≤ l') (num : ℕ) (radiusLength omega mass : ℝ) (np : Module) :
    (∃ b b', tdho (getCoulombElementsRaw l) l num radiusLength omega mass np = .ok b ∧
      tdho (getCoulombElementsRaw l') l' num radiusLength omega mass np = .ok b' ∧ Nested l b b') ∧
    ∀ (barrier : ℝ) (axis : ℕ), ∃ b b',
      doubleWell (getCoulombElementsRaw l) l num radiusLength omega mass barrier axis np = .ok b ∧
      doubleWell (getCoulombElementsRaw l') l' num radiusLength omega mass barrier axis np = .ok b' ∧ Nested l b b' := by
  rw [getCoulombElementsRaw_eq, getCoulombElementsRaw_eq]
  have key : ∀ {b b' : BasisSet ℂ} {f : List ℕ → ℂ}, TdhoFields b (ofFn .float64 [l, l, l, l] f) getIndicesNm l num radiusLength omega mass np →
      TdhoFields b' (ofFn .float64 [l', l', l', l'] f) getIndicesNm l' num radiusLength omega mass np →
      (∃ h h', b.h = some h ∧ b'.h = some h' ∧ ∀ p < l, ∀ q < l, h.get [p, q] = h'.get [p, q]) → Nested l b b' :=
    fun {b b' f} F F' one => by
      refine ⟨one, ⟨_, _, F.s_eq, F'.s_eq, fun p hp q hq => eye_first hl hp q⟩,
        ⟨_, _, F.u_eq, F'.u_eq, fun p hp q hq r hr s hs => ?_⟩, F.dim_eq.trans F'.dim_eq.symm,
        ⟨_, _, F.dipole_eq, F'.dipole_eq, fun k hk p hp q hq => ?_⟩, ⟨_, _, F.spf_eq, F'.spf_eq, rfl, fun p hp i hi => ?_⟩⟩
      · rw [NDArray.smul_get, NDArray.smul_get, ofFn_get_of (by exact ⟨hp, hq, hr, hs, trivial⟩),
          ofFn_get_of (by exact ⟨by omega, by omega, by omega, by omega, trivial⟩)]
      · rw [F.dim_eq] at hk
        rw [ofFn_get_of (by exact ⟨hk, hp, hq, trivial⟩), ofFn_get_of (by exact ⟨hk, by omega, by omega, trivial⟩)]
      · exact setupSpf_first hl (fun _ _ => rfl) _ _ _ hp hi
  constructor
  · obtain ⟨b, g, F, hh⟩ := tdho_ok _ l num radiusLength omega mass np
    obtain ⟨b', g', F', hh'⟩ := tdho_ok _ l' num radiusLength omega mass np
    refine ⟨b, b', g, g', key F F' ⟨_, _, hh, hh', fun p hp q hq => ?_⟩⟩
    unfold oscillatorH
    rw [NDArray.smul_get, NDArray.smul_get, ofFn_get_of (by exact ⟨hp, hq, trivial⟩),
      ofFn_get_of (by exact ⟨by omega, by omega, trivial⟩)]
  · intro barrier axis
    obtain ⟨b, g, F, hh⟩ := doubleWell_ok _ l num radiusLength omega mass barrier axis np
    obtain ⟨b', g', F', hh'⟩ := doubleWell_ok _ l' num radiusLength omega mass barrier axis np
    refine ⟨b, b', g, g', key F F' ⟨_, _, hh, hh', fun p hp q hq => ?_⟩⟩
    rw [ofFn_get_of (by exact ⟨hp, hq, trivial⟩), ofFn_get_of (by exact ⟨by omega, by omega, trivial⟩)]

/-- **C123** `TwoDimensionalHarmonicOscillator`: with more and more functions every energy of `N` electrons falls to a limit,
which is not below the sum of the lowest shell energies. -/
theorem C123_tdho_limit {N : ℕ} (hN : 1 ≤ N) (k num : ℕ) (radiusLength : ℝ) {omega mass : ℝ} (ho : 0 < omega)
    (hm : 0 < mass) (np : Module) {E : ℕ → ℕ → ℝ}
    (hE : ∀ l, ∃ b h u, tdho (getCoulombElementsRaw l) l num radiusLength omega mass np = .ok b ∧ b.h = some h ∧
      b.u = some u ∧ ElectronEnergies l h u N (E l)) :
    (∀ l l', l ≤ l' → k < (2 * l).choose N → E l' k ≤ E l k) ∧
    ∃ Einf, Tendsto (fun l => E l k) atTop (𝓝 Einf) ∧
      ∑ i ∈ range N, omega * getShellEnergy (getIndicesNm (i / 2)).1 (getIndicesNm (i / 2)).2 ≤ Einf ∧
      ∀ l, k < (2 * l).choose N → Einf ≤ E l k := by
  have fall : ∀ l l', l ≤ l' → k < (2 * l).choose N → E l' k ≤ E l k := fun l l' hll hk => by
    obtain ⟨b, h, u, g, hh, hu, S⟩ := hE l
    obtain ⟨b', h', u', g', hh', hu', S'⟩ := hE l'
    obtain ⟨_, _, i, i', nest⟩ := (C123_tdho hll num radiusLength omega mass np).1
    obtain rfl : b = _ := by simpa using g.symm.trans i
    obtain rfl : b' = _ := by simpa using g'.symm.trans i'
    exact (C123_energies hll nest hh hu hh' hu' N).1 S S' k hk
  refine ⟨fall, ?_⟩
  obtain ⟨Einf, lim, low, le⟩ := levels_limit hN k (l₀ := 0)
    (c := ∑ i ∈ range N, omega * getShellEnergy (getIndicesNm (i / 2)).1 (getIndicesNm (i / 2)).2)
    (fun l l' _ => fall l l') (fun l _ hk => by
      obtain ⟨b, h, u, g, hh, hu, Ψ, S⟩ := hE l
      obtain ⟨_, _, _, E', i, ih, iu, ⟨Ψ', S'⟩, bd⟩ := C122_tdho l num N radiusLength ho hm np
      obtain rfl : b = _ := by simpa using g.symm.trans i
      obtain rfl := Option.some.inj (hh.symm.trans ih)
      obtain rfl := Option.some.inj (hu.symm.trans iu)
      rw [S.unique S' hk]
      exact bd k hk)
  exact ⟨Einf, lim, low, fun l hk => le l (Nat.zero_le l) hk⟩

/-- The states of a smaller basis set in a magnetic field are the first states of a larger one. -/
theorem indicesNmB_first {l l' : ℕ} (hll : l ≤ l') {omega0 omegaC : ℝ} (ho : omega0 ≠ 0) {df df' : List Row}
    (h : dataframeB l omega0 omegaC = .ok df) (h' : dataframeB l' omega0 omegaC = .ok df') {p : ℕ} (hp : p < l) :
    df[p]? = df'[p]? := by
  have h1 := congrArg (fun L => L[p]?) (dataframeB_ok h).2
  have h2 := congrArg (fun L => L[p]?) (dataframeB_ok h').2
  have h3 := congrArg (fun L => L[p]?) (sortRows_take hll (omegaB_gt (omegaC := omegaC) ho))
  simp only [List.getElem?_take, hp, hp.trans_le hll, if_true] at h1 h2 h3
  rw [h1, h2, h3]

/-- **C123** `TwoDimHarmonicOscB` with a confinement: a basis set with fewer functions is a part of one with more functions. -/
theorem C123_magnetic {l l' num : ℕ} (hll : l ≤ l') {radiusLength omega0 mass omegaC : ℝ} {np : Module} {b b' : BasisSet ℂ}
    {df df' : List Row} (h : oscB l num radiusLength omega0 mass omegaC np = .ok (b, df))
    (h' : oscB l' num radiusLength omega0 mass omegaC np = .ok (b', df')) (ho : omega0 ≠ 0) : Nested l b b' := by
  obtain ⟨hd, x, hx, -, ex⟩ := C51_one_body h
  obtain ⟨hd', x', hx', -, ex'⟩ := C51_one_body h'
  obtain ⟨_, _, u, i1, -, hu, -, dim, -, -, is, iu, ispf, idip⟩ := oscB_ok hd num radiusLength mass np
  obtain ⟨_, _, u', j1, -, hu', -, dim', -, -, js, ju, jspf, jdip⟩ := oscB_ok hd' num radiusLength mass np
  rw [h] at i1
  rw [h'] at j1
  cases i1
  cases j1
  rw [getCoulombElementsB_eq] at hu hu'
  cases hu
  cases hu'
  have hnm : ∀ p < l, indicesNmB df p = indicesNmB df' p := fun p hp => by
    unfold indicesNmB
    rw [indicesNmB_first hll ho hd hd' hp]
  refine ⟨⟨_, _, hx, hx', fun p hp q hq => ?_⟩, ⟨_, _, is, js, fun p hp q hq => ?_⟩,
    ⟨_, _, iu, ju, fun p hp q hq r hr s hs => ?_⟩, dim.trans dim'.symm, ⟨_, _, idip, jdip, fun k hk p hp q hq => ?_⟩,
    ⟨_, _, ispf, jspf, rfl, fun p hp i hi => ?_⟩⟩
  · rw [ex p q hp hq, ex' p q (by omega) (by omega), hnm p hp]
  · rw [toComplex_get, toComplex_get, eye_first hll hp q]
  · rw [toComplex_get, toComplex_get, NDArray.smul_get, NDArray.smul_get, ofFn_get_of (by exact ⟨hp, hq, hr, hs, trivial⟩),
      ofFn_get_of (by exact ⟨by omega, by omega, by omega, by omega, trivial⟩)]
    simp only [List.getD_cons_zero, List.getD_cons_succ, hnm p hp, hnm q hq, hnm r hr, hnm s hs]
  · rw [dim] at hk
    rw [toComplex_get, toComplex_get, ofFn_get_of (by exact ⟨hk, hp, hq, trivial⟩),
      ofFn_get_of (by exact ⟨hk, by omega, by omega, trivial⟩)]
    exact dipoleEntry_first (hnm p hp) (hnm q hq) _ _ _
  · rw [toComplex_get, toComplex_get]
    exact setupSpf_first hll hnm _ _ _ hp hi

/-- **C123** `TwoDimHarmonicOscB` with a confinement: with more and more functions every energy of `N` electrons falls to a
limit, which is at least `N` times the lowest oscillator energy. -/
theorem C123_magnetic_limit {N : ℕ} (hN : 1 ≤ N) (k num : ℕ) (radiusLength : ℝ) {omega0 mass omegaC : ℝ} (ho : omega0 ≠ 0)
    (hm : 0 < mass) (np : Module) {E : ℕ → ℕ → ℝ}
    (hE : ∀ l, 1 ≤ l → ∃ b df h u, oscB l num radiusLength omega0 mass omegaC np = .ok (b, df) ∧ b.h = some h ∧
      b.u = some u ∧ ElectronEnergies l h u N (E l)) :
    (∀ l l', 1 ≤ l → l ≤ l' → k < (2 * l).choose N → E l' k ≤ E l k) ∧
    ∃ Einf, Tendsto (fun l => E l k) atTop (𝓝 Einf) ∧ N * Real.sqrt (omega0 ^ 2 + omegaC ^ 2 / 4) ≤ Einf ∧
      ∀ l, 1 ≤ l → k < (2 * l).choose N → Einf ≤ E l k := by
  have fall : ∀ l l', 1 ≤ l → l ≤ l' → k < (2 * l).choose N → E l' k ≤ E l k := fun l l' h1 hll hk => by
    obtain ⟨b, df, h, u, g, hh, hu, S⟩ := hE l h1
    obtain ⟨b', df', h', u', g', hh', hu', S'⟩ := hE l' (h1.trans hll)
    exact (C123_energies hll (C123_magnetic hll g g' ho) hh hu hh' hu' N).1 S S' k hk
  refine ⟨fall, levels_limit hN k fall fun l h1 hk => ?_⟩
  obtain ⟨b, df, h, u, g, hh, hu, S⟩ := hE l h1
  obtain ⟨_, _, _, i1, -, -, -, -, -, -, is, -⟩ := oscB_ok (C51_one_body g).1 num radiusLength mass np
  rw [g] at i1
  cases i1
  refine (C122_zero_point (C92_magnetic g hm (.inl ho)) (fun s hs p hp q hq => ?_) hh hu N).2.2 S k hk
  obtain rfl := Option.some.inj (is.symm.trans hs)
  rw [toComplex_get, eye_get _ _ _ hp]

/-- **C123** The confinement is needed: without one, in a field with `ω_c < 0`, the first state is the last one of the window,
`m = -l - 5`, so that it changes with the number of functions. -/
theorem C123_magnetic_without {l : ℕ} (hl : 1 ≤ l) {omegaC : ℝ} (hc : omegaC < 0) {df : List Row}
    (h : dataframeB l 0 omegaC = .ok df) : indicesNmB df 0 = (0, -(l : ℤ) - 5) := by
  have ho : omegaB 0 omegaC = -omegaC / 2 := by
    unfold omegaB
    rw [show (0 : ℝ) ^ 2 + omegaC ^ 2 / 4 = (-omegaC / 2) ^ 2 by ring]
    exact Real.sqrt_sq (by linarith)
  obtain ⟨hp, -, e, -⟩ := kept_row h (show 0 < l by omega)
  generalize omegaB 0 omegaC = omega at hp e ho
  subst ho
  have hmem := mem_window.1 ((sortRows_perm _).mem_iff.1 (List.getElem_mem hp))
  obtain ⟨n, m, h0, -, h2, -, e'⟩ := hmem
  have hk : indicesNmB df 0 = (n, m) := rowOf_injective _ _ (e.symm.trans e')
  rw [hk]
  have hm0 : rowOf omegaC (-omegaC / 2) (0, -(l : ℤ) - 5) ∈ sortRows (windowRows (nArray l) (mArray l) omegaC (-omegaC / 2)) :=
    (sortRows_perm _).mem_iff.2 (mem_window.2 ⟨0, -(l : ℤ) - 5, le_rfl, by omega, by omega, by omega, rfl⟩)
  have hE0 : shellEnergyB 0 (-(l : ℤ) - 5) omegaC (-omegaC / 2) = -omegaC / 2 := by
    unfold shellEnergyB
    rw [abs_of_neg (by omega)]
    push_cast
    ring
  have hE : -omegaC / 2 ≤ shellEnergyB n m omegaC (-omegaC / 2) := by
    unfold shellEnergyB
    have h3 : (0 : ℝ) ≤ n := by exact_mod_cast h0
    have h4 : -(m : ℝ) ≤ ((|m| : ℤ) : ℝ) := by exact_mod_cast neg_le_abs m
    push_cast at h4 ⊢
    nlinarith
  refine rowLe_antisymm (omegaC := omegaC) (omega := -omegaC / 2) (by linarith) ?_ ?_
  · rw [← e']
    obtain ⟨i, hi, hrow⟩ := List.mem_iff_getElem.1 hm0
    rw [← hrow]
    rcases Nat.eq_zero_or_pos i with rfl | hpos
    · exact .inr ⟨rfl, le_rfl⟩
    · exact List.pairwise_iff_getElem.1 (sortRows_sorted _) 0 i hp hi hpos
  · rcases hE.lt_or_eq with h5 | h5
    · exact .inl (by
        show shellEnergyB 0 (-(l : ℤ) - 5) omegaC (-omegaC / 2) < shellEnergyB n m omegaC (-omegaC / 2)
        rw [hE0]
        exact h5)
    · exact .inr ⟨by
        show shellEnergyB 0 (-(l : ℤ) - 5) omegaC (-omegaC / 2) = shellEnergyB n m omegaC (-omegaC / 2)
        rw [hE0]
        exact h5, h2⟩

/-! ## Example -/

/-- The ground state of two electrons in a two-dimensional dot: the energy with six functions is not higher than that with
three. -/
example (num : ℕ) (radiusLength : ℝ) {omega mass : ℝ} (ho : 0 < omega) (hm : 0 < mass) (np : Module) :
    ∃ b b' h h' u u' E E', tdho (getCoulombElementsRaw 3) 3 num radiusLength omega mass np = .ok b ∧
      tdho (getCoulombElementsRaw 6) 6 num radiusLength omega mass np = .ok b' ∧ b.h = some h ∧ b'.h = some h' ∧
      b.u = some u ∧ b'.u = some u' ∧ ElectronEnergies 3 h u 2 E ∧ ElectronEnergies 6 h' u' 2 E' ∧ E' 0 ≤ E 0 := by
  obtain ⟨b, h, u, E, g, hh, hu, S, -⟩ := C122_tdho 3 num 2 radiusLength ho hm np
  obtain ⟨b', h', u', E', g', hh', hu', S', -⟩ := C122_tdho 6 num 2 radiusLength ho hm np
  obtain ⟨_, _, i, i', nest⟩ := (C123_tdho (show 3 ≤ 6 by norm_num) num radiusLength omega mass np).1
  obtain rfl : b = _ := by simpa using g.symm.trans i
  obtain rfl : b' = _ := by simpa using g'.symm.trans i'
  exact ⟨b, b', h, h', u, u', E, E', g, g', hh, hh', hu, hu', S, S',
    (C123_energies (by norm_num) nest hh hu hh' hu' 2).1 S S' 0 (by decide)⟩

end QS.Props
