import Verif.Lemmas.Magnetic
import Verif.Props.TwoDim

/-!
# The two-dimensional oscillator in a magnetic field (C51, C52, C76)
-/

namespace QS.Props

open TwoDim Idx NDArray Spec

/-- The states `(n, m)` that `TwoDimHarmonicOscB` uses for its `l` orbitals. -/
def keptStates (l : ℕ) (df : List Row) : List (ℤ × ℤ) := (List.range l).map (indicesNmB df)

/-- The energy of a state of the infinite spectrum: `ω (2n + |m| + 1) - ω_c m / 2` with
`ω = √(ω_0² + ω_c²/4)`. -/
noncomputable def levelEnergy (omega0 omegaC : ℝ) (nm : ℤ × ℤ) : ℝ :=
  Real.sqrt (omega0 ^ 2 + omegaC ^ 2 / 4) * (2 * nm.1 + |nm.2| + 1 : ℤ) - omegaC * nm.2 / 2

/-! ## C51 -/

theorem kept_row {l : ℕ} {omega0 omegaC : ℝ} {df : List Row} (h : dataframeB l omega0 omegaC = .ok df)
    {p : ℕ} (hp : p < l) :
    ∃ hp' : p < (sortRows (windowRows (nArray l) (mArray l) omegaC (omegaB omega0 omegaC))).length,
      df[p]? = some (sortRows (windowRows (nArray l) (mArray l) omegaC (omegaB omega0 omegaC)))[p] ∧
      (sortRows (windowRows (nArray l) (mArray l) omegaC (omegaB omega0 omegaC)))[p]
        = rowOf omegaC (omegaB omega0 omegaC) (indicesNmB df p) ∧
      0 ≤ (indicesNmB df p).1 := by
  obtain ⟨h1, h2⟩ := dataframeB_ok h
  generalize hS : sortRows (windowRows (nArray l) (mArray l) omegaC (omegaB omega0 omegaC)) = S at *
  have e : df[p]? = S[p]? := by
    have := congrArg (fun L => L[p]?) h2
    simpa [List.getElem?_take, hp] using this
  have hdf : df[p]? = some df[p] := by simp [show p < df.length by omega]
  have hS' : p < S.length := by
    by_contra hlt
    rw [hdf, List.getElem?_eq_none (by omega)] at e
    cases e
  have e' : S[p]? = some S[p] := by simp [hS']
  refine ⟨hS', e.trans e', ?_⟩
  have hmem : S[p] ∈ sortRows (windowRows (nArray l) (mArray l) omegaC (omegaB omega0 omegaC)) := by
    rw [hS]
    exact List.getElem_mem hS'
  have hmem' := mem_window.1 ((sortRows_perm _).mem_iff.1 hmem)
  obtain ⟨n, m, h0, -, -, -, hr⟩ := hmem'
  have hi : indicesNmB df p = (n, m) := by
    unfold indicesNmB
    rw [e, e', hr]
    rfl
  rw [hi]
  exact ⟨hr, h0⟩

/-- **C51** Whenever `TwoDimHarmonicOscB` is constructed, for any field strength, the states of its `l`
orbitals are distinct, and no state of the infinite spectrum that is left out has lower energy than one
kept. -/
theorem C51_lowest {l : ℕ} {omega0 omegaC : ℝ} {df : List Row} (h : dataframeB l omega0 omegaC = .ok df) :
    (keptStates l df).length = l ∧ (keptStates l df).Nodup ∧ (∀ k ∈ keptStates l df, 0 ≤ k.1) ∧
      ∀ k ∈ keptStates l df, ∀ n m : ℤ, 0 ≤ n → (n, m) ∉ keptStates l df →
        levelEnergy omega0 omegaC k ≤ levelEnergy omega0 omegaC (n, m) := by
  refine ⟨by simp [keptStates], ?_, ?_, ?_⟩
  · unfold keptStates
    rw [List.nodup_map_iff_inj_on List.nodup_range]
    intro p hp q hq hpq
    rw [List.mem_range] at hp hq
    obtain ⟨hp', -, h1, -⟩ := kept_row h hp
    obtain ⟨hq', -, h2, -⟩ := kept_row h hq
    have hn := (sortRows_perm _).nodup_iff.2 (window_nodup l omegaC (omegaB omega0 omegaC))
    exact (hn.getElem_inj_iff).1 (h1.trans ((congrArg _ hpq).trans h2.symm))
  · intro k hk
    obtain ⟨p, hp, rfl⟩ := List.mem_map.1 hk
    exact (kept_row h (List.mem_range.1 hp)).2.2.2
  · intro k hk n m hn hout
    obtain ⟨p, hp, rfl⟩ := List.mem_map.1 hk
    rw [List.mem_range] at hp
    obtain ⟨hp', -, h1, -⟩ := kept_row h hp
    show shellEnergyB _ _ omegaC (omegaB omega0 omegaC) ≤ shellEnergyB n m omegaC (omegaB omega0 omegaC)
    have h2 := congrArg Row.E h1
    rw [show shellEnergyB (indicesNmB df p).1 (indicesNmB df p).2 omegaC (omegaB omega0 omegaC)
      = (rowOf omegaC (omegaB omega0 omegaC) (indicesNmB df p)).E from rfl, ← h2]
    have hsorted := sortRows_sorted (windowRows (nArray l) (mArray l) omegaC (omegaB omega0 omegaC))
    by_cases hw : n < l ∧ -(l : ℤ) - 5 ≤ m ∧ m ≤ l + 5
    · have hmem : rowOf omegaC (omegaB omega0 omegaC) (n, m)
          ∈ sortRows (windowRows (nArray l) (mArray l) omegaC (omegaB omega0 omegaC)) :=
        (sortRows_perm _).mem_iff.2 (mem_window.2 ⟨n, m, hn, hw.1, hw.2.1, hw.2.2, rfl⟩)
      obtain ⟨i, hi, hrow⟩ := List.mem_iff_getElem.1 hmem
      have hli : l ≤ i := by
        by_contra hlt
        obtain ⟨hi', -, h3, -⟩ := kept_row h (show i < l by omega)
        refine hout (List.mem_map.2 ⟨i, List.mem_range.2 (by omega), ?_⟩)
        exact rowOf_injective _ _ (h3.symm.trans hrow)
      have := (List.pairwise_iff_getElem.1 hsorted p i hp' hi (by omega)).energy
      rw [hrow] at this
      exact this
    · obtain ⟨L, hL, hLW, hlen, hE⟩ := outside_window (l := l) (abs_le_omegaB omega0 omegaC) hn hw
      refine energy_at hsorted ?_ hp'
      rw [(sortRows_perm _).countP_eq]
      exact lt_of_lt_of_le (by omega) (count_ge hL hLW hE)

/-- **C51** These are the states of the basis set: its one-body elements are diagonal, with the energies of the
kept states. -/
theorem C51_one_body {l num : ℕ} {radiusLength omega0 mass omegaC : ℝ} {np : Module} {b : BasisSet ℂ}
    {df : List Row} (h : oscB l num radiusLength omega0 mass omegaC np = .ok (b, df)) :
    dataframeB l omega0 omegaC = .ok df ∧ ∃ x, b.h = some x ∧ x.shape = [l, l] ∧
      ∀ p q, p < l → q < l → x.get [p, q]
        = if p = q then (levelEnergy omega0 omegaC (indicesNmB df p) : ℂ) else 0 := by
  cases hd : dataframeB l omega0 omegaC with
  | error e => rw [oscB_error hd] at h; cases h
  | ok df' =>
    obtain ⟨b', hh, u, h1, h2, -, -, -, -, h4, -⟩ := oscB_ok hd num radiusLength mass np
    rw [h1] at h
    cases h
    refine ⟨rfl, _, h4, ?_, fun p q hp hq => ?_⟩ <;>
      (rw [getOneBodyElementsB_eq (dataframeB_ok hd).1] at h2; cases h2)
    · rfl
    · rw [toComplex_get, ofFn_get_of (show InRange [l, l] [p, q] from ⟨hp, hq, trivial⟩)]
      simp only [List.getD_cons_zero, List.getD_cons_succ]
      obtain ⟨hp', h5, h6, -⟩ := kept_row hd hp
      by_cases hpq : p = q
      · rw [if_pos hpq, if_pos hpq, List.getD_eq_getElem?_getD, h5, Option.getD_some, h6]
        rfl
      · rw [if_neg hpq, if_neg hpq]

/-- **C51** The basis set is constructed for every `l ≥ 1` and every field, unless the frequency
`√(ω_0² + ω_c²/4)` is below `2·10⁻⁶`. -/
theorem C51_constructed {l : ℕ} (hl : 1 ≤ l) {omega0 omegaC : ℝ}
    (ho : 2 / 10 ^ 6 ≤ Real.sqrt (omega0 ^ 2 + omegaC ^ 2 / 4)) (num : ℕ) (radiusLength mass : ℝ)
    (np : Module) : ∃ b df, oscB l num radiusLength omega0 mass omegaC np = .ok (b, df) := by
  obtain ⟨df, h⟩ := dataframeB_succeeds hl ho
  obtain ⟨b, hh, u, h1, -⟩ := oscB_ok h num radiusLength mass np
  exact ⟨b, df, h1⟩

/-- In a strong field (`ω_0 = 3`, `ω_c = 8`, so `ω = 5`) the orbitals `m = 0, 1` of energies 5 and 6 are
kept for `l = 2`, and the state `n = 0, m = -1` of energy 14 is not. -/
example : levelEnergy 3 8 (0, 0) = 5 ∧ levelEnergy 3 8 (0, 1) = 6 ∧ levelEnergy 3 8 (0, -1) = 14 := by
  have : Real.sqrt ((3 : ℝ) ^ 2 + 8 ^ 2 / 4) = 5 := by
    rw [show (3 : ℝ) ^ 2 + 8 ^ 2 / 4 = 5 ^ 2 by norm_num]
    exact Real.sqrt_sq (by norm_num)
  simp only [levelEnergy, this]
  norm_num

/-! ## C52 -/

/-- Arrays of the same shape and values. -/
def SameArrays (a b : Option (NDArray ℂ)) : Prop :=
  ∃ x y, a = some x ∧ b = some y ∧ x.shape = y.shape ∧ ∀ i, x.get i = y.get i

/-- What C52 says: without field, `TwoDimHarmonicOscB` orders its orbitals as
`TwoDimensionalHarmonicOscillator` does, and both have the same elements. -/
def AgreesWithOscillator (l num : ℕ) (radiusLength omega mass : ℝ) (np : Module) : Prop :=
  ∃ b df t u, oscB l num radiusLength omega mass 0 np = .ok (b, df) ∧
    Coulomb.getCoulombElementsRaw l = .ok u ∧ tdho (.ok u) l num radiusLength omega mass np = .ok t ∧
    (∀ p < l, indicesNmB df p = getIndicesNm p) ∧
    SameArrays b.h t.h ∧ SameArrays b.u t.u ∧ SameArrays b.s t.s ∧ SameArrays b.dipole t.dipole ∧
    SameArrays b.spf t.spf

/-- C52 as stated. -/
def C52_statement : Prop := ∀ (l num : ℕ) (radiusLength omega mass : ℝ) (np : Module), 1 ≤ l → 0 < omega →
  AgreesWithOscillator l num radiusLength omega mass np

/-- **C52 is false as stated**: for a tiny frequency all energies fall into one level, the loop that caps the
data frame runs over its end, and `TwoDimHarmonicOscB` raises `IndexError`. -/
theorem C52_false : ¬ C52_statement := by
  intro h
  obtain ⟨b, df, t, u, h1, -⟩ := h 1 2 1 (1 / 10 ^ 9) 1 0 le_rfl (by norm_num)
  have hw : omegaB (1 / 10 ^ 9) 0 = 1 / 10 ^ 9 := by
    unfold omegaB
    rw [show ((1 : ℝ) / 10 ^ 9) ^ 2 + 0 ^ 2 / 4 = (1 / 10 ^ 9) ^ 2 by norm_num]
    exact Real.sqrt_sq (by norm_num)
  have hd : dataframeB 1 (1 / 10 ^ 9) 0 = .error .index := by
    unfold dataframeB
    rw [hw]
    refine constructDataframe_error ?_ ?_
    · intro e
      have := window_length 1 0 (1 / 10 ^ 9)
      rw [e] at this
      cases this
    · have key : ∀ r ∈ windowRows (nArray 1) (mArray 1) 0 (1 / 10 ^ 9), 0 ≤ r.E ∧ r.E ≤ 1 / 10 ^ 8 := by
        intro r hr
        obtain ⟨n, m, h0, h1, h2, h3, rfl⟩ := mem_window.1 hr
        have hn : n = 0 := by omega
        have hm : |m| ≤ 6 := abs_le.2 ⟨by omega, by omega⟩
        have hm0 := abs_nonneg m
        show 0 ≤ shellEnergyB n m 0 (1 / 10 ^ 9) ∧ shellEnergyB n m 0 (1 / 10 ^ 9) ≤ _
        unfold shellEnergyB
        rw [hn]
        have e1 : ((2 * 0 + |m| + 1 : ℤ) : ℝ) ≤ 7 := by exact_mod_cast (by omega)
        have e2 : (0 : ℝ) ≤ ((2 * 0 + |m| + 1 : ℤ) : ℝ) := by exact_mod_cast (by omega)
        constructor
        · have : (0 : ℝ) ≤ 1 / 10 ^ 9 * ((2 * 0 + |m| + 1 : ℤ) : ℝ) := by positivity
          linarith
        · have : (1 : ℝ) / 10 ^ 9 * ((2 * 0 + |m| + 1 : ℤ) : ℝ) ≤ 1 / 10 ^ 9 * 7 :=
            mul_le_mul_of_nonneg_left e1 (by norm_num)
          linarith
      intro r hr r' hr'
      have h1 := key r hr
      have h2 := key r' hr'
      rw [abs_le]
      constructor <;> linarith [h1.1, h1.2, h2.1, h2.2]
  rw [oscB_error hd] at h1
  cases h1

/-- **C52** Whenever `TwoDimHarmonicOscB` is constructed without field, it agrees with the oscillator. -/
theorem C52_agrees {l : ℕ} {omega : ℝ} (ho : 0 < omega) {df : List Row} (hd : dataframeB l omega 0 = .ok df)
    (num : ℕ) (radiusLength mass : ℝ) (np : Module) :
    AgreesWithOscillator l num radiusLength omega mass np := by
  have hw : omegaB omega 0 = omega := by
    unfold omegaB
    rw [show omega ^ 2 + 0 ^ 2 / 4 = omega ^ 2 by ring]
    exact Real.sqrt_sq ho.le
  have hrow : ∀ p < l, indicesNmB df p = getIndicesNm p ∧
      (df.getD p ⟨0, 0, 0⟩).E = shellEnergyB (getIndicesNm p).1 (getIndicesNm p).2 0 omega := by
    intro p hp
    obtain ⟨hp', h1, h2, -⟩ := kept_row hd hp
    have h3 := congrArg (fun L => L[p]?) (zero_field_order (l := l) ho)
    simp only [hw] at h1 h2
    simp only [List.getElem?_take, hp, if_true, List.getElem?_map, List.getElem?_range, Option.map_some] at h3
    rw [List.getElem?_eq_getElem (by rwa [hw] at hp')] at h3
    have h4 := Option.some.inj h3
    refine ⟨rowOf_injective _ _ (h2.symm.trans h4), ?_⟩
    rw [List.getD_eq_getElem?_getD, h1, Option.getD_some, h4]
    rfl
  obtain ⟨b, hh, u, h1, h2, h3, -, -, -, h4, h5, h6, h7, h8⟩ := oscB_ok hd num radiusLength mass np
  obtain ⟨t, t1, t2, t3⟩ := tdho_ok _ l num radiusLength omega mass np
  rw [getOneBodyElementsB_eq (dataframeB_ok hd).1] at h2
  rw [getCoulombElementsB_eq] at h3
  cases h2
  cases h3
  rw [hw] at h6 h7 h8
  refine ⟨b, df, t, _, h1, Coulomb.getCoulombElementsRaw_eq l, t1, fun p hp => (hrow p hp).1,
    ⟨_, _, h4, t3, rfl, ?_⟩, ⟨_, _, h6, t2.u_eq, rfl, ?_⟩, ⟨_, _, h5, t2.s_eq, rfl, fun i => rfl⟩,
    ⟨_, _, h8, t2.dipole_eq, rfl, ?_⟩, ⟨_, _, h7, t2.spf_eq, rfl, ?_⟩⟩
  · intro i
    rw [toComplex_get]
    unfold oscillatorH smul
    by_cases hi : InRange [l, l] i
    · rw [ofFn_get_of hi, ofFn_get_of (show InRange (ofFn _ [l, l] _).shape i from hi), ofFn_get_of hi]
      obtain ⟨p, q, rfl, hp, hq⟩ := inRange2 hi
      simp only [List.getD_cons_zero, List.getD_cons_succ]
      by_cases hpq : p = q
      · rw [if_pos hpq, if_pos hpq, (hrow p hp).2]
        unfold shellEnergyB getShellEnergy
        generalize hk : |(getIndicesNm p).2| = k
        push_cast
        ring
      · rw [if_neg hpq, if_neg hpq, mul_zero]
    · exact (if_neg hi).trans (if_neg hi).symm
  · intro i
    rw [toComplex_get]
    unfold smul
    by_cases hi : InRange [l, l, l, l] i
    · rw [ofFn_get_of (show InRange (ofFn _ [l, l, l, l] _).shape i from hi),
        ofFn_get_of (show InRange (ofFn _ [l, l, l, l] _).shape i from hi), ofFn_get_of hi, ofFn_get_of hi]
      obtain ⟨p, q, r, s, rfl, hp, hq, hr, hs⟩ : ∃ p q r s, i = [p, q, r, s] ∧ p < l ∧ q < l ∧ r < l ∧ s < l := by
        match i, hi with
        | [p, q, r, s], ⟨hp, hq, hr, hs, _⟩ => exact ⟨p, q, r, s, rfl, hp, hq, hr, hs⟩
      simp only [List.getD_cons_zero, List.getD_cons_succ]
      rw [(hrow p hp).1, (hrow q hq).1, (hrow r hr).1, (hrow s hs).1]
    · exact (if_neg hi).trans (if_neg hi).symm
  · intro i
    rw [toComplex_get]
    by_cases hi : InRange [2, l, l] i
    · rw [ofFn_get_of hi, ofFn_get_of hi]
      obtain ⟨k, p, q, rfl, hk, hp, hq⟩ := inRange3 hi
      simp only [List.getD_cons_zero, List.getD_cons_succ]
      unfold dipoleEntry
      rw [(hrow p hp).1, (hrow q hq).1]
    · exact (if_neg hi).trans (if_neg hi).symm
  · intro i
    rw [toComplex_get]
    unfold setupSpf
    by_cases hi : InRange [l, num, num] i
    · rw [ofFn_get_of hi, ofFn_get_of hi]
      obtain ⟨p, j, k, rfl, hp, hj, hk⟩ := inRange3 hi
      simp only [List.getD_cons_zero, List.getD_cons_succ]
      unfold spfState
      rw [(hrow p hp).1]
    · exact (if_neg hi).trans (if_neg hi).symm

/-- **C52 (the part that holds)** For every `l ≥ 1` and every frequency of at least `2·10⁻⁶`,
`TwoDimHarmonicOscB` without field agrees with the oscillator. -/
theorem C52_partial {l : ℕ} (hl : 1 ≤ l) {omega : ℝ} (ho : 2 / 10 ^ 6 ≤ omega) (num : ℕ)
    (radiusLength mass : ℝ) (np : Module) : AgreesWithOscillator l num radiusLength omega mass np := by
  have ho' : 0 < omega := lt_of_lt_of_le (by norm_num) ho
  obtain ⟨df, h⟩ := dataframeB_succeeds hl (omega := omega) (omegaC := 0) (by
    unfold omegaB
    rw [show omega ^ 2 + 0 ^ 2 / 4 = omega ^ 2 by ring, Real.sqrt_sq ho'.le]
    exact ho)
  exact C52_agrees ho' h num radiusLength mass np

/-- The first four orbitals without field are `(0, 0), (0, -1), (0, 1), (0, -2)`. -/
example : AgreesWithOscillator 4 10 5 (1 / 2) 1 0 ∧
    (List.range 4).map getIndicesNm = [(0, 0), (0, -1), (0, 1), (0, -2)] :=
  ⟨C52_partial (by norm_num) (by norm_num) _ _ _ _, by decide +kernel⟩

/-! ## C76 -/

/-- The Hamilton operator `-1/(2m) Δ + ½ m (ω_0² + ω_c²/4) r² - ω_c/2 L_z` of a particle in the oscillator and
a homogeneous magnetic field, with `L_z = -i ∂/∂θ`. -/
noncomputable def fieldHamiltonian (mass omega0 omegaC : ℝ) (f : ℝ → ℝ → ℂ) (r t : ℝ) : ℂ :=
  planeHamiltonian mass (fun r _ => 1 / 2 * mass * (omega0 ^ 2 + omegaC ^ 2 / 4) * r ^ 2) f r t
    - (omegaC / 2 : ℂ) * (-Complex.I * deriv (fun t => f r t) t)

theorem spfState_deriv (nm : ℕ → ℤ × ℤ) (mass omega : ℝ) (q : ℕ) (r t : ℝ) :
    deriv (fun t => spfState nm mass omega q r t) t
      = Complex.I * (nm q).2 * spfState nm mass omega q r t := by
  have h1 : HasDerivAt (fun t : ℝ => Complex.exp (Complex.I * (nm q).2 * t))
      (Complex.exp (Complex.I * (nm q).2 * t) * (Complex.I * (nm q).2 * 1)) t :=
    ((Complex.ofRealCLM.hasDerivAt (x := t)).const_mul _).cexp
  have h2 := (h1.const_mul (spfNorm (nm q).1 (nm q).2 mass omega : ℂ)).mul_const
    (spfRadial (nm q).1 (nm q).2 mass omega r : ℂ)
  have h3 : (fun t => spfState nm mass omega q r t) = fun t : ℝ =>
      (spfNorm (nm q).1 (nm q).2 mass omega : ℂ) * Complex.exp (Complex.I * (nm q).2 * t)
        * (spfRadial (nm q).1 (nm q).2 mass omega r : ℂ) := by
    funext t
    rfl
  rw [h3, h2.deriv]
  show _ = Complex.I * (nm q).2 * ((spfNorm (nm q).1 (nm q).2 mass omega : ℂ)
    * Complex.exp (Complex.I * (nm q).2 * t) * (spfRadial (nm q).1 (nm q).2 mass omega r : ℂ))
  ring

/-- **C76** The one-body elements of every `TwoDimHarmonicOscB` are the matrix elements of the Hamilton
operator with magnetic field between the single-particle functions on its grid, which are orthonormal; its
dipole elements are those of `r cos θ` and `r sin θ`. -/
theorem C76_matrix_elements {l num : ℕ} {radiusLength omega0 mass omegaC : ℝ} {np : Module} {b : BasisSet ℂ}
    {df : List Row} (h : oscB l num radiusLength omega0 mass omegaC np = .ok (b, df)) (hm : 0 < mass)
    (ho : omega0 ≠ 0 ∨ omegaC ≠ 0) :
    ∃ phi : ℕ → ℝ → ℝ → ℂ, ∃ x s d f, b.h = some x ∧ b.s = some s ∧ b.dipole = some d ∧ b.spf = some f ∧
      f.shape = [l, num, num] ∧
      (∀ p i j, p < l → i < num → j < num → f.get [p, i, j] = phi p
        (j * (radiusLength / ((num : ℝ) - 1))) (i * (2 * Real.pi / ((num : ℝ) - 1)))) ∧
      ∀ p q, p < l → q < l →
        x.get [p, q] = planeInner (phi p) (fieldHamiltonian mass omega0 omegaC (phi q)) ∧
        planeInner (phi p) (phi q) = (if p = q then 1 else 0) ∧ s.get [p, q] = planeInner (phi p) (phi q) ∧
        d.get [0, p, q] = planeInner (phi p) (fun r t => ((r * Real.cos t : ℝ) : ℂ) * phi q r t) ∧
        d.get [1, p, q] = planeInner (phi p) (fun r t => ((r * Real.sin t : ℝ) : ℂ) * phi q r t) := by
  have hpos : 0 < omega0 ^ 2 + omegaC ^ 2 / 4 := by rcases ho with ho | ho <;> positivity
  have hw : 0 < omegaB omega0 omegaC := Real.sqrt_pos.2 hpos
  have hw2 : omegaB omega0 omegaC ^ 2 = omega0 ^ 2 + omegaC ^ 2 / 4 := Real.sq_sqrt hpos.le
  obtain ⟨hd, x, hx, -, hxe⟩ := C51_one_body h
  obtain ⟨b', hh, u, h1, h2, -, -, -, -, h4, h5, h6, h7, h8⟩ := oscB_ok hd num radiusLength mass np
  rw [h1] at h
  cases h
  have hnn : ∀ p < l, 0 ≤ (indicesNmB df p).1 := fun p hp => (kept_row hd hp).2.2.2
  have hinj : ∀ p q, p < l → q < l → indicesNmB df p = indicesNmB df q → p = q := by
    intro p q hp hq e
    have := (List.nodup_map_iff_inj_on List.nodup_range).1 (C51_lowest hd).2.1
    exact this p (List.mem_range.2 hp) q (List.mem_range.2 hq) e
  refine ⟨spfState (indicesNmB df) mass (omegaB omega0 omegaC), x, _, _, _, hx, h5, h8, h7, rfl, ?_, ?_⟩
  · intro p i j hp hi hj
    rw [toComplex_get, setupSpf,
      ofFn_get_of (show InRange [l, num, num] [p, i, j] from ⟨hp, hi, hj, trivial⟩)]
    simp [linspace]
  · intro p q hp hq
    have hortho : planeInner (spfState (indicesNmB df) mass (omegaB omega0 omegaC) p)
        (spfState (indicesNmB df) mass (omegaB omega0 omegaC) q) = if p = q then 1 else 0 := by
      rw [orthonormal hm hw (hnn p hp) (hnn q hq)]
      by_cases e : p = q
      · rw [if_pos e, if_pos (by rw [e])]
      · rw [if_neg e, if_neg (fun e' => e (hinj p q hp hq e'))]
    refine ⟨?_, hortho, ?_, ?_, ?_⟩
    · rw [planeInner_eigen (c := (levelEnergy omega0 omegaC (indicesNmB df q) : ℂ)), hortho, hxe p q hp hq]
      · by_cases e : p = q
        · subst e; simp
        · simp [e]
      · intro r hr t
        have he := oscillator_eigen hm hw (indicesNmB df) q (hnn q hq) hr t
        unfold fieldHamiltonian
        rw [spfState_deriv]
        rw [hw2] at he
        rw [he]
        have hI : Complex.I * Complex.I = -1 := Complex.I_mul_I
        unfold levelEnergy getShellEnergy
        rw [show Real.sqrt (omega0 ^ 2 + omegaC ^ 2 / 4) = omegaB omega0 omegaC from rfl]
        generalize |(indicesNmB df q).2| = k
        push_cast
        linear_combination (omegaC / 2 * (indicesNmB df q).2
          * spfState (indicesNmB df) mass (omegaB omega0 omegaC) q r t : ℂ) * hI
    · rw [hortho, toComplex_get, eye, ofFn_get_of (show InRange [l, l] [p, q] from ⟨hp, hq, trivial⟩)]
    · rw [toComplex_get, ofFn_get_of (show InRange [2, l, l] [0, p, q] from ⟨two_pos, hp, hq, trivial⟩)]
      exact (dipole_elements _ _ _ _ _).1
    · rw [toComplex_get, ofFn_get_of (show InRange [2, l, l] [1, p, q] from ⟨one_lt_two, hp, hq, trivial⟩)]
      exact (dipole_elements _ _ _ _ _).2

end QS.Props
