import Verif.Lemmas.OneDim
import Verif.Lemmas.ChangeBasis

/-!
# Evaluation of the one-dimensional constructors
-/

namespace QS.OneDim

open NDArray PyM Spec BasisSet

theorem getItem_ok {K : Type} [PyScalar K] {a : NDArray K} {i : List ℕ} (h : InRange a.shape i) :
    getItem a i = .ok (a.get i) := if_pos h

theorem diag_ok {K : Type} [PyScalar K] {v : NDArray K} {n : ℕ} (h : v.shape = [n]) (k : ℤ) :
    diag v k = .ok (ofFn v.dtype [n + k.natAbs, n + k.natAbs] (fun i =>
      if (i.getD 1 0 : ℤ) - i.getD 0 0 = k then v.get [min (i.getD 0 0) (i.getD 1 0)] else 0)) := by
  unfold diag
  rw [h]

theorem diag_zero {K : Type} [PyScalar K] {v : NDArray K} {n : ℕ} (h : v.shape = [n]) :
    diag v = .ok (ofFn v.dtype [n, n] (fun i => if i.getD 0 0 = i.getD 1 0 then v.get [i.getD 0 0] else 0)) := by
  rw [diag_ok h]
  congr 1
  refine ofFn_congr fun i _ => ?_
  by_cases hi : i.getD 0 0 = i.getD 1 0
  · rw [if_pos hi, if_pos (by omega), hi, min_self]
  · rw [if_neg hi, if_neg (by omega)]

theorem slice_one {K : Type} [Zero K] {a : NDArray K} {n : ℕ} (h : a.shape = [n]) (s e : ℕ) :
    a.slice [some (s, e)] = .ok (ofFn a.dtype [min e n - min s n] (fun i => a.get [min s n + i.getD 0 0])) := by
  unfold slice
  rw [if_pos (by simp [ndim, h])]
  simp only [ndim, h, List.length_cons, List.length_nil, Nat.sub_self, List.replicate_zero, List.append_nil,
    List.zipWith_cons_cons, List.zipWith_nil_right, List.map_cons, List.map_nil]
  congr 1
  refine ofFn_congr fun i hi => ?_
  obtain ⟨p, rfl, -⟩ := inRange_one.1 hi
  rfl

theorem slice_two {K : Type} [Zero K] {a : NDArray K} {m n : ℕ} (h : a.shape = [m, n]) (e : ℕ) :
    a.slice [none, some (0, e)] = .ok (ofFn a.dtype [m, min e n] (fun i => a.get [i.getD 0 0, i.getD 1 0])) := by
  unfold slice
  rw [if_pos (by simp [ndim, h])]
  simp only [ndim, h, List.length_cons, List.length_nil, Nat.sub_self, List.replicate_zero, List.append_nil,
    List.zipWith_cons_cons, List.zipWith_nil_right, List.map_cons, List.map_nil, Nat.sub_zero, Nat.zero_min]
  congr 1
  refine ofFn_congr fun i hi => ?_
  obtain ⟨p, q, rfl, -⟩ := inRange_two.1 hi
  simp

/-! ## `ODHO` -/

theorem fillRows {l num : ℕ} (f : ℕ → ℕ → ℂ) (v : ℕ → NDArray ℂ) (hv : ∀ p, (v p).shape = [num])
    (hf : ∀ p j, p < l → j < num → (v p).get [j] = f p j) :
    (List.range l).foldlM (fun a p => setRow a p (v p)) (zeros .float64 [l, num])
      = .ok (ofFn .float64 [l, num] (fun i => f (i.getD 0 0) (i.getD 1 0))) := by
  rw [foldlM_pointwise [l, num] _ (fun p i x => if i.getD 0 0 = p then (v p).get [i.getD 1 0] else x) _ _ rfl]
  · congr 1
    refine ofFn_congr fun i hi => ?_
    obtain ⟨p, j, rfl, hp, hj⟩ := inRange_two.1 (show InRange [l, num] i from hi)
    show (List.range l).foldl _ _ = _
    rw [foldl_range_unique (fun q x => if [p, j].getD 0 0 = q then (v q).get [[p, j].getD 1 0] else x) l p _ hp]
    · simp [hf p j hp hj]
    · intro k hk x
      exact if_neg (fun e => hk e.symm)
  · intro p hp a ha
    unfold setRow
    rw [ha]
    simp only
    rw [if_pos (by simpa using hp), if_pos (hv p)]

/-- The dipole elements of `ODHO`. -/
noncomputable def odhoDip (omega : ℝ) (n : ℕ) : ℝ :=
  normalization omega n * normalization omega (n + 1) * (n + 1) * Real.sqrt Real.pi * 2 ^ n * n.factorial
    / omega

theorem odhoDipole_eq (l : ℕ) (omega : ℝ) (dt : DType) :
    odhoDipole l omega dt = .ok (ofFn dt [1, l, l] (fun i =>
      if i.getD 1 0 + 1 = i.getD 2 0 then (odhoDip omega (i.getD 1 0) : ℂ)
      else if i.getD 2 0 + 1 = i.getD 1 0 then (odhoDip omega (i.getD 2 0) : ℂ) else 0)) := by
  unfold odhoDipole
  rw [foldlM_pointwise [1, l, l] _ (fun n i x =>
    if i = [0, n + 1, n] then (odhoDip omega n : ℂ) else
      if i = [0, n, n + 1] then (odhoDip omega n : ℂ) else x) _ _ rfl]
  · congr 1
    refine ofFn_congr fun i hi => ?_
    obtain ⟨z, p, q, rfl, hz, hp, hq⟩ := inRange_three.1 (show InRange [1, l, l] i from hi)
    obtain rfl : z = 0 := by omega
    simp only [List.getD_cons_zero, List.getD_cons_succ, zeros_get, List.cons.injEq, true_and, and_true]
    by_cases h1 : p + 1 = q
    · subst h1
      rw [if_pos rfl, foldl_range_unique (fun n x =>
        if p = n + 1 ∧ p + 1 = n then (odhoDip omega n : ℂ) else
          if p = n ∧ p + 1 = n + 1 then (odhoDip omega n : ℂ) else x) (l - 1) p _ (by omega)]
      · simp
      · intro k hk x
        rw [if_neg (by omega), if_neg (by omega)]
    · rw [if_neg h1]
      by_cases h2 : q + 1 = p
      · subst h2
        rw [if_pos rfl, foldl_range_unique (fun n x =>
          if q + 1 = n + 1 ∧ q = n then (odhoDip omega n : ℂ) else
            if q + 1 = n ∧ q = n + 1 then (odhoDip omega n : ℂ) else x) (l - 1) q _ (by omega)]
        · simp
        · intro k hk x
          rw [if_neg (by omega), if_neg (by omega)]
      · rw [if_neg h2]
        have : ∀ (x : ℂ) (n : ℕ), (if p = n + 1 ∧ q = n then (odhoDip omega n : ℂ) else
            if p = n ∧ q = n + 1 then (odhoDip omega n : ℂ) else x) = x := by
          intro x n
          rw [if_neg (by omega), if_neg (by omega)]
        simp only [this]
        exact List.foldl_fixed _
  · intro n hn a ha
    have hn : n < l - 1 := by simpa using hn
    simp only
    rw [setItem_ok a _ (by rw [ha]; exact ⟨by omega, by omega, by omega, trivial⟩)]
    rw [ok_bind, setItem_ok _ _ (by rw [pointwise_shape, ha]; exact ⟨by omega, by omega, by omega, trivial⟩),
      pointwise_pointwise]
    rfl

/-- The attributes that every one-dimensional constructor sets. -/
structure OneDimFields (b : BasisSet ℂ) (l num : ℕ) (gridLength a alpha : ℝ) (np : Module)
    (sp an : Bool) (spf : NDArray ℂ) : Prop where
  cls : b.cls = .plain
  np_eq : b.np = some np
  spin_eq : b.includesSpin = sp
  anti_eq : b.antiSym = an
  bra_eq : b.braSpf = none
  noSpin : NoSpinOps b
  tb_eq : b.spin2tb = none
  a_eq : b.a = some (pyFloat a)
  b_eq : b.b = none
  l_eq : b.l = l
  dim_eq : b.dim = 1
  grid_eq : b.grid = some (linspaceArr (-gridLength) gridLength num)
  s_eq : b.s = some (eye l)
  spf_eq : b.spf = some spf
  spf_shape : spf.shape = [l, num]
  u_eq : b.u = some (ofFn .complex128 [l, l, l, l] (fun i =>
    coulombSum num (TwoDim.linspace (-gridLength) gridLength num) (fun p j => spf.get [p, j]) alpha a
          (i.getD 0 0) (i.getD 1 0) (i.getD 2 0) (i.getD 3 0)))

/-- The single-particle functions of `ODHO`. -/
noncomputable def odhoSpf (l num : ℕ) (gridLength omega : ℝ) : NDArray ℂ :=
  ofFn .float64 [l, num] (fun i =>
    ((hoFunction omega (i.getD 0 0) (TwoDim.linspace (-gridLength) gridLength num (i.getD 1 0)) : ℝ) : ℂ))

theorem odho_ok (l : ℕ) (L : ℝ) {num : ℕ} (h2 : 2 ≤ num) (omega a alpha beta : ℝ) (np : Module)
    (sp an : Bool) :
    ∃ b, odho l L num omega a alpha beta np sp an = .ok b ∧
      OneDimFields b l num L a alpha np sp an (odhoSpf l num L omega) ∧
      b.h = some (ofFn .complex128 [l, l] (fun i => if i.getD 0 0 = i.getD 1 0 then
        ((omega * (i.getD 0 0 + 1 / 2) : ℝ) : ℂ) else 0)) ∧
      b.dipole = some (ofFn .float64 [1, l, l] (fun i =>
        if i.getD 1 0 + 1 = i.getD 2 0 then (odhoDip omega (i.getD 1 0) : ℂ)
        else if i.getD 2 0 + 1 = i.getD 1 0 then (odhoDip omega (i.getD 2 0) : ℂ) else 0)) := by
  have hg : Uniform _ num _ _ := linspace_uniform L
  have hrows := fillRows (l := l) (num := num)
    (fun p j => ((hoFunction omega p (TwoDim.linspace (-L) L num j) : ℝ) : ℂ))
    (fun p => mapReal (hoFunction omega p) (linspaceArr (-L) L num)) (fun p => rfl) (fun p j _ hj => by
      unfold mapReal
      rw [ofFn_get_of (by exact ⟨hj, trivial⟩), hg.get j hj, Complex.ofReal_re])
  obtain ⟨inner, hi, hu⟩ := twoBody_eq hg h2 (spf := odhoSpf l num L omega) (l := l) rfl alpha a
  have hh : (diag (ofFn .float64 [l] (fun i => ((omega * (i.getD 0 0 + 1 / 2) : ℝ) : ℂ))) : Except PyErr (NDArray ℂ))
      = .ok (ofFn .float64 [l, l] (fun i => if i.getD 0 0 = i.getD 1 0 then
        ((omega * (i.getD 0 0 + 1 / 2) : ℝ) : ℂ) else 0)) := by
    rw [diag_zero rfl]
    congr 1
    refine ofFn_congr fun i hi => ?_
    obtain ⟨p, q, rfl, hp, hq⟩ := inRange_two.1 hi
    simp only [List.getD_cons_zero, List.getD_cons_succ]
    by_cases h : p = q
    · rw [if_pos h, if_pos h, ofFn_get_of (by exact ⟨hp, trivial⟩)]
      rfl
    · rw [if_neg h, if_neg h]
  unfold odho
  dsimp only
  simp only [setGrid, odhoSetup, PyM.run_bind, run_modify, run_get, orErr, run_liftM, BasisSet.init]
  rw [getItem_ok (by exact ⟨by omega, trivial⟩), getItem_ok (by exact ⟨by omega, trivial⟩)]
  dsimp only
  rw [hh]
  dsimp only
  rw [setH_run (by exact axesOk_two rfl)]
  dsimp only
  rw [setS_run (by exact axesOk_two rfl)]
  dsimp only
  rw [setSpf_run (sh := [num]) (by rfl) (by rfl)]
  dsimp only
  rw [odhoRows, hrows]
  dsimp only
  have e : ofFn .float64 [l, num] (fun i =>
    ((hoFunction omega (i.getD 0 0) (TwoDim.linspace (-L) L num (i.getD 1 0)) : ℝ) : ℂ))
      = odhoSpf l num L omega := rfl
  rw [e, hi]
  dsimp only
  rw [hu]
  dsimp only
  rw [setU_run (by exact axesOk_four rfl)]
  dsimp only
  rw [setDipole_run (sh := [l, l]) (by rfl) (by simp)]
  dsimp only
  rw [odhoDipole_eq]
  refine ⟨_, rfl, ?_, rfl, rfl⟩
  constructor <;> first | rfl | exact ⟨rfl, rfl, rfl, rfl⟩

/-! ## `ODQD` -/

/-- The entries of the finite-difference matrix. -/
noncomputable def fdEntry (V : ℝ → ℝ) (x : ℕ → ℝ) (dx : ℝ) (p q : ℕ) : ℝ :=
  if p = q then 1 / dx ^ 2 + V (x (p + 1)) else if p + 1 = q ∨ q + 1 = p then -1 / (2 * dx ^ 2) else 0

theorem odqdMatrix_eq (V : ℝ → ℝ) {grid : NDArray ℂ} {num : ℕ} {x : ℕ → ℝ} {dx : ℝ}
    (hg : Uniform grid num x dx) (h3 : 3 ≤ num) :
    odqdMatrix V grid num = .ok (ofFn .float64 [num - 2, num - 2] (fun i =>
      (fdEntry V x dx (i.getD 0 0) (i.getD 1 0) : ℂ))) := by
  have hdx : (grid.get [1] - grid.get [0]).re = dx := by
    rw [hg.get 1 (by omega), hg.get 0 (by omega), ← Complex.ofReal_sub, Complex.ofReal_re]
    exact hg.step 0
  unfold odqdMatrix
  rw [getItem_ok (by rw [hg.shape]; exact ⟨by omega, trivial⟩),
    getItem_ok (by rw [hg.shape]; exact ⟨by omega, trivial⟩)]
  simp only [ok_bind, hdx]
  rw [slice_one hg.shape]
  simp only [ok_bind]
  rw [if_neg (by omega)]
  have e1 : min (num - 1) num - min 1 num = num - 2 := by omega
  rw [e1, diag_zero rfl, diag_ok rfl, diag_ok rfl]
  simp only [ok_bind]
  have e2 : num - 3 + (-1 : ℤ).natAbs = num - 2 := by simp; omega
  have e3 : num - 3 + (1 : ℤ).natAbs = num - 2 := by simp; omega
  rw [e2, e3, add_same (by rfl)]
  simp only [ok_bind]
  rw [add_same (by rfl)]
  congr 1
  refine ofFn_congr fun i hi => ?_
  obtain ⟨p, q, rfl, hp, hq⟩ := inRange_two.1 (show InRange [num - 2, num - 2] i from hi)
  have hpq : InRange [num - 2, num - 2] [p, q] := ⟨hp, hq, trivial⟩
  simp only [ofFn_shape]
  rw [ofFn_get_of (by exact hpq), ofFn_get_of hpq, ofFn_get_of hpq, ofFn_get_of hpq]
  simp only [List.getD_cons_zero, List.getD_cons_succ]
  have hoff : ∀ k, k < num - 3 → (smul .float64 ((-1 / (2 * dx ^ 2) : ℝ) : ℂ) (ones [num - 3])).get [k]
      = ((-1 / (2 * dx ^ 2) : ℝ) : ℂ) := by
    intro k hk
    rw [smul_get, ones, ofFn_get_of (by exact ⟨hk, trivial⟩), mul_one]
  unfold fdEntry
  by_cases h0 : p = q
  · subst h0
    rw [if_pos rfl, if_pos rfl, if_neg (by omega), if_neg (by omega), add_zero, add_zero, addScalar,
      ofFn_get_of (by exact ⟨hp, trivial⟩), mapReal, ofFn_get_of (by exact ⟨hp, trivial⟩),
      ofFn_get_of (by exact ⟨hp, trivial⟩)]
    have e4 : min 1 num + p = p + 1 := by omega
    simp only [List.getD_cons_zero, e4]
    rw [hg.get _ (by omega), Complex.ofReal_re]
    push_cast
    ring
  · rw [if_neg h0, if_neg h0]
    by_cases h1 : p + 1 = q
    · rw [if_neg (by omega), if_pos (by omega), if_pos (Or.inl h1), hoff _ (by omega)]
      simp
    · by_cases h2 : q + 1 = p
      · rw [if_pos (by omega), if_neg (by omega), if_pos (Or.inr h2), hoff _ (by omega)]
        simp
      · rw [if_neg (by omega), if_neg (by omega), if_neg (by omega)]
        simp

theorem fdEntry_symm (V : ℝ → ℝ) (x : ℕ → ℝ) (dx : ℝ) (p q : ℕ) :
    fdEntry V x dx p q = fdEntry V x dx q p := by
  unfold fdEntry
  by_cases h : p = q
  · subst h; rfl
  · rw [if_neg h, if_neg (Ne.symm h)]
    by_cases h' : p + 1 = q ∨ q + 1 = p
    · rw [if_pos h', if_pos h'.symm]
    · rw [if_neg h', if_neg (fun e => h' e.symm)]

/-- The single-particle functions of `ODQD` from the eigenvectors `v`. -/
noncomputable def odqdSpf (l num : ℕ) (dx : ℝ) (v : NDArray ℂ) : NDArray ℂ :=
  ofFn .complex128 [l, num] (fun i => if 1 ≤ i.getD 1 0 ∧ i.getD 1 0 < num - 1
    then v.get [i.getD 1 0 - 1, i.getD 0 0] / (Real.sqrt dx : ℂ) else 0)

theorem setInterior_eq {l num : ℕ} (dx : ℝ) {v : NDArray ℂ} {dt : DType} (hl : l ≤ num - 2) :
    setInterior (zeros .complex128 [l, num])
      (divScalar (ofFn dt [num - 2, min l (num - 2)] (fun i => v.get [i.getD 0 0, i.getD 1 0])).T
        (Real.sqrt dx : ℂ)) = .ok (odqdSpf l num dx v) := by
  unfold setInterior
  simp only [zeros_shape]
  rw [min_eq_left hl]
  rw [if_pos (by rw [show (divScalar (T (ofFn dt [num - 2, l] _)) (Real.sqrt dx : ℂ)).shape = [l, num - 2]
    from rfl, bcShape_self])]
  congr 1
  refine ofFn_congr fun i hi => ?_
  obtain ⟨p, j, rfl, hp, hj⟩ := inRange_two.1 (show InRange [l, num] i from hi)
  simp only [List.getD_cons_zero, List.getD_cons_succ, zeros_get]
  by_cases h : 1 ≤ j ∧ j < num - 1
  · rw [if_pos h, if_pos h]
    have hr : InRange [l, num - 2] [p, j - 1] := ⟨hp, by omega, trivial⟩
    rw [show (divScalar (T (ofFn dt [num - 2, l] (fun i => v.get [i.getD 0 0, i.getD 1 0])))
      (Real.sqrt dx : ℂ)).shape = [l, num - 2] from rfl, bcIdx_self hr, divScalar]
    rw [ofFn_get_of (by exact hr), T_get2 _ rfl, ofFn_get_of (by exact ⟨by omega, hp, trivial⟩)]
    rfl
  · rw [if_neg h, if_neg h]

theorem odqdDipole_eq {grid spf : NDArray ℂ} {l num : ℕ} {x : ℕ → ℝ} (hg : grid.shape = [num])
    (hx : ∀ i, i < num → grid.get [i] = (x i : ℂ)) (hs : spf.shape = [l, num]) (beta : ℝ) :
    odqdDipole spf grid l beta = .ok (ofFn spf.dtype [1, l, l] (fun i =>
      trapezoid num x fun j => (starRingEnd ℂ) (spf.get [i.getD 1 0, j])
        * ((x j + beta * x j ^ 2 : ℝ) : ℂ) * spf.get [i.getD 2 0, j])) := by
  unfold odqdDipole
  rw [← fill12 spf.dtype l (fun p q => trapezoid num x fun j => (starRingEnd ℂ) (spf.get [p, j])
        * ((x j + beta * x j ^ 2 : ℝ) : ℂ) * spf.get [q, j])]
  refine foldlM_congr fun p hp d => foldlM_congr fun q hq d => ?_
  have hp : p < l := by simpa using hp
  have hq : q < l := by simpa using hq
  rw [item_two hs hp, item_two hs hq, mul_same rfl]
  simp only [ok_bind]
  rw [add_same (by simp)]
  simp only [ok_bind]
  rw [mul_same (by simp [row, hg])]
  simp only [ok_bind]
  rw [mul_same (by simp [row])]
  simp only [ok_bind]
  congr 1
  refine npTrapz_eq hg hx _ fun j hj => ?_
  have hj1 : InRange [num] [j] := ⟨hj, trivial⟩
  have hc : (row spf p num).conj.shape = [num] := rfl
  simp only [hc, ofFn_shape, hg]
  rw [ofFn_get_of hj1, ofFn_get_of hj1, ofFn_get_of hj1, conj_get, row_get _ hj, row_get _ hj, smul_get,
    ofFn_get_of hj1, hx j hj]
  congr 2
  push_cast
  ring

theorem odqd_ok' {eigh : NDArray ℂ → Except PyErr (NDArray ℂ × NDArray ℂ)} (he : IsEigh eigh) {l num : ℕ}
    (L : ℝ) (h3 : 3 ≤ num) (hl : l ≤ num - 2) (a alpha beta : ℝ) (V : ℝ → ℝ) (hm : Bool) (np : Module)
    (sp an : Bool) :
    ∃ b H w v, odqd eigh l L num a alpha beta V hm np sp an = .ok b ∧
      H = ofFn .float64 [num - 2, num - 2] (fun i => (fdEntry V (TwoDim.linspace (-L) L num)
        ((L - -L) / ((num : ℝ) - 1)) (i.getD 0 0) (i.getD 1 0) : ℂ)) ∧
      eigh H = .ok (w, v) ∧ EighOK (num - 2) H w v ∧
      OneDimFields b l num L a alpha np sp an (odqdSpf l num ((L - -L) / ((num : ℝ) - 1)) v) ∧
      b.h = some (ofFn .complex128 [l, l] (fun i => if i.getD 0 0 = i.getD 1 0 then
        w.get [i.getD 0 0] else 0)) ∧
      b.dipole = some (ofFn .complex128 [1, l, l] (fun i =>
        trapezoid num (TwoDim.linspace (-L) L num) fun j =>
          (starRingEnd ℂ) ((odqdSpf l num ((L - -L) / ((num : ℝ) - 1)) v).get [i.getD 1 0, j])
          * ((TwoDim.linspace (-L) L num j + beta * TwoDim.linspace (-L) L num j ^ 2 : ℝ) : ℂ)
          * (odqdSpf l num ((L - -L) / ((num : ℝ) - 1)) v).get [i.getD 2 0, j])) := by
  have hg : Uniform _ num _ _ := linspace_uniform L
  have hdx : ((linspaceArr (-L) L num).get [1] - (linspaceArr (-L) L num).get [0]).re
      = (L - -L) / ((num : ℝ) - 1) := by
    rw [hg.get 1 (by omega), hg.get 0 (by omega), ← Complex.ofReal_sub, Complex.ofReal_re]
    exact hg.step 0
  obtain ⟨w, v, hwv, hE⟩ := he (num - 2) (ofFn .float64 [num - 2, num - 2] (fun i =>
      (fdEntry V (TwoDim.linspace (-L) L num) ((L - -L) / ((num : ℝ) - 1)) (i.getD 0 0) (i.getD 1 0) : ℂ)))
    rfl (by
      intro i j
      by_cases hi : i < num - 2 ∧ j < num - 2
      · rw [ofFn_get_of (by exact ⟨hi.1, hi.2, trivial⟩), ofFn_get_of (by exact ⟨hi.2, hi.1, trivial⟩)]
        simp only [List.getD_cons_zero, List.getD_cons_succ, Complex.conj_ofReal]
        rw [fdEntry_symm]
      · rw [ofFn_get, ofFn_get, if_neg (fun h => hi ⟨h.1, h.2.1⟩), if_neg (fun h => hi ⟨h.2.1, h.1⟩), map_zero])
  obtain ⟨inner, hi, hu⟩ := twoBody_eq hg (by omega)
    (spf := odqdSpf l num ((L - -L) / ((num : ℝ) - 1)) v) (l := l) rfl alpha a
  have hh : (diag (ofFn w.dtype [min l (num - 2) - min 0 (num - 2)]
      (fun i => w.get [min 0 (num - 2) + i.getD 0 0])) : Except PyErr (NDArray ℂ))
      = .ok (ofFn w.dtype [l, l] (fun i => if i.getD 0 0 = i.getD 1 0 then w.get [i.getD 0 0] else 0)) := by
    rw [Nat.zero_min, min_eq_left hl, Nat.sub_zero, diag_zero rfl]
    congr 1
    refine ofFn_congr fun i hi => ?_
    obtain ⟨p, q, rfl, hp, hq⟩ := inRange_two.1 hi
    simp only [List.getD_cons_zero, List.getD_cons_succ]
    by_cases h : p = q
    · rw [if_pos h, if_pos h, ofFn_get_of (by exact ⟨hp, trivial⟩)]
      simp
    · rw [if_neg h, if_neg h]
  have key : ∃ b, odqd eigh l L num a alpha beta V hm np sp an = .ok b ∧
      OneDimFields b l num L a alpha np sp an (odqdSpf l num ((L - -L) / ((num : ℝ) - 1)) v) ∧
      b.h = some (ofFn .complex128 [l, l] (fun i => if i.getD 0 0 = i.getD 1 0 then
        w.get [i.getD 0 0] else 0)) ∧
      b.dipole = some (ofFn .complex128 [1, l, l] (fun i =>
        trapezoid num (TwoDim.linspace (-L) L num) fun j =>
          (starRingEnd ℂ) ((odqdSpf l num ((L - -L) / ((num : ℝ) - 1)) v).get [i.getD 1 0, j])
          * ((TwoDim.linspace (-L) L num j + beta * TwoDim.linspace (-L) L num j ^ 2 : ℝ) : ℂ)
          * (odqdSpf l num ((L - -L) / ((num : ℝ) - 1)) v).get [i.getD 2 0, j])) := by
    unfold odqd
    dsimp only
    simp only [setGrid, odqdSetup, PyM.run_bind, run_modify, run_get, orErr, run_liftM, BasisSet.init]
    rw [odqdMatrix_eq V hg h3, getItem_ok (by exact ⟨by omega, trivial⟩),
      getItem_ok (by exact ⟨by omega, trivial⟩)]
    dsimp only
    rw [hwv]
    dsimp only
    rw [slice_one hE.w_shape, slice_two hE.v_shape]
    dsimp only
    rw [setSpf_run (sh := [num]) (by rfl) (by rfl)]
    dsimp only
    rw [hdx, setInterior_eq _ hl]
    dsimp only
    rw [hh]
    dsimp only
    rw [setH_run (by exact axesOk_two rfl)]
    dsimp only
    rw [setS_run (by exact axesOk_two rfl)]
    dsimp only
    rw [hi]
    dsimp only
    rw [hu]
    dsimp only
    rw [setU_run (by exact axesOk_four rfl)]
    dsimp only
    rw [setDipole_run (sh := [l, l]) (by rfl) (by simp)]
    dsimp only
    rw [odqdDipole_eq hg.shape hg.get rfl]
    refine ⟨_, rfl, ?_, rfl, rfl⟩
    constructor <;> first | rfl | exact ⟨rfl, rfl, rfl, rfl⟩
  obtain ⟨b, h1, h2, h3', h4⟩ := key
  exact ⟨b, _, w, v, h1, rfl, hwv, hE, h2, h3', h4⟩

theorem odqd_ok {eigh : NDArray ℂ → Except PyErr (NDArray ℂ × NDArray ℂ)} (he : IsEigh eigh) {l num : ℕ}
    (L : ℝ) (h3 : 3 ≤ num) (hl : l ≤ num - 2) (a alpha beta : ℝ) (V : ℝ → ℝ) (hm : Bool) (np : Module)
    (sp an : Bool) :
    ∃ b H w v, odqd eigh l L num a alpha beta V hm np sp an = .ok b ∧
      H = ofFn .float64 [num - 2, num - 2] (fun i => (fdEntry V (TwoDim.linspace (-L) L num)
        ((L - -L) / ((num : ℝ) - 1)) (i.getD 0 0) (i.getD 1 0) : ℂ)) ∧
      EighOK (num - 2) H w v ∧
      OneDimFields b l num L a alpha np sp an (odqdSpf l num ((L - -L) / ((num : ℝ) - 1)) v) ∧
      b.h = some (ofFn .complex128 [l, l] (fun i => if i.getD 0 0 = i.getD 1 0 then
        w.get [i.getD 0 0] else 0)) ∧
      b.dipole = some (ofFn .complex128 [1, l, l] (fun i =>
        trapezoid num (TwoDim.linspace (-L) L num) fun j =>
          (starRingEnd ℂ) ((odqdSpf l num ((L - -L) / ((num : ℝ) - 1)) v).get [i.getD 1 0, j])
          * ((TwoDim.linspace (-L) L num j + beta * TwoDim.linspace (-L) L num j ^ 2 : ℝ) : ℂ)
          * (odqdSpf l num ((L - -L) / ((num : ℝ) - 1)) v).get [i.getD 2 0, j])) := by
  obtain ⟨b, H, w, v, h1, h2, -, h3⟩ := odqd_ok' he L h3 hl a alpha beta V hm np sp an
  exact ⟨b, H, w, v, h1, h2, h3⟩

end QS.OneDim

namespace QS.OneDim

open NDArray Spec

/-! ## Grid functions that vanish at the ends -/

/-- The trapezoidal rule for a function that vanishes at the ends of a uniform grid. -/
theorem trapezoid_ends {num : ℕ} {x : ℕ → ℝ} {dx : ℝ} (hx : ∀ i, x (i + 1) - x i = dx) (h2 : 2 ≤ num)
    (f : ℕ → ℂ) (h0 : f 0 = 0) (h1 : f (num - 1) = 0) :
    trapezoid num x f = (dx : ℂ) * ∑ k ∈ Finset.range (num - 2), f (k + 1) := by
  obtain ⟨m, rfl⟩ : ∃ m, num = m + 2 := ⟨num - 2, by omega⟩
  unfold trapezoid
  simp only [hx, show m + 2 - 1 = m + 1 by omega, Nat.add_sub_cancel] at *
  rw [← Finset.mul_sum]
  congr 1
  rw [← Finset.sum_div, Finset.sum_add_distrib, Finset.sum_range_succ', h0, Finset.sum_range_succ, h1]
  ring

/-- One row of the finite-difference matrix applied to a vector that vanishes beyond the matrix. -/
theorem fd_row (V : ℝ → ℝ) (x : ℕ → ℝ) (dx : ℝ) {n k : ℕ} (hk : k < n) (v : ℕ → ℂ) (hv : ∀ j, n ≤ j → v j = 0) :
    ∑ j ∈ Finset.range n, (fdEntry V x dx k j : ℂ) * v j
      = -(1 / 2) * ((v (k + 1) - 2 * v k + (if k = 0 then 0 else v (k - 1))) / (dx : ℂ) ^ 2)
        + (V (x (k + 1)) : ℂ) * v k := by
  have h : ∀ j, (fdEntry V x dx k j : ℂ) * v j
      = (if j = k then ((1 / dx ^ 2 + V (x (k + 1)) : ℝ) : ℂ) * v j else 0)
        + (if j = k + 1 then ((-1 / (2 * dx ^ 2) : ℝ) : ℂ) * v j else 0)
        + (if j + 1 = k then ((-1 / (2 * dx ^ 2) : ℝ) : ℂ) * v j else 0) := by
    intro j
    unfold fdEntry
    by_cases h0 : k = j
    · rw [if_pos h0, if_pos h0.symm, if_neg (by omega), if_neg (by omega)]
      simp
    · rw [if_neg h0, if_neg (Ne.symm h0)]
      by_cases h1 : k + 1 = j
      · rw [if_pos (Or.inl h1), if_pos h1.symm, if_neg (by omega)]
        simp
      · rw [if_neg (Ne.symm h1)]
        by_cases h2 : j + 1 = k
        · rw [if_pos (Or.inr h2), if_pos h2]
          simp
        · rw [if_neg (by omega), if_neg h2]
          simp
  simp only [h]
  rw [Finset.sum_add_distrib, Finset.sum_add_distrib, Finset.sum_ite_eq', if_pos (Finset.mem_range.2 hk),
    Finset.sum_ite_eq']
  have e1 : (if k + 1 ∈ Finset.range n then ((-1 / (2 * dx ^ 2) : ℝ) : ℂ) * v (k + 1) else 0)
      = ((-1 / (2 * dx ^ 2) : ℝ) : ℂ) * v (k + 1) := by
    by_cases hk1 : k + 1 < n
    · rw [if_pos (Finset.mem_range.2 hk1)]
    · rw [if_neg (by simpa using hk1), hv _ (by omega), mul_zero]
  rw [e1]
  rcases k with _ | k
  · rw [Finset.sum_eq_zero (fun j _ => if_neg (by omega)), if_pos rfl]
    push_cast
    ring
  · have e2 : ∑ j ∈ Finset.range n, (if j + 1 = k + 1 then ((-1 / (2 * dx ^ 2) : ℝ) : ℂ) * v j else 0)
        = ((-1 / (2 * dx ^ 2) : ℝ) : ℂ) * v k := by
      simp only [Nat.add_right_cancel_iff]
      rw [Finset.sum_ite_eq', if_pos (Finset.mem_range.2 (by omega))]
    rw [e2, if_neg (by omega), Nat.add_sub_cancel]
    push_cast
    ring

/-- The grid Hamiltonian at an interior point is a row of the finite-difference matrix. -/
theorem gridHamiltonian_interior (V : ℝ → ℝ) (x : ℕ → ℝ) (dx : ℝ) {num k : ℕ} (hk : k < num - 2) (f : ℕ → ℂ)
    (h0 : f 0 = 0) (h1 : f (num - 1) = 0) :
    gridHamiltonian dx x V f (k + 1) = ∑ j ∈ Finset.range (num - 2), (fdEntry V x dx k j : ℂ) * f (j + 1) := by
  have h := fd_row V x dx hk (fun j => if j < num - 2 then f (j + 1) else 0)
    (fun j hj => if_neg (by omega))
  rw [Finset.sum_congr rfl (g := fun j => (fdEntry V x dx k j : ℂ) * f (j + 1)) (fun j hj => by
    rw [if_pos (Finset.mem_range.1 hj)])] at h
  rw [h]
  unfold gridHamiltonian
  have e1 : (if k + 1 < num - 2 then f (k + 1 + 1) else 0) = f (k + 1 + 1) := by
    by_cases hk1 : k + 1 < num - 2
    · rw [if_pos hk1]
    · rw [if_neg hk1, show k + 1 + 1 = num - 1 by omega, h1]
  have e2 : (if k = 0 then (0 : ℂ) else if k - 1 < num - 2 then f (k - 1 + 1) else 0) = f k := by
    rcases k with _ | k
    · rw [if_pos rfl, h0]
    · rw [if_neg (by omega), if_pos (by omega), Nat.add_sub_cancel]
  simp only [e1, e2]
  rw [if_pos hk, Nat.add_sub_cancel]

end QS.OneDim
