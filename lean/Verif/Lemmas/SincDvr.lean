import Verif.Model.SincDvr
import Verif.Lemmas.OneDimSetup
import Verif.Lemmas.General

/-!
# Evaluation of the constructor of `ODSincDVR`
-/

namespace QS.SincDvr

open NDArray OneDim BasisSet PyM

theorem foldlM_append_ok {α β : Type} (g : α → List β) (step : List β → α → Except PyErr (List β))
    (L : List α) (acc : List β) (h : ∀ k ∈ L, ∀ acc, step acc k = .ok (acc ++ g k)) :
    L.foldlM step acc = .ok (acc ++ L.flatMap g) := by
  induction L generalizing acc with
  | nil => simp; rfl
  | cons k L ih =>
    rw [List.foldlM_cons, h k (by simp)]
    show L.foldlM step _ = _
    rw [ih _ (fun k hk => h k (by simp [hk]))]
    simp

theorem coulombData_eq {l : ℕ} {x : NDArray ℂ} (hx : x.shape = [l]) (alpha a : ℝ) :
    coulombData l x alpha a = .ok ((List.range l).flatMap fun p => (List.range l).map fun q =>
      ((p, q), (shieldedCoulomb (x.get [p]).re (x.get [q]).re alpha a : ℂ))) := by
  unfold coulombData
  rw [foldlM_append_ok (fun p => (List.range l).map fun q =>
      ((p, q), (shieldedCoulomb (x.get [p]).re (x.get [q]).re alpha a : ℂ)))]
  · simp
  · intro p hp acc
    have hp : p < l := by simpa using hp
    rw [foldlM_append_ok (fun q => [((p, q), (shieldedCoulomb (x.get [p]).re (x.get [q]).re alpha a : ℂ))])]
    · rw [List.map_eq_flatMap]
    · intro q hq acc
      have hq : q < l := by simpa using hq
      rw [getItem_ok (by rw [hx]; exact ⟨hp, trivial⟩), getItem_ok (by rw [hx]; exact ⟨hq, trivial⟩)]
      rfl

theorem fancySet_flatMap {K α : Type} [Zero K] (g : α → List (List ℕ × K)) (L : List α) (a : NDArray K) :
    fancySet a (L.flatMap g) = L.foldlM (fun a k => fancySet a (g k)) a := by
  induction L generalizing a with
  | nil => rfl
  | cons k L ih =>
    unfold fancySet at ih ⊢
    rw [List.flatMap_cons, List.foldlM_append, List.foldlM_cons]
    congr 1
    funext b
    exact ih b

theorem fancySet_map {K α : Type} [Zero K] (g : α → List ℕ × K) (L : List α) (a : NDArray K) :
    fancySet a (L.map g) = L.foldlM (fun a k => NDArray.setItem a (g k).1 (g k).2) a := by
  unfold fancySet
  rw [List.foldlM_map]

/-- Two nested loops that set the entries `[p, q, p, q]`. -/
theorem fillPairs {K : Type} [Zero K] (dt : DType) (n : ℕ) (f : ℕ → ℕ → K) :
    (List.range n).foldlM (fun a p => (List.range n).foldlM
        (fun a q => NDArray.setItem a [p, q, p, q] (f p q)) a) (zeros dt [n, n, n, n])
      = .ok (ofFn dt [n, n, n, n] (fun i => if i.getD 0 0 = i.getD 2 0 ∧ i.getD 1 0 = i.getD 3 0
          then f (i.getD 0 0) (i.getD 1 0) else 0)) := by
  rw [foldlM_pointwise [n, n, n, n] _ (fun p i x => (List.range n).foldl
    (fun x q => if i = [p, q, p, q] then f p q else x) x) _ _ rfl]
  · congr 1
    refine ofFn_congr fun i hi => ?_
    obtain ⟨p, q, r, s, rfl, hp, hq, hr, hs⟩ := inRange_four.1 (show InRange [n, n, n, n] i from hi)
    simp only [List.getD_cons_zero, List.getD_cons_succ]
    by_cases h : p = r ∧ q = s
    · obtain ⟨rfl, rfl⟩ := h
      rw [if_pos ⟨rfl, rfl⟩, foldl_range_unique (fun p' x => (List.range n).foldl
        (fun x q' => if [p, q, p, q] = [p', q', p', q'] then f p' q' else x) x) n p _ hp]
      · rw [foldl_range_unique (fun q' x => if [p, q, p, q] = [p, q', p, q'] then f p q' else x) n q _ hq]
        · simp
        · intro k hk x
          simp [hk.symm]
      · intro k hk x
        simp [hk.symm]
    · rw [if_neg h]
      have : ∀ (x : K) (p' q' : ℕ), (if [p, q, r, s] = [p', q', p', q'] then f p' q' else x) = x := by
        intro x p' q'
        refine if_neg fun e => h ?_
        simp only [List.cons.injEq, and_true] at e
        omega
      simp only [this, List.foldl_fixed]
      exact zeros_get ..
  · intro p hp a ha
    rw [foldlM_pointwise [n, n, n, n] _ (fun q i x => if i = [p, q, p, q] then f p q else x) _ _ ha]
    intro q hq a ha
    refine setItem_ok a _ ?_
    rw [ha]
    exact ⟨by simpa using hp, by simpa using hq, by simpa using hp, by simpa using hq, trivial⟩

/-- The interaction at grid points `p` and `q`. -/
noncomputable def pairU (l : ℕ) (L alpha a : ℝ) (p q : ℕ) : ℂ :=
  (shieldedCoulomb (TwoDim.linspace (-L) L l p) (TwoDim.linspace (-L) L l q) alpha a : ℂ)

/-- The two representations. -/
noncomputable def sincU (l : ℕ) (L alpha a : ℝ) (dt : DType) (repr : URepr) : NDArray ℂ :=
  if repr = .two then ofFn dt [l, l] (fun i => pairU l L alpha a (i.getD 0 0) (i.getD 1 0))
  else ofFn dt [l, l, l, l] (fun i => if i.getD 0 0 = i.getD 2 0 ∧ i.getD 1 0 = i.getD 3 0
    then pairU l L alpha a (i.getD 0 0) (i.getD 1 0) else 0)

theorem linspaceArr_get (s e : ℝ) {n p : ℕ} (hp : p < n) :
    (linspaceArr s e n).get [p] = (TwoDim.linspace s e n p : ℂ) := by
  unfold linspaceArr
  rw [ofFn_get_of (by exact ⟨hp, trivial⟩)]
  rfl

theorem coulombElements_eq (l : ℕ) (L alpha a : ℝ) (repr : URepr) :
    coulombElements l (linspaceArr (-L) L l) alpha a repr = .ok (sincU l L alpha a .float64 repr) := by
  unfold coulombElements
  rw [coulombData_eq rfl, ok_bind]
  unfold sincU
  by_cases h : repr = .two
  · rw [if_pos h, if_pos h, List.map_flatMap, fancySet_flatMap]
    simp only [List.map_map, fancySet_map, Function.comp]
    rw [fill2 .float64 l l (fun p q => (shieldedCoulomb ((linspaceArr (-L) L l).get [p]).re
      ((linspaceArr (-L) L l).get [q]).re alpha a : ℂ))]
    congr 1
    refine ofFn_congr fun i hi => ?_
    obtain ⟨p, q, rfl, hp, hq⟩ := inRange_two.1 hi
    simp only [List.getD_cons_zero, List.getD_cons_succ, linspaceArr_get _ _ hp, linspaceArr_get _ _ hq,
      Complex.ofReal_re]
    rfl
  · rw [if_neg h, if_neg h, List.map_flatMap, fancySet_flatMap]
    simp only [List.map_map, fancySet_map, Function.comp]
    rw [fillPairs .float64 l (fun p q => (shieldedCoulomb ((linspaceArr (-L) L l).get [p]).re
      ((linspaceArr (-L) L l).get [q]).re alpha a : ℂ))]
    congr 1
    refine ofFn_congr fun i hi => ?_
    obtain ⟨p, q, r, s, rfl, hp, hq, -, -⟩ := inRange_four.1 hi
    simp only [List.getD_cons_zero, List.getD_cons_succ, linspaceArr_get _ _ hp, linspaceArr_get _ _ hq,
      Complex.ofReal_re]
    rfl

/-- The grid spacing. -/
noncomputable def spacing (l : ℕ) (L : ℝ) : ℝ := 2 * L / ((l : ℝ) - 1)

/-- The one-body elements. -/
noncomputable def sincH (l : ℕ) (L : ℝ) (V : ℝ → ℝ) : NDArray ℂ :=
  ofFn .complex128 [l, l] (fun i => if i.getD 0 0 = i.getD 1 0 then
      ((Real.pi ^ 2 / (6 * spacing l L ^ 2) : ℝ) : ℂ) + (V (TwoDim.linspace (-L) L l (i.getD 0 0)) : ℂ)
    else (((-1 : ℝ) ^ ((i.getD 0 0 : ℤ) - i.getD 1 0)
      / (spacing l L ^ 2 * ((i.getD 0 0 : ℝ) - i.getD 1 0) ^ 2) : ℝ) : ℂ))

/-- The functions on the grid. -/
noncomputable def sincSpf (l : ℕ) (L : ℝ) : NDArray ℂ :=
  ofFn .complex128 [l, l] (fun i => ((1 / Real.sqrt (spacing l L) *
    npSinc ((TwoDim.linspace (-L) L l (i.getD 1 0) - TwoDim.linspace (-L) L l (i.getD 0 0)) / spacing l L) : ℝ) : ℂ))

/-- The dipole elements. -/
noncomputable def sincDip (l : ℕ) (L beta : ℝ) : NDArray ℂ :=
  ofFn .complex128 [1, l, l] (fun i => if i.getD 1 0 = i.getD 2 0 then
    ((TwoDim.linspace (-L) L l (i.getD 1 0) + beta * TwoDim.linspace (-L) L l (i.getD 1 0) ^ 2 : ℝ) : ℂ) else 0)

/-- The object that `ODSincDVR(…)` returns. -/
noncomputable def sincObj (l : ℕ) (L a alpha beta : ℝ) (V : ℝ → ℝ) (repr : URepr) (hm : Bool) (np : Module)
    (sp an : Bool) : BasisSet ℂ :=
  { BasisSet.init l 1 np sp an with
    cls := .sincDVR
    a := some (pyFloat a)
    grid := some (linspaceArr (-L) L l)
    extraModule := hm
    h := some (sincH l L V)
    s := some (eye l).toComplex
    spf := some (sincSpf l L)
    braSpf := some (sincSpf l L).conj
    u := some (sincU l L alpha a .complex128 repr)
    dipole := some (sincDip l L beta) }

theorem spacing_eq {l : ℕ} (h2 : 2 ≤ l) (L : ℝ) :
    ((linspaceArr (-L) L l).get [1] - (linspaceArr (-L) L l).get [0]).re = spacing l L := by
  rw [linspaceArr_get _ _ (by omega), linspaceArr_get _ _ (by omega)]
  simp only [Complex.sub_re, Complex.ofReal_re, TwoDim.linspace, spacing]
  push_cast
  ring

theorem dipoleDiag_eq (l : ℕ) (L beta : ℝ) :
    dipoleDiag (linspaceArr (-L) L l) beta = .ok (ofFn .float64 [l, l] (fun i =>
      if i.getD 0 0 = i.getD 1 0 then ((TwoDim.linspace (-L) L l (i.getD 0 0)
        + beta * TwoDim.linspace (-L) L l (i.getD 0 0) ^ 2 : ℝ) : ℂ) else 0)) := by
  unfold dipoleDiag
  rw [mul_same rfl, ok_bind, add_same (by rfl), ok_bind, diag_zero (n := l) rfl]
  congr 1
  refine ofFn_congr fun i hi => ?_
  obtain ⟨p, q, rfl, hp, hq⟩ := inRange_two.1 hi
  simp only [List.getD_cons_zero, List.getD_cons_succ]
  by_cases hpq : p = q
  · rw [if_pos hpq, if_pos hpq, ofFn_get_of (by exact ⟨hp, trivial⟩), smul, ofFn_get_of (by exact ⟨hp, trivial⟩),
      ofFn_get_of (by exact ⟨hp, trivial⟩), linspaceArr_get _ _ hp]
    push_cast
    ring
  · rw [if_neg hpq, if_neg hpq]

theorem toComplex_ofFn {K : Type} [Zero K] (dt : DType) (sh : List ℕ) (f : List ℕ → K) :
    (ofFn dt sh f).toComplex = ofFn .complex128 sh f := rfl

theorem sincH_eq (l : ℕ) (L : ℝ) (V : ℝ → ℝ) :
    (addDiagonal (setDiagonal (setOffDiagonal (NDArray.zeros .complex128 [l, l]) (spacing l L))
      ((Real.pi ^ 2 / (6 * spacing l L ^ 2) : ℝ) : ℂ)) (mapReal V (linspaceArr (-L) L l))).toComplex
      = sincH l L V := by
  unfold addDiagonal setDiagonal setOffDiagonal
  rw [pointwise_pointwise, pointwise_pointwise]
  unfold pointwise
  rw [toComplex_ofFn]
  refine ofFn_congr fun i hi => ?_
  obtain ⟨p, q, rfl, hp, hq⟩ := inRange_two.1 (show InRange [l, l] i from hi)
  simp only [List.getD_cons_zero, List.getD_cons_succ]
  by_cases h : p = q
  · rw [if_pos h, if_pos h, if_pos h, mapReal, ofFn_get_of (by exact ⟨hp, trivial⟩), linspaceArr_get _ _ hp,
      Complex.ofReal_re]
  · rw [if_neg h, if_neg h, if_neg h, if_neg h]

theorem sincGrid_eq (l : ℕ) (L : ℝ) :
    (sincGrid l (linspaceArr (-L) L l) (spacing l L)).toComplex = sincSpf l L := by
  unfold sincGrid
  rw [toComplex_ofFn]
  refine ofFn_congr fun i hi => ?_
  obtain ⟨p, q, rfl, hp, hq⟩ := inRange_two.1 (show InRange [l, l] i from hi)
  simp only [List.getD_cons_zero, List.getD_cons_succ, linspaceArr_get _ _ hp, linspaceArr_get _ _ hq,
    Complex.ofReal_re]

theorem sincU_toComplex (l : ℕ) (L alpha a : ℝ) (dt : DType) (repr : URepr) :
    (sincU l L alpha a dt repr).toComplex = sincU l L alpha a .complex128 repr := by
  unfold sincU
  by_cases h : repr = .two
  · rw [if_pos h, if_pos h]; rfl
  · rw [if_neg h, if_neg h]; rfl

theorem sincDip_eq (l : ℕ) (L beta : ℝ) :
    (ofFn .float64 [1, l, l] (fun i => (ofFn .float64 [l, l] (fun i =>
      if i.getD 0 0 = i.getD 1 0 then ((TwoDim.linspace (-L) L l (i.getD 0 0)
        + beta * TwoDim.linspace (-L) L l (i.getD 0 0) ^ 2 : ℝ) : ℂ) else 0)).get i.tail)).toComplex
      = sincDip l L beta := by
  rw [toComplex_ofFn]
  refine ofFn_congr fun i hi => ?_
  obtain ⟨z, p, q, rfl, hz, hp, hq⟩ := inRange_three.1 (show InRange [1, l, l] i from hi)
  rw [List.tail_cons, ofFn_get_of (by exact ⟨hp, hq, trivial⟩)]
  rfl

theorem toComplex_conj {K : Type} [PyScalar K] (x : NDArray K) : x.conj.toComplex = x.toComplex.conj := rfl

theorem odSincDvr_ok {l : ℕ} (h2 : 2 ≤ l) (L a alpha beta : ℝ) (V : ℝ → ℝ) {repr : URepr}
    (hr : repr ≠ .unknown) (hm : Bool) (np : Module) (sp an : Bool) :
    odSincDvr l L a alpha beta V repr hm np sp an = .ok (sincObj l L a alpha beta V repr hm np sp an) := by
  have hg0 : InRange (linspaceArr (-L) L l).shape [0] := ⟨by omega, trivial⟩
  have hg1 : InRange (linspaceArr (-L) L l).shape [1] := ⟨by omega, trivial⟩
  have hu : axesOk (sincU l L alpha a .float64 repr) l = true := by
    unfold sincU
    by_cases h : repr = .two
    · rw [if_pos h]; exact axesOk_two rfl
    · rw [if_neg h]; exact axesOk_four rfl
  unfold odSincDvr
  rw [if_neg hr]
  dsimp only
  simp only [setGrid, sincSetup, PyM.run_bind, PyM.run_modify, PyM.run_get, orErr, PyM.run_liftM,
    BasisSet.init]
  rw [getItem_ok hg1, getItem_ok hg0]
  dsimp only
  rw [spacing_eq h2]
  rw [setH_run (axesOk_two rfl)]
  dsimp only
  rw [setS_run (axesOk_two rfl)]
  dsimp only
  rw [setSpf_run (sh := [l]) (by rfl) (by rfl)]
  dsimp only
  rw [coulombElements_eq]
  dsimp only
  rw [setU_run hu]
  dsimp only
  rw [setDipole_run (sh := [l, l]) (by rfl) (by simp)]
  dsimp only
  rw [dipoleDiag_eq]
  dsimp only
  simp only [castToComplex, PyM.run_bind, getBra_run, PyM.run_get, PyM.run_modify, anyArray, needNp,
    Option.isSome_some, Bool.true_or, if_true, PyM.run_liftM, BasisSet.bra, Option.map_some, Option.map_none]
  rw [sincH_eq, toComplex_conj, sincGrid_eq, sincU_toComplex, sincDip_eq]
  rfl

end QS.SincDvr
