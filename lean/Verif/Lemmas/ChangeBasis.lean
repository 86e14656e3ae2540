import Verif.Lemmas.Transform
import Verif.Spec.WellFormed

/-! # Running `change_basis` symbolically (helper file, no property theorems) -/

set_option linter.unusedSimpArgs false

namespace QS

open Finset

namespace NDArray
variable {K : Type} [PyScalar K]

theorem item_ok {a : NDArray K} {d i : ℕ} {sh : List ℕ} (h : a.shape = d :: sh) (hi : i < d) :
    item i a = .ok (ofFn a.dtype sh (fun j => a.get (i :: j))) := by
  simp [item, h, hi]

theorem promoteAll_const {dt : DType} {as : List (NDArray K)} (hne : as ≠ [])
    (h : ∀ a ∈ as, a.dtype = dt) : promoteAll as = dt := by
  induction as with
  | nil => exact absurd rfl hne
  | cons a as ih =>
    cases as with
    | nil => simpa [promoteAll] using h
    | cons b bs =>
      have h1 := h a (by simp)
      have h2 := ih (by simp) (fun c hc => h c (by simp [hc]))
      simp only [promoteAll, h1] at h2 ⊢
      rw [h2]; simp

theorem stack_range {dt : DType} {sh : List ℕ} {n : ℕ} (hn : 0 < n) {f : ℕ → NDArray K}
    (hd : ∀ i < n, (f i).dtype = dt) (hs : ∀ i < n, (f i).shape = sh) :
    stack ((List.range n).map f) = .ok (ofFn dt (n :: sh) (fun i => match i with
        | [] => 0
        | k :: j => (f k).get j)) := by
  have hp : promoteAll ((List.range n).map f) = dt := by
    apply promoteAll_const
    · simp; omega
    · intro a ha
      obtain ⟨i, hi, rfl⟩ := List.mem_map.1 ha
      exact hd i (List.mem_range.1 hi)
  have hall : ∀ b ∈ (List.range n).map f, b.shape = sh := by
    intro a ha
    obtain ⟨i, hi, rfl⟩ := List.mem_map.1 ha
    exact hs i (List.mem_range.1 hi)
  have hlen : ((List.range n).map f).length = n := by simp
  generalize hL : (List.range n).map f = L at *
  cases L with
  | nil => simp at hlen; omega
  | cons a as =>
    have ha : a.shape = sh := hall a (by simp)
    simp only [stack, ha]
    rw [if_pos hall, hp]
    congr 1
    rw [show (a :: as).length = n from hlen]
    apply ofFn_congr
    intro i hi
    obtain ⟨k, j, rfl, hk, hj⟩ := inRange_cons_iff.1 hi
    have : (a :: as)[k]? = some (f k) := by
      rw [← hL]; simp [hk]
    simp [this]

end NDArray

namespace BasisSet
variable {K : Type} [PyScalar K]

open NDArray PyM

/-! ### setters -/

theorem setH_run {b : BasisSet K} {x : NDArray K} (h : axesOk x b.l) :
    (setH (some x)).run b = (.ok (), { b with h := some x }) := by
  simp [setH, PyM.run_bind, orErr, h]
theorem setU_run {b : BasisSet K} {x : NDArray K} (h : axesOk x b.l) :
    (setU (some x)).run b = (.ok (), { b with u := some x }) := by
  simp [setU, PyM.run_bind, orErr, h]
theorem setS_run {b : BasisSet K} {x : NDArray K} (h : axesOk x b.l) :
    (setS (some x)).run b = (.ok (), { b with s := some x }) := by
  simp [setS, PyM.run_bind, orErr, h]
theorem setSpinX_run {b : BasisSet K} {x : NDArray K} (h : axesOk x b.l) (hs : b.includesSpin) :
    (setSpinX (some x)).run b = (.ok (), { b with spinX := some x }) := by
  simp [setSpinX, PyM.run_bind, orErr, h, hs]
theorem setSpinY_run {b : BasisSet K} {x : NDArray K} (h : axesOk x b.l) (hs : b.includesSpin) :
    (setSpinY (some x)).run b = (.ok (), { b with spinY := some x }) := by
  simp [setSpinY, PyM.run_bind, orErr, h, hs]
theorem setSpinZ_run {b : BasisSet K} {x : NDArray K} (h : axesOk x b.l) (hs : b.includesSpin) :
    (setSpinZ (some x)).run b = (.ok (), { b with spinZ := some x }) := by
  simp [setSpinZ, PyM.run_bind, orErr, h, hs]
theorem setSpin2_run {b : BasisSet K} {x : NDArray K} (h : axesOk x b.l) (hs : b.includesSpin) :
    (setSpin2 (some x)).run b = (.ok (), { b with spin2 := some x }) := by
  simp [setSpin2, PyM.run_bind, orErr, h, hs]
theorem setSpin2tb_run {b : BasisSet K} {x : NDArray K} (h : axesOk x b.l) (hs : b.includesSpin) :
    (setSpin2tb (some x)).run b = (.ok (), { b with spin2tb := some x }) := by
  simp [setSpin2tb, PyM.run_bind, orErr, h, hs]

theorem checkDipole_ok {arr : NDArray K} {d l : ℕ} {sh : List ℕ} (h : arr.shape = d :: sh)
    (hsh : ∀ n ∈ sh, n = l) {is : List ℕ} (his : ∀ i ∈ is, i < d) :
    checkDipole arr l is = .ok () := by
  induction is with
  | nil => rfl
  | cons i is ih =>
    simp only [checkDipole, item_ok h (his i (by simp)), bind, Except.bind]
    rw [if_pos]
    · exact ih fun j hj => his j (by simp [hj])
    · simp only [axesOk, ofFn_shape, List.all_eq_true, beq_iff_eq]
      intro n hn; exact (hsh n hn).symm

theorem setDipole_run {b : BasisSet K} {x : NDArray K} {sh : List ℕ} (h : x.shape = b.dim :: sh)
    (hsh : ∀ n ∈ sh, n = b.l) :
    (setDipole (some x)).run b = (.ok (), { b with dipole := some x }) := by
  simp only [setDipole, PyM.run_bind, orErr, run_get, run_liftM, len, h, beq_self_eq_true,
    run_assert_true, run_modify]
  rw [checkDipole_ok h hsh (fun i hi => List.mem_range.1 hi)]

theorem setSpf_run {b : BasisSet K} {x : NDArray K} {sh : List ℕ} (h : x.shape = b.l :: sh)
    (hsh : sh.length = b.dim) :
    (setSpf (some x)).run b = (.ok (), { b with spf := some x }) := by
  simp [setSpf, PyM.run_bind, spfOk, h, hsh]
theorem setBra_run {b : BasisSet K} {x : NDArray K} {sh : List ℕ} (h : x.shape = b.l :: sh)
    (hsh : sh.length = b.dim) :
    (setBra (some x)).run b = (.ok (), { b with braSpf := some x }) := by
  simp [setBra, PyM.run_bind, spfOk, h, hsh]

theorem getBra_run (b : BasisSet K) : (getBra).run b = (.ok b.bra, { b with braSpf := b.bra }) := by
  rcases b with ⟨c, np, l, dim, grid, h, u, s, d, gx, gy, gz, sx, sy, sz, s2, tb, spf, bra, r⟩
  cases bra <;> cases spf <;> rfl

/-! ### result arrays -/

/-- The transformed dipole array. -/
def dipoleArr (d C Ct : NDArray K) (dim l n : ℕ) : NDArray K :=
  ofFn (Ct.dtype.promote (d.dtype.promote C.dtype)) [dim, n, n] (fun i => match i with
    | [i, p, q] => ∑ a ∈ range l, ∑ b ∈ range l, Ct.get [p, a] * d.get [i, a, b] * C.get [b, q]
    | _ => 0)

/-- The transformed single-particle functions. -/
def spfArr (x C : NDArray K) (l n : ℕ) : NDArray K :=
  ofFn (C.dtype.promote x.dtype) (n :: x.shape.tail) (fun i => match i with
    | p :: g => ∑ a ∈ range l, C.get [a, p] * x.get (a :: g)
    | _ => 0)

/-- The transformed dual functions. -/
def braArr (x Ct : NDArray K) (l n : ℕ) : NDArray K :=
  ofFn (Ct.dtype.promote x.dtype) (n :: x.shape.tail) (fun i => match i with
    | p :: g => ∑ a ∈ range l, Ct.get [p, a] * x.get (a :: g)
    | _ => 0)

@[simp] theorem dipoleArr_shape (d C Ct : NDArray K) (dim l n) :
    (dipoleArr d C Ct dim l n).shape = [dim, n, n] := rfl
@[simp] theorem spfArr_shape (x C : NDArray K) (l n) :
    (spfArr x C l n).shape = n :: x.shape.tail := rfl
@[simp] theorem braArr_shape (x C : NDArray K) (l n) :
    (braArr x C l n).shape = n :: x.shape.tail := rfl

theorem dipoleArr_get {d C Ct : NDArray K} {dim l n i p q : ℕ} (hi : i < dim) (hp : p < n)
    (hq : q < n) : (dipoleArr d C Ct dim l n).get [i, p, q] =
      ∑ a ∈ range l, ∑ b ∈ range l, Ct.get [p, a] * d.get [i, a, b] * C.get [b, q] := by
  rw [dipoleArr, ofFn_get_of (by simp [hi, hp, hq])]

theorem spfArr_get {x C : NDArray K} {l n p : ℕ} {g : List ℕ} (hp : p < n)
    (hg : InRange x.shape.tail g) :
    (spfArr x C l n).get (p :: g) = ∑ a ∈ range l, C.get [a, p] * x.get (a :: g) := by
  rw [spfArr, ofFn_get_of (by simp [hp, hg])]
theorem braArr_get {x C : NDArray K} {l n p : ℕ} {g : List ℕ} (hp : p < n)
    (hg : InRange x.shape.tail g) :
    (braArr x C l n).get (p :: g) = ∑ a ∈ range l, C.get [p, a] * x.get (a :: g) := by
  rw [braArr, ofFn_get_of (by simp [hp, hg])]

theorem dipoleLoop_eq {np : Module} {d C Ct : NDArray K} {dim l n : ℕ}
    (hd : d.shape = [dim, l, l]) (hC : C.shape = [l, n]) (hCt : Ct.shape = [n, l])
    {is : List ℕ} (his : ∀ i ∈ is, i < dim) :
    dipoleLoop (some np) d C Ct is = .ok (is.map fun i =>
      oneBodyArr (ofFn d.dtype [l, l] (fun j => d.get (i :: j))) C Ct n l l n) := by
  induction is with
  | nil => rfl
  | cons i is ih =>
    simp only [dipoleLoop, item_ok hd (his i (by simp)), bind, Except.bind]
    rw [transformOneBody_eq (k := l) (l := l) (n := n) (m := n) rfl hC hCt]
    simp only
    rw [ih fun j hj => his j (by simp [hj])]
    rfl

theorem transformSpf_eq {np : Module} {x C : NDArray K} {l n : ℕ} {g : List ℕ}
    (hx : x.shape = l :: g) (hC : C.shape = [l, n]) :
    transformSpf (some np) x C = .ok (spfArr x C l n) := by
  simp only [transformSpf, needNp, bind, Except.bind]
  rw [tensordot_eq (n := l) (by simp [hC]) (by simp [hx])]
  congr 1
  simp only [hC, hx, spfArr, List.tail, List.eraseIdx, List.cons_append, List.nil_append, ndim,
    List.length]
  apply ofFn_congr
  intro i hi
  obtain ⟨p, j, rfl, _, _⟩ := inRange_cons_iff.1 hi
  rfl

theorem transformBraSpf_eq {np : Module} {x C : NDArray K} {l n : ℕ} {g : List ℕ}
    (hx : x.shape = l :: g) (hC : C.shape = [n, l]) :
    transformBraSpf (some np) x C = .ok (braArr x C l n) := by
  simp only [transformBraSpf, needNp, bind, Except.bind]
  rw [tensordot_eq (n := l) (by simp [hC]) (by simp [hx])]
  congr 1
  simp only [hC, hx, braArr, List.tail, List.eraseIdx, List.cons_append, List.nil_append, ndim,
    List.length]
  apply ofFn_congr
  intro i hi
  obtain ⟨p, j, rfl, _, _⟩ := inRange_cons_iff.1 hi
  rfl

theorem spinLoop_ok {np : Module} {C Ct : NDArray K} {l n : ℕ} (hC : C.shape = [l, n])
    (hCt : Ct.shape = [n, l]) {xs : List (Option (NDArray K))}
    (h : ∀ x, some x ∈ xs → x.shape = [l, l]) : spinLoop (some np) C Ct xs = .ok () := by
  induction xs with
  | nil => rfl
  | cons x xs ih =>
    have ih := ih fun y hy => h y (by simp [hy])
    cases x with
    | none => exact ih
    | some x =>
      simp only [spinLoop, bind, Except.bind,
        transformOneBody_eq (np := np) (h x (by simp)) hC hCt, ih]

/-- Both classes transform a four-index `u` alike. -/
theorem transformTwoBodyOf_eq {b : BasisSet K} {np : Module} {u : NDArray K} {x C Ct : NDArray K}
    {l m n : ℕ} (hnp : b.np = some np) (hbu : b.u = some u) (hu4 : u.ndim = 4)
    (hx : x.shape = [l, l, l, l]) (hC : C.shape = [l, n]) (hCt : Ct.shape = [m, l]) :
    b.transformTwoBodyOf (some x) C (some Ct) = .ok (twoBodyArr x C Ct l m n) := by
  unfold transformTwoBodyOf
  cases b.cls with
  | plain => simp only [hnp]; exact transformTwoBody_eq hx hC hCt
  | sincDVR =>
    have : b.uRepr = .four := by simp [uRepr, hbu, hu4]
    simp only [transformTwoBodySinc, this, hnp]
    exact transformTwoBody_eq hx hC hCt

/-! ### `change_basis` -/

/-- The basis set after a successful `change_basis(C, Ct)`. -/
def changed (b : BasisSet K) (C Ct : NDArray K) (l n : ℕ) : BasisSet K :=
  { b with
    l := n
    h := b.h.map fun x => oneBodyArr x C Ct n l l n
    s := b.s.map fun x => oneBodyArr x C Ct n l l n
    u := b.u.map fun x => twoBodyArr x C Ct l n n
    spin2tb := b.spin2tb.map fun x => twoBodyArr x C Ct l n n
    dipole := b.dipole.map fun x => dipoleArr x C Ct b.dim l n
    spf := b.spf.map fun x => spfArr x C l n
    braSpf := if b.spf.isSome then b.bra.map fun x => braArr x Ct l n else b.braSpf }

theorem axesOk_two {x : NDArray K} {l : ℕ} (h : x.shape = [l, l]) : axesOk x l = true := by
  simp [axesOk, h]
theorem axesOk_four {x : NDArray K} {l : ℕ} (h : x.shape = [l, l, l, l]) : axesOk x l = true := by
  simp [axesOk, h]

theorem changeBasisOneBody_run' {b : BasisSet K} {np : Module} {h C Ct : NDArray K} {l n : ℕ}
    (hl : b.l = n) (hnp : b.np = some np) (hh : b.h = some h) (hhs : h.shape = [l, l])
    (hs : ∀ x, b.s = some x → x.shape = [l, l])
    (hC : C.shape = [l, n]) (hCt : Ct.shape = [n, l]) :
    (changeBasisOneBody C Ct).run b =
      (spinLoop (some np) C Ct [b.spinX, b.spinY, b.spinZ, b.spin2], { b with
        h := some (oneBodyArr h C Ct n l l n)
        s := b.s.map fun x => oneBodyArr x C Ct n l l n }) := by
  simp only [changeBasisOneBody, PyM.run_bind, run_get, run_liftM, hnp, hh]
  rw [transformOneBody_eq hhs hC hCt]
  simp only
  rw [setH_run (by rw [hl]; exact axesOk_two rfl)]
  simp only [PyM.run_bind, run_get]
  rcases hbs : b.s with _ | s
  · simp only [PyM.run_bind, run_get, run_liftM, run_pure, hnp, Option.map]
  · simp only [PyM.run_bind, run_get, run_liftM, hnp]
    rw [transformOneBody_eq (hs s hbs) hC hCt]
    simp only
    rw [setS_run (by simp only [hl]; exact axesOk_two rfl)]
    simp only [PyM.run_bind, run_get, run_liftM, hnp, Option.map]

theorem spinShaped_loop {b : BasisSet K} {np : Module} {C Ct : NDArray K} {l n : ℕ}
    (hsp : SpinShaped b l) (hC : C.shape = [l, n]) (hCt : Ct.shape = [n, l]) :
    spinLoop (some np) C Ct [b.spinX, b.spinY, b.spinZ, b.spin2] = .ok () := by
  apply spinLoop_ok hC hCt
  intro x hx
  simp only [List.mem_cons, List.not_mem_nil, or_false] at hx
  rcases hx with hx | hx | hx | hx
  · exact hsp.x x hx.symm
  · exact hsp.y x hx.symm
  · exact hsp.z x hx.symm
  · exact hsp.two x hx.symm

theorem changeBasisOneBody_run {b : BasisSet K} {np : Module} {h C Ct : NDArray K} {l n : ℕ}
    (hl : b.l = n) (hnp : b.np = some np) (hh : b.h = some h) (hhs : h.shape = [l, l])
    (hs : ∀ x, b.s = some x → x.shape = [l, l])
    (hsp : spinLoop (some np) C Ct [b.spinX, b.spinY, b.spinZ, b.spin2] = .ok ())
    (hC : C.shape = [l, n]) (hCt : Ct.shape = [n, l]) :
    (changeBasisOneBody C Ct).run b =
      (.ok (), { b with
        h := some (oneBodyArr h C Ct n l l n)
        s := b.s.map fun x => oneBodyArr x C Ct n l l n }) := by
  rw [changeBasisOneBody_run' hl hnp hh hhs hs hC hCt, hsp]

theorem changeBasisTwoBody_run {b : BasisSet K} {np : Module} {u C Ct : NDArray K} {l n : ℕ}
    (hl : b.l = n) (hnp : b.np = some np) (hu : b.u = some u) (hus : u.shape = [l, l, l, l])
    (htb : ∀ x, b.spin2tb = some x → x.shape = [l, l, l, l] ∧ b.includesSpin = true)
    (hC : C.shape = [l, n]) (hCt : Ct.shape = [n, l]) :
    (changeBasisTwoBody C Ct).run b =
      (.ok (), { b with
        u := some (twoBodyArr u C Ct l n n)
        spin2tb := b.spin2tb.map fun x => twoBodyArr x C Ct l n n }) := by
  simp only [changeBasisTwoBody, PyM.run_bind, run_get, run_liftM, hu]
  rw [transformTwoBodyOf_eq hnp hu (by simp [ndim, hus]) hus hC hCt]
  simp only
  rw [setU_run (by rw [hl]; exact axesOk_four rfl)]
  simp only [PyM.run_bind, run_get]
  rcases hbs : b.spin2tb with _ | x
  · simp only [run_pure, Option.map]
  · obtain ⟨h1, h2⟩ := htb x hbs
    simp only [PyM.run_bind, run_liftM]
    rw [transformTwoBodyOf_eq (np := np) (u := twoBodyArr u C Ct l n n) (by exact hnp) (by rfl)
      (by simp [ndim]) h1 hC hCt]
    simp only
    rw [setSpin2tb_run (by simp only [hl]; exact axesOk_four rfl) (by exact h2)]
    simp only [Option.map]

theorem changeBasisDipole_run {b : BasisSet K} {np : Module} {d C Ct : NDArray K} {l n : ℕ}
    (hl : b.l = n) (hnp : b.np = some np) (hd : b.dipole = some d) (hdim : 0 < b.dim)
    (hds : d.shape = [b.dim, l, l]) (hC : C.shape = [l, n]) (hCt : Ct.shape = [n, l]) :
    (changeBasisDipole C Ct).run b =
      (.ok (), { b with dipole := some (dipoleArr d C Ct b.dim l n) }) := by
  simp only [changeBasisDipole, PyM.run_bind, run_get, run_liftM, hd, hnp, orErr]
  have : d.shapeAt 0 = .ok b.dim := by simp [shapeAt, hds]
  simp only [this]
  rw [dipoleLoop_eq hds hC hCt (fun i hi => List.mem_range.1 hi)]
  simp only [needNp]
  rw [stack_range (dt := Ct.dtype.promote (d.dtype.promote C.dtype)) (sh := [n, n]) hdim
    (fun _ _ => rfl) (fun _ _ => rfl)]
  simp only
  rw [setDipole_run (sh := [n, n]) (by rfl) (by simp [hl])]
  congr 2
  simp only [Option.some.injEq]
  refine ext' rfl rfl fun i hi => ?_
  obtain ⟨i, p, q, rfl, h1, h2, h3⟩ := inRange_three.1 (show InRange [b.dim, n, n] i from hi)
  rw [dipoleArr_get h1 h2 h3, ofFn_get_of (by exact hi)]
  simp only
  rw [oneBodyArr_get h2 h3]
  refine sum_congr rfl fun x hx => sum_congr rfl fun y hy => ?_
  rw [ofFn_get_of (by simp [mem_range.1 hx, mem_range.1 hy])]

theorem changeBasisSpf_run {b : BasisSet K} {np : Module} {x y C Ct : NDArray K} {l n : ℕ}
    {g g' : List ℕ} (hl : b.l = n) (hnp : b.np = some np) (hx : b.spf = some x)
    (hxs : x.shape = l :: g) (hg : g.length = b.dim) (hy : b.bra = some y)
    (hys : y.shape = l :: g') (hg' : g'.length = b.dim) (hC : C.shape = [l, n])
    (hCt : Ct.shape = [n, l]) :
    (changeBasisSpf C Ct).run b =
      (.ok (), { b with
        spf := some (spfArr x C l n)
        braSpf := some (braArr y Ct l n) }) := by
  simp only [changeBasisSpf, PyM.run_bind, getBra_run, run_get, run_liftM, hnp, hy, orErr]
  rw [transformBraSpf_eq hys hCt]
  simp only
  rw [setBra_run (sh := g') (by simp [hl, hys]) (by simpa using hg')]
  simp only [hx]
  rw [transformSpf_eq hxs hC]
  simp only
  rw [setSpf_run (sh := g) (by simp [hl, hxs]) (by simpa using hg)]

theorem WellFormed.bra_shape {b : BasisSet K} {l : ℕ} (hb : WellFormed b l) {y : NDArray K}
    (hy : b.bra = some y) : ∃ g, y.shape = l :: g ∧ g.length = b.dim := by
  unfold bra at hy
  rcases hbb : b.braSpf with _ | z
  · rw [hbb] at hy
    simp only [Option.map_eq_some_iff] at hy
    obtain ⟨x, hx, rfl⟩ := hy
    simpa using hb.spf x hx
  · rw [hbb] at hy
    simp only [Option.some.injEq] at hy
    subst hy
    exact hb.bra _ hbb

theorem bra_of_spf {b : BasisSet K} {x : NDArray K} (h : b.spf = some x) : ∃ y, b.bra = some y := by
  unfold bra
  rcases b.braSpf with _ | z <;> simp [h]

theorem changeBasis_run_of_loop {b : BasisSet K} {C Ct : NDArray K} {l n : ℕ} (hb : WellFormed b l)
    (hsp : ∀ np, b.np = some np →
      spinLoop (some np) C Ct [b.spinX, b.spinY, b.spinZ, b.spin2] = .ok ())
    (hC : C.shape = [l, n]) (hCt : Ct.shape = [n, l]) :
    (changeBasis C (some Ct)).run b = (.ok (), changed b C Ct l n) := by
  obtain ⟨np, hnp⟩ := hb.np
  obtain ⟨h, hh, hhs⟩ := hb.h
  obtain ⟨u, hu, hus⟩ := hb.u
  have hsh : C.shapeAt 1 = .ok n := by simp [shapeAt, hC]
  simp only [changeBasis, PyM.run_bind, run_liftM, hsh, run_modify, Option.getD]
  rw [changeBasisOneBody_run (b := { b with l := n }) (np := np) (h := h) rfl hnp
    hh hhs hb.s (hsp np hnp) hC hCt]
  simp only
  rw [changeBasisTwoBody_run (b := { b with
        l := n
        h := some (oneBodyArr h C Ct n l l n)
        s := b.s.map fun x => oneBodyArr x C Ct n l l n }) (np := np) (u := u) rfl hnp
    hu hus hb.tb hC hCt]
  simp only [run_get]
  rcases hd : b.dipole with _ | d <;> rcases hs : b.spf with _ | x
  · simp [PyM.run_bind, changed, hh, hu, hd, hs]
  · obtain ⟨g, hxs, hg⟩ := hb.spf x hs
    obtain ⟨y, hy⟩ := bra_of_spf hs
    obtain ⟨g', hys, hg'⟩ := WellFormed.bra_shape hb hy
    simp only [Option.isSome, Bool.false_eq_true, if_false, PyM.run_bind, run_pure, run_get, hd,
      if_true, hs]
    rw [changeBasisSpf_run (np := np) (x := x) (y := y) (by rfl) (by exact hnp) (by rfl) hxs
      (by exact hg) (by rw [← hy]; simp [bra, hs]) hys (by exact hg') hC hCt]
    simp [changed, hh, hu, hd, hs, hy]
  · obtain ⟨hdim, hds⟩ := hb.dipole d hd
    simp only [Option.isSome, if_true, PyM.run_bind, run_pure, hd, hs]
    rw [changeBasisDipole_run (np := np) (d := d) (l := l) (n := n) (by rfl) (by exact hnp) (by rfl) (by exact hdim)
      (by exact hds) hC hCt]
    simp [changed, hh, hu, hd, hs]
  · obtain ⟨g, hxs, hg⟩ := hb.spf x hs
    obtain ⟨y, hy⟩ := bra_of_spf hs
    obtain ⟨g', hys, hg'⟩ := WellFormed.bra_shape hb hy
    obtain ⟨hdim, hds⟩ := hb.dipole d hd
    simp only [Option.isSome, if_true, PyM.run_bind, run_pure, hd, hs]
    rw [changeBasisDipole_run (np := np) (d := d) (l := l) (n := n) (by rfl) (by exact hnp) (by rfl) (by exact hdim)
      (by exact hds) hC hCt]
    simp only [run_get, if_true]
    rw [changeBasisSpf_run (np := np) (x := x) (y := y) (by rfl) (by exact hnp) (by rfl) hxs
      (by exact hg) (by rw [← hy]; simp [bra, hs]) hys (by exact hg') hC hCt]
    simp [changed, hh, hu, hd, hs, hy]

theorem changeBasis_run {b : BasisSet K} {C Ct : NDArray K} {l n : ℕ} (hb : WellFormed b l)
    (hsp : SpinShaped b l) (hC : C.shape = [l, n]) (hCt : Ct.shape = [n, l]) :
    (changeBasis C (some Ct)).run b = (.ok (), changed b C Ct l n) :=
  changeBasis_run_of_loop hb (fun _ _ => spinShaped_loop hsp hC hCt) hC hCt

/-! ### a successful call has matching shapes -/

theorem tensordot_inv {a b r : NDArray K} {i j : ℕ} (h : tensordot a b i j = .ok r) :
    ∃ n, a.shape[i]? = some n ∧ b.shape[j]? = some n ∧
      r.shape = a.shape.eraseIdx i ++ b.shape.eraseIdx j := by
  unfold tensordot at h
  split at h
  · rename_i n m hn hm
    split_ifs at h with hnm
    · subst hnm
      simp only [Except.ok.injEq] at h
      exact ⟨n, hn, hm, by rw [← h]; rfl⟩
  · exact absurd h (by simp)

theorem transpose_inv {a r : NDArray K} {perm : List ℕ} (h : transpose perm a = .ok r) :
    perm.length = a.ndim := by
  unfold transpose at h
  split_ifs at h with hc
  exact hc.1

theorem transformTwoBody_inv {np : Option Module} {u C Ct r : NDArray K} {l : ℕ}
    (hu : u.shape = [l, l, l, l]) (h : transformTwoBody np (some u) C (some Ct) = .ok r) :
    ∃ m n, C.shape = [l, n] ∧ Ct.shape = [m, l] := by
  unfold transformTwoBody at h
  simp only [orErr, Option.getD, bind, Except.bind] at h
  split at h
  · exact absurd h (by simp)
  split at h
  · exact absurd h (by simp)
  rename_i u₁ h₁
  split at h
  · exact absurd h (by simp)
  rename_i u₂ h₂
  split at h
  · exact absurd h (by simp)
  rename_i u₂' h₂'
  split at h
  · exact absurd h (by simp)
  rename_i u₃ h₃
  split at h
  · exact absurd h (by simp)
  rename_i u₃' h₃'
  obtain ⟨n₁, ha₁, hb₁, hs₁⟩ := tensordot_inv h₁
  obtain ⟨n₂, ha₂, hb₂, hs₂⟩ := tensordot_inv h₂
  have hp := transpose_inv h₂'
  obtain ⟨n₃, ha₃, hb₃, hs₃⟩ := tensordot_inv h₃
  have hp' := transpose_inv h₃'
  have hn : l = n₁ := by simpa [hu] using ha₁
  subst hn
  obtain ⟨c, hc⟩ : ∃ c, C.shape = l :: c := by
    cases hCs : C.shape with
    | nil => simp [hCs] at hb₁
    | cons x xs => simp [hCs] at hb₁; exact ⟨xs, by rw [hb₁]⟩
  simp only [hu, hc, List.eraseIdx, List.cons_append, List.nil_append] at hs₁
  simp only [hs₁, hc, List.eraseIdx, List.cons_append, List.nil_append] at hs₂
  simp only [ndim, hs₂, List.length_cons, List.length_append, List.length_nil] at hp
  obtain ⟨n, hcn⟩ : ∃ n, c = [n] := List.length_eq_one_iff.1 (by omega)
  subst hcn
  have hs₂' : u₂'.shape = [l, l, n, n] := by
    obtain ⟨r', e, _, s, _⟩ := transpose_0132 (a := u₂) hs₂
    rw [e] at h₂'
    simp only [Except.ok.injEq] at h₂'
    rw [← h₂', s]
  have hn₃ : l = n₃ := by simpa [hs₂'] using ha₃
  subst hn₃
  simp only [hs₂', List.eraseIdx, List.cons_append, List.nil_append] at hs₃
  simp only [ndim, hs₃, List.length_cons] at hp'
  cases hCt : Ct.shape with
  | nil => simp [hCt] at hb₃
  | cons m ms =>
    cases ms with
    | nil => simp [hCt] at hb₃
    | cons k ks =>
      simp [hCt] at hb₃ hp'
      subst hb₃ hp'
      exact ⟨m, n, hc, rfl⟩

theorem setH_frame {b b' : BasisSet K} {x : Option (NDArray K)} {r : Unit}
    (h : (setH x).run b = (.ok r, b')) : ∃ y, b' = { b with h := y } := by
  cases x with
  | none => simp [setH, PyM.run_bind, orErr] at h
  | some x =>
    simp only [setH, PyM.run_bind, orErr, run_get, run_liftM, run_assert] at h
    split_ifs at h <;> simp at h
    exact ⟨_, h.symm⟩

theorem setS_frame {b b' : BasisSet K} {x : Option (NDArray K)} {r : Unit}
    (h : (setS x).run b = (.ok r, b')) : ∃ y, b' = { b with s := y } := by
  cases x with
  | none => simp [setS, PyM.run_bind, orErr] at h
  | some x =>
    simp only [setS, PyM.run_bind, orErr, run_get, run_liftM, run_assert] at h
    split_ifs at h <;> simp at h
    exact ⟨_, h.symm⟩

theorem changeBasisOneBody_frame {b b' : BasisSet K} {C Ct : NDArray K} {r : Unit}
    (h : (changeBasisOneBody C Ct).run b = (.ok r, b')) :
    ∃ y z, b' = { b with h := y, s := z } := by
  unfold changeBasisOneBody at h
  obtain ⟨_, _, h1, h⟩ := run_bind_eq_ok.1 h
  simp only [run_get, Prod.mk.injEq, Except.ok.injEq] at h1
  obtain ⟨rfl, rfl⟩ := h1
  obtain ⟨_, _, h1, h⟩ := run_bind_eq_ok.1 h
  simp only [run_liftM, Prod.mk.injEq] at h1
  obtain ⟨_, rfl⟩ := h1
  obtain ⟨_, _, h1, h⟩ := run_bind_eq_ok.1 h
  obtain ⟨y, rfl⟩ := setH_frame h1
  obtain ⟨_, _, h1, h⟩ := run_bind_eq_ok.1 h
  simp only [run_get, Prod.mk.injEq, Except.ok.injEq] at h1
  obtain ⟨rfl, rfl⟩ := h1
  dsimp only at h
  rcases hs : b.s with _ | s
  · rw [hs] at h
    simp only [PyM.run_bind, run_get, run_liftM, Prod.mk.injEq] at h
    exact ⟨y, none, h.2.symm⟩
  · rw [hs] at h
    dsimp only at h
    obtain ⟨_, _, h1, h⟩ := run_bind_eq_ok.1 h
    simp only [run_liftM, Prod.mk.injEq] at h1
    obtain ⟨_, rfl⟩ := h1
    obtain ⟨_, _, h1, h⟩ := run_bind_eq_ok.1 h
    obtain ⟨z, rfl⟩ := setS_frame h1
    simp only [PyM.run_bind, run_get, run_liftM, Prod.mk.injEq] at h
    exact ⟨y, z, h.2.symm⟩

theorem changeBasisTwoBody_inv {b b' : BasisSet K} {u C Ct : NDArray K} {l : ℕ} {r : Unit}
    (hu : b.u = some u) (hus : u.shape = [l, l, l, l])
    (h : (changeBasisTwoBody C Ct).run b = (.ok r, b')) :
    C.shape = [l, b.l] ∧ Ct.shape = [b.l, l] := by
  unfold changeBasisTwoBody at h
  obtain ⟨_, _, h1, h⟩ := run_bind_eq_ok.1 h
  simp only [run_get, Prod.mk.injEq, Except.ok.injEq] at h1
  obtain ⟨rfl, rfl⟩ := h1
  obtain ⟨u', _, h1, h⟩ := run_bind_eq_ok.1 h
  simp only [run_liftM, Prod.mk.injEq] at h1
  obtain ⟨h1, rfl⟩ := h1
  have h1' : transformTwoBody b.np (some u) C (some Ct) = .ok u' := by
    rw [hu] at h1
    unfold transformTwoBodyOf at h1
    cases hc : b.cls with
    | plain => rw [hc] at h1; exact h1
    | sincDVR =>
      rw [hc] at h1
      have : b.uRepr = .four := by simp [uRepr, hu, ndim, hus]
      simpa [transformTwoBodySinc, this] using h1
  obtain ⟨m, n, hC, hCt⟩ := transformTwoBody_inv hus h1'
  have hnp : ∃ np, b.np = some np := by
    cases hn : b.np with
    | none => simp [transformTwoBody, hn, needNp, bind, Except.bind] at h1'
    | some np => exact ⟨np, rfl⟩
  obtain ⟨np, hnp⟩ := hnp
  rw [hnp, transformTwoBody_eq hus hC hCt] at h1'
  simp only [Except.ok.injEq] at h1'
  subst h1'
  obtain ⟨_, _, h1, h⟩ := run_bind_eq_ok.1 h
  simp only [setU, PyM.run_bind, orErr, run_get, run_liftM, run_assert] at h1
  split_ifs at h1 with hax
  · simp only [axesOk, twoBodyArr_shape, List.all_cons, List.all_nil, Bool.and_eq_true,
      beq_iff_eq] at hax
    obtain ⟨h2, _, h3, _⟩ := hax
    subst h2
    subst h3
    exact ⟨hC, hCt⟩
  · simp at h1

theorem changeBasis_inv {b b' : BasisSet K} {C : NDArray K} {Ct : Option (NDArray K)} {l : ℕ}
    {r : Unit} (hb : WellFormed b l) (h : (changeBasis C Ct).run b = (.ok r, b')) :
    ∃ n, C.shape = [l, n] ∧ (Ct.getD C.conj.T).shape = [n, l] ∧
      (∀ np, b.np = some np → spinLoop (some np) C (Ct.getD C.conj.T)
        [b.spinX, b.spinY, b.spinZ, b.spin2] = .ok ()) ∧
      b' = changed b C (Ct.getD C.conj.T) l n := by
  obtain ⟨u, hu, hus⟩ := hb.u
  obtain ⟨np, hnp⟩ := hb.np
  obtain ⟨x, hh, hhs⟩ := hb.h
  have h0 := h
  unfold changeBasis at h
  obtain ⟨n, _, h1, h⟩ := run_bind_eq_ok.1 h
  simp only [run_liftM, Prod.mk.injEq] at h1
  obtain ⟨_, rfl⟩ := h1
  obtain ⟨_, _, h1, h⟩ := run_bind_eq_ok.1 h
  simp only [run_modify, Prod.mk.injEq] at h1
  obtain ⟨_, rfl⟩ := h1
  obtain ⟨_, _, h1, h⟩ := run_bind_eq_ok.1 h
  have h1' := h1
  obtain ⟨y, z, rfl⟩ := changeBasisOneBody_frame h1
  obtain ⟨_, _, h1, h⟩ := run_bind_eq_ok.1 h
  obtain ⟨hC, hCt⟩ := changeBasisTwoBody_inv (u := u) (l := l) (by exact hu) hus h1
  dsimp only at hC hCt
  have hloop : ∀ np, b.np = some np → spinLoop (some np) C (Ct.getD C.conj.T)
        [b.spinX, b.spinY, b.spinZ, b.spin2] = .ok () := by
    intro np hnp
    rw [changeBasisOneBody_run' (b := { b with l := n }) (np := np) (h := x) rfl hnp
      hh hhs hb.s hC hCt] at h1'
    simp only [Prod.mk.injEq] at h1'
    exact h1'.1
  refine ⟨n, hC, hCt, hloop, ?_⟩
  have := changeBasis_run_of_loop hb hloop hC hCt
  have e : changeBasis C Ct = changeBasis C (some (Ct.getD C.conj.T)) := by cases Ct <;> rfl
  rw [e, this] at h0
  simp only [Prod.mk.injEq] at h0
  exact h0.2.symm

theorem changed_wellFormed {b : BasisSet K} {C Ct : NDArray K} {l n : ℕ} (hb : WellFormed b l) :
    WellFormed (changed b C Ct l n) n := by
  obtain ⟨u, hu, hus⟩ := hb.u
  obtain ⟨x, hh, hhs⟩ := hb.h
  constructor
  · rfl
  · exact hb.np
  · exact ⟨oneBodyArr x C Ct n l l n, by simp [changed, hh], rfl⟩
  · exact ⟨twoBodyArr u C Ct l n n, by simp [changed, hu], rfl⟩
  · intro y hy
    simp only [changed, Option.map_eq_some_iff] at hy
    obtain ⟨_, _, rfl⟩ := hy; rfl
  · intro y hy
    simp only [changed, Option.map_eq_some_iff] at hy
    obtain ⟨z, hz, rfl⟩ := hy
    exact ⟨(hb.dipole z hz).1, rfl⟩
  · intro y hy
    simp only [changed, Option.map_eq_some_iff] at hy
    obtain ⟨z, hz, rfl⟩ := hy
    obtain ⟨g, hg, hg'⟩ := hb.spf z hz
    exact ⟨g, by simp [hg], hg'⟩
  · intro y hy
    simp only [changed] at hy
    split_ifs at hy with hs
    · simp only [Option.map_eq_some_iff] at hy
      obtain ⟨z, hz, rfl⟩ := hy
      obtain ⟨g, hg, hg'⟩ := WellFormed.bra_shape hb hz
      exact ⟨g, by simp [hg], hg'⟩
    · rw [hb.braNeedsSpf (by simpa using hs)] at hy
      exact absurd hy (by simp)
  · intro hs
    simp only [changed, Option.map_eq_none_iff] at hs ⊢
    simp [hs, hb.braNeedsSpf hs]
  · intro y hy
    simp only [changed, Option.map_eq_some_iff] at hy
    obtain ⟨z, hz, rfl⟩ := hy
    exact ⟨rfl, (hb.tb z hz).2⟩

theorem changeBasis_none (C : NDArray K) : changeBasis C none = changeBasis C (some C.conj.T) := rfl

end BasisSet

end QS
