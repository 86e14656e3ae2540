import Verif.Lemmas.Density
import Verif.Lemmas.Dual
import Verif.Spec.DemoSystem

/-!
# Properties C27–C29: particle densities and the dual functions
-/

namespace QS.Props

open Finset NDArray BasisSet PyM Demo

variable {K T : Type} [PyScalar K]

/-! ## C27 -/

/-- The density `∑_pq bra_p(x) rho_qp ket_q(x)` of `l` functions at the grid point `i`. -/
def densityAt (l : ℕ) (rho ket bra : NDArray K) (i : List ℕ) : K :=
  ∑ p ∈ range l, ∑ q ∈ range l, bra.get (p :: i) * rho.get [q, p] * ket.get (q :: i)

/-- **C27** For every basis set of `l` functions on any grid `g` and every `l × l` density matrix
whose dtype the functions can hold, the density is `∑_pq bra_p rho_qp ket_q` at every grid point.
Nothing changes but the cached dual. -/
theorem C27_density {b : BasisSet K} {rho x y : NDArray K} {l : ℕ} {g : List ℕ}
    (hnp : b.np.isSome) (hx : b.spf = some x) (hy : b.bra = some y) (sx : x.shape = l :: g)
    (sy : y.shape = l :: g) (hd : y.dtype = x.dtype) (sr : rho.shape = [l, l])
    (hdr : x.dtype.promote rho.dtype = x.dtype) :
    ∃ d, (computeParticleDensity rho none none).run b = (.ok d, { b with braSpf := some y }) ∧
      d.shape = g ∧ ∀ i, InRange g i → d.get i = densityAt l rho x y i := by
  obtain ⟨np, hnp⟩ := Option.isSome_iff_exists.1 hnp
  refine ⟨densityArr rho x y l g, ?_, rfl, fun i hi => ofFn_get_of hi⟩
  rw [density_none_run hx hy, withBra, hy]
  congr 1
  rw [hnp, densityFn_eq sr sx sy hd hdr]

/-- **C27** (failure) A density matrix that the functions' dtype cannot hold (complex `rho`, real
functions) raises `TypeError`; functions and duals of different shape or dtype raise
`AssertionError`. -/
theorem C27_failures {b : BasisSet K} {rho x y : NDArray K} {l : ℕ} {g : List ℕ}
    (hnp : b.np.isSome) (hx : b.spf = some x) (hy : b.bra = some y) (sx : x.shape = l :: g) :
    (0 < l → y.shape = x.shape → y.dtype = x.dtype → rho.shape = [l, l] →
      x.dtype.promote rho.dtype ≠ x.dtype →
      ((computeParticleDensity rho none none).run b).1 = .error .type) ∧
    (y.shape ≠ x.shape ∨ y.dtype ≠ x.dtype →
      ((computeParticleDensity rho none none).run b).1 = .error .assertion) := by
  obtain ⟨np, hnp⟩ := Option.isSome_iff_exists.1 hnp
  rw [density_none_run hx hy, hnp]
  constructor
  · intro hl sy hd sr hdr
    rw [densityFn_type hl sr sx (by rw [sy, sx]) hd hdr]
  · intro h
    by_cases hs : y.shape = x.shape
    · simp [computeParticleDensityFn, hs, h.resolve_left (fun e => e hs)]
    · simp [computeParticleDensityFn, hs]

/-- **C27** (linear) If `rho₃ = c₁ rho₁ + c₂ rho₂` entry by entry, the same holds for the densities. -/
theorem C27_linear {b : BasisSet K} {rho₁ rho₂ rho₃ x y d₁ d₂ d₃ : NDArray K} {l : ℕ} {g : List ℕ}
    {c₁ c₂ : K} (hnp : b.np.isSome) (hx : b.spf = some x) (hy : b.bra = some y)
    (sx : x.shape = l :: g) (sy : y.shape = l :: g) (hd : y.dtype = x.dtype)
    (s₁ : rho₁.shape = [l, l]) (s₂ : rho₂.shape = [l, l]) (s₃ : rho₃.shape = [l, l])
    (h : ∀ p < l, ∀ q < l, rho₃.get [p, q] = c₁ * rho₁.get [p, q] + c₂ * rho₂.get [p, q])
    (r₁ : ((computeParticleDensity rho₁ none none).run b).1 = .ok d₁)
    (r₂ : ((computeParticleDensity rho₂ none none).run b).1 = .ok d₂)
    (r₃ : ((computeParticleDensity rho₃ none none).run b).1 = .ok d₃) (i : List ℕ) :
    d₃.get i = c₁ * d₁.get i + c₂ * d₂.get i := by
  obtain ⟨np, hnp⟩ := Option.isSome_iff_exists.1 hnp
  rcases Nat.eq_zero_or_pos l with rfl | hl
  · have e : ∀ (rho d : NDArray K), ((computeParticleDensity rho none none).run b).1 = .ok d →
        d.get i = 0 := by
      intro rho d r
      rw [density_none_run hx hy, hnp] at r
      simp only [computeParticleDensityFn, sx, sy, hd, ne_eq, not_true_eq_false, if_false, needNp,
        bind, Except.bind, shapeAt, List.getElem?_cons_zero, List.range_zero, List.foldlM_nil] at r
      obtain rfl := Except.ok.inj r
      simp
    rw [e _ _ r₁, e _ _ r₂, e _ _ r₃]; simp
  have e : ∀ (rho d : NDArray K), rho.shape = [l, l] →
      ((computeParticleDensity rho none none).run b).1 = .ok d → d = densityArr rho x y l g := by
    intro rho d s r
    rw [density_none_run hx hy, hnp] at r
    by_cases hdr : x.dtype.promote rho.dtype = x.dtype
    · rw [densityFn_eq s sx sy hd hdr] at r
      exact (Except.ok.inj r).symm
    · rw [densityFn_type hl s sx sy hd hdr] at r
      simp at r
  rw [e _ _ s₁ r₁, e _ _ s₂ r₂, e _ _ s₃ r₃]
  by_cases hi : InRange g i
  · rw [densityArr, densityArr, densityArr, ofFn_get_of hi, ofFn_get_of hi, ofFn_get_of hi,
      mul_sum, mul_sum, ← sum_add_distrib]
    apply sum_congr rfl
    intro p hp
    rw [mul_sum, mul_sum, ← sum_add_distrib]
    apply sum_congr rfl
    intro q hq
    rw [h q (mem_range.1 hq) p (mem_range.1 hp)]
    ring
  · rw [supp _ _ hi, supp _ _ hi, supp _ _ hi]; simp

/-- **C27** (real) For a Hermitian density matrix and `bra = conj(ket)` the density is real. -/
theorem C27_real {b : BasisSet K} {rho x y d : NDArray K} {l : ℕ} {g : List ℕ}
    (hnp : b.np.isSome) (hx : b.spf = some x) (hy : b.bra = some y)
    (sx : x.shape = l :: g) (hbar : y = x.conj) (sr : rho.shape = [l, l])
    (herm : ∀ p < l, ∀ q < l, rho.get [q, p] = star (rho.get [p, q]))
    (r : ((computeParticleDensity rho none none).run b).1 = .ok d) (i : List ℕ) :
    star (d.get i) = d.get i := by
  obtain ⟨np, hnp⟩ := Option.isSome_iff_exists.1 hnp
  subst hbar
  rw [density_none_run hx hy, hnp] at r
  rcases Nat.eq_zero_or_pos l with rfl | hl
  · simp only [computeParticleDensityFn, sx, conj_shape, conj_dtype, ne_eq, not_true_eq_false,
      if_false, needNp, bind, Except.bind, shapeAt, List.getElem?_cons_zero, List.range_zero,
      List.foldlM_nil] at r
    obtain rfl := Except.ok.inj r
    simp
  by_cases hdr : x.dtype.promote rho.dtype = x.dtype
  · rw [densityFn_eq sr sx (bra := x.conj) (by simpa using sx) rfl hdr] at r
    obtain rfl := Except.ok.inj r
    by_cases hi : InRange g i
    · rw [densityArr, ofFn_get_of hi]
      simp only [star_sum]
      rw [sum_comm]
      apply sum_congr rfl
      intro p hp
      apply sum_congr rfl
      intro q hq
      rw [conj_get, conj_get, herm p (mem_range.1 hp) q (mem_range.1 hq)]
      simp only [star_mul', star_star]
      ring
    · rw [supp _ _ hi]; simp
  · rw [densityFn_type hl sr sx (bra := x.conj) (by simpa using sx) rfl hdr] at r
    simp at r

/-- A Hermitian density matrix. -/
def rho : NDArray GaussQ := mat .complex128 [[g 1 0, g 2 1], [g 2 (-1), g 3 0]]

example : ∃ d, (computeParticleDensity rho none none).run basis =
    (.ok d, { basis with braSpf := some Demo.spf.conj }) ∧ d.shape = [3] ∧
    ∀ i, InRange [3] i → d.get i = densityAt 2 rho Demo.spf Demo.spf.conj i :=
  C27_density rfl rfl rfl rfl rfl rfl rfl rfl
/-- Its density at the first grid point is 58. -/
example : densityAt 2 rho Demo.spf Demo.spf.conj [0] = g 58 0 := by decide +kernel

example : ∀ d, ((computeParticleDensity rho none none).run basis).1 = .ok d →
    ∀ i, star (d.get i) = d.get i := fun _ r i =>
  C27_real rfl rfl rfl rfl rfl rfl (by decide +kernel) r i

/-! ## C28 -/

/-- **C28** `compute_particle_density(rho, C, C_tilde)` is exactly what
`compute_particle_density(rho)` gives after `change_basis(C, C_tilde)` — same array, or same
exception — for every basis set on which the basis change succeeds and which has functions. -/
theorem C28_commute {b b' : BasisSet K} {C : NDArray K} {Ct : Option (NDArray K)} {l : ℕ} {r : Unit}
    (hb : WellFormed b l) (hs : b.spf.isSome) (h : (changeBasis C Ct).run b = (.ok r, b'))
    (rho : NDArray K) :
    ((computeParticleDensity rho (some C) Ct).run b).1 =
      ((computeParticleDensity rho none none).run b').1 := by
  obtain ⟨x, hx⟩ := Option.isSome_iff_exists.1 hs
  obtain ⟨y, hy⟩ := bra_of_spf hx
  obtain ⟨np, hnp⟩ := hb.np
  obtain ⟨n, hC, hCt, -, rfl⟩ := changeBasis_inv hb h
  obtain ⟨g, sx, -⟩ := hb.spf x hx
  obtain ⟨g', sy, -⟩ := BasisSet.WellFormed.bra_shape hb hy
  rw [density_some_run hx hy, hnp, transformSpf_eq sx hC, transformBraSpf_eq sy hCt,
    density_none_run (x := spfArr x C l n) (y := braArr y (Ct.getD C.conj.T) l n)]
  · simp only [bind, Except.bind, changed, hnp]
  · simp [changed, hx]
  · have : (changed b C (Ct.getD C.conj.T) l n).braSpf =
        b.bra.map fun x => braArr x (Ct.getD C.conj.T) l n := by simp only [changed, hs, if_true]
    unfold BasisSet.bra
    rw [this, hy]
    rfl

/-- **C28** (old basis) It is also the density of `C rho C_tilde` in the old basis, whenever both
computations succeed. -/
theorem C28_old_basis {b : BasisSet K} {C Ct rho rho' x y d d' : NDArray K} {l n : ℕ} {g : List ℕ}
    (hnp : b.np.isSome) (hx : b.spf = some x) (hy : b.bra = some y) (sx : x.shape = l :: g)
    (sy : y.shape = l :: g) (hl : 0 < l) (hn : 0 < n) (hC : C.shape = [l, n])
    (hCt : Ct.shape = [n, l]) (sr : rho.shape = [n, n]) (sr' : rho'.shape = [l, l])
    (hr : ∀ a < l, ∀ c < l, rho'.get [a, c] =
      ∑ q ∈ range n, ∑ p ∈ range n, C.get [a, q] * rho.get [q, p] * Ct.get [p, c])
    (r₁ : ((computeParticleDensity rho (some C) (some Ct)).run b).1 = .ok d)
    (r₂ : ((computeParticleDensity rho' none none).run b).1 = .ok d') (i : List ℕ) :
    d.get i = d'.get i := by
  obtain ⟨np, hnp⟩ := Option.isSome_iff_exists.1 hnp
  rw [density_some_run hx hy, hnp] at r₁
  rw [density_none_run hx hy, hnp] at r₂
  simp only [Option.getD_some] at r₁
  rw [transformSpf_eq sx hC, transformBraSpf_eq sy hCt] at r₁
  simp only [bind, Except.bind] at r₁
  have d1 : y.dtype = x.dtype := by
    by_contra hd
    simp [computeParticleDensityFn, sx, sy, hd] at r₂
  have e2 : d' = densityArr rho' x y l g := by
    by_cases hdr : x.dtype.promote rho'.dtype = x.dtype
    · rw [densityFn_eq sr' sx sy d1 hdr] at r₂
      exact (Except.ok.inj r₂).symm
    · rw [densityFn_type hl sr' sx sy d1 hdr] at r₂
      simp at r₂
  have skx : (spfArr x C l n).shape = n :: g := by simp [sx]
  have sky : (braArr y Ct l n).shape = n :: g := by simp [sy]
  have d2 : (braArr y Ct l n).dtype = (spfArr x C l n).dtype := by
    by_contra hd
    simp [computeParticleDensityFn, hd] at r₁
  have e1 : d = densityArr rho (spfArr x C l n) (braArr y Ct l n) n g := by
    by_cases hdr : (spfArr x C l n).dtype.promote rho.dtype = (spfArr x C l n).dtype
    · rw [densityFn_eq sr skx sky d2 hdr] at r₁
      exact (Except.ok.inj r₁).symm
    · rw [densityFn_type hn sr skx sky d2 hdr] at r₁
      simp at r₁
  subst e1 e2
  by_cases hi : InRange g i
  swap
  · rw [supp _ _ hi, supp _ _ hi]
  rw [densityArr, densityArr, ofFn_get_of hi, ofFn_get_of hi]
  have hix : InRange x.shape.tail i := by simpa [sx] using hi
  have hiy : InRange y.shape.tail i := by simpa [sy] using hi
  calc _ = ∑ p ∈ range n, ∑ q ∈ range n, ∑ c ∈ range l, ∑ a ∈ range l,
        y.get (c :: i) * (C.get [a, q] * rho.get [q, p] * Ct.get [p, c]) * x.get (a :: i) := by
        apply sum_congr rfl
        intro p hp
        apply sum_congr rfl
        intro q hq
        rw [spfArr_get (mem_range.1 hq) hix, braArr_get (mem_range.1 hp) hiy, sum_mul, sum_mul]
        apply sum_congr rfl
        intro c _
        rw [mul_sum]
        apply sum_congr rfl
        intro a _
        ring
    _ = ∑ c ∈ range l, ∑ a ∈ range l, ∑ q ∈ range n, ∑ p ∈ range n,
        y.get (c :: i) * (C.get [a, q] * rho.get [q, p] * Ct.get [p, c]) * x.get (a :: i) := by
        rw [sum_comm]
        rw [sum_congr rfl (fun q _ => sum_comm), sum_comm]
        apply sum_congr rfl
        intro c _
        rw [sum_congr rfl (fun q _ => sum_comm), sum_comm]
    _ = _ := by
        apply sum_congr rfl
        intro c hc
        apply sum_congr rfl
        intro a ha
        rw [hr a (mem_range.1 ha) c (mem_range.1 hc), mul_sum, sum_mul]
        apply sum_congr rfl
        intro q _
        rw [mul_sum, sum_mul]

/-- **C28** (no modification) Whatever the arguments and whether or not it succeeds, the call keeps
every attribute; at most the dual that reading `bra_spf` would give is cached. -/
theorem C28_unmodified (b : BasisSet K) (rho : NDArray K) (C Ct : Option (NDArray K)) :
    ((computeParticleDensity rho C Ct).run b).2 = b ∨
    ((computeParticleDensity rho C Ct).run b).2 = { b with braSpf := b.bra } := by
  rw [density_state]
  split_ifs
  · exact .inr rfl
  · exact .inl rfl

/-- A 3 × 3 density matrix for the basis after `C23`. -/
def rho3 : NDArray GaussQ :=
  mat .complex128 [[g 1 0, g 0 1, 0], [g 2 0, g 3 0, g 1 1], [g 0 2, g 1 0, g 1 0]]

example : ∃ b', (changeBasis C23 none).run basis = (.ok (), b') ∧
    ((computeParticleDensity rho3 (some C23) none).run basis).1 =
      ((computeParticleDensity rho3 none none).run b').1 :=
  ⟨_, changeBasis_run (Ct := C23.conj.T) basis_wf (basis_noSpin.spinShaped 2) rfl rfl,
    C28_commute basis_wf rfl
      (changeBasis_run (Ct := C23.conj.T) basis_wf (basis_noSpin.spinShaped 2) rfl rfl) rho3⟩

/-! ## C29 -/

/-- Full statement of C29: after any history of operations that never assigns `bra_spf`, reading it
gives the conjugate of the current `spf`. -/
def C29_statement (K : Type) [PyScalar K] : Prop :=
  ∀ (b b' : BasisSet K) (ops : List (Op K)), b.braSpf = none →
    History (fun _ op => ∀ x, op ≠ .setBra x) b ops b' →
    (getBra.run b').1 = .ok (b'.spf.map NDArray.conj)

/-- **C29** is false: read `bra_spf` once (even `cast_to_complex`, `change_module` and `copy_basis`
do), assign `spf` again, and the old dual is still reported. -/
theorem C29_false : ¬ C29_statement GaussQ := by
  intro hc
  have key := hc basis { basis with braSpf := some Demo.spf.conj, spf := some Demo.spf.conj }
    [.readBra, .setSpf (some Demo.spf.conj)] rfl
    (.cons (by simp) (by rfl) (.cons (by simp) (by rfl) (.nil _)))
  have : (Demo.spf.conj).get [0, 0] = Demo.spf.conj.conj.get [0, 0] := by
    have e : some Demo.spf.conj = some Demo.spf.conj.conj := by
      simpa [getBra_run, BasisSet.bra] using key
    rw [Option.some.injEq] at e
    exact congrArg (fun a : NDArray GaussQ => a.get [0, 0]) e
  revert this
  decide +kernel

/-- **C29** (what happens) Once the dual has been created, assigning `spf` does not touch it. -/
theorem C29_actual {b b' : BasisSet K} {x : Option (NDArray K)} {y : NDArray K} {r : Unit}
    (hb : b.braSpf = some y) (h : (setSpf x).run b = (.ok r, b')) :
    (getBra.run b').1 = .ok (some y) := by
  obtain ⟨-, rfl⟩ := setSpf_inv h
  simp [getBra_run, BasisSet.bra, hb]

/-- The operations under which the dual stays right: `bra_spf` is not assigned, `spf` is not assigned
after the dual was created, and basis changes use a matrix `C` and its conjugate transpose. -/
def DualSafe (b : BasisSet K) : Op K → Prop
  | .setBra _ => False
  | .setSpf _ => b.braSpf = none
  | .changeBasis C Ct => (∃ m n, C.shape = [m, n]) ∧ (Ct = none ∨ Ct = some C.conj.T)
  | _ => True

/-- **C29** (part) Over all histories of such operations — any number of reads, basis changes, casts,
module changes, spin doublings and assignments of the elements — `bra_spf` reads as the conjugate of
the current `spf`.  What is missing from the full statement is false: assigning `spf` after a read. -/
theorem C29_partial {b b' : BasisSet K} {ops : List (Op K)} (h0 : b.braSpf = none)
    (h : History DualSafe b ops b') : (getBra.run b').1 = .ok (b'.spf.map NDArray.conj) := by
  have hd : DualOK b := by simp [DualOK, BasisSet.bra, h0]
  clear h0
  rw [getBra_run]
  suffices DualOK b' by rw [show b'.bra = _ from this]
  induction h with
  | nil => exact hd
  | @cons b b₁ b' op ops hq h _ ih =>
    apply ih
    cases op with
    | setH x => obtain ⟨y, -, -, rfl⟩ := setH_inv h; exact hd
    | setU x => obtain ⟨y, -, -, rfl⟩ := setU_inv h; exact hd
    | setS x => obtain ⟨y, -, -, rfl⟩ := setS_inv h; exact hd
    | setDipole x => obtain ⟨y, -, -, rfl⟩ := setDipole_inv h; exact hd
    | setSpinX x => obtain ⟨y, -, -, -, rfl⟩ := setSpinX_inv h; exact hd
    | setSpinY x => obtain ⟨y, -, -, -, rfl⟩ := setSpinY_inv h; exact hd
    | setSpinZ x => obtain ⟨y, -, -, -, rfl⟩ := setSpinZ_inv h; exact hd
    | setSpin2 x => obtain ⟨y, -, -, -, rfl⟩ := setSpin2_inv h; exact hd
    | setSpin2tb x => obtain ⟨y, -, -, -, rfl⟩ := setSpin2tb_inv h; exact hd
    | setSpf x =>
      obtain ⟨-, rfl⟩ := setSpf_inv h
      have hq : b.braSpf = none := hq
      simp [DualOK, BasisSet.bra, hq]
    | setBra x => exact hq.elim
    | setNre x => obtain rfl := run_modify_eq_ok.1 h; exact hd
    | setGrid x => obtain rfl := run_modify_eq_ok.1 h; exact hd
    | readBra =>
      simp only [Op.run, PyM.run_bind, getBra_run, run_pure, Prod.mk.injEq, true_and] at h
      subst h
      exact hd.cached rfl rfl
    | changeBasis C Ct =>
      obtain ⟨⟨m, n, hC⟩, hCt⟩ := hq
      exact changeBasis_dual hd hC hCt h
    | toGeneral a c anti =>
      simp only [Op.run] at h
      step e h
      rw [run_pure_eq_ok] at h
      obtain ⟨-, rfl⟩ := h
      exact toGeneral_dual hd e
    | antiSymmetrize =>
      rcases antiSymmetrizeTwoBody_inv h with ⟨-, e⟩ | ⟨-, u, tb, -, -, -, rfl⟩
      · rw [e]; exact hd
      · exact hd
    | castToComplex => obtain rfl := castToComplex_inv h; exact casted_dual hd
    | changeModule np =>
      rcases changeModule_inv h with rfl | rfl
      · exact hd
      · exact hd.cached rfl rfl

/-- A history of a basis change, a read, a cast and a doubling; the functions are still the right
duals. -/
example : ∃ b', History DualSafe basis [.changeBasis C22 none, .readBra, .castToComplex] b' ∧
    (getBra.run b').1 = .ok (b'.spf.map NDArray.conj) := by
  have h : History DualSafe basis [.changeBasis C22 none, .readBra, .castToComplex]
      (casted (withBra (changed basis C22 C22.conj.T 2 2))) :=
    .cons ⟨⟨2, 2, rfl⟩, .inl rfl⟩
      (changeBasis_run (Ct := C22.conj.T) basis_wf (basis_noSpin.spinShaped 2) rfl rfl)
      (.cons trivial (by
        simp only [Op.run, PyM.run_bind, getBra_run, run_pure]; rfl)
      (.cons trivial (castToComplex_run (np := 0) rfl) (.nil _)))
  exact ⟨_, h, C29_partial rfl h⟩

end QS.Props
