import Verif.Lemmas.ChangeBasis
import Verif.Lemmas.World

set_option linter.unusedSimpArgs false

/-! # Running the particle density loops (helper file) -/

namespace QS

open Finset NDArray PyM

variable {K : Type} [PyScalar K]

namespace BasisSet

/-- `∑_pq bra_p rho_qp ket_q` on the grid. -/
def densityArr (rho ket bra : NDArray K) (l : ℕ) (g : List ℕ) : NDArray K :=
  ofFn ket.dtype g (fun i => ∑ p ∈ range l, ∑ q ∈ range l,
    bra.get (p :: i) * rho.get [q, p] * ket.get (q :: i))

theorem densityStep_eq {rho ket bra : NDArray K} {l : ℕ} {g : List ℕ} {p q : ℕ}
    (hr : rho.shape = [l, l]) (hk : ket.shape = l :: g) (hb : bra.shape = l :: g)
    (hd : bra.dtype = ket.dtype) (hdr : ket.dtype.promote rho.dtype = ket.dtype)
    (hp : p < l) (hq : q < l) (F : List ℕ → K) :
    densityStep rho bra ket p q (ofFn ket.dtype g F) = .ok (ofFn ket.dtype g
      (fun i => F i + bra.get (p :: i) * rho.get [q, p] * ket.get (q :: i))) := by
  have e1 : bra.item p = .ok (ofFn bra.dtype g (fun j => bra.get (p :: j))) := by
    simp [item, hb, hp]
  have e2 : ket.item q = .ok (ofFn ket.dtype g (fun j => ket.get (q :: j))) := by
    simp [item, hk, hq]
  have e3 : rho.item q = .ok (ofFn rho.dtype [l] (fun j => rho.get (q :: j))) := by
    simp [item, hr, hq]
  have e4 : (ofFn rho.dtype [l] (fun j => rho.get (q :: j))).item p =
      .ok (ofFn rho.dtype [] (fun j => rho.get [q, p])) := by
    simp only [item, ofFn_shape, hp, if_true, ofFn_dtype]
    congr 1
    apply ofFn_congr
    intro i hi
    rw [inRange_nil_iff] at hi
    subst hi
    rw [ofFn_get_of (by simp [hp])]
  simp only [densityStep, e1, e2, e3, e4, bind, Except.bind, ofFn_shape, ne_eq, not_true_eq_false,
    if_false]
  rw [mul, binop_same (by simp)]
  simp only [iadd]
  rw [ibinop_same (by simp) ?_]
  · simp only [ofFn_dtype, ofFn_shape, Except.ok.injEq, smul_shape]
    apply ofFn_congr
    intro i hi
    rw [ofFn_get_of hi, ofFn_get_of (by simpa using hi), smul_get, ofFn_get_of hi, ofFn_get_of hi,
      ofFn_get_of (by simp)]
    ring
  · simp only [ofFn_dtype, smul_dtype, hd]
    rw [DType.promote_assoc, DType.promote_self, DType.promote_comm rho.dtype,
      DType.promote_left_self, hdr]

theorem densityStep_type {rho ket bra : NDArray K} {l : ℕ} {g : List ℕ} {p q : ℕ}
    (hr : rho.shape = [l, l]) (hk : ket.shape = l :: g) (hb : bra.shape = l :: g)
    (hd : bra.dtype = ket.dtype) (hdr : ket.dtype.promote rho.dtype ≠ ket.dtype)
    (hp : p < l) (hq : q < l) (F : List ℕ → K) :
    densityStep rho bra ket p q (ofFn ket.dtype g F) = .error .type := by
  have e1 : bra.item p = .ok (ofFn bra.dtype g (fun j => bra.get (p :: j))) := by
    simp [item, hb, hp]
  have e2 : ket.item q = .ok (ofFn ket.dtype g (fun j => ket.get (q :: j))) := by
    simp [item, hk, hq]
  have e3 : rho.item q = .ok (ofFn rho.dtype [l] (fun j => rho.get (q :: j))) := by
    simp [item, hr, hq]
  have e4 : (ofFn rho.dtype [l] (fun j => rho.get (q :: j))).item p =
      .ok (ofFn rho.dtype [] (fun j => (ofFn rho.dtype [l] (fun j => rho.get (q :: j))).get (p :: j)))
      := by simp only [item, ofFn_shape, hp, if_true, ofFn_dtype]
  simp only [densityStep, e1, e2, e3, e4, bind, Except.bind, ofFn_shape, ne_eq, not_true_eq_false,
    if_false]
  rw [mul, binop_same (by simp)]
  simp only [iadd, ibinop]
  rw [if_neg]
  simp only [ofFn_dtype, smul_dtype, hd]
  rw [DType.promote_assoc, DType.promote_self, DType.promote_comm rho.dtype,
    DType.promote_left_self]
  exact hdr

theorem foldlM_range_ok {α : Type} (f : α → ℕ → Except PyErr α) (S : ℕ → α) {n : ℕ}
    (h : ∀ t < n, f (S t) t = .ok (S (t + 1))) :
    (List.range n).foldlM f (S 0) = .ok (S n) := by
  induction n with
  | zero => rfl
  | succ n ih =>
    rw [List.range_succ, List.foldlM_append, ih (fun t ht => h t (by omega))]
    simp only [bind, Except.bind, List.foldlM_cons, List.foldlM_nil, h n (by omega)]
    rfl

variable {rho ket bra : NDArray K} {l : ℕ} {g : List ℕ}

theorem densityFn_eq {np : Module} (hr : rho.shape = [l, l]) (hk : ket.shape = l :: g)
    (hb : bra.shape = l :: g) (hd : bra.dtype = ket.dtype)
    (hdr : ket.dtype.promote rho.dtype = ket.dtype) :
    computeParticleDensityFn (some np) rho ket bra = .ok (densityArr rho ket bra l g) := by
  have hs : bra.shape = ket.shape := by rw [hk, hb]
  simp only [computeParticleDensityFn, hs, hd, ne_eq, not_true_eq_false, if_false, needNp, bind,
    Except.bind]
  have e1 : bra.shapeAt 0 = .ok l := by simp [shapeAt, hb]
  have e2 : ket.shapeAt 0 = .ok l := by simp [shapeAt, hk]
  simp only [e1, e2]
  have key := foldlM_range_ok (n := l) (fun rho' p =>
    (List.range l).foldlM (fun rho' q => densityStep rho bra ket p q rho') rho')
    (fun n => ofFn ket.dtype g (fun i => ∑ p ∈ range n, ∑ q ∈ range l,
      bra.get (p :: i) * rho.get [q, p] * ket.get (q :: i))) ?_
  · simp only [sum_range_zero] at key
    rw [show zeros ket.dtype ket.shape.tail = ofFn ket.dtype g (fun _ => (0 : K)) by
      simp [zeros, hk]]
    exact key
  · intro p hp
    have k2 := foldlM_range_ok (n := l) (fun rho' q => densityStep rho bra ket p q rho')
      (fun n => ofFn ket.dtype g (fun i => (∑ p ∈ range p, ∑ q ∈ range l,
        bra.get (p :: i) * rho.get [q, p] * ket.get (q :: i)) + ∑ q ∈ range n,
        bra.get (p :: i) * rho.get [q, p] * ket.get (q :: i))) ?_
    · simp only [sum_range_zero, add_zero] at k2
      rw [k2]
      simp only [sum_range_succ]
    · intro q hq
      rw [densityStep_eq hr hk hb hd hdr hp hq]
      simp only [sum_range_succ, add_assoc]

theorem densityFn_type {np : Module} (hl : 0 < l) (hr : rho.shape = [l, l]) (hk : ket.shape = l :: g)
    (hb : bra.shape = l :: g) (hd : bra.dtype = ket.dtype)
    (hdr : ket.dtype.promote rho.dtype ≠ ket.dtype) :
    computeParticleDensityFn (some np) rho ket bra = .error .type := by
  have hs : bra.shape = ket.shape := by rw [hk, hb]
  simp only [computeParticleDensityFn, hs, hd, ne_eq, not_true_eq_false, if_false, needNp, bind,
    Except.bind]
  have e1 : bra.shapeAt 0 = .ok l := by simp [shapeAt, hb]
  have e2 : ket.shapeAt 0 = .ok l := by simp [shapeAt, hk]
  simp only [e1, e2]
  obtain ⟨m, rfl⟩ : ∃ m, l = m + 1 := ⟨l - 1, by omega⟩
  have e3 : densityStep rho bra ket 0 0 (zeros ket.dtype ket.shape.tail) = .error .type := by
    have := densityStep_type hr hk hb hd hdr (by omega : 0 < m + 1) (by omega : 0 < m + 1)
      (fun _ => 0)
    rwa [show zeros ket.dtype ket.shape.tail = ofFn ket.dtype g (fun _ => (0 : K)) by
      simp [zeros, hk]]
  simp only [List.range_succ_eq_map, List.foldlM_cons, e3, bind, Except.bind]

theorem density_none_run {b : BasisSet K} {x y : NDArray K} (hs : b.spf = some x)
    (hy : b.bra = some y) :
    (computeParticleDensity rho none none).run b =
      (computeParticleDensityFn b.np rho x y, withBra b) := by
  simp only [computeParticleDensity, PyM.run_bind, run_get, run_assert, hs, Option.isSome, if_true,
      orErr, run_liftM, getBra_run, hy, withBra]

theorem density_some_run {b : BasisSet K} {x y : NDArray K} {C : NDArray K} {Ct} (hs : b.spf = some x)
    (hy : b.bra = some y) :
    (computeParticleDensity rho (some C) Ct).run b =
      ((do
        let ket ← transformSpf b.np x C
        let bra ← transformBraSpf b.np y (Ct.getD C.conj.T)
        computeParticleDensityFn b.np rho ket bra), withBra b) := by
  simp only [computeParticleDensity, PyM.run_bind, run_get, run_assert, hs, Option.isSome, if_true,
      orErr, run_liftM, getBra_run, hy, withBra]
  cases transformSpf b.np x C with
  | error e => rfl
  | ok a =>
    simp only
    cases transformBraSpf b.np y (Ct.getD C.conj.T) with
    | error e => rfl
    | ok c => rfl

/-- The density leaves the object as it was, up to the dual it caches. -/
theorem density_state {b : BasisSet K} (C Ct : Option (NDArray K)) :
    ((computeParticleDensity rho C Ct).run b).2 = if b.spf.isSome then withBra b else b := by
  rcases hs : b.spf with _ | x
  · simp [computeParticleDensity, PyM.run_bind, hs]
  · obtain ⟨y, hy⟩ := bra_of_spf hs
    rcases C with _ | C
    · have : (computeParticleDensity rho none Ct).run b =
        (computeParticleDensity rho none none).run b := rfl
      rw [this, density_none_run hs hy]
      rfl
    · rw [density_some_run hs hy]
      rfl

end BasisSet

end QS
