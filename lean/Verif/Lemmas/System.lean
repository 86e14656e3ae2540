import Verif.Spec.System
import Verif.Lemmas.General

/-! # Running the methods of systems -/

set_option linter.unusedSimpArgs false

namespace QS

open Finset PyM NDArray

variable {K T : Type} [PyScalar K]

/-! ### slices and traces -/

theorem slice2_eq {x : NDArray K} {a b n : ℕ} (hx : x.shape = [a, b]) (ha : n ≤ a) (hb : n ≤ b) :
    x.slice [some (0, n), some (0, n)] = .ok (ofFn x.dtype [n, n] x.get) := by
  simp only [slice, ndim, hx, List.length_cons, List.length_nil, Nat.reduceAdd, le_refl, if_true,
    Nat.sub_self, List.replicate_zero, List.append_nil, List.zipWith_cons_cons, List.zipWith_nil_left,
    List.map_cons, List.map_nil, Nat.zero_min, Nat.sub_zero, Nat.min_eq_left ha, Nat.min_eq_left hb,
    List.zipWith]
  refine congrArg _ (ofFn_congr fun i hi => ?_)
  obtain ⟨p, q, rfl, -, -⟩ := inRange_two.1 hi
  simp

theorem slice4_eq {x : NDArray K} {a b c d n : ℕ} (hx : x.shape = [a, b, c, d]) (ha : n ≤ a)
    (hb : n ≤ b) (hc : n ≤ c) (hd : n ≤ d) :
    x.slice [some (0, n), some (0, n), some (0, n), some (0, n)] =
      .ok (ofFn x.dtype [n, n, n, n] x.get) := by
  simp only [slice, ndim, hx, List.length_cons, List.length_nil, Nat.reduceAdd, le_refl, if_true,
    Nat.sub_self, List.replicate_zero, List.append_nil, List.zipWith_cons_cons, List.zipWith_nil_left,
    List.map_cons, List.map_nil, Nat.zero_min, Nat.sub_zero, Nat.min_eq_left ha, Nat.min_eq_left hb,
    Nat.min_eq_left hc, Nat.min_eq_left hd, List.zipWith]
  refine congrArg _ (ofFn_congr fun i hi => ?_)
  obtain ⟨p, q, r, s, rfl, -⟩ := inRange_four.1 hi
  simp

theorem slice_piqi {x : NDArray K} {a b c d n : ℕ} (hx : x.shape = [a, b, c, d])
    (hb : n ≤ b) (hd : n ≤ d) :
    x.slice [none, some (0, n), none, some (0, n)] = .ok (ofFn x.dtype [a, n, c, n] x.get) := by
  simp only [slice, ndim, hx, List.length_cons, List.length_nil, Nat.reduceAdd, le_refl, if_true,
    Nat.sub_self, List.replicate_zero, List.append_nil, List.zipWith_cons_cons, List.zipWith_nil_left,
    List.map_cons, List.map_nil, Nat.zero_min, Nat.sub_zero, Nat.min_eq_left hb,
    Nat.min_eq_left hd, List.zipWith]
  refine congrArg _ (ofFn_congr fun i hi => ?_)
  obtain ⟨p, q, r, s, rfl, -⟩ := inRange_four.1 hi
  simp

theorem slice_piiq {x : NDArray K} {a b c d n : ℕ} (hx : x.shape = [a, b, c, d])
    (hb : n ≤ b) (hc : n ≤ c) :
    x.slice [none, some (0, n), some (0, n), none] = .ok (ofFn x.dtype [a, n, n, d] x.get) := by
  simp only [slice, ndim, hx, List.length_cons, List.length_nil, Nat.reduceAdd, le_refl, if_true,
    Nat.sub_self, List.replicate_zero, List.append_nil, List.zipWith_cons_cons, List.zipWith_nil_left,
    List.map_cons, List.map_nil, Nat.zero_min, Nat.sub_zero, Nat.min_eq_left hb,
    Nat.min_eq_left hc, List.zipWith]
  refine congrArg _ (ofFn_congr fun i hi => ?_)
  obtain ⟨p, q, r, s, rfl, -⟩ := inRange_four.1 hi
  simp

theorem trace2_eq {x : NDArray K} {n : ℕ} (hx : x.shape = [n, n]) :
    x.trace 0 1 = .ok (ofFn x.dtype [] fun _ => ∑ t ∈ range n, x.get [t, t]) := by
  simp only [trace, hx, List.getElem?_cons_zero, List.getElem?_cons_succ, Nat.zero_lt_one, if_true,
    List.eraseIdx_cons_succ, List.eraseIdx_cons_zero, Nat.min_self]
  refine congrArg _ (ofFn_congr fun i hi => ?_)
  rw [inRange_nil_iff.1 hi]
  rfl

theorem trace4_13 {x : NDArray K} {n : ℕ} (hx : x.shape = [n, n, n, n]) :
    x.trace 1 3 = .ok (ofFn x.dtype [n, n] fun i => match i with
      | [p, q] => ∑ t ∈ range n, x.get [p, t, q, t]
      | _ => 0) := by
  simp only [trace, hx, List.getElem?_cons_zero, List.getElem?_cons_succ, Nat.reduceLT, if_true,
    List.eraseIdx_cons_succ, List.eraseIdx_cons_zero, Nat.min_self]
  refine congrArg _ (ofFn_congr fun i hi => ?_)
  obtain ⟨p, q, rfl, -⟩ := inRange_two.1 hi
  rfl

theorem trace4_12 {x : NDArray K} {n : ℕ} (hx : x.shape = [n, n, n, n]) :
    x.trace 1 2 = .ok (ofFn x.dtype [n, n] fun i => match i with
      | [p, q] => ∑ t ∈ range n, x.get [p, t, t, q]
      | _ => 0) := by
  simp only [trace, hx, List.getElem?_cons_zero, List.getElem?_cons_succ, Nat.reduceLT, if_true,
    List.eraseIdx_cons_succ, List.eraseIdx_cons_zero, Nat.min_self]
  refine congrArg _ (ofFn_congr fun i hi => ?_)
  obtain ⟨p, q, rfl, -⟩ := inRange_two.1 hi
  rfl

/-! ### reference energies -/

theorem refEnergyGeneral_eq {np : Module} {h u : NDArray K} {l n : ℕ} (hh : h.shape = [l, l])
    (hu : u.shape = [l, l, l, l]) (hn : n ≤ l) :
    ∃ r, refEnergyGeneral (some np) (some h) (some u) (0, n) = .ok r ∧ r.shape = [] ∧
      r.get [] = energyGeneral n h u := by
  simp only [refEnergyGeneral, needNp, orErr, bind, Except.bind, slice2_eq hh hn hn,
    slice4_eq hu hn hn hn hn]
  rw [trace2_eq (by rfl), trace4_13 (by rfl)]
  simp only [Except.bind]
  rw [trace2_eq (by rfl)]
  simp only [Except.bind]
  rw [add_same (by rfl)]
  refine ⟨_, rfl, rfl, ?_⟩
  rw [ofFn_get_of (by exact inRange_nil), ofFn_get_of inRange_nil, smul_get, ofFn_get_of inRange_nil,
    energyGeneral]
  congr 1
  · refine sum_congr rfl fun i hi => ?_
    rw [ofFn_get_of (by simpa using hi)]
  · congr 1
    refine sum_congr rfl fun i hi => ?_
    rw [ofFn_get_of (by simpa using hi)]
    refine sum_congr rfl fun j hj => ?_
    rw [ofFn_get_of (by simp [mem_range.1 hi, mem_range.1 hj])]

theorem refEnergySpatial_eq {np : Module} {h u : NDArray K} {l n : ℕ} (hh : h.shape = [l, l])
    (hu : u.shape = [l, l, l, l]) (hn : n ≤ l) :
    ∃ r, refEnergySpatial (some np) (some h) (some u) (0, n) = .ok r ∧ r.shape = [] ∧
      r.get [] = energySpatial n h u := by
  simp only [refEnergySpatial, needNp, orErr, bind, Except.bind, slice2_eq hh hn hn,
    slice4_eq hu hn hn hn hn]
  rw [trace2_eq (by rfl), trace4_13 (by rfl), trace4_12 (by rfl)]
  simp only [Except.bind]
  rw [trace2_eq (by rfl), trace2_eq (by rfl)]
  simp only [Except.bind]
  rw [add_same (by rfl)]
  simp only [Except.bind]
  rw [sub_same (by rfl)]
  refine ⟨_, rfl, rfl, ?_⟩
  rw [ofFn_get_of (by exact inRange_nil), ofFn_get_of (by exact inRange_nil), smul_get, smul_get,
    ofFn_get_of inRange_nil, ofFn_get_of inRange_nil, ofFn_get_of inRange_nil, energySpatial]
  simp only [sum_sub_distrib, mul_sum, add_sub_assoc]
  congr 1
  · refine sum_congr rfl fun i hi => ?_
    rw [ofFn_get_of (by simpa using hi)]
  · congr 1
    · refine sum_congr rfl fun i hi => ?_
      rw [ofFn_get_of (by simpa using hi), mul_sum]
      refine sum_congr rfl fun j hj => ?_
      rw [ofFn_get_of (by simp [mem_range.1 hi, mem_range.1 hj])]
    · refine sum_congr rfl fun i hi => ?_
      rw [ofFn_get_of (by simpa using hi)]
      refine sum_congr rfl fun j hj => ?_
      rw [ofFn_get_of (by simp [mem_range.1 hi, mem_range.1 hj])]

/-! ### Fock matrices -/

theorem read_run {m : Mem K} {r : ℕ} {x : NDArray K} (h : m[r]? = some x) :
    (Mem.read r).run m = (.ok x, m) := by
  simp [Mem.read, PyM.run_bind, h]

theorem write_run (m : Mem K) (r : ℕ) (x : NDArray K) :
    (Mem.write r x).run m = (.ok (), m.set r x) := rfl

/-- The Fock matrix as an array with the dtype of the output buffer. -/
def fockArr (k : SysKind) (dt : DType) (l n : ℕ) (h u : NDArray K) : NDArray K :=
  ofFn dt [l, l] fun i => match i with
    | [p, q] => fockAt k n h u p q
    | _ => 0

theorem iaddAt_run {m : Mem K} {f : ℕ} {x y : NDArray K} (hf : m[f]? = some x)
    (hs : x.shape = y.shape) (hd : x.dtype.promote y.dtype = x.dtype) :
    (iaddAt f y).run m =
      (.ok (), m.set f (ofFn x.dtype x.shape fun i => x.get i + y.get i)) := by
  simp only [iaddAt, PyM.run_bind, read_run hf, run_liftM, iadd, ibinop_same hs hd, write_run]

theorem isubAt_run {m : Mem K} {f : ℕ} {x y : NDArray K} (hf : m[f]? = some x)
    (hs : x.shape = y.shape) (hd : x.dtype.promote y.dtype = x.dtype) :
    (isubAt f y).run m =
      (.ok (), m.set f (ofFn x.dtype x.shape fun i => x.get i - y.get i)) := by
  simp only [isubAt, PyM.run_bind, read_run hf, run_liftM, isub, ibinop_same hs hd, write_run]

theorem iaddAt_type {m : Mem K} {f : ℕ} {x y : NDArray K} (hf : m[f]? = some x)
    (hd : x.dtype.promote y.dtype ≠ x.dtype) : (iaddAt f y).run m = (.error .type, m) := by
  simp only [iaddAt, PyM.run_bind, read_run hf, run_liftM, iadd, ibinop, hd, if_false]

theorem einsum_piqi_eq {x : NDArray K} {p i q : ℕ} (h : x.shape = [p, i, q, i]) :
    x.einsum_piqi = .ok (ofFn x.dtype [p, q] fun y => match y with
      | [p, q] => ∑ t ∈ range i, x.get [p, t, q, t]
      | _ => 0) := by
  simp [einsum_piqi, h]; rfl

theorem einsum_piiq_eq {x : NDArray K} {p i q : ℕ} (h : x.shape = [p, i, i, q]) :
    x.einsum_piiq = .ok (ofFn x.dtype [p, q] fun y => match y with
      | [p, q] => ∑ t ∈ range i, x.get [p, t, t, q]
      | _ => 0) := by
  simp [einsum_piiq, h]; rfl

theorem set_get {m : Mem K} {f : ℕ} {x : NDArray K} (h : m[f]? = some x) (y : NDArray K) :
    (m.set f y)[f]? = some y := by
  have : f < m.length := by
    by_contra hc
    rw [List.getElem?_eq_none (by omega)] at h
    simp at h
  simp [List.getElem?_set, this]

theorem set_get_ne {m : Mem K} {f r : ℕ} (h : r ≠ f) (y : NDArray K) :
    (m.set f y)[r]? = m[r]? := by
  simp [List.getElem?_set, Ne.symm h]

/-- Construction into an existing buffer. -/
theorem fock_some {x : Sys} {m : Mem K} {h u f l : ℕ} {H U X : NDArray K} {np : Module}
    (hx : x.np = some np) (ho : x.o = (0, x.n)) (hn : x.n ≤ l)
    (hh : m[h]? = some H) (hu : m[u]? = some U) (hf : m[f]? = some X)
    (sh : H.shape = [l, l]) (su : U.shape = [l, l, l, l]) (sf : X.shape = [l, l])
    (fh : f ≠ h) (fu : f ≠ u)
    (dh : X.dtype.promote H.dtype = X.dtype) (du : X.dtype.promote U.dtype = X.dtype) :
    (World.constructFock x h u (some f)).run m =
      (.ok f, m.set f (fockArr x.kind X.dtype l x.n H U)) := by
  have hd2 : (DType.int64.promote U.dtype) = U.dtype := by cases U.dtype <;> rfl
  cases hk : x.kind with
  | general =>
    simp only [World.constructFock, hk, fockGeneral, fockBuffer, PyM.run_bind, run_pure, read_run hf,
      write_run, read_run ((set_get_ne (Ne.symm fh) _).trans hh), ho]
    rw [iaddAt_run (set_get hf _) (by simp [fillZero, sf, sh]) (by simpa [fillZero] using dh)]
    simp only [hx, needNp, run_liftM, List.set_set]
    rw [read_run ((set_get_ne (Ne.symm fu) _).trans hu)]
    simp only [slice_piqi su hn hn, run_liftM]
    rw [einsum_piqi_eq (by rfl)]
    simp only [run_liftM]
    rw [iaddAt_run (set_get hf _) (by simp [fillZero, sf]) (by simpa [fillZero] using du)]
    simp only [List.set_set]
    congr 2
    refine ext' rfl (by simp [fillZero, sf, fockArr]) fun i hi => ?_
    simp only [ofFn_shape, fillZero, zeros_shape, sf] at hi
    obtain ⟨p, q, rfl, hp, hq⟩ := inRange_two.1 hi
    rw [ofFn_get_of (by simpa [fillZero, sf] using hi), ofFn_get_of (by simpa [fillZero, sf] using hi),
      ofFn_get_of (by simpa using hi), fockArr, ofFn_get_of hi, fockAt]
    simp only [fockGeneralAt, fillZero, zeros_get, zero_add]
    congr 1
    refine sum_congr rfl fun i hi => ?_
    rw [ofFn_get_of (by simp [mem_range.1 hi, hp, hq])]
  | spatial =>
    simp only [World.constructFock, hk, fockSpatial, fockBuffer, PyM.run_bind, run_pure, read_run hf,
      write_run, read_run ((set_get_ne (Ne.symm fh) _).trans hh), ho]
    rw [iaddAt_run (set_get hf _) (by simp [fillZero, sf, sh]) (by simpa [fillZero] using dh)]
    simp only [hx, needNp, run_liftM, List.set_set]
    rw [read_run ((set_get_ne (Ne.symm fu) _).trans hu)]
    simp only [slice_piqi su hn hn, run_liftM]
    rw [einsum_piqi_eq (by rfl)]
    simp only [run_liftM]
    rw [iaddAt_run (set_get hf _) (by simp [fillZero, sf]) (by simpa [fillZero, hd2] using du)]
    simp only [List.set_set]
    rw [read_run ((set_get_ne (Ne.symm fu) _).trans hu)]
    simp only [slice_piiq su hn hn, run_liftM]
    rw [einsum_piiq_eq (by rfl)]
    simp only [run_liftM]
    rw [isubAt_run (set_get hf _) (by simp [fillZero, sf]) (by simpa [fillZero] using du)]
    simp only [List.set_set]
    congr 2
    refine ext' rfl (by simp [fillZero, sf, fockArr]) fun i hi => ?_
    simp only [ofFn_shape, fillZero, zeros_shape, sf] at hi
    obtain ⟨p, q, rfl, hp, hq⟩ := inRange_two.1 hi
    rw [ofFn_get_of (by simpa [fillZero, sf] using hi), ofFn_get_of (by simpa [fillZero, sf] using hi),
      ofFn_get_of (by simpa [fillZero, sf] using hi), smul_get, ofFn_get_of (by simpa using hi),
      ofFn_get_of (by simpa using hi), fockArr, ofFn_get_of hi, fockAt]
    simp only [fockSpatialAt, fillZero, zeros_get, zero_add, sum_sub_distrib, add_sub_assoc, mul_sum]
    congr 2
    · refine sum_congr rfl fun i hi => ?_
      rw [ofFn_get_of (by simp [mem_range.1 hi, hp, hq])]
    · refine sum_congr rfl fun i hi => ?_
      rw [ofFn_get_of (by simp [mem_range.1 hi, hp, hq])]

/-- A buffer whose dtype cannot hold the sum: `TypeError`. -/
theorem fock_some_type {x : Sys} {m : Mem K} {h u f l : ℕ} {H U X : NDArray K} {np : Module}
    (hx : x.np = some np) (ho : x.o = (0, x.n)) (hn : x.n ≤ l)
    (hh : m[h]? = some H) (hu : m[u]? = some U) (hf : m[f]? = some X)
    (sh : H.shape = [l, l]) (su : U.shape = [l, l, l, l]) (sf : X.shape = [l, l])
    (fh : f ≠ h) (fu : f ≠ u)
    (hd : ¬ (X.dtype.promote H.dtype = X.dtype ∧ X.dtype.promote U.dtype = X.dtype)) :
    ∃ Y, (World.constructFock x h u (some f)).run m = (.error .type, m.set f Y) := by
  have hd2 : (DType.int64.promote U.dtype) = U.dtype := by cases U.dtype <;> rfl
  by_cases dh : X.dtype.promote H.dtype = X.dtype
  · have du : X.dtype.promote U.dtype ≠ X.dtype := fun c => hd ⟨dh, c⟩
    cases hk : x.kind with
    | general =>
      simp only [World.constructFock, hk, fockGeneral, fockBuffer, PyM.run_bind, run_pure,
        read_run hf, write_run, read_run ((set_get_ne (Ne.symm fh) _).trans hh), ho]
      rw [iaddAt_run (set_get hf _) (by simp [fillZero, sf, sh]) (by simpa [fillZero] using dh)]
      simp only [hx, needNp, run_liftM, List.set_set]
      rw [read_run ((set_get_ne (Ne.symm fu) _).trans hu)]
      simp only [slice_piqi su hn hn, run_liftM]
      rw [einsum_piqi_eq (by rfl)]
      simp only [run_liftM]
      rw [iaddAt_type (set_get hf _) (by simpa [fillZero] using du)]
      exact ⟨_, rfl⟩
    | spatial =>
      simp only [World.constructFock, hk, fockSpatial, fockBuffer, PyM.run_bind, run_pure,
        read_run hf, write_run, read_run ((set_get_ne (Ne.symm fh) _).trans hh), ho]
      rw [iaddAt_run (set_get hf _) (by simp [fillZero, sf, sh]) (by simpa [fillZero] using dh)]
      simp only [hx, needNp, run_liftM, List.set_set]
      rw [read_run ((set_get_ne (Ne.symm fu) _).trans hu)]
      simp only [slice_piqi su hn hn, run_liftM]
      rw [einsum_piqi_eq (by rfl)]
      simp only [run_liftM]
      rw [iaddAt_type (set_get hf _) (by simpa [fillZero, hd2] using du)]
      exact ⟨_, rfl⟩
  · cases hk : x.kind with
    | general =>
      simp only [World.constructFock, hk, fockGeneral, fockBuffer, PyM.run_bind, run_pure,
        read_run hf, write_run, read_run ((set_get_ne (Ne.symm fh) _).trans hh), ho]
      rw [iaddAt_type (set_get hf _) (by simpa [fillZero] using dh)]
      exact ⟨_, rfl⟩
    | spatial =>
      simp only [World.constructFock, hk, fockSpatial, fockBuffer, PyM.run_bind, run_pure,
        read_run hf, write_run, read_run ((set_get_ne (Ne.symm fh) _).trans hh), ho]
      rw [iaddAt_type (set_get hf _) (by simpa [fillZero] using dh)]
      exact ⟨_, rfl⟩

theorem lookup_lt {m : Mem K} {r : ℕ} {x : NDArray K} (h : m[r]? = some x) : r < m.length := by
  by_contra hc
  rw [List.getElem?_eq_none (by omega)] at h
  simp at h

/-- Without a buffer a new array is made first. -/
theorem fock_none {x : Sys} {m : Mem K} {h u : ℕ} {H : NDArray K} {np : Module}
    (hx : x.np = some np) (hh : m[h]? = some H) :
    (World.constructFock x h u none).run m =
      (World.constructFock x h u (some m.length)).run (m ++ [H.zerosLike]) := by
  cases hk : x.kind <;>
    simp only [World.constructFock, hk, fockGeneral, fockSpatial, fockBuffer, PyM.run_bind, hx,
      needNp, run_liftM, read_run hh, Mem.alloc, run_get, run_modify, run_pure]

end QS
