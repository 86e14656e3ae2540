import Verif.Props.Energy
import Verif.Model.Memory

/-!
# Property C26: the array `h` itself as output buffer
-/

namespace QS.Props

open NDArray PyM Finset World

variable {K : Type} [PyScalar K]

/-- **C26** (the buffer is the array `h` itself) `f.fill(0)` destroys the one-body elements before they
are read: the call returns, without any warning, an array that has the interaction part only, and this
array is what `h` refers to from then on. -/
theorem C26_alias {x : Sys} {m : Mem K} {h u l : ℕ} {H U : NDArray K} {np : Module}
    (hx : x.np = some np) (ho : x.o = (0, x.n)) (hn : x.n ≤ l)
    (hh : m[h]? = some H) (hu : m[u]? = some U) (sh : H.shape = [l, l])
    (su : U.shape = [l, l, l, l]) (hne : h ≠ u) (du : H.dtype.promote U.dtype = H.dtype) :
    ∃ m' F, (World.constructFock x h u (some h)).run m = (.ok h, m') ∧ m'[h]? = some F ∧
      (∀ k, k ≠ h → m'[k]? = m[k]?) ∧ F.shape = [l, l] ∧ ∀ p < l, ∀ q < l,
        (x.kind = .general → F.get [p, q] = ∑ i ∈ range x.n, U.get [p, i, q, i]) ∧
        (x.kind = .spatial → F.get [p, q] =
          ∑ i ∈ range x.n, (2 * U.get [p, i, q, i] - U.get [p, i, i, q])) := by
  have hd2 : (DType.int64.promote U.dtype) = U.dtype := by cases U.dtype <;> rfl
  have dd : H.dtype.promote H.dtype = H.dtype := by cases H.dtype <;> rfl
  have key : (World.constructFock x h u (some h)).run m =
      (.ok h, m.set h (fockArr x.kind H.dtype l x.n H.fillZero U)) := by
    cases hk : x.kind with
    | general =>
      simp only [World.constructFock, hk, fockGeneral, fockBuffer, PyM.run_bind, run_pure, read_run hh,
        write_run, read_run (set_get hh _), ho]
      rw [iaddAt_run (set_get hh _) (by simp [fillZero]) (by simpa [fillZero] using dd)]
      simp only [hx, needNp, run_liftM, List.set_set]
      rw [read_run ((set_get_ne (Ne.symm hne) _).trans hu)]
      simp only [slice_piqi su hn hn, run_liftM]
      rw [einsum_piqi_eq (by rfl)]
      simp only [run_liftM]
      rw [iaddAt_run (set_get hh _) (by simp [fillZero, sh]) (by simpa [fillZero] using du)]
      simp only [List.set_set]
      congr 2
      refine ext' rfl (by simp [fillZero, sh, fockArr]) fun i hi => ?_
      simp only [ofFn_shape, fillZero, zeros_shape, sh] at hi
      obtain ⟨p, q, rfl, hp, hq⟩ := inRange_two.1 hi
      rw [ofFn_get_of (by simpa [fillZero, sh] using hi), ofFn_get_of (by simpa [fillZero, sh] using hi),
        ofFn_get_of (by simpa using hi), fockArr, ofFn_get_of hi, fockAt]
      simp only [fockGeneralAt, fillZero, zeros_get, zero_add]
      refine sum_congr rfl fun i hi => ?_
      rw [ofFn_get_of (by simp [mem_range.1 hi, hp, hq])]
    | spatial =>
      simp only [World.constructFock, hk, fockSpatial, fockBuffer, PyM.run_bind, run_pure, read_run hh,
        write_run, read_run (set_get hh _), ho]
      rw [iaddAt_run (set_get hh _) (by simp [fillZero]) (by simpa [fillZero] using dd)]
      simp only [hx, needNp, run_liftM, List.set_set]
      rw [read_run ((set_get_ne (Ne.symm hne) _).trans hu)]
      simp only [slice_piqi su hn hn, run_liftM]
      rw [einsum_piqi_eq (by rfl)]
      simp only [run_liftM]
      rw [iaddAt_run (set_get hh _) (by simp [fillZero, sh]) (by simpa [fillZero, hd2] using du)]
      simp only [List.set_set]
      rw [read_run ((set_get_ne (Ne.symm hne) _).trans hu)]
      simp only [slice_piiq su hn hn, run_liftM]
      rw [einsum_piiq_eq (by rfl)]
      simp only [run_liftM]
      rw [isubAt_run (set_get hh _) (by simp [fillZero, sh]) (by simpa [fillZero] using du)]
      simp only [List.set_set]
      congr 2
      refine ext' rfl (by simp [fillZero, sh, fockArr]) fun i hi => ?_
      simp only [ofFn_shape, fillZero, zeros_shape, sh] at hi
      obtain ⟨p, q, rfl, hp, hq⟩ := inRange_two.1 hi
      rw [ofFn_get_of (by simpa [fillZero, sh] using hi), ofFn_get_of (by simpa [fillZero, sh] using hi),
        ofFn_get_of (by simpa [fillZero, sh] using hi), smul_get, ofFn_get_of (by simpa using hi),
        ofFn_get_of (by simpa using hi), fockArr, ofFn_get_of hi, fockAt]
      simp only [fockSpatialAt, fillZero, zeros_get, zero_add, sum_sub_distrib, mul_sum]
      congr 1
      · refine sum_congr rfl fun i hi => ?_
        rw [ofFn_get_of (by simp [mem_range.1 hi, hp, hq])]
      · refine sum_congr rfl fun i hi => ?_
        rw [ofFn_get_of (by simp [mem_range.1 hi, hp, hq])]
  refine ⟨_, _, key, set_get hh _, fun k hk => set_get_ne hk _, rfl, fun p hp q hq => ?_⟩
  rw [fockArr, ofFn_get_of (by simp [hp, hq])]
  constructor <;> intro hk <;> rw [hk] <;>
    simp [fockAt, fockGeneralAt, fockSpatialAt, fillZero]

/-- **C26** So `system.construct_fock_matrix(system.h, system.u, f=system.h)` overwrites the one-body
elements of the basis set: the attribute `h` shows the interaction part afterwards. -/
theorem C26_alias_basis {x : Sys} {st : HState K} {h u l : ℕ} {H U : NDArray K} {np : Module}
    (hx : x.np = some np) (ho : x.o = (0, x.n)) (hn : x.n ≤ l) (eh : st.obj.h = some h)
    (eu : st.obj.u = some u) (hh : st.view.h = some H) (hu : st.view.u = some U)
    (sh : H.shape = [l, l]) (su : U.shape = [l, l, l, l]) (du : H.dtype.promote U.dtype = H.dtype) :
    ∃ m' F, (World.constructFock x h u (some h)).run st.mem = (.ok h, m') ∧
      ({ st with mem := m' } : HState K).view.h = some F ∧
      ({ st with mem := m' } : HState K).view.u = some U ∧ ∀ p < l, ∀ q < l,
        (x.kind = .general → F.get [p, q] = ∑ i ∈ range x.n, U.get [p, i, q, i]) ∧
        (x.kind = .spatial → F.get [p, q] =
          ∑ i ∈ range x.n, (2 * U.get [p, i, q, i] - U.get [p, i, i, q])) := by
  have hh' : st.mem[h]? = some H := by
    have : st.mem.val st.obj.h = some H := hh
    rwa [eh] at this
  have hu' : st.mem[u]? = some U := by
    have : st.mem.val st.obj.u = some U := hu
    rwa [eu] at this
  have hne : h ≠ u := by
    rintro rfl
    rw [hh'] at hu'
    cases hu'
    rw [sh] at su
    simp at su
  obtain ⟨m', F, run, hF, hk, -, ent⟩ := C26_alias hx ho hn hh' hu' sh su hne du
  refine ⟨m', F, run, ?_, ?_, ent⟩
  · show m'.val st.obj.h = some F
    rw [eh]
    exact hF
  · show m'.val st.obj.u = some U
    rw [eu]
    exact (hk u (Ne.symm hne)).trans hu'

/-- The hypotheses hold for a system of one particle, and the result misses `h`. -/
example : ∃ m' F, (World.constructFock Demo.gsys 0 1 (some 0)).run [Demo.h, Demo.u] = (.ok 0, m') ∧
    m'[0]? = some F ∧ F.get [0, 1] ≠ Demo.h.get [0, 1] + Demo.u.get [0, 0, 1, 0] := by
  obtain ⟨m', F, run, hF, -, -, ent⟩ := C26_alias (K := GaussQ) (x := Demo.gsys)
    (m := [Demo.h, Demo.u]) (h := 0) (u := 1) (l := 2) (np := 0) rfl rfl (by decide) rfl rfl rfl rfl
    (by decide) rfl
  refine ⟨m', F, run, hF, ?_⟩
  rw [(ent 0 (by decide) 1 (by decide)).1 rfl]
  decide +kernel

end QS.Props
