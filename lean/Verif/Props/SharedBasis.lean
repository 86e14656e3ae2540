import Verif.Lemmas.SharedBasis
import Verif.Lemmas.Compose
import Verif.Props.Systems

/-! # C153: systems that share one basis set object -/

namespace QS.Props

open Finset NDArray PyM BasisSet World Demo

variable {K T : Type} [PyScalar K]

/-! ## C153 -/

/-- Full statement of C153: constructing another system on the basis set object of a system, or changing the
basis of another system that has the same basis set object, does not change what the system reports. -/
def C153_statement (K T : Type) [PyScalar K] : Prop :=
  ∀ (w : World K T) (s : ℕ) (x : Sys) (b : BasisSet K), SysOK w s x b → w.Closed →
    (∀ n, SameReports w s ((World.spatialInit n x.basis).run w).2 s) ∧
    (∀ n a c anti, SameReports w s ((World.generalInit n x.basis a c anti).run w).2 s) ∧
    ∀ s' x' C Ct, s' ≠ s → w.systems[s']? = some x' → x'.basis = x.basis →
      SameReports w s ((World.changeBasis s' C Ct).run w).2 s

/-- **C153** (partial; missing: basis sets that `GeneralOrbitalSystem` transforms, and `change_basis`, for which
the claim is false) Constructing a `SpatialOrbitalSystem`, whether it succeeds or not, changes nothing that an
existing system reports.  The same is true of `GeneralOrbitalSystem` if the basis set has general orbitals
already, and has anti-symmetrised elements already or is not asked for them. -/
theorem C153_partial {w : World K T} {s : ℕ} {x : Sys} {b : BasisSet K} (ok : SysOK w s x b) (cl : w.Closed) :
    (∀ n, ∀ j < w.systems.length, SameReports w j ((World.spatialInit n x.basis).run w).2 j) ∧
    (b.includesSpin = true → ∀ n a c anti, (anti = true → b.antiSym = true) →
      ∀ j < w.systems.length, SameReports w j ((World.generalInit n x.basis a c anti).run w).2 j) := by
  constructor
  · intro n j hj
    obtain ⟨new, hnew⟩ : ∃ new, ((World.spatialInit n x.basis).run w).2 = { w with systems := w.systems ++ new } := by
      unfold World.spatialInit
      by_cases h1 : n % 2 = 0
      · cases h2 : b.includesSpin
        · simp only [PyM.run_bind, run_assert, h1, getBasis_run ok.basis, h2, initSystem_run ok.basis, decide_true,
            if_true, Bool.not_false]
          split_ifs
          · exact ⟨_, rfl⟩
          · exact ⟨[], by simp⟩
        · exact ⟨[], by simp [PyM.run_bind, run_assert, h1, getBasis_run ok.basis, h2]⟩
      · exact ⟨[], by simp [PyM.run_bind, run_assert, h1]⟩
    rw [hnew]
    have := sameReports_grow cl ok.basis (.inl rfl) new hj
    rwa [set_same ok.basis] at this
  · intro hsp n a c anti ha j hj
    rw [generalInit_again ok.basis ok.wf hsp]
    refine sameReports_grow cl ok.basis (.inl ?_) _ hj
    cases anti
    · simp
    · simp [antiSymmed, ha rfl]

/-- **C153** (what happens, spatial orbitals) `GeneralOrbitalSystem(n, basis_set)` transforms the basis set object
of the existing system `s`, even if there are too many particles and it raises `AssertionError`: `s` keeps its
class, particle number, orbital number and slices, but its basis set holds the elements of twice as many spin
orbitals.  No `SpatialOrbitalSystem` can be constructed on it any more. -/
theorem C153_doubled {w : World K T} {s : ℕ} {x : Sys} {b : BasisSet K} {a₀ a₁ b₀ b₁ : K} (ok : SysOK w s x b)
    (hc : b.cls = .plain) (hsp : b.includesSpin = false) (hs : b.s.isSome) (ho : OrthoSpin a₀ a₁ b₀ b₁) (n : ℕ)
    (anti : Bool) :
    ∃ w' b', (World.generalInit n x.basis [a₀, a₁] [b₀, b₁] anti).run w =
        (if n ≤ 2 * x.l then .ok w.systems.length else .error .assertion, w') ∧
      w'.systems[s]? = some x ∧ w'.bases[x.basis]? = some b' ∧ GeneralOf b b' x.l anti ∧ WellFormed b' (2 * x.l) ∧
      ∀ n', (World.spatialInit n' x.basis).run w' = (.error .assertion, w') := by
  obtain ⟨ov, hs⟩ := Option.isSome_iff_exists.1 hs
  refine ⟨_, general b x.l ov a₀ a₁ b₀ b₁ anti, generalInit_double ok.basis ok.wf hc hsp hs ho, ?_,
    get_set ok.basis _, general_isGeneral _ _ _ _ _ ok.wf hs, (general_wellFormed _ _ _ _ _ ok.wf).1, fun n' => ?_⟩
  · show (w.systems ++ _)[s]? = _
    rw [List.getElem?_append_left (lt_of_get ok.sys), ok.sys]
  · refine (C31_accepts (b := general b x.l ov a₀ a₁ b₀ b₁ anti) (by exact get_set ok.basis _)).2 ?_
    rw [(general_isGeneral a₀ a₁ b₀ b₁ anti ok.wf hs).spin]
    simp

/-- **C153** (what happens, energy of the spatial system) The reference energy that the existing spatial system
reports afterwards: its `n` lowest spin orbitals are taken for doubly occupied spatial orbitals. -/
theorem C153_energy {w : World K T} {s : ℕ} {x : Sys} {b : BasisSet K} {a₀ a₁ b₀ b₁ : K} (ok : SysOK w s x b)
    (hk : x.kind = .spatial) (hc : b.cls = .plain) (hsp : b.includesSpin = false) (has : b.antiSym = false)
    (hs : b.s.isSome) (ho : OrthoSpin a₀ a₁ b₀ b₁) {H U : NDArray K} (hh : b.h = some H) (hu : b.u = some U) (n : ℕ)
    (anti : Bool) :
    ∃ r, ((World.referenceEnergy s).run ((World.generalInit n x.basis [a₀, a₁] [b₀, b₁] anti).run w).2).1 = .ok r ∧
      r.shape = [] ∧
      (anti = true → r.get [] = 2 * ∑ i ∈ range x.n, H.get [i / 2, i / 2] +
        3 * ∑ i ∈ range x.n, ∑ j ∈ range x.n, (U.get [i / 2, j / 2, i / 2, j / 2] -
          if i % 2 = j % 2 then U.get [i / 2, j / 2, j / 2, i / 2] else 0)) ∧
      (anti = false → r.get [] = 2 * ∑ i ∈ range x.n, H.get [i / 2, i / 2] +
        ∑ i ∈ range x.n, ∑ j ∈ range x.n, (2 * U.get [i / 2, j / 2, i / 2, j / 2] -
          if i % 2 = j % 2 then U.get [i / 2, j / 2, j / 2, i / 2] else 0)) := by
  obtain ⟨w', b', h1, h2, h3, h4, h5, -⟩ := C153_doubled ok hc hsp hs ho n anti
  rw [h1]
  obtain ⟨H', hh', -⟩ := h5.h
  obtain ⟨U', hu', -⟩ := h5.u
  obtain ⟨r, hr, hrs, hrv⟩ := referenceEnergy_axes h2 h3 h5 (ok.np.trans h4.rest.2.2.2.symm) ok.size.o
    (by have := ok.size.le; omega) hh' hu'
  have dH : IsDoubledOneBody x.l x.l H H' := by have := h4.h; rw [hh, hh'] at this; exact this
  have eH : ∀ i ∈ range x.n, H'.get [i, i] = H.get [i / 2, i / 2] := by
    intro i hi
    have hi := mem_range.1 hi
    have := ok.size.le
    have e := dH.2 (i / 2) (by omega) (i / 2) (by omega) (i % 2) (by omega) (i % 2) (by omega)
    rwa [if_pos rfl, show 2 * (i / 2) + i % 2 = i by omega] at e
  refine ⟨r, by rw [hr], hrs, fun ha => ?_, fun ha => ?_⟩
  · subst ha
    have dU : IsDoubledAntiTwoBody x.l U U' := by
      have := h4.u; rw [if_pos ⟨rfl, has⟩, hu, hu'] at this; exact this
    rw [hrv, hk]
    simp only [energyOf, energySpatial]
    rw [sum_congr rfl eH]
    congr 1
    rw [mul_sum]
    refine sum_congr rfl fun i hi => ?_
    rw [mul_sum]
    refine sum_congr rfl fun j hj => ?_
    have hi := mem_range.1 hi
    have hj := mem_range.1 hj
    have := ok.size.le
    have e1 := dU.2 (i / 2) (by omega) (j / 2) (by omega) (i / 2) (by omega) (j / 2) (by omega)
      (i % 2) (by omega) (j % 2) (by omega) (i % 2) (by omega) (j % 2) (by omega)
    have e2 := dU.2 (i / 2) (by omega) (j / 2) (by omega) (j / 2) (by omega) (i / 2) (by omega)
      (i % 2) (by omega) (j % 2) (by omega) (j % 2) (by omega) (i % 2) (by omega)
    rw [show 2 * (i / 2) + i % 2 = i by omega, show 2 * (j / 2) + j % 2 = j by omega] at e1 e2
    rw [e1, e2]
    by_cases h : i % 2 = j % 2
    · simp [h]; ring
    · have h' : ¬ j % 2 = i % 2 := fun e => h e.symm
      simp [h, h']; ring
  · subst ha
    have dU : IsDoubledTwoBody x.l U U' := by
      have := h4.u; rw [if_neg (by simp), hu, hu'] at this; exact this
    rw [hrv, hk]
    simp only [energyOf, energySpatial]
    rw [sum_congr rfl eH]
    congr 1
    refine sum_congr rfl fun i hi => sum_congr rfl fun j hj => ?_
    have hi := mem_range.1 hi
    have hj := mem_range.1 hj
    have := ok.size.le
    have e1 := dU.2 (i / 2) (by omega) (j / 2) (by omega) (i / 2) (by omega) (j / 2) (by omega)
      (i % 2) (by omega) (j % 2) (by omega) (i % 2) (by omega) (j % 2) (by omega)
    have e2 := dU.2 (i / 2) (by omega) (j / 2) (by omega) (j / 2) (by omega) (i / 2) (by omega)
      (i % 2) (by omega) (j % 2) (by omega) (j % 2) (by omega) (i % 2) (by omega)
    rw [show 2 * (i / 2) + i % 2 = i by omega, show 2 * (j / 2) + j % 2 = j by omega] at e1 e2
    rw [e1, e2]
    by_cases h : i % 2 = j % 2
    · simp [h]
    · have h' : ¬ j % 2 = i % 2 := fun e => h e.symm
      simp [h, h']

/-- **C153** Two electrons: before, the spatial system reports `2 h_00 + u_0000`; after `GeneralOrbitalSystem` with
the default `anti_symmetrize=True` on its basis set, it silently reports `2 h_00`, without the repulsion. -/
theorem C153_two_electrons {w : World K T} {s : ℕ} {x : Sys} {b : BasisSet K} {a₀ a₁ b₀ b₁ : K} (ok : SysOK w s x b)
    (hk : x.kind = .spatial) (hn : x.n = 1) (hc : b.cls = .plain) (hsp : b.includesSpin = false)
    (has : b.antiSym = false) (hs : b.s.isSome) (ho : OrthoSpin a₀ a₁ b₀ b₁) {H U : NDArray K} (hh : b.h = some H)
    (hu : b.u = some U) (n : ℕ) :
    ∃ r r', ((World.referenceEnergy s).run w).1 = .ok r ∧
      ((World.referenceEnergy s).run ((World.generalInit n x.basis [a₀, a₁] [b₀, b₁] true).run w).2).1 = .ok r' ∧
      r.get [] = 2 * H.get [0, 0] + U.get [0, 0, 0, 0] ∧ r'.get [] = 2 * H.get [0, 0] := by
  obtain ⟨r, h1, -, -, h2⟩ := C24_formulas ok hh hu
  obtain ⟨r', h3, -, h4, -⟩ := C153_energy ok hk hc hsp has hs ho hh hu n true
  refine ⟨r, r', by rw [h1], h3, ?_, ?_⟩
  · rw [h2 hk, hn]; simp; ring
  · rw [h4 rfl, hn]; simp

/-- **C153** (what happens, later anti-symmetrisation) The basis set of system `s` has general orbitals and plain
elements.  Constructing another `GeneralOrbitalSystem` with `anti_symmetrize=True` on it, even one that fails,
anti-symmetrises the elements of `s` as well; the reference energy of a general system `s` drops by the exchange
energy. -/
theorem C153_exchange {w : World K T} {s : ℕ} {x : Sys} {b : BasisSet K} (ok : SysOK w s x b)
    (hk : x.kind = .general) (hsp : b.includesSpin = true) (has : b.antiSym = false) {U : NDArray K}
    (hu : b.u = some U) (n : ℕ) (a c : List K) :
    ∃ w' b' U' r r', (World.generalInit n x.basis a c true).run w =
        (if n ≤ x.l then .ok w.systems.length else .error .assertion, w') ∧
      SysOK w' s x b' ∧ b'.u = some U' ∧ IsAntiSymmetrised x.l U U' ∧ b'.h = b.h ∧
      (World.referenceEnergy s).run w = (.ok r, w) ∧ (World.referenceEnergy s).run w' = (.ok r', w') ∧
      r'.get [] = r.get [] - 1 / 2 * ∑ i ∈ range x.n, ∑ j ∈ range x.n, U.get [i, j, j, i] := by
  obtain ⟨H, hh, -⟩ := ok.wf.h
  obtain ⟨U₀, hu₀, su⟩ := ok.wf.u
  obtain rfl := Option.some.inj (hu.symm.trans hu₀)
  have hA : IsAntiSymmetrised x.l U (asym U x.l) := by
    obtain ⟨b₁, h1, h2, -⟩ := C15_once ok.wf has 0
    have run := antiSymmetrizeTwoBody_run ok.wf.l_eq hu su ok.wf.tb
    have e : b₁ = antiSymmed b x.l := by
      have h1' : (callN antiSymmetrizeTwoBody (0 + 1)).run b = (.ok (), antiSymmed b x.l) := by
        rw [callN, PyM.run_bind, run]; rfl
      rw [h1'] at h1
      simpa using h1.symm
    subst e
    have : (antiSymmed b x.l).u = some (asym U x.l) := by simp [antiSymmed, has, hu]
    rw [hu, this] at h2
    exact h2
  have eu : (antiSymmed b x.l).u = some (asym U x.l) := by simp [antiSymmed, has, hu]
  have eh : (antiSymmed b x.l).h = b.h := by simp [antiSymmed, has]
  have ok' : SysOK ((World.generalInit n x.basis a c true).run w).2 s x (antiSymmed b x.l) := by
    rw [generalInit_again ok.basis ok.wf hsp]
    refine ⟨?_, get_set ok.basis _, ?_, ?_, ok.size⟩
    · show (w.systems ++ _)[s]? = _
      rw [List.getElem?_append_left (lt_of_get ok.sys), ok.sys]
    · have wf := ok.wf
      simp only [antiSymmed, has, Bool.false_eq_true, if_false]
      refine ⟨wf.l_eq, wf.np, wf.h, ⟨asym U x.l, by simp [hu], hA.1⟩, wf.s, wf.dipole, wf.spf, wf.bra, wf.braNeedsSpf,
        fun y hy => ?_⟩
      simp only [Option.map_eq_some_iff] at hy
      obtain ⟨z, -, rfl⟩ := hy
      exact ⟨rfl, hsp⟩
    · rw [ok.np]; simp [antiSymmed, has]
  obtain ⟨r, h1, -, h2, -⟩ := C24_formulas ok hh hu
  obtain ⟨r', h3, -, h4, -⟩ := C24_formulas ok' (eh.trans hh) eu
  refine ⟨_, antiSymmed b x.l, asym U x.l, r, r', ?_, ok', eu, hA, eh, h1, h3, ?_⟩
  · rw [generalInit_again ok.basis ok.wf hsp]
  · rw [h2 hk, h4 hk, add_sub_assoc, ← mul_sub, ← sum_sub_distrib]
    congr 2
    refine sum_congr rfl fun i hi => ?_
    rw [← sum_sub_distrib]
    refine sum_congr rfl fun j hj => ?_
    have hi := mem_range.1 hi
    have hj := mem_range.1 hj
    have := ok.size.le
    exact hA.2 i (by omega) j (by omega) i (by omega) j (by omega)

/-- **C153** (what happens, change of basis) A successful `change_basis` of a system with the same basis set object
transforms the elements that the system `s` reports, while `s` keeps its sizes and slices.  They still fit the
elements if and only if the number of orbitals stays the same. -/
theorem C153_changed {w w' : World K T} {s s' : ℕ} {x x' : Sys} {b : BasisSet K} {C : NDArray K}
    {Ct : Option (NDArray K)} (ok : SysOK w s x b) (ok' : SysOK w s' x' b) (hne : s' ≠ s) (hb : x'.basis = x.basis)
    (h : (World.changeBasis s' C Ct).run w = (.ok (), w')) :
    ∃ n b', C.shape = [x.l, n] ∧ w'.systems[s]? = some x ∧ w'.bases[x.basis]? = some b' ∧
      BasisChanged b b' C (Ct.getD C.conj.T) x.l n ∧ (SysOK w' s x b' ↔ n = x.l) := by
  have hl : x'.l = x.l := ok'.wf.l_eq.symm.trans ok.wf.l_eq
  obtain ⟨n, h1, h2, h3, rfl⟩ := changeBasis_ok ok' h
  rw [hl] at h1 h2
  have hs : (withChanged w s' x' (changed b C (Ct.getD C.conj.T) x'.l n) n).systems[s]? = some x :=
    (get_set_ne (Ne.symm hne) _).trans ok.sys
  have hbas : (withChanged w s' x' (changed b C (Ct.getD C.conj.T) x'.l n) n).bases[x.basis]? =
      some (changed b C (Ct.getD C.conj.T) x'.l n) := by
    rw [← hb]; exact get_set ok'.basis _
  have wf' : WellFormed (changed b C (Ct.getD C.conj.T) x'.l n) n := by
    rw [hl]; exact changed_wellFormed ok.wf
  refine ⟨n, _, h1, hs, hbas, ?_, fun k => ?_, fun e => ?_⟩
  · rw [hl]; exact changed_isChanged ok.wf
  · exact (k.wf.l_eq.symm.trans rfl).symm
  · subst e
    exact ⟨hs, hbas, wf', ok.np, ok.size⟩

/-- **C153** is false. -/
theorem C153_false : ¬ C153_statement GaussQ ℤ := by
  intro hc
  have h := (hc world 0 sys basis world_ok ⟨?_, ?_, ?_⟩).2.1 2 [1, 0] [0, 1] true
  · obtain ⟨w', b', h1, h2, h3, h4, -⟩ :=
      C153_doubled world_ok rfl rfl rfl ortho_std 2 true
    have hw : ((World.generalInit 2 sys.basis [1, 0] [0, 1] true).run world).2 = w' := by rw [h1]
    rw [hw] at h
    have e := congrArg (Option.map BasisSet.l) h.basis
    rw [h2] at e
    simp only [Option.bind_some] at e
    rw [h3] at e
    simp only [Option.map_some, h4.size] at e
    revert e
    decide
  · intro s x hx
    match s, hx with
    | 0, hx => cases hx; exact ⟨_, rfl⟩
    | _ + 1, hx => cases hx
  · intro s x o hx ho
    match s, hx with
    | 0, hx => cases hx; cases ho
    | _ + 1, hx => cases hx
  · intro o y q hy
    cases hy

/-- The spatial system of `Demo.world` loses the repulsion `u_0000` of its two electrons. -/
example : ∃ r r', ((World.referenceEnergy 0).run world).1 = .ok r ∧
    ((World.referenceEnergy 0).run ((World.generalInit 2 0 [1, 0] [0, 1] true).run world).2).1 = .ok r' ∧
    r'.get [] ≠ r.get [] := by
  obtain ⟨r, r', h1, h2, h3, h4⟩ := C153_two_electrons world_ok rfl rfl rfl rfl rfl rfl ortho_std
    (H := Demo.h) (U := Demo.u) rfl rfl 2
  refine ⟨r, r', h1, h2, ?_⟩
  rw [h3, h4]
  decide +kernel

end QS.Props
