import Verif.Lemmas.Energy
import Verif.Spec.DemoSystem

/-!
# Properties C22–C26: reference energies and Fock matrices

Each theorem is followed by a concrete case that meets its hypotheses.
-/

namespace QS.Props

open Finset NDArray BasisSet PyM Demo

variable {K T : Type} [PyScalar K]

/-- What `construct_general_orbital_system` gives for a system without time-evolution operator:
a consistent general system `g` on a new basis set `b'` with the spin-doubled elements. -/
theorem general_system {w : World K T} {s : ℕ} {x : Sys} {b : BasisSet K} {a₀ a₁ b₀ b₁ : K}
    (anti : Bool) (ok : SysOK w s x b) (hc : b.cls = .plain) (he : b.extraModule = false)
    (hsp : b.includesSpin = false) (hop : x.op = none) (hs : b.s.isSome)
    (ho : OrthoSpin a₀ a₁ b₀ b₁) :
    ∃ g w' x' b', (World.constructGeneral s [a₀, a₁] [b₀, b₁] anti).run w = (.ok g, w') ∧
      SysOK w' g x' b' ∧ x'.kind = .general ∧ x'.n = 2 * x.n ∧ x'.l = 2 * x.l ∧
      GeneralOf b b' x.l anti := by
  obtain ⟨ov, hs⟩ := Option.isSome_iff_exists.1 hs
  have hw := withBra_wf ok.wf
  have hg := general_isGeneral a₀ a₁ b₀ b₁ anti hw (by exact hs)
  refine ⟨_, _, World.newSys .general w.bases.length (2 * x.n) (2 * x.l) b.np,
    general (withBra b) x.l ov a₀ a₁ b₀ b₁ anti,
    World.constructGeneral_run ok hc he hsp hop hs ho, ⟨?_, ?_, ?_, ?_, ?_⟩, rfl, rfl, rfl,
    generalOf_withBra hg⟩
  · simp [World.withGeneral]
  · show (w.bases.set x.basis (withBra b) ++ [_])[w.bases.length]? = _
    rw [List.getElem?_append_right (by simp)]; simp
  · exact (general_wellFormed a₀ a₁ b₀ b₁ anti hw).1
  · exact hg.rest.2.2.2.symm
  · exact World.newSys_sized (by have := ok.size.le; omega)

/-! ## C22 -/

/-- **C22** For every closed-shell spatial system (any number of orbitals and particles, any
elements, any orthonormal spin basis) the anti-symmetrised general system built from it has the same
reference energy. -/
theorem C22_energies_agree {w : World K T} {s : ℕ} {x : Sys} {b : BasisSet K} {a₀ a₁ b₀ b₁ : K}
    (ok : SysOK w s x b) (hk : x.kind = .spatial) (hc : b.cls = .plain)
    (he : b.extraModule = false) (hsp : b.includesSpin = false) (ha : b.antiSym = false)
    (hop : x.op = none) (hs : b.s.isSome) (ho : OrthoSpin a₀ a₁ b₀ b₁) :
    ∃ g w' r r', (World.constructGeneral s [a₀, a₁] [b₀, b₁] true).run w = (.ok g, w') ∧
      (World.referenceEnergy s).run w = (.ok r, w) ∧
      (World.referenceEnergy g).run w' = (.ok r', w') ∧
      r.shape = [] ∧ r'.shape = [] ∧ r'.get [] = r.get [] := by
  obtain ⟨g, w', x', b', run, ok', hk', hn, hl, hg⟩ := general_system true ok hc he hsp hop hs ho
  obtain ⟨H, hh, -⟩ := ok.wf.h
  obtain ⟨U, hu, -⟩ := ok.wf.u
  obtain ⟨H', hh', -⟩ := ok'.wf.h
  obtain ⟨U', hu', -⟩ := ok'.wf.u
  have dh := hg.h
  rw [hh, hh'] at dh
  have du := hg.u
  rw [hu, hu', if_pos ⟨rfl, ha⟩] at du
  obtain ⟨r, h1, h2, h3⟩ := World.referenceEnergy_run ok hh hu
  obtain ⟨r', h1', h2', h3'⟩ := World.referenceEnergy_run ok' hh' hu'
  refine ⟨g, w', r, r', run, h1, h1', h2, h2', ?_⟩
  rw [h3, h3', hk, hk', hn]
  exact energy_doubled ok.size.le dh du

theorem ortho_std : OrthoSpin (1 : GaussQ) 0 0 1 := by constructor <;> decide +kernel

/-- Two particles: `2 h_00 + u_0000 = 3`. -/
example : ∃ g w' r r', (World.constructGeneral 0 [1, 0] [0, 1] true).run world = (.ok g, w') ∧
    (World.referenceEnergy 0).run world = (.ok r, world) ∧
    (World.referenceEnergy g).run w' = (.ok r', w') ∧ r.shape = [] ∧ r'.shape = [] ∧
    r'.get [] = r.get [] :=
  C22_energies_agree world_ok rfl rfl rfl rfl rfl rfl rfl ortho_std
example : energySpatial 1 Demo.h Demo.u = g 3 0 := by decide +kernel

/-! ## C23 -/

theorem fock_inv {x : Sys} {m m' : Mem K} {h u r l : ℕ} {H U : NDArray K} {np : Module}
    (hx : x.np = some np) (ho : x.o = (0, x.n)) (hn : x.n ≤ l)
    (hh : m[h]? = some H) (hu : m[u]? = some U) (sh : H.shape = [l, l])
    (su : U.shape = [l, l, l, l]) (run : (World.constructFock x h u none).run m = (.ok r, m')) :
    r = m.length ∧ m' = m ++ [fockArr x.kind H.dtype l x.n H U] := by
  rw [fock_none hx hh] at run
  have hh' := World.get_append hh [H.zerosLike]
  have hu' := World.get_append hu [H.zerosLike]
  have hf : (m ++ [H.zerosLike])[m.length]? = some H.zerosLike := by simp
  have ne1 : m.length ≠ h := Nat.ne_of_gt (lookup_lt hh)
  have ne2 : m.length ≠ u := Nat.ne_of_gt (lookup_lt hu)
  by_cases hd : H.zerosLike.dtype.promote H.dtype = H.zerosLike.dtype ∧
      H.zerosLike.dtype.promote U.dtype = H.zerosLike.dtype
  · rw [fock_some hx ho hn hh' hu' hf sh su sh ne1 ne2 hd.1 hd.2] at run
    simp only [Prod.mk.injEq, Except.ok.injEq] at run
    refine ⟨run.1.symm, ?_⟩
    rw [← run.2, List.set_append_right _ _ (le_refl _)]
    simp [zerosLike]
  · obtain ⟨Y, hY⟩ := fock_some_type hx ho hn hh' hu' hf sh su sh ne1 ne2 hd
    rw [hY] at run
    simp at run

/-- **C23** If the spatial system's `construct_fock_matrix(h, u)` succeeds (it raises `TypeError` if
`h` is real and `u` complex, see C26), so does the general system's, and the result is the
spin-doubled matrix. -/
theorem C23_fock_agree {w : World K T} {s : ℕ} {x : Sys} {b : BasisSet K} {a₀ a₁ b₀ b₁ : K}
    (ok : SysOK w s x b) (hk : x.kind = .spatial) (hc : b.cls = .plain)
    (he : b.extraModule = false) (hsp : b.includesSpin = false) (ha : b.antiSym = false)
    (hop : x.op = none) (hs : b.s.isSome) (ho : OrthoSpin a₀ a₁ b₀ b₁)
    {m m₁ : Mem K} {h u r : ℕ} (hh : m[h]? = b.h) (hu : m[u]? = b.u)
    (run : (World.constructFock x h u none).run m = (.ok r, m₁)) :
    ∃ g w' x' b' F, (World.constructGeneral s [a₀, a₁] [b₀, b₁] true).run w = (.ok g, w') ∧
      w'.systems[g]? = some x' ∧ w'.bases[x'.basis]? = some b' ∧ m₁[r]? = some F ∧
      ∀ (m' : Mem K) (h' u' : ℕ), m'[h']? = b'.h → m'[u']? = b'.u →
        ∃ r' m₁' F', (World.constructFock x' h' u' none).run m' = (.ok r', m₁') ∧
          m₁'[r']? = some F' ∧ IsDoubledOneBody x.l x.l F F' := by
  obtain ⟨g, w', x', b', crun, ok', hk', hn, hl, hg⟩ := general_system true ok hc he hsp hop hs ho
  obtain ⟨np, hnp⟩ := ok.wf.np
  obtain ⟨np', hnp'⟩ := ok'.wf.np
  obtain ⟨H, eh, sh⟩ := ok.wf.h
  obtain ⟨U, eu, su⟩ := ok.wf.u
  obtain ⟨H', eh', sh'⟩ := ok'.wf.h
  obtain ⟨U', eu', su'⟩ := ok'.wf.u
  have dh := hg.h
  rw [eh, eh'] at dh
  have du := hg.u
  rw [eu, eu', if_pos ⟨rfl, ha⟩] at du
  obtain ⟨rfl, rfl⟩ := fock_inv (ok.np.trans hnp) ok.size.o ok.size.le (hh.trans eh) (hu.trans eu)
    sh su run
  refine ⟨g, w', x', b', fockArr x.kind H.dtype x.l x.n H U, crun, ok'.sys, ok'.basis, by simp, ?_⟩
  intro m' h' u' hh' hu'
  have hh'' := World.get_append (hh'.trans eh') [H'.zerosLike]
  have hu'' := World.get_append (hu'.trans eu') [H'.zerosLike]
  have hf : (m' ++ [H'.zerosLike])[m'.length]? = some H'.zerosLike := by simp
  obtain ⟨ov, hs⟩ := Option.isSome_iff_exists.1 hs
  have hcplx : H'.dtype = .complex128 := by
    have e := World.constructGeneral_run (anti := true) ok hc he hsp hop hs ho
    rw [crun] at e
    simp only [Prod.mk.injEq, Except.ok.injEq] at e
    obtain ⟨rfl, rfl⟩ := e
    have h1 : x' = World.newSys .general w.bases.length (2 * x.n) (2 * x.l) b.np := by
      have := ok'.sys
      simpa [World.withGeneral, eq_comm] using this
    subst h1
    have h2 : b' = general (withBra b) x.l ov a₀ a₁ b₀ b₁ true := by
      have := ok'.basis
      simpa [World.withGeneral, World.newSys, eq_comm] using this
    subst h2
    simp only [general, casted, Option.map_eq_some_iff] at eh'
    obtain ⟨_, _, rfl⟩ := eh'
    rfl
  have run' := fock_some (ok'.np.trans hnp') ok'.size.o ok'.size.le hh'' hu'' hf sh' su' sh'
    (Nat.ne_of_gt (lookup_lt (hh'.trans eh'))) (Nat.ne_of_gt (lookup_lt (hu'.trans eu')))
    (by simp [zerosLike]) (by simp [zerosLike, hcplx])
  refine ⟨_, _, _, (fock_none (ok'.np.trans hnp') (hh'.trans eh')).trans run',
    set_get hf _, by simp [fockArr, hl], ?_⟩
  intro p hp q hq a ha b hb
  rw [fockArr, ofFn_get_of (by simp; omega), fockArr, ofFn_get_of (by simp [hp, hq]), hk', hk, hn]
  exact fock_doubled ok.size.le dh du hp hq ha hb

/-- The hypotheses of C23 are met, and the matrix is not zero. -/
example : ∃ r m₁ F, (World.constructFock Demo.sys 0 1 none).run [Demo.h, Demo.u] = (.ok r, m₁) ∧
    m₁[r]? = some F ∧ F.get [0, 1] = g 3 1 := by
  refine ⟨_, _, _, (fock_none (np := 0) (H := Demo.h) rfl rfl).trans
    (fock_some (np := 0) (l := 2) (H := Demo.h) (U := Demo.u) (X := Demo.h.zerosLike) rfl rfl
      (by decide) rfl rfl rfl rfl rfl rfl (by decide) (by decide) rfl rfl), rfl, ?_⟩
  decide +kernel

/-! ## C24 -/

/-- **C24** The value `compute_reference_energy()` returns, for both classes of system. -/
theorem C24_formulas {w : World K T} {s : ℕ} {x : Sys} {b : BasisSet K} (ok : SysOK w s x b)
    {H U : NDArray K} (hh : b.h = some H) (hu : b.u = some U) :
    ∃ r, (World.referenceEnergy s).run w = (.ok r, w) ∧ r.shape = [] ∧
      (x.kind = .general → r.get [] = ∑ i ∈ range x.n, H.get [i, i] +
        1 / 2 * ∑ i ∈ range x.n, ∑ j ∈ range x.n, U.get [i, j, i, j]) ∧
      (x.kind = .spatial → r.get [] = 2 * ∑ i ∈ range x.n, H.get [i, i] +
        ∑ i ∈ range x.n, ∑ j ∈ range x.n, (2 * U.get [i, j, i, j] - U.get [i, j, j, i])) := by
  obtain ⟨r, h1, h2, h3⟩ := World.referenceEnergy_run ok hh hu
  refine ⟨r, h1, h2, fun hk => ?_, fun hk => ?_⟩
  · rw [h3, hk]; rfl
  · rw [h3, hk]; rfl

/-- **C24** The same from the Fock matrix of the same system (wherever its construction succeeds). -/
theorem C24_fock {w : World K T} {s : ℕ} {x : Sys} {b : BasisSet K} (ok : SysOK w s x b)
    {m m' : Mem K} {h u t : ℕ} {H : NDArray K} (hh : b.h = some H) (mh : m[h]? = b.h)
    (mu : m[u]? = b.u) (run : (World.constructFock x h u none).run m = (.ok t, m')) :
    ∃ r F, (World.referenceEnergy s).run w = (.ok r, w) ∧ m'[t]? = some F ∧
      (x.kind = .general → r.get [] = 1 / 2 * ∑ i ∈ range x.n, (H.get [i, i] + F.get [i, i])) ∧
      (x.kind = .spatial → r.get [] = ∑ i ∈ range x.n, (H.get [i, i] + F.get [i, i])) := by
  obtain ⟨np, hnp⟩ := ok.wf.np
  obtain ⟨H', hh', sh⟩ := ok.wf.h
  obtain ⟨U, hu, su⟩ := ok.wf.u
  obtain rfl : H = H' := by rw [hh] at hh'; exact Option.some.inj hh'
  obtain ⟨r, h1, h2, h3⟩ := World.referenceEnergy_run ok hh hu
  obtain ⟨rfl, rfl⟩ := fock_inv (ok.np.trans hnp) ok.size.o ok.size.le (mh.trans hh) (mu.trans hu)
    sh su run
  have key : ∀ i ∈ range x.n, (fockArr x.kind H.dtype x.l x.n H U).get [i, i] =
      fockAt x.kind x.n H U i i := fun i hi => by
    have := mem_range.1 hi
    have := ok.size.le
    rw [fockArr, ofFn_get_of (by simp; omega)]
  refine ⟨r, fockArr x.kind H.dtype x.l x.n H U, h1, by simp, fun hk => ?_, fun hk => ?_⟩
  · rw [h3, hk, energyOf, energyGeneral, ← hk,
      sum_congr rfl (fun i hi => congrArg (H.get [i, i] + ·) (key i hi)), hk]
    simp only [fockAt, fockGeneralAt, sum_add_distrib]
    field_simp
    ring
  · rw [h3, hk, energyOf, energySpatial, ← hk,
      sum_congr rfl (fun i hi => congrArg (H.get [i, i] + ·) (key i hi)), hk]
    simp only [fockAt, fockSpatialAt, sum_add_distrib]
    ring

example : ∃ r, (World.referenceEnergy 0).run gworld = (.ok r, gworld) ∧ r.get [] = ⟨3 / 2, 0⟩ := by
  obtain ⟨r, h1, -, h2, -⟩ := C24_formulas gworld_ok rfl rfl
  refine ⟨r, h1, ?_⟩
  rw [h2 rfl]
  decide +kernel

/-! ## C25 -/

/-- **C25** `change_basis` with an invertible pair `C`, `C_tilde` that does not mix occupied and
virtual orbitals keeps the reference energy; general and spatial systems of every size. -/
theorem C25_invariant {w w' : World K T} {s : ℕ} {x : Sys} {b : BasisSet K} {C : NDArray K}
    {Ct : Option (NDArray K)} {v : Unit} (ok : SysOK w s x b)
    (run : (World.changeBasis s C Ct).run w = (.ok v, w')) (hC : C.shape = [x.l, x.l])
    (inv : ∀ p < x.l, ∀ q < x.l,
      ∑ a ∈ range x.l, (Ct.getD C.conj.T).get [p, a] * C.get [a, q] = kd p q)
    (bC : ∀ a < x.l, ∀ i < x.n, x.n ≤ a → C.get [a, i] = 0)
    (bCt : ∀ i < x.n, ∀ a < x.l, x.n ≤ a → (Ct.getD C.conj.T).get [i, a] = 0) :
    ∃ r r', (World.referenceEnergy s).run w = (.ok r, w) ∧
      (World.referenceEnergy s).run w' = (.ok r', w') ∧ r.shape = [] ∧ r'.shape = [] ∧
      r'.get [] = r.get [] := by
  obtain ⟨n, hC', hCt, hn, rfl⟩ := World.changeBasis_ok ok run
  obtain rfl : n = x.l := by rw [hC] at hC'; simp at hC'; exact hC'.symm
  obtain ⟨H, hh, sh⟩ := ok.wf.h
  obtain ⟨U, hu, su⟩ := ok.wf.u
  have ok' := World.withChanged_ok ok (changed_wellFormed (C := C) (Ct := Ct.getD C.conj.T)
    (n := x.l) ok.wf) rfl hn
  have hh' : (changed b C (Ct.getD C.conj.T) x.l x.l).h =
      some (oneBodyArr H C (Ct.getD C.conj.T) x.l x.l x.l x.l) := by simp [changed, hh]
  have hu' : (changed b C (Ct.getD C.conj.T) x.l x.l).u =
      some (twoBodyArr U C (Ct.getD C.conj.T) x.l x.l x.l) := by simp [changed, hu]
  obtain ⟨r, h1, h2, h3⟩ := World.referenceEnergy_run ok hh hu
  obtain ⟨r', h1', h2', h3'⟩ := World.referenceEnergy_run ok' hh' hu'
  refine ⟨r, r', h1, h1', h2, h2', ?_⟩
  rw [h3, h3']
  exact energy_rotated ok.size.le
    (fun a ha b hb => occ_density ok.size.le inv bC bCt ha hb)
    ⟨rfl, fun p hp q hq => oneBodyArr_get hp hq⟩
    ⟨rfl, fun p hp q hq r hr t ht => twoBodyArr_get hp hq hr ht⟩ x.kind

/-- **C25** The case of the statement: a block-diagonal unitary `C`, `C_tilde` left out. -/
theorem C25_unitary {w w' : World K T} {s : ℕ} {x : Sys} {b : BasisSet K} {C : NDArray K}
    {v : Unit} (ok : SysOK w s x b) (run : (World.changeBasis s C none).run w = (.ok v, w'))
    (hC : C.shape = [x.l, x.l])
    (uni : ∀ p < x.l, ∀ q < x.l, ∑ a ∈ range x.l, star (C.get [a, p]) * C.get [a, q] = kd p q)
    (block : ∀ a < x.l, ∀ i < x.l, (i < x.n ∧ x.n ≤ a ∨ a < x.n ∧ x.n ≤ i) → C.get [a, i] = 0) :
    ∃ r r', (World.referenceEnergy s).run w = (.ok r, w) ∧
      (World.referenceEnergy s).run w' = (.ok r', w') ∧ r.shape = [] ∧ r'.shape = [] ∧
      r'.get [] = r.get [] := by
  have hle := ok.size.le
  refine C25_invariant ok run hC ?_ ?_ ?_
  · intro p hp q hq
    simp only [Option.getD_none, conjT_get2 C hC]
    exact uni p hp q hq
  · intro a ha i hi hn
    exact block a ha i (by omega) (.inl ⟨hi, hn⟩)
  · intro i hi a ha hn
    simp only [Option.getD_none, conjT_get2 C hC]
    rw [block a ha i (by omega) (.inl ⟨hi, hn⟩), star_zero]

/-- A block unitary other than the identity, and a successful call. -/
def phases : NDArray GaussQ := mat .complex128 [[g 0 1, g 0 0], [g 0 0, ⟨3 / 5, 4 / 5⟩]]

example : ∃ w', (World.changeBasis 0 phases none).run world = (.ok (), w') ∧
    (∀ p < 2, ∀ q < 2, ∑ a ∈ range 2, star (phases.get [a, p]) * phases.get [a, q] = kd p q) ∧
    (∀ a < 2, ∀ i < 2, (i < 1 ∧ 1 ≤ a ∨ a < 1 ∧ 1 ≤ i) → phases.get [a, i] = 0) := by
  refine ⟨_, World.changeBasis_sys_run (n := 2) world_ok (basis_noSpin.spinShaped 2) rfl rfl
    (by decide), ?_, ?_⟩
  · unfold kd; decide +kernel
  · decide +kernel

/-! ## C26 -/

/-- Dtype of the output: that of the buffer, or that of `h` without one. -/
def outDtype (m : Mem K) (H : NDArray K) : Option ℕ → DType
  | none => H.dtype
  | some f => match m[f]? with
    | none => H.dtype
    | some X => X.dtype

/-- A buffer that the caller may pass: an `l × l` array other than the objects `h` and `u`. -/
def GoodBuffer (m : Mem K) (h u l : ℕ) (f : Option ℕ) : Prop :=
  ∀ r, f = some r → r ≠ h ∧ r ≠ u ∧ ∃ X, m[r]? = some X ∧ X.shape = [l, l]

/-- **C26** With or without a buffer, whatever it contained: the result is the Fock matrix, it is
the buffer object if one was given, and all other array objects (`h` and `u` among them) are
untouched.  The output dtype must be able to hold `h` and `u`. -/
theorem C26_fock {x : Sys} {m : Mem K} {h u l : ℕ} {f : Option ℕ} {H U : NDArray K} {np : Module}
    (hx : x.np = some np) (ho : x.o = (0, x.n)) (hn : x.n ≤ l)
    (hh : m[h]? = some H) (hu : m[u]? = some U) (sh : H.shape = [l, l])
    (su : U.shape = [l, l, l, l]) (hf : GoodBuffer m h u l f)
    (dh : (outDtype m H f).promote H.dtype = outDtype m H f)
    (du : (outDtype m H f).promote U.dtype = outDtype m H f) :
    ∃ r m' F, (World.constructFock x h u f).run m = (.ok r, m') ∧ m'[r]? = some F ∧
      (∀ f', f = some f' → r = f') ∧ (f = none → r = m.length) ∧
      (∀ k, k < m.length → k ≠ r → m'[k]? = m[k]?) ∧ m'[h]? = some H ∧ m'[u]? = some U ∧
      F.shape = [l, l] ∧ F.dtype = outDtype m H f ∧ ∀ p < l, ∀ q < l,
        (x.kind = .general → F.get [p, q] = H.get [p, q] + ∑ i ∈ range x.n, U.get [p, i, q, i]) ∧
        (x.kind = .spatial → F.get [p, q] = H.get [p, q] +
          ∑ i ∈ range x.n, (2 * U.get [p, i, q, i] - U.get [p, i, i, q])) := by
  have ent : ∀ dt, ∀ p < l, ∀ q < l,
      (x.kind = .general → (fockArr x.kind dt l x.n H U).get [p, q] =
        H.get [p, q] + ∑ i ∈ range x.n, U.get [p, i, q, i]) ∧
      (x.kind = .spatial → (fockArr x.kind dt l x.n H U).get [p, q] = H.get [p, q] +
          ∑ i ∈ range x.n, (2 * U.get [p, i, q, i] - U.get [p, i, i, q])) := by
    intro dt p hp q hq
    rw [fockArr, ofFn_get_of (by simp [hp, hq])]
    exact ⟨fun hk => by rw [hk]; rfl, fun hk => by rw [hk]; rfl⟩
  cases f with
  | none =>
    have hh' := World.get_append hh [H.zerosLike]
    have hu' := World.get_append hu [H.zerosLike]
    have hf' : (m ++ [H.zerosLike])[m.length]? = some H.zerosLike := by simp
    have n1 : m.length ≠ h := Nat.ne_of_gt (lookup_lt hh)
    have n2 : m.length ≠ u := Nat.ne_of_gt (lookup_lt hu)
    refine ⟨_, _, _, (fock_none hx hh).trans
      (fock_some hx ho hn hh' hu' hf' sh su sh n1 n2 dh du), set_get hf' _, by simp, by simp, ?_,
      (set_get_ne n1.symm _).trans hh', (set_get_ne n2.symm _).trans hu', rfl, rfl, ent _⟩
    intro k hk hne
    rw [set_get_ne hne, List.getElem?_append_left hk]
  | some f =>
    obtain ⟨n1, n2, X, hX, sX⟩ := hf f rfl
    simp only [outDtype, hX] at dh du ⊢
    refine ⟨_, _, _, fock_some hx ho hn hh hu hX sh su sX n1 n2 dh du, set_get hX _, by simp,
      by simp, fun k _ hne => set_get_ne hne _, (set_get_ne n1.symm _).trans hh,
      (set_get_ne n2.symm _).trans hu, rfl, rfl, ent _⟩

/-- **C26** If the output dtype cannot hold `h` or `u` (e.g. real `h`, complex `u`, no buffer), the
call raises `TypeError`, and still leaves `h` and `u` untouched. -/
theorem C26_dtype {x : Sys} {m : Mem K} {h u l : ℕ} {f : Option ℕ} {H U : NDArray K} {np : Module}
    (hx : x.np = some np) (ho : x.o = (0, x.n)) (hn : x.n ≤ l)
    (hh : m[h]? = some H) (hu : m[u]? = some U) (sh : H.shape = [l, l])
    (su : U.shape = [l, l, l, l]) (hf : GoodBuffer m h u l f)
    (hd : ¬ ((outDtype m H f).promote H.dtype = outDtype m H f ∧
      (outDtype m H f).promote U.dtype = outDtype m H f)) :
    ∃ m', (World.constructFock x h u f).run m = (.error .type, m') ∧
      m'[h]? = some H ∧ m'[u]? = some U := by
  cases f with
  | none =>
    have hh' := World.get_append hh [H.zerosLike]
    have hu' := World.get_append hu [H.zerosLike]
    have hf' : (m ++ [H.zerosLike])[m.length]? = some H.zerosLike := by simp
    have n1 : m.length ≠ h := Nat.ne_of_gt (lookup_lt hh)
    have n2 : m.length ≠ u := Nat.ne_of_gt (lookup_lt hu)
    obtain ⟨Y, hY⟩ := fock_some_type hx ho hn hh' hu' hf' sh su sh n1 n2 hd
    exact ⟨_, (fock_none hx hh).trans hY, (set_get_ne n1.symm _).trans hh',
      (set_get_ne n2.symm _).trans hu'⟩
  | some f =>
    obtain ⟨n1, n2, X, hX, sX⟩ := hf f rfl
    simp only [outDtype, hX] at hd
    obtain ⟨Y, hY⟩ := fock_some_type hx ho hn hh hu hX sh su sX n1 n2 hd
    exact ⟨_, hY, (set_get_ne n1.symm _).trans hh, (set_get_ne n2.symm _).trans hu⟩

/-- **C26** Hermitian elements give a Hermitian Fock matrix (for the spatial formula `u` must also
have the symmetry under exchange of the particles). -/
theorem C26_hermitian {x : Sys} {m : Mem K} {h u l : ℕ} {f : Option ℕ} {H U : NDArray K}
    {np : Module} (hx : x.np = some np) (ho : x.o = (0, x.n)) (hn : x.n ≤ l)
    (hh : m[h]? = some H) (hu : m[u]? = some U) (sh : H.shape = [l, l])
    (su : U.shape = [l, l, l, l]) (hf : GoodBuffer m h u l f)
    (dh : (outDtype m H f).promote H.dtype = outDtype m H f)
    (du : (outDtype m H f).promote U.dtype = outDtype m H f)
    (hH : HermMat l H) (hU : HermU l U) (hE : x.kind = .spatial → ExchU l U) :
    ∃ r m' F, (World.constructFock x h u f).run m = (.ok r, m') ∧ m'[r]? = some F ∧
      HermMat l F := by
  obtain ⟨r, m', F, run, hF, -, -, -, -, -, -, -, ent⟩ := C26_fock hx ho hn hh hu sh su hf dh du
  refine ⟨r, m', F, run, hF, fun p hp q hq => ?_⟩
  cases hk : x.kind with
  | general =>
    rw [(ent p hp q hq).1 hk, (ent q hq p hp).1 hk, star_add, star_sum, ← hH p hp q hq]
    congr 1
    refine sum_congr rfl fun i hi => ?_
    have := mem_range.1 hi
    exact hU p hp i (by omega) q hq i (by omega)
  | spatial =>
    rw [(ent p hp q hq).2 hk, (ent q hq p hp).2 hk, star_add, star_sum, ← hH p hp q hq]
    congr 1
    refine sum_congr rfl fun i hi => ?_
    have hi' := mem_range.1 hi
    rw [star_sub, star_mul, star_ofNat, ← hU p hp i (by omega) q hq i (by omega),
      ← hU i (by omega) p hp q hq i (by omega),
      hE hk i (by omega) p hp q hq i (by omega)]
    ring

/-- A buffer full of other values, and the dtype failure. -/
example : ∃ r m' F, (World.constructFock Demo.sys 0 1 (some 2)).run [Demo.h, Demo.u, Demo.C22] =
    (.ok r, m') ∧ m'[r]? = some F ∧ r = 2 ∧ F.get [0, 1] = g 3 1 := by
  obtain ⟨r, m', F, h1, h2, h3, -, -, -, -, -, -, h4⟩ :=
    C26_fock (K := GaussQ) (x := Demo.sys) (m := [Demo.h, Demo.u, Demo.C22]) (h := 0) (u := 1)
      (f := some 2) (l := 2) (np := 0) rfl rfl (by decide) rfl rfl rfl rfl
      (by rintro r ⟨⟩; exact ⟨by decide, by decide, _, rfl, rfl⟩) rfl rfl
  refine ⟨r, m', F, h1, h2, h3 2 rfl, ?_⟩
  rw [(h4 0 (by decide) 1 (by decide)).2 rfl]
  decide +kernel

example : ∃ m', (World.constructFock Demo.sys 0 1 none).run [Demo.s, Demo.u.toComplex] =
    (.error .type, m') :=
  let ⟨m', e, _⟩ := C26_dtype (K := GaussQ) (x := Demo.sys) (m := [Demo.s, Demo.u.toComplex])
    (h := 0) (u := 1) (f := none) (l := 2) (np := 0) rfl rfl (by decide) rfl rfl rfl rfl
    (by rintro r ⟨⟩) (by decide)
  ⟨m', e⟩

/-- Why the buffer must not be `h`: `f.fill(0)` destroys it first. -/
example : ∃ m' F, (World.constructFock Demo.gsys 0 1 (some 0)).run [Demo.h, Demo.u] = (.ok 0, m') ∧
    m'[0]? = some F ∧ F.get [0, 0] = g 1 0 ∧ Demo.h.get [0, 0] + Demo.u.get [0, 0, 0, 0] = g 2 0 :=
  ⟨_, _, rfl, rfl, by decide +kernel, by decide +kernel⟩

end QS.Props
