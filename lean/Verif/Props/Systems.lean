import Verif.Lemmas.Copies
import Verif.Props.Energy

/-!
# Properties C30–C35: sizes of systems, constructors and copies

Each theorem is followed by a concrete case that meets its hypotheses.
-/

namespace QS.Props

open Finset NDArray BasisSet PyM Demo World

variable {K T : Type} [PyScalar K]

/-! ## C30 -/

theorem partition_of_sized {x : Sys} (h : Sized x) : Partition x := by
  have hle := h.le
  refine ⟨?_, ?_, ?_, ?_, ?_⟩
  · rw [h.o, h.v, Finset.disjoint_left]
    intro i hi hj
    simp only [Finset.mem_Ico] at hi hj
    omega
  · rw [h.o, h.v]
    ext i
    simp only [Finset.mem_union, Finset.mem_Ico, Finset.mem_range]
    omega
  · rw [h.o]; simp
  · rw [h.v, h.m]; simp
  · rw [h.m]; omega

/-- **C30** Creating a system of `n` particles on a basis set of `l` functions: for `n ≤ l` the slices
partition `0..l-1`; for `n > l` an `AssertionError` is raised and nothing is created. -/
theorem C30_create {w : World K T} {k : SysKind} {n r : ℕ} {b : BasisSet K}
    (hb : w.bases[r]? = some b) :
    (n ≤ b.l → ∃ s w' x, (World.initSystem k n r).run w = (.ok s, w') ∧ w'.systems[s]? = some x ∧
      x.n = n ∧ x.l = b.l ∧ Partition x) ∧
    (b.l < n → (World.initSystem k n r).run w = (.error .assertion, w)) := by
  rw [initSystem_run hb]
  constructor
  · intro h
    rw [if_pos h]
    exact ⟨_, _, newSys k r n b.l b.np, rfl, by simp, rfl, rfl, partition_of_sized (newSys_sized h)⟩
  · intro h
    rw [if_neg (by omega)]

/-- **C30** `set_system_size(n, l)` accepts exactly `n ≤ l`, and leaves the system alone otherwise. -/
theorem C30_set_size {w : World K T} {s n l : ℕ} {x : Sys} (hs : w.systems[s]? = some x) :
    (n ≤ l → ∃ w' x', (World.setSystemSize s n l).run w = (.ok (), w') ∧
      w'.systems[s]? = some x' ∧ x'.n = n ∧ x'.l = l ∧ Partition x') ∧
    (l < n → (World.setSystemSize s n l).run w = (.error .assertion, w)) := by
  rw [setSystemSize_run hs]
  constructor
  · intro h
    rw [if_pos h]
    exact ⟨_, sized x n l, rfl, get_set hs _, rfl, rfl,
      partition_of_sized ⟨h, rfl, rfl, rfl⟩⟩
  · intro h
    rw [if_neg (by omega)]

/-- **C30** In a world whose systems were all created that way, the slices of every system are a
partition after every history of operations of any kind — basis changes included — on any of the
systems, whether the operations succeed or raise. -/
theorem C30_always {w : World K T} (hw : ∀ x ∈ w.systems, Sized x) (ops : List (ℕ × SOp K T)) :
    ∀ x ∈ (performAll w ops).systems, Partition x :=
  fun x hx => partition_of_sized (performAll_sized hw ops x hx)

/-- **C30** Every sequence of basis changes, successful or not, keeps the number of particles and the
partition. -/
theorem C30_basis_changes {w : World K T} {s : ℕ} {x : Sys} (hx : w.systems[s]? = some x)
    (hs : Sized x) (changes : List (NDArray K × Option (NDArray K))) :
    ∃ x', (performAll w (changes.map fun c => (s, .changeBasis c.1 c.2))).systems[s]? = some x' ∧
      x'.n = x.n ∧ Partition x' := by
  obtain ⟨x', h1, h2, h3⟩ := changeBases_sized hx hs changes
  exact ⟨x', h1, h2, partition_of_sized h3⟩

/-- **C30** After a basis change that succeeds, `l` is the number of new basis functions, in the
system and in its basis set. -/
theorem C30_new_size {w w' : World K T} {s : ℕ} {x : Sys} {b : BasisSet K} {C : NDArray K}
    {Ct : Option (NDArray K)} {r : Unit} (ok : SysOK w s x b)
    (h : (World.changeBasis s C Ct).run w = (.ok r, w')) :
    ∃ n x' b', C.shape = [x.l, n] ∧ w'.systems[s]? = some x' ∧ w'.bases[x'.basis]? = some b' ∧
      x'.l = n ∧ b'.l = n ∧ x'.n = x.n ∧ Partition x' := by
  obtain ⟨n, h1, -, h3, rfl⟩ := changeBasis_ok ok h
  exact ⟨n, sized x x.n n, _, h1, get_set ok.sys _, get_set ok.basis _, rfl, rfl, rfl,
    partition_of_sized ⟨h3, rfl, rfl, rfl⟩⟩

/-- Two orbitals, one occupied; after changes to three and (rejected: wrong shape) to one. -/
example : Sized sys ∧ (performAll world ([(C23, none), (C21, none)].map fun c =>
    (0, .changeBasis c.1 c.2))).systems[0]? =
      some { sys with l := 3, m := 2, v := (1, 3) } :=
  ⟨world_ok.size, by decide +kernel⟩

/-! ## C31 -/

/-- **C31** `SpatialOrbitalSystem(n, basis)` succeeds exactly if `n` is even, the basis has no spin and
`n/2 ≤ l`; otherwise it raises `AssertionError` and creates nothing. -/
theorem C31_accepts {w : World K T} {n r : ℕ} {b : BasisSet K} (hb : w.bases[r]? = some b) :
    ((∃ s w', (World.spatialInit n r).run w = (.ok s, w')) ↔
      Even n ∧ b.includesSpin = false ∧ n / 2 ≤ b.l) ∧
    (¬ (Even n ∧ b.includesSpin = false ∧ n / 2 ≤ b.l) →
      (World.spatialInit n r).run w = (.error .assertion, w)) := by
  rw [Nat.even_iff]
  have key : (World.spatialInit n r).run w =
      if n % 2 = 0 ∧ b.includesSpin = false ∧ n / 2 ≤ b.l then (.ok w.systems.length,
        { w with systems := w.systems ++ [newSys .spatial r (n / 2) b.l b.np] })
      else (.error .assertion, w) := by
    unfold World.spatialInit
    by_cases h1 : n % 2 = 0
    · cases h2 : b.includesSpin <;>
        simp [PyM.run_bind, run_assert, h1, getBasis_run hb, h2, initSystem_run hb]
    · simp [PyM.run_bind, run_assert, h1]
  rw [key]
  by_cases h : n % 2 = 0 ∧ b.includesSpin = false ∧ n / 2 ≤ b.l
  · simp [h]
  · simp [h]

/-- **C31** A successful `SpatialOrbitalSystem(n, basis)` occupies `n/2` of the `l` orbitals. -/
theorem C31_occupies {w w' : World K T} {n r s : ℕ} {b : BasisSet K} (hb : w.bases[r]? = some b)
    (h : (World.spatialInit n r).run w = (.ok s, w')) :
    ∃ x, w'.systems[s]? = some x ∧ x.kind = .spatial ∧ 2 * x.n = n ∧ x.l = b.l ∧ x.np = b.np ∧
      x.basis = r ∧ w'.bases = w.bases ∧ Partition x := by
  have hc := (C31_accepts (n := n) hb).1.1 ⟨s, w', h⟩
  obtain ⟨⟨k, hk⟩, h2, h3⟩ := hc
  unfold World.spatialInit at h
  have h1 : n % 2 = 0 := by omega
  simp only [PyM.run_bind, run_assert, h1, getBasis_run hb, h2, initSystem_run hb, h3, if_true,
    decide_true, Bool.not_false, Prod.mk.injEq, Except.ok.injEq] at h
  obtain ⟨rfl, rfl⟩ := h
  exact ⟨newSys .spatial r (n / 2) b.l b.np, by simp, rfl, by simp only [newSys]; omega, rfl, rfl,
    rfl, rfl, partition_of_sized (newSys_sized h3)⟩

/-- **C31** The general system constructed from `SpatialOrbitalSystem(n, basis)` (any orthonormal spin
basis) has `n` occupied spin-orbitals and `2l` in total. -/
theorem C31_general {w w' : World K T} {n r s : ℕ} {b : BasisSet K} {a₀ a₁ b₀ b₁ : K} {anti : Bool}
    (hb : w.bases[r]? = some b) (wf : WellFormed b b.l) (hc : b.cls = .plain)
    (he : b.extraModule = false) (hs : b.s.isSome)
    (h : (World.spatialInit n r).run w = (.ok s, w')) (ho : OrthoSpin a₀ a₁ b₀ b₁) :
    ∃ g w'' x, (World.constructGeneral s [a₀, a₁] [b₀, b₁] anti).run w' = (.ok g, w'') ∧
      w''.systems[g]? = some x ∧ x.kind = .general ∧ x.n = n ∧ x.l = 2 * b.l ∧ Partition x := by
  have hsp := ((C31_accepts (n := n) hb).1.1 ⟨s, w', h⟩).2.1
  obtain ⟨x, h1, h2, h3, h4, h5, h6, h7, h8⟩ := C31_occupies hb h
  have hop : x.op = none ∧ Sized x := by
    have hx := (C31_accepts (n := n) hb).1.1 ⟨s, w', h⟩
    unfold World.spatialInit at h
    have h1' : n % 2 = 0 := Nat.even_iff.1 hx.1
    simp only [PyM.run_bind, run_assert, h1', getBasis_run hb, hsp, initSystem_run hb, hx.2.2, if_true,
      decide_true, Bool.not_false, Prod.mk.injEq, Except.ok.injEq] at h
    obtain ⟨rfl, rfl⟩ := h
    have : x = newSys .spatial r (n / 2) b.l b.np := by simpa using h1.symm
    rw [this]; exact ⟨rfl, newSys_sized hx.2.2⟩
  have ok : SysOK w' s x b := ⟨h1, by rw [h6, h7]; exact hb, by rw [h4]; exact wf, h5, hop.2⟩
  obtain ⟨g, w'', x', b', run, ok', hk', hn, hl, -⟩ :=
    general_system anti ok hc he hsp hop.1 hs ho
  exact ⟨g, w'', x', run, ok'.sys, hk', by omega, by rw [hl, h4], partition_of_sized ok'.size⟩

/-- Two particles fit into the two orbitals of `Demo.basis`, three (odd) and six (too many) do not. -/
example : ((World.spatialInit 2 0).run world).1 = .ok 1 ∧
    ((World.spatialInit 3 0).run world).1 = .error .assertion ∧
    ((World.spatialInit 6 0).run world).1 = .error .assertion := by
  refine ⟨?_, ?_, ?_⟩ <;> rfl

example : ∃ s w', (World.spatialInit 4 0).run world = (.ok s, w') ∧
    ∃ g w'' x, (World.constructGeneral s [1, 0] [0, 1] true).run w' = (.ok g, w'') ∧
      w''.systems[g]? = some x ∧ x.kind = .general ∧ x.n = 4 ∧ x.l = 2 * 2 ∧ Partition x :=
  ⟨_, _, rfl, C31_general (w := world) (r := 0) (b := basis) rfl basis_wf rfl rfl rfl rfl ortho_std⟩

/-! ## C32 -/

/-- **C32** `construct_general_orbital_system` — with any spin vectors, with or without
anti-symmetrisation or time-evolution operator, whether it succeeds or raises — does not change what
the spatial system, or any other system, reports. -/
theorem C32_unchanged {w : World K T} {S : ℕ → Prop} {B : ℕ → ℕ} {A : ℕ → ℕ → Prop} {s : ℕ} {x : Sys}
    {b : BasisSet K} (sep : Separate w S B A) (hs : S s) (ok : SysOK w s x b)
    (he : b.extraModule = false) (a c : List K) (anti : Bool) :
    ∀ j, S j → SameReports w j ((World.constructGeneral s a c anti).run w).2 j :=
  fun j hj => (sameReports_touched sep hs ok.sys ok.basis
    (constructGeneral_extends ok.sys ok.basis ok.wf he a c anti) j hj).1

/-- **C32** After `construct_general_orbital_system`, whatever is done to the spatial system and the
new general system `g` (and to any other systems) in any order, no operation on one of them changes
what another reports.  Each system may be given operator objects of its own (`A i`, and `A'` for the
new one). -/
theorem C32_independent {w w' : World K T} {S : ℕ → Prop} {B : ℕ → ℕ} {A : ℕ → ℕ → Prop} {s g : ℕ}
    {x : Sys} {b : BasisSet K} {a c : List K} {anti : Bool} {A' : ℕ → Prop}
    (sep : Separate w S B A) (hs : S s) (ok : SysOK w s x b) (he : b.extraModule = false)
    (hop : x.op = none) (h : (World.constructGeneral s a c anti).run w = (.ok g, w'))
    (hA' : ∀ o, A' o → (∃ y, w.ops[o]? = some y ∧ y.system = none) ∧ ∀ i, S i → ¬ A i o) :
    ¬ S g ∧ Independent w' (fun i => S i ∨ i = g) (fun i => if i = g then A' else A i) := by
  have hE := constructGeneral_extends ok.sys ok.basis ok.wf he a c anti
  rw [h] at hE
  obtain ⟨y, hy, rfl, ho, hsys, hbas⟩ := constructGeneral_ok ok.sys hop h
  have hold := fun j hj => (sameReports_touched sep hs ok.sys ok.basis hE j hj).2
  have hnew : Owns w' w.systems.length w.bases.length A' := by
    refine ⟨⟨newSys .general w.bases.length (x.n * 2) y.l y.np, by rw [hsys]; simp, rfl, ?_⟩,
      ⟨y, hbas⟩, fun o h' => ?_⟩
    · intro o h'; simp [newSys] at h'
    · obtain ⟨⟨z, hz, hzs⟩, -⟩ := hA' o h'
      exact ⟨z, by rw [ho]; exact hz, fun s' e => by rw [hzs] at e; simp at e⟩
  refine ⟨fun hg => ?_, independent_of_separate (separate_new sep le_rfl le_rfl hold hnew
    fun j o hj h1 h2 => (hA' o h2).2 j hj h1)⟩
  obtain ⟨z, hz, -⟩ := (sep.owns _ hg).sys
  have := lt_of_get hz
  omega

theorem demo_separate : Separate world (fun i => i = 0) (fun _ => 0) (fun _ _ => False) := by
  refine ⟨?_, ?_, ?_⟩
  · rintro i rfl
    exact ⟨⟨sys, rfl, rfl, fun o h => by simp [sys] at h⟩, ⟨basis, rfl⟩, fun o h => h.elim⟩
  · rintro i j rfl rfl h; exact absurd rfl h
  · rintro i j o rfl rfl h; exact absurd rfl h

/-- The hypotheses hold for `Demo.world`. -/
example : ∃ g w', (World.constructGeneral 0 [1, 0] [0, 1] true).run world = (.ok g, w') ∧
    SameReports world 0 w' 0 ∧
    Independent w' (fun i => i = 0 ∨ i = g) (fun i => if i = g then fun _ => False else fun _ => False) := by
  obtain ⟨g, w', -, -, run, -⟩ := general_system (w := world) true world_ok rfl rfl rfl rfl rfl ortho_std
  refine ⟨g, w', run, ?_, (C32_independent demo_separate rfl world_ok rfl rfl run
    (fun o h => h.elim)).2⟩
  have := C32_unchanged demo_separate rfl world_ok rfl [1, 0] [0, 1] true 0 rfl
  rwa [run] at this

/-! ## C33 -/

/-- **C33** `copy_system` of a system (whose operator, if any, is not used by another system) succeeds;
the copy reports the same as the original did, and so does the original. -/
theorem C33_equal {w : World K T} {S : ℕ → Prop} {B : ℕ → ℕ} {A : ℕ → ℕ → Prop} {s : ℕ} {x : Sys}
    {b : BasisSet K} (sep : Separate w S B A) (hs : S s) (ok : SysOK w s x b)
    (he : b.extraModule = false) :
    ∃ new w', (World.copySystem s).run w = (.ok new, w') ∧ ¬ S new ∧
      SameReports w s w' new ∧ ∀ j, S j → SameReports w j w' j := by
  have hB := owns_op sep hs ok.sys
  have own : Owns w s x.basis (A s) := by rw [hB.1]; exact sep.owns s hs
  have run := copySystem_run ok own he
  have hE : Extends w.systems.length w.bases.length w.ops.length
      { w with bases := w.bases.set x.basis (withBra b) } (withCopy w x b) := by
    refine ⟨fun i hi => ?_, fun i hi => ?_, fun i hi => ?_, by simp [withCopy], by simp [withCopy],
      by simp [withCopy]⟩
    · exact List.getElem?_append_left hi
    · exact List.getElem?_append_left (by simpa using hi)
    · exact List.getElem?_append_left hi
  refine ⟨_, _, run, fun hg => ?_, ?_, fun j hj =>
    (sameReports_touched sep hs ok.sys ok.basis hE j hj).1⟩
  · obtain ⟨z, hz, -⟩ := (sep.owns _ hg).sys
    have := lt_of_get hz
    omega
  · have hnew : (withCopy w x b).systems[w.systems.length]? =
        some { x with basis := w.bases.length, op := x.op.map fun _ => w.ops.length } := by
      simp [withCopy]
    have hbas : (withCopy w x b).bases[w.bases.length]? = some (withBra b) := by
      show (w.bases.set x.basis (withBra b) ++ [withBra b])[w.bases.length]? = _
      rw [List.getElem?_append_right (by simp)]; simp
    refine sameReports_of (c₀ := b) ok.sys hnew ok.basis hbas (.inl rfl) (.inr rfl) rfl ?_
    rcases hop : x.op with _ | o
    · exact Or.inl ⟨rfl, rfl⟩
    · obtain ⟨y, hy, hys⟩ := own.ops o (hB.2 o hop)
      refine Or.inr ⟨o, w.ops.length, y, y.system, y.system.map fun _ => w.systems.length, rfl, rfl,
        hy, ?_, ?_⟩
      · simp [withCopy, copiedOps, hop, hy]
      · rcases hq : y.system with _ | q
        · exact .inl ⟨rfl, rfl⟩
        · exact .inr ⟨by rw [hys q hq], rfl⟩

/-- **C33** After `copy_system`, whatever is done to the original and the copy `new` (and to any other
systems) in any order, no operation on one of them changes what another reports.  The copy owns the
copied operator object and may be given further ones of its own (`A'`). -/
theorem C33_independent {w w' : World K T} {S : ℕ → Prop} {B : ℕ → ℕ} {A : ℕ → ℕ → Prop} {s new : ℕ}
    {x : Sys} {b : BasisSet K} {A' : ℕ → Prop}
    (sep : Separate w S B A) (hs : S s) (ok : SysOK w s x b) (he : b.extraModule = false)
    (h : (World.copySystem s).run w = (.ok new, w'))
    (hA' : ∀ o, A' o → (∃ y, w.ops[o]? = some y ∧ y.system = none) ∧ ∀ i, S i → ¬ A i o) :
    Independent w' (fun i => S i ∨ i = new) (fun i => if i = new then
      (fun o => A' o ∨ ∃ x', w'.systems[new]? = some x' ∧ x'.op = some o) else A i) := by
  have hB := owns_op sep hs ok.sys
  have own : Owns w s x.basis (A s) := by rw [hB.1]; exact sep.owns s hs
  have run := copySystem_run ok own he
  rw [run] at h
  simp only [Prod.mk.injEq, Except.ok.injEq] at h
  obtain ⟨rfl, rfl⟩ := h
  have hE : Extends w.systems.length w.bases.length w.ops.length
      { w with bases := w.bases.set x.basis (withBra b) } (withCopy w x b) := by
    refine ⟨fun i hi => ?_, fun i hi => ?_, fun i hi => ?_, by simp [withCopy], by simp [withCopy],
      by simp [withCopy]⟩
    · exact List.getElem?_append_left hi
    · exact List.getElem?_append_left (by simpa using hi)
    · exact List.getElem?_append_left hi
  have hold := fun j hj => (sameReports_touched sep hs ok.sys ok.basis hE j hj).2
  have hnew : (withCopy w x b).systems[w.systems.length]? =
      some { x with basis := w.bases.length, op := x.op.map fun _ => w.ops.length } := by
    simp [withCopy]
  have hbas : (withCopy w x b).bases[w.bases.length]? = some (withBra b) := by
    show (w.bases.set x.basis (withBra b) ++ [withBra b])[w.bases.length]? = _
    rw [List.getElem?_append_right (by simp)]; simp
  have hcop : ∀ o, (∃ x', (withCopy w x b).systems[w.systems.length]? = some x' ∧ x'.op = some o) →
      o = w.ops.length ∧ ∃ o', x.op = some o' := by
    rintro o ⟨x', h1, h2⟩
    obtain rfl := Option.some.inj (hnew.symm.trans h1)
    simp only [Option.map_eq_some_iff] at h2
    obtain ⟨o', h3, rfl⟩ := h2
    exact ⟨rfl, o', h3⟩
  refine independent_of_separate (separate_new sep le_rfl le_rfl hold ⟨⟨_, hnew, rfl, ?_⟩,
    ⟨_, hbas⟩, ?_⟩ ?_)
  · exact fun o ho => .inr ⟨_, hnew, ho⟩
  · rintro o (ho | ho)
    · obtain ⟨⟨z, hz, hzs⟩, -⟩ := hA' o ho
      exact ⟨z, get_append hz _, fun s' e => by rw [hzs] at e; simp at e⟩
    · obtain ⟨rfl, o', ho'⟩ := hcop o ho
      obtain ⟨y, hy, hys⟩ := own.ops o' (hB.2 o' ho')
      refine ⟨{ y with system := y.system.map fun _ => w.systems.length }, ?_, ?_⟩
      · simp [withCopy, copiedOps, ho', hy]
      · intro s' e
        simp only [Option.map_eq_some_iff] at e
        obtain ⟨_, _, e⟩ := e
        exact e.symm
  · rintro j o hj h1 (h2 | h2)
    · exact (hA' o h2).2 j hj h1
    · obtain ⟨rfl, -⟩ := hcop o h2
      obtain ⟨z, hz, -⟩ := (sep.owns j hj).ops _ h1
      have := lt_of_get hz
      omega

theorem laser_separate : Separate lworld (fun i => i = 0) (fun _ => 0) (fun _ o => o = 0) := by
  refine ⟨?_, ?_, ?_⟩
  · rintro i rfl
    refine ⟨⟨{ sys with op := some 0 }, rfl, rfl, fun o h => ?_⟩, ⟨basis, rfl⟩, fun o h => ?_⟩
    · simpa [eq_comm] using h
    · subst h
      exact ⟨_, rfl, fun s' h => by simpa [eq_comm] using h⟩
  · rintro i j rfl rfl h; exact absurd rfl h
  · rintro i j o rfl rfl h; exact absurd rfl h

/-- A system with a laser field; the copy is later given a second laser field. -/
example : ∃ new w', (World.copySystem 0).run lworld = (.ok new, w') ∧
    SameReports lworld 0 w' new ∧
    Independent w' (fun i => i = 0 ∨ i = new) (fun i => if i = new then
      (fun o => o = 1 ∨ ∃ x', w'.systems[new]? = some x' ∧ x'.op = some o) else fun o => o = 0) := by
  obtain ⟨new, w', run, -, h, -⟩ := C33_equal laser_separate rfl lworld_ok rfl
  refine ⟨new, w', run, h, C33_independent (A' := fun o => o = 1) laser_separate rfl lworld_ok rfl run ?_⟩
  rintro o rfl
  exact ⟨⟨_, rfl, rfl⟩, fun i _ h => by simp at h⟩

/-! ## C34 -/

/-- Full statement of C34: for every spatial system with a time-evolution operator, the constructed
general system has a copy of it that is bound to it. -/
def C34_statement (K T : Type) [PyScalar K] : Prop :=
  ∀ (w : World K T) (s o : ℕ) (x : Sys) (b : BasisSet K) (y : TEOp K T) (a₀ a₁ b₀ b₁ : K) (anti : Bool),
    SysOK w s x b → b.cls = .plain → b.extraModule = false → b.includesSpin = false → b.s.isSome →
    x.op = some o → w.ops[o]? = some y → y.system = some s → OrthoSpin a₀ a₁ b₀ b₁ →
    ∃ g w' x' o' y', (World.constructGeneral s [a₀, a₁] [b₀, b₁] anti).run w = (.ok g, w') ∧
      w'.systems[g]? = some x' ∧ x'.op = some o' ∧ w'.ops[o']? = some y' ∧
      y'.kind = y.kind ∧ y'.system = some g

/-- **C34** (what happens) For every such system `construct_general_orbital_system` raises `TypeError`:
the deep copy of the operator reaches the system's array module, which cannot be copied. -/
theorem C34_actual {w : World K T} {s o : ℕ} {x : Sys} {b : BasisSet K} {y : TEOp K T}
    {a₀ a₁ b₀ b₁ : K} {anti : Bool} (ok : SysOK w s x b) (hc : b.cls = .plain)
    (he : b.extraModule = false) (hsp : b.includesSpin = false) (hs : b.s.isSome)
    (hop : x.op = some o) (hy : w.ops[o]? = some y) (hys : y.system = some s)
    (ho : OrthoSpin a₀ a₁ b₀ b₁) :
    ((World.constructGeneral s [a₀, a₁] [b₀, b₁] anti).run w).1 = .error .type := by
  obtain ⟨ov, hs⟩ := Option.isSome_iff_exists.1 hs
  obtain ⟨m, hm⟩ := ok.wf.np
  rw [constructGeneral_split ok.sys, run_bind_ok (constructPart_run ok hc he hsp hs ho), hop]
  have hy' : (withGeneral w x b (general (withBra b) x.l ov a₀ a₁ b₀ b₁ anti)).ops[o]? = some y := hy
  have hx' : (withGeneral w x b (general (withBra b) x.l ov a₀ a₁ b₀ b₁ anti)).systems[s]? = some x :=
    get_append ok.sys _
  have hd := deepcopyOp_run hy'
  rw [if_pos (holdsModule_of (s := s) (x := x) ?_ hx' (.inl (by rw [ok.np, hm]; rfl)))] at hd
  · simp only [PyM.run_bind, hd]
  · simp only [reachFromOp, hys]
    exact reach_start hx'

/-- **C34** is false: with a `LaserField` set, the constructor raises. -/
theorem C34_false : ¬ C34_statement GaussQ ℤ := by
  intro hc
  obtain ⟨g, w', -, -, -, run, -⟩ := hc lworld 0 0 _ basis _ 1 0 0 1 true lworld_ok rfl rfl rfl rfl rfl
    rfl rfl ortho_std
  have := C34_actual (anti := true) lworld_ok rfl rfl rfl rfl rfl rfl rfl ortho_std
  rw [run] at this
  simp at this

/-- **C34** (partial; missing: operators that were set with `set_time_evolution_operator`, for which
the claim is false) If the operator object of the spatial system has not been bound to a system yet —
which takes setting the attribute by hand — the general system does get a copy bound to itself. -/
theorem C34_partial {w : World K T} {s o : ℕ} {x : Sys} {b : BasisSet K} {y : TEOp K T}
    {a₀ a₁ b₀ b₁ : K} {anti : Bool} (ok : SysOK w s x b) (hc : b.cls = .plain)
    (he : b.extraModule = false) (hsp : b.includesSpin = false) (hs : b.s.isSome)
    (hop : x.op = some o) (hy : w.ops[o]? = some y) (hys : y.system = none)
    (ho : OrthoSpin a₀ a₁ b₀ b₁) :
    ∃ g w' x' o', (World.constructGeneral s [a₀, a₁] [b₀, b₁] anti).run w = (.ok g, w') ∧
      w'.systems[g]? = some x' ∧ x'.op = some o' ∧ o' ≠ o ∧
      w'.ops[o']? = some { y with system := some g } ∧ w'.ops[o]? = some y := by
  obtain ⟨ov, hs⟩ := Option.isSome_iff_exists.1 hs
  set G := general (withBra b) x.l ov a₀ a₁ b₀ b₁ anti
  have hy' : (withGeneral w x b G).ops[o]? = some y := hy
  have hd := deepcopyOp_run hy'
  have hr : (withGeneral w x b G).reachFromOp y = [] := by simp [reachFromOp, hys]
  simp only [hr, holdsModule, List.any_nil, Bool.false_eq_true, if_false, reachOps, reachBases,
    List.filterMap_nil, List.dedup_nil, List.dedup_cons_of_notMem (List.not_mem_nil), rename,
    List.mem_singleton, if_true, List.idxOf_cons_self, Nat.add_zero] at hd
  set w2 := (withGeneral w x b G).copyObjects [] [] [o] with hw2
  have hops : w2.ops = w.ops ++ [y] := by
    have : ({ y with system := none } : TEOp K T) = y := by rw [← hys]
    simp [hw2, copyObjects, hy', hys, this, withGeneral, hy]
  have hsys : w2.systems = w.systems ++ [newSys .general w.bases.length (2 * x.n) (2 * x.l) b.np] := by
    simp [hw2, copyObjects, withGeneral]
  have hg : w2.systems[w.systems.length]? =
      some (newSys .general w.bases.length (2 * x.n) (2 * x.l) b.np) := by rw [hsys]; simp
  have ho' : w2.ops[w.ops.length]? = some y := by rw [hops]; simp
  have hlen : (withGeneral w x b G).ops.length = w.ops.length := rfl
  have hne : w.ops.length ≠ o := by have := lt_of_get hy; omega
  refine ⟨w.systems.length, { w2 with
      systems := w2.systems.set w.systems.length
        { newSys .general w.bases.length (2 * x.n) (2 * x.l) b.np with op := some w.ops.length }
      ops := w2.ops.set w.ops.length { y with system := some w.systems.length } },
    { newSys .general w.bases.length (2 * x.n) (2 * x.l) b.np with op := some w.ops.length },
    w.ops.length, ?_, ?_, rfl, hne, ?_, ?_⟩
  · rw [constructGeneral_split ok.sys, run_bind_ok (constructPart_run ok hc he hsp hs ho), hop]
    simp only
    rw [run_bind_ok hd, hlen]
    unfold setTimeEvolutionOperator
    simp only [PyM.run_bind, getSys_run hg, setSys_run]
    rw [getOp_run (by exact ho')]
    simp only [setOp_run, run_pure]
  · exact get_set hg _
  · exact get_set ho' _
  · show (w2.ops.set w.ops.length _)[o]? = _
    rw [get_set_ne (Ne.symm hne), hops, List.getElem?_append_left (lt_of_get hy), hy]

/-- `Demo.lworld` with the laser field put into the attribute without `set_system`. -/
def uworld : World GaussQ ℤ :=
  { lworld with ops := lworld.ops.map fun y => { y with system := none } }

example : ∃ g w' x' o', (World.constructGeneral 0 [1, 0] [0, 1] true).run uworld = (.ok g, w') ∧
    w'.systems[g]? = some x' ∧ x'.op = some o' ∧ o' ≠ 0 ∧
    w'.ops[o']? = some { kind := .laser (.fn fun t => .scalar .float64 ⟨t, 0⟩) none, system := some g,
                         cells := [] } ∧ w'.ops[0]? = some
      { kind := .laser (.fn fun t => .scalar .float64 ⟨t, 0⟩) none, system := none, cells := [] } :=
  C34_partial (w := uworld) (s := 0) (x := { sys with op := some 0 }) (b := basis)
    (y := ⟨.laser (.fn fun t => .scalar .float64 ⟨t, 0⟩) none, none, []⟩)
    ⟨rfl, rfl, basis_wf, rfl, by decide, rfl, rfl, rfl⟩ rfl rfl rfl rfl rfl rfl rfl ortho_std

/-! ## C35 -/

/-- Full statement of C35: a failing `copy_basis` or `copy_system` leaves the original with its array
module. -/
def C35_statement (K T : Type) [PyScalar K] : Prop :=
  (∀ (b b' : BasisSet K) (e : PyErr), copyBasis.run b = (.error e, b') → b'.np = b.np) ∧
  ∀ (w w' : World K T) (s : ℕ) (x : Sys) (b : BasisSet K) (e : PyErr), SysOK w s x b →
    (World.copySystem s).run w = (.error e, w') → SameReports w s w' s

/-- **C35** (what happens, `copy_basis`) For every basis set that refers to the array module elsewhere
(`ODQD` with a `GaussianPotential` does), `copy_basis` raises `TypeError`, and the basis set has lost
its module; calling `change_module` brings it back, with all elements as before. -/
theorem C35_actual_basis {b : BasisSet K} {l : ℕ} (wf : WellFormed b l) (he : b.extraModule = true) :
    copyBasis.run b = (.error .type, { b with np := none }) ∧
    (BasisSet.changeModule b.np).run { b with np := none } = (.ok (), { b with braSpf := b.bra }) := by
  obtain ⟨m, hm⟩ := wf.np
  constructor
  · simp only [copyBasis, PyM.run_bind, run_get, run_modify, he, if_true, run_raise]
  · have hn := not_two wf
    have hn' : ({ b with np := none } : BasisSet K).uRepr ≠ .two := hn
    have h1 := changeModule_run wf b.np
    have h2 : (BasisSet.changeModule b.np).run ({ b with np := none } : BasisSet K) =
        (BasisSet.changeModule b.np).run b := by
      simp only [BasisSet.changeModule, PyM.run_bind, run_get, hn, hn', and_false, if_false,
        changeModuleBase, run_modify]
    rw [h2, h1, hm]
    rfl

/-- **C35** (what happens, `copy_system`) If the basis set refers to the module elsewhere, or the
operator is bound to another system, `copy_system` raises `TypeError`, and the system and its basis set
have lost their module. -/
theorem C35_actual_system {w : World K T} {s : ℕ} {x : Sys} {b : BasisSet K} (ok : SysOK w s x b)
    (h : b.extraModule = true ∨ ∃ o y s' x', x.op = some o ∧ w.ops[o]? = some y ∧
      y.system = some s' ∧ s' ≠ s ∧ w.systems[s']? = some x' ∧ x'.np.isSome) :
    (World.copySystem s).run w = (.error .type,
      { bases := w.bases.set x.basis { b with np := none }
        systems := w.systems.set s { x with np := none }, ops := w.ops }) := by
  have hs0 : (withoutModule w s x b).systems[s]? = some { x with np := none } := get_set ok.sys _
  refine copySystem_raises ok.sys ok.basis ?_
  rcases h with he | ⟨o, y, s', x', h1, h2, h3, h4, h5, h6⟩
  · exact holdsModule_of (s := s) (reach_start hs0) hs0
      (.inr ⟨{ b with np := none }, get_set ok.basis _, by simp [he]⟩)
  · have hs1 : (withoutModule w s x b).systems[s']? = some x' :=
      (get_set_ne h4 _).trans h5
    obtain ⟨n, hn⟩ : ∃ n, w.systems.length = n + 1 :=
      ⟨w.systems.length - 1, by have := lt_of_get ok.sys; omega⟩
    rw [hn]
    exact holdsModule_of (s := s') (reach_bound hs0 h1 h2 h3 hs1) hs1 (.inl h6)

/-- `Demo.basis` with a second reference to the array module. -/
def mbasis : BasisSet GaussQ := { basis with extraModule := true }

theorem mbasis_wf : WellFormed mbasis 2 :=
  ⟨rfl, basis_wf.np, basis_wf.h, basis_wf.u, basis_wf.s, basis_wf.dipole, basis_wf.spf, basis_wf.bra,
    basis_wf.braNeedsSpf, basis_wf.tb⟩

/-- **C35** is false. -/
theorem C35_false : ¬ C35_statement GaussQ ℤ := by
  intro hc
  have := hc.1 mbasis _ _ (C35_actual_basis mbasis_wf rfl).1
  simp [mbasis, basis, BasisSet.init] at this

/-- A world with two systems that use the same laser field (bound to the second one). -/
def sharedWorld : World GaussQ ℤ :=
  { bases := [basis, basis]
    systems := [{ sys with op := some 0 }, { sys with basis := 1, op := some 0 }]
    ops := [{ kind := .laser (.fn fun t => .scalar .float64 ⟨t, 0⟩) none, system := some 1,
              cells := [] }] }

/-- **C35** is false for systems without such basis sets, too: with an operator object that was set on
another system afterwards, `copy_system` fails and the module is lost. -/
theorem C35_false_shared : ∃ w', (World.copySystem 0).run sharedWorld = (.error .type, w') ∧
    ¬ SameReports sharedWorld 0 w' 0 := by
  refine ⟨_, C35_actual_system (x := { sys with op := some 0 }) (b := basis)
    ⟨rfl, rfl, basis_wf, rfl, by decide, rfl, rfl, rfl⟩
    (.inr ⟨0, _, 1, _, rfl, rfl, rfl, by decide, rfl, rfl⟩), fun h => ?_⟩
  have := congrArg (Option.map fun p : SysKind × Option Module × _ => p.2.1) h.sizes
  simp [sharedWorld, sys] at this

/-- **C35** (partial; missing: basis sets that refer to the module elsewhere and operators bound to
another system, for which the claim is false) In all other cases there is no failure: `copy_basis` and
`copy_system` succeed and the original reports the same as before. -/
theorem C35_partial {w : World K T} {S : ℕ → Prop} {B : ℕ → ℕ} {A : ℕ → ℕ → Prop} {s : ℕ} {x : Sys}
    {b : BasisSet K} (sep : Separate w S B A) (hs : S s) (ok : SysOK w s x b)
    (he : b.extraModule = false) :
    (∃ c, copyBasis.run b = (.ok c, { b with braSpf := b.bra })) ∧
    ∃ new w', (World.copySystem s).run w = (.ok new, w') ∧ SameReports w s w' s := by
  obtain ⟨new, w', h1, -, -, h2⟩ := C33_equal sep hs ok he
  exact ⟨⟨_, copyBasis_run ok.wf he⟩, new, w', h1, h2 s hs⟩

example : (∃ c, copyBasis.run basis = (.ok c, { basis with braSpf := basis.bra })) ∧
    ∃ new w', (World.copySystem 0).run lworld = (.ok new, w') ∧ SameReports lworld 0 w' 0 :=
  C35_partial laser_separate rfl lworld_ok rfl

end QS.Props
