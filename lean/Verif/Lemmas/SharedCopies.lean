import Verif.Lemmas.Copies
import Verif.Lemmas.Reports
import Verif.Spec.Sharing

/-! # Copies of several objects at once (helper file) -/

namespace QS

open NDArray PyM BasisSet World

variable {K T : Type} [PyScalar K]

namespace World

/-- Systems that correspond under maps of the references report the same. -/
theorem sameReports_map {w w' : World K T} {J : ℕ → Prop} {f g k : ℕ → ℕ}
    (hs : ∀ j, J j → ∃ x, w.systems[j]? = some x ∧
      w'.systems[f j]? = some { x with basis := g x.basis, op := x.op.map k } ∧
      (∃ c, w.bases[x.basis]? = some c ∧ ∃ c', w'.bases[g x.basis]? = some c' ∧ (c' = c ∨ c' = withBra c)) ∧
      ∀ o, x.op = some o → ∃ y, w.ops[o]? = some y ∧ w'.ops[k o]? = some { y with system := y.system.map f } ∧
        ∀ q, y.system = some q → J q) {j : ℕ} (hj : J j) : SameReports w j w' (f j) := by
  obtain ⟨x, hx, hx', ⟨c, hc, c', hc', hcc⟩, ho⟩ := hs j hj
  have hc' : w'.bases[({ x with basis := g x.basis, op := x.op.map k } : Sys).basis]? = some c' := hc'
  have e0' : ({ c' with braSpf := c'.bra } : BasisSet K) = withBra c := by
    rcases hcc with rfl | rfl
    · rfl
    · show ({ withBra c with braSpf := (withBra c).bra } : BasisSet K) = _
      rw [withBra_bra]; rfl
  have eh : c.h = c'.h := by rcases hcc with rfl | rfl <;> rfl
  have eu : c.u = c'.u := by rcases hcc with rfl | rfl <;> rfl
  have eHT : ∀ {c c' : BasisSet K}, (c' = c ∨ c' = withBra c) → ∀ np y (t : T), evalHT np c y t = evalHT np c' y t := by
    rintro c c' (rfl | rfl) <;> intros <;> rfl
  have eUT : ∀ {c c' : BasisSet K}, (c' = c ∨ c' = withBra c) → ∀ y (t : T), evalUT c y t = evalUT c' y t := by
    rintro c c' (rfl | rfl) <;> intros <;> rfl
  have flags : ∀ (f' : Bool × Bool → Bool),
      ((do
        let x ← getSys j
        match x.op with
        | none => pure false
        | some o => do
          let y ← getOp o
          pure (f' (opFlags y.kind)) : PyM (World K T) Bool).run w).1 =
      ((do
        let x ← getSys (f j)
        match x.op with
        | none => pure false
        | some o => do
          let y ← getOp o
          pure (f' (opFlags y.kind)) : PyM (World K T) Bool).run w').1 := by
    intro f'
    rw [run_bind_ok (getSys_run hx), run_bind_ok (getSys_run hx')]
    rcases hop : x.op with _ | o
    · rfl
    · obtain ⟨y, hy, hy', -⟩ := ho o hop
      simp only [Option.map_some, PyM.run_bind, getOp_run hy, getOp_run hy', run_pure]
  refine ⟨?_, ?_, ?_, ?_, ?_, ?_, ?_, ?_⟩
  · rw [hx, hx']; rfl
  · rw [hx, hx']
    simp only [Option.bind_some, hc, hc', Option.map_some, e0']
    rfl
  · intro t
    rcases hop : x.op with _ | o
    · rw [hT_none hx hc hop, hT_none hx' hc' (by simp [hop]), eh]
    · obtain ⟨y, hy, hy', hJ⟩ := ho o hop
      rw [hT_some hx hop, hT_some hx' (o := k o) (by simp [hop])]
      rcases hq : y.system with _ | q
      · rw [opHT_unbound hy hq, opHT_unbound hy' (by simp [hq])]
      · obtain ⟨z, hz, hz', ⟨d, hd, d', hd', hdd⟩, -⟩ := hs q (hJ q hq)
        rw [opHT_run hz hd hy hq, opHT_run hz' (b := d') hd' hy' (by simp [hq])]
        simp only [evalHT_rebind, eHT hdd]
  · intro t
    rcases hop : x.op with _ | o
    · rw [uT_none hx hc hop, uT_none hx' hc' (by simp [hop]), eu]
    · obtain ⟨y, hy, hy', hJ⟩ := ho o hop
      rw [uT_some hx hop, uT_some hx' (o := k o) (by simp [hop])]
      rcases hq : y.system with _ | q
      · rw [opUT_unbound hy hq, opUT_unbound hy' (by simp [hq])]
      · obtain ⟨z, hz, hz', ⟨d, hd, d', hd', hdd⟩, -⟩ := hs q (hJ q hq)
        rw [opUT_run hz hd hy hq, opUT_run hz' (b := d') hd' hy' (by simp [hq])]
        simp only [evalUT_rebind, eUT hdd]
  · exact flags Prod.fst
  · exact flags Prod.snd
  · simp only [referenceEnergy, PyM.run_bind, getSys_run hx, getSys_run hx', h_run hx hc,
      h_run hx' hc', u_run hx hc, u_run hx' hc', eh, eu]
    cases x.kind <;> rfl
  · intro rho C Ct
    simp only [World.computeParticleDensity, PyM.run_bind, getSys_run hx, getSys_run hx',
      onBasis_run hc, onBasis_run hc']
    rcases hcc with rfl | rfl <;> simp only [density_withBra]

/-! ## What is reached -/

/-- The system that the operator of a system is bound to. -/
def next (w : World K T) (s : ℕ) : Option ℕ :=
  (w.systems[s]?).bind fun x => x.op.bind fun o => (w.ops[o]?).bind TEOp.system

theorem next_closed {w : World K T} (cl : w.Closed) {s q : ℕ} (h : w.next s = some q) : ∃ x, w.systems[q]? = some x := by
  unfold next at h
  simp only [Option.bind_eq_some_iff] at h
  obtain ⟨x, -, o, -, y, hy, hq⟩ := h
  exact cl.sys o y q hy hq

/-- All systems that can be reached are found. -/
theorem reach_closed {w : World K T} (cl : w.Closed) (fuel s : ℕ) (acc : List ℕ) (nd : acc.Nodup)
    (val : ∀ r ∈ acc, ∃ x, w.systems[r]? = some x) (hs : ∃ x, w.systems[s]? = some x)
    (hn : ∀ r ∈ acc, ∀ q, w.next r = some q → q ∈ acc ∨ q = s) (hf : w.systems.length < fuel + acc.length) :
    (w.reach fuel s acc).Nodup ∧ (∀ r ∈ w.reach fuel s acc, ∃ x, w.systems[r]? = some x) ∧
      (∀ r ∈ w.reach fuel s acc, ∀ q, w.next r = some q → q ∈ w.reach fuel s acc) ∧ s ∈ w.reach fuel s acc ∧
      acc ⊆ w.reach fuel s acc := by
  induction fuel generalizing s acc with
  | zero =>
    exfalso
    have : acc.length ≤ (List.range w.systems.length).length := by
      refine List.Subperm.length_le (List.subperm_of_subset nd fun r hr => ?_)
      obtain ⟨x, hx⟩ := val r hr
      exact List.mem_range.2 (lt_of_get hx)
    rw [List.length_range] at this
    omega
  | succ fuel ih =>
    obtain ⟨x, hx⟩ := hs
    by_cases hm : s ∈ acc
    · have e : w.reach (fuel + 1) s acc = acc := by simp only [reach, if_pos hm]
      rw [e]
      refine ⟨nd, val, fun r hr q hq => ?_, hm, fun _ h => h⟩
      rcases hn r hr q hq with h | rfl
      · exact h
      · exact hm
    have nd' : (acc ++ [s]).Nodup := by
      rw [List.nodup_append]
      refine ⟨nd, by simp, fun a ha b hb => ?_⟩
      rw [List.mem_singleton] at hb
      rintro rfl
      exact hm (hb ▸ ha)
    have val' : ∀ r ∈ acc ++ [s], ∃ x, w.systems[r]? = some x := fun r hr => by
      rcases List.mem_append.1 hr with h | h
      · exact val r h
      · rw [List.mem_singleton.1 h]; exact ⟨x, hx⟩
    have stop : w.next s = none → w.reach (fuel + 1) s acc = acc ++ [s] →
        (w.reach (fuel + 1) s acc).Nodup ∧ (∀ r ∈ w.reach (fuel + 1) s acc, ∃ x, w.systems[r]? = some x) ∧
          (∀ r ∈ w.reach (fuel + 1) s acc, ∀ q, w.next r = some q → q ∈ w.reach (fuel + 1) s acc) ∧
          s ∈ w.reach (fuel + 1) s acc ∧ acc ⊆ w.reach (fuel + 1) s acc := fun h e => by
      rw [e]
      refine ⟨nd', val', fun r hr q hq => ?_, by simp, fun _ h => List.mem_append_left _ h⟩
      rcases List.mem_append.1 hr with h' | h'
      · rcases hn r h' q hq with h | rfl
        · exact List.mem_append_left _ h
        · simp
      · rw [List.mem_singleton.1 h', h] at hq
        cases hq
    rcases hop : x.op with _ | o
    · exact stop (by simp [next, hx, hop]) (by simp only [reach, if_neg hm, hx, hop])
    rcases hb : (w.ops[o]?).bind TEOp.system with _ | s'
    · exact stop (by simp [next, hx, hop, hb]) (by simp only [reach, if_neg hm, hx, hop, hb])
    have e : w.reach (fuel + 1) s acc = w.reach fuel s' (acc ++ [s]) := by simp only [reach, if_neg hm, hx, hop, hb]
    have hnext : w.next s = some s' := by simp [next, hx, hop, hb]
    rw [e]
    obtain ⟨h1, h2, h3, h4, h5⟩ := ih s' (acc ++ [s]) nd' val' (next_closed cl hnext) (fun r hr q hq => by
      rcases List.mem_append.1 hr with h | h
      · rcases hn r h q hq with h | rfl
        · exact .inl (List.mem_append_left _ h)
        · exact .inl (by simp)
      · rw [List.mem_singleton.1 h, hnext] at hq
        exact .inr (Option.some.inj hq).symm) (by rw [List.length_append, List.length_singleton]; omega)
    exact ⟨h1, h2, h3, h5 (by simp), fun r hr => h5 (List.mem_append_left _ hr)⟩

/-! ## Copies -/

theorem filterMap_get {α : Type} {l : List ℕ} {f : ℕ → Option α} (h : ∀ a ∈ l, ∃ b, f a = some b) (i : ℕ) :
    (l.filterMap f)[i]? = (l[i]?).bind f := by
  induction l generalizing i with
  | nil => simp
  | cons a l ih =>
    obtain ⟨b, hb⟩ := h a (by simp)
    rw [List.filterMap_cons_some hb]
    cases i with
    | zero => simp [hb]
    | succ i => simpa using ih (fun a ha => h a (by simp [ha])) i

theorem rename_get {α : Type} {m : List α} {l : List ℕ} {f : ℕ → Option α} (h : ∀ a ∈ l, ∃ b, f a = some b) {r : ℕ} (hr : r ∈ l) :
    (m ++ l.filterMap f)[rename m.length l r]? = f r := by
  rw [rename, if_pos hr, List.getElem?_append_right (by omega), Nat.add_sub_cancel_left, filterMap_get h,
    List.getElem?_idxOf hr]
  rfl

theorem rename_inj {base r r' : ℕ} {l : List ℕ} (h : r ∈ l) (h' : r' ∈ l) (e : rename base l r = rename base l r') : r = r' := by
  rw [rename, if_pos h, rename, if_pos h'] at e
  exact (List.idxOf_inj h).1 (by omega)

/-- The world while the modules are removed. -/
def bare (w : World K T) (s : ℕ) (x : Sys) (c : BasisSet K) : World K T :=
  { bases := w.bases.set x.basis { c with np := none }
    systems := w.systems.set s { x with np := none }, ops := w.ops }

/-- The systems copied by `copy_system`. -/
def copiedSystems (w : World K T) (s : ℕ) (x : Sys) (c : BasisSet K) : List ℕ :=
  (bare w s x c).reach (w.systems.length + 1) s []

/-- The world after `copy.deepcopy`. -/
def deepCopied (w : World K T) (s : ℕ) (x : Sys) (c : BasisSet K) : World K T :=
  (bare w s x c).copyObjects (copiedSystems w s x c) ((bare w s x c).reachBases (copiedSystems w s x c)).dedup
    ((bare w s x c).reachOps (copiedSystems w s x c)).dedup

theorem changeModule_none {c : BasisSet K} {l : ℕ} (wf : WellFormed c l) {m : Module} (hm : c.np = some m) :
    (BasisSet.changeModule (some m)).run ({ c with np := none } : BasisSet K) = (.ok (), withBra c) := by
  have h1 := changeModule_run wf (some m)
  have h2 : (BasisSet.changeModule (some m)).run ({ c with np := none } : BasisSet K) =
      (BasisSet.changeModule (some m)).run c := by
    have hn := not_two wf
    have hn' : ({ c with np := none } : BasisSet K).uRepr ≠ .two := hn
    simp only [BasisSet.changeModule, PyM.run_bind, run_get, hn, hn', and_false, if_false,
      changeModuleBase, run_modify]
  rw [h2, h1]
  simp only [Prod.mk.injEq, true_and]
  show ({ withBra c with np := some m } : BasisSet K) = withBra c
  rw [← hm]; rfl

section
variable {w : World K T} {s : ℕ} {x : Sys} {c : BasisSet K}

theorem bare_sys (hx : w.systems[s]? = some x) (j : ℕ) {z : Sys} (hz : w.systems[j]? = some z) :
    ∃ z', (bare w s x c).systems[j]? = some z' ∧ z'.basis = z.basis ∧ z'.op = z.op ∧ (j ≠ s → z' = z) := by
  by_cases h : j = s
  · subst h
    obtain rfl := Option.some.inj (hx.symm.trans hz)
    exact ⟨_, get_set hx _, rfl, rfl, fun h => (h rfl).elim⟩
  · exact ⟨z, (get_set_ne h _).trans hz, rfl, rfl, fun _ => rfl⟩

theorem bare_sys' (hx : w.systems[s]? = some x) (j : ℕ) {z' : Sys} (hz : (bare w s x c).systems[j]? = some z') :
    ∃ z, w.systems[j]? = some z ∧ z'.basis = z.basis ∧ z'.op = z.op := by
  have : j < w.systems.length := by simpa [bare] using lt_of_get hz
  obtain ⟨z, e⟩ : ∃ z, w.systems[j]? = some z := ⟨_, List.getElem?_eq_getElem this⟩
  obtain ⟨z'', h1, h2, h3, -⟩ := bare_sys (c := c) hx j e
  obtain rfl := Option.some.inj (h1.symm.trans hz)
  exact ⟨z, e, h2, h3⟩

theorem bare_closed (cl : w.Closed) (hx : w.systems[s]? = some x) (hc : w.bases[x.basis]? = some c) : (bare w s x c).Closed := by
  refine ⟨fun j z' hz' => ?_, fun j z' o hz' ho => ?_, fun o y q hy hq => ?_⟩
  · obtain ⟨z, hz, hb, -⟩ := bare_sys' hx j hz'
    obtain ⟨d, hd⟩ := cl.basis j z hz
    rw [hb]
    by_cases h : z.basis = x.basis
    · rw [h]; exact ⟨_, get_set hc _⟩
    · exact ⟨d, (get_set_ne h _).trans hd⟩
  · obtain ⟨z, hz, -, hb⟩ := bare_sys' hx j hz'
    exact cl.op j z o hz (hb ▸ ho)
  · obtain ⟨z, hz⟩ := cl.sys o y q hy hq
    obtain ⟨z', h, -⟩ := bare_sys (c := c) hx q hz
    exact ⟨z', h⟩

theorem copied_facts (cl : w.Closed) (hx : w.systems[s]? = some x) (hc : w.bases[x.basis]? = some c) :
    (∀ r ∈ copiedSystems w s x c, ∃ z, (bare w s x c).systems[r]? = some z) ∧
      (∀ r ∈ copiedSystems w s x c, ∀ q, (bare w s x c).next r = some q → q ∈ copiedSystems w s x c) ∧
      s ∈ copiedSystems w s x c := by
  have h := reach_closed (bare_closed cl hx hc) (w.systems.length + 1) s [] List.nodup_nil (by simp)
    ⟨_, get_set hx _⟩ (by simp) (by simp [bare])
  exact ⟨h.2.1, h.2.2.1, h.2.2.2.1⟩

/-- The world after `copy.deepcopy` and `change_module` of the copy. -/
def halfCopy (w : World K T) (s : ℕ) (x : Sys) (c : BasisSet K) : World K T :=
  { (deepCopied w s x c) with
    bases := (deepCopied w s x c).bases.set
      (rename w.bases.length ((bare w s x c).reachBases (copiedSystems w s x c)).dedup x.basis) (withBra c)
    systems := (deepCopied w s x c).systems.set (rename w.systems.length (copiedSystems w s x c) s)
      { x with
        basis := rename w.bases.length ((bare w s x c).reachBases (copiedSystems w s x c)).dedup x.basis
        op := x.op.map (rename w.ops.length ((bare w s x c).reachOps (copiedSystems w s x c)).dedup) } }

/-- The world after `copy_system`. -/
def sharedCopy (w : World K T) (s : ℕ) (x : Sys) (c : BasisSet K) : World K T :=
  { (halfCopy w s x c) with
    bases := (halfCopy w s x c).bases.set x.basis (withBra c)
    systems := (halfCopy w s x c).systems.set s x }

theorem mem_bases {r : ℕ} {z : Sys} (hr : r ∈ copiedSystems w s x c) (hz : (bare w s x c).systems[r]? = some z) :
    z.basis ∈ ((bare w s x c).reachBases (copiedSystems w s x c)).dedup := by
  rw [List.mem_dedup, reachBases, List.mem_filterMap]
  exact ⟨r, hr, by rw [hz]; rfl⟩

theorem mem_ops {r o : ℕ} {z : Sys} (hr : r ∈ copiedSystems w s x c) (hz : (bare w s x c).systems[r]? = some z) (ho : z.op = some o) :
    o ∈ ((bare w s x c).reachOps (copiedSystems w s x c)).dedup := by
  rw [List.mem_dedup, reachOps, List.mem_filterMap]
  exact ⟨r, hr, by rw [hz]; exact ho⟩

/-- The copied systems. -/
theorem deepCopied_sys (cl : w.Closed) (hx : w.systems[s]? = some x) (hc : w.bases[x.basis]? = some c) {r : ℕ} {z : Sys}
    (hr : r ∈ copiedSystems w s x c) (hz : (bare w s x c).systems[r]? = some z) :
    (deepCopied w s x c).systems[rename w.systems.length (copiedSystems w s x c) r]? =
      some { z with
        basis := rename w.bases.length ((bare w s x c).reachBases (copiedSystems w s x c)).dedup z.basis
        op := z.op.map (rename w.ops.length ((bare w s x c).reachOps (copiedSystems w s x c)).dedup) } := by
  have hl : (bare w s x c).systems.length = w.systems.length := by simp [bare]
  have hl' : (bare w s x c).bases.length = w.bases.length := by simp [bare]
  rw [deepCopied, copyObjects, ← hl, rename_get (fun a ha => ?_) hr, hz, hl']
  · rfl
  · obtain ⟨z, hz⟩ := (copied_facts cl hx hc).1 a ha
    exact ⟨_, by rw [hz]; rfl⟩

/-- The copied basis sets. -/
theorem deepCopied_basis (cl : w.Closed) (hx : w.systems[s]? = some x) (hc : w.bases[x.basis]? = some c) {i : ℕ}
    (hi : i ∈ ((bare w s x c).reachBases (copiedSystems w s x c)).dedup) :
    (deepCopied w s x c).bases[rename w.bases.length ((bare w s x c).reachBases (copiedSystems w s x c)).dedup i]? =
      (bare w s x c).bases[i]? := by
  have hl' : (bare w s x c).bases.length = w.bases.length := by simp [bare]
  rw [deepCopied, copyObjects, ← hl', rename_get (fun a ha => ?_) hi]
  rw [List.mem_dedup, reachBases, List.mem_filterMap] at ha
  obtain ⟨r, -, hr⟩ := ha
  simp only [Option.map_eq_some_iff] at hr
  obtain ⟨z, hz, rfl⟩ := hr
  exact (bare_closed cl hx hc).basis r z hz

/-- The copied operators. -/
theorem deepCopied_op (cl : w.Closed) (hx : w.systems[s]? = some x) (hc : w.bases[x.basis]? = some c) {o : ℕ} {y : TEOp K T}
    (ho : o ∈ ((bare w s x c).reachOps (copiedSystems w s x c)).dedup) (hy : w.ops[o]? = some y) :
    (deepCopied w s x c).ops[rename w.ops.length ((bare w s x c).reachOps (copiedSystems w s x c)).dedup o]? =
      some { y with system := y.system.map (rename w.systems.length (copiedSystems w s x c)) } := by
  have hl : (bare w s x c).systems.length = w.systems.length := by simp [bare]
  have h0 : (bare w s x c).ops = w.ops := rfl
  rw [deepCopied, copyObjects, ← h0, rename_get (fun a ha => ?_) ho, h0, hy, hl]
  · rfl
  · rw [List.mem_dedup, reachOps, List.mem_filterMap] at ha
    obtain ⟨r, -, hr⟩ := ha
    simp only [Option.bind_eq_some_iff] at hr
    obtain ⟨z, hz, hr⟩ := hr
    obtain ⟨y, hy⟩ := (bare_closed cl hx hc).op r z a hz hr
    exact ⟨_, by rw [hy]; rfl⟩

/-- What `copy_system` does, whatever objects are shared. -/
theorem copySystem_shared (cl : w.Closed) (ok : SysOK w s x c) :
    (copySystem s).run w = if (bare w s x c).holdsModule (copiedSystems w s x c) then (.error .type, bare w s x c)
      else (.ok (rename w.systems.length (copiedSystems w s x c) s), sharedCopy w s x c) := by
  obtain ⟨m, hm⟩ := ok.wf.np
  have hxnp : x.np = some m := ok.np.trans hm
  have hl : (bare w s x c).systems.length = w.systems.length := by simp [bare]
  have hs0 := (copied_facts cl ok.sys ok.basis).2.2
  have hb0 : (bare w s x c).systems[s]? = some { x with np := none } := get_set ok.sys _
  have hb1 : (bare w s x c).bases[x.basis]? = some { c with np := none } := get_set ok.basis _
  unfold copySystem
  rw [run_bind_ok (getSys_run ok.sys), run_bind_ok (setSys_run _ _ _)]
  have e1 : (onBasis x.basis (PyM.modify fun b : BasisSet K => { b with np := none })).run
      ({ w with systems := w.systems.set s { x with np := none } } : World K T) = (.ok (), bare w s x c) := by
    rw [onBasis_run (by exact ok.basis)]
    rfl
  rw [run_bind_ok e1]
  by_cases hmod : (bare w s x c).holdsModule (copiedSystems w s x c) = true
  · have hdc : (deepcopySystem s).run (bare w s x c) = (.error .type, bare w s x c) := by
      unfold deepcopySystem
      simp only [PyM.run_bind, run_get, hl]
      rw [copiedSystems] at hmod
      simp only [hmod, if_true, run_raise]
    rw [if_pos hmod, PyM.run_bind, hdc]
  have hdc : (deepcopySystem s).run (bare w s x c) =
      (.ok (rename w.systems.length (copiedSystems w s x c) s), deepCopied w s x c) := by
    unfold deepcopySystem
    simp only [PyM.run_bind, run_get, hl]
    rw [copiedSystems] at hmod
    simp only [hmod, Bool.false_eq_true, if_false, run_modify, run_pure]
    rfl
  rw [if_neg hmod, run_bind_ok hdc, hxnp]
  have h1 := deepCopied_sys cl ok.sys ok.basis hs0 hb0
  have h2 := (deepCopied_basis cl ok.sys ok.basis (mem_bases hs0 hb0)).trans hb1
  have hlts := lt_of_get ok.sys
  have hltb := lt_of_get ok.basis
  have hne1 : rename w.systems.length (copiedSystems w s x c) s ≠ s := by
    have := rename_ge (base := w.systems.length) hs0; omega
  have hne2 : rename w.bases.length ((bare w s x c).reachBases (copiedSystems w s x c)).dedup x.basis ≠ x.basis := by
    have := rename_ge (base := w.bases.length) (mem_bases hs0 hb0); dsimp only at this; omega
  have hcm := changeModule_none ok.wf hm
  have e2 : (World.changeModule (rename w.systems.length (copiedSystems w s x c) s) (some m)).run (deepCopied w s x c) =
      (.ok (), halfCopy w s x c) := by
    unfold World.changeModule
    rw [run_bind_ok (getSys_run h1), run_bind_ok (setSys_run _ _ _)]
    rw [onBasis_run (by exact h2), hcm, ← hxnp]
    rfl
  rw [run_bind_ok e2]
  have h3 : (halfCopy w s x c).systems[s]? = some { x with np := none } := by
    rw [halfCopy]; dsimp only
    rw [get_set_ne hne1.symm]
    exact get_append hb0 _
  have h4 : (halfCopy w s x c).bases[x.basis]? = some { c with np := none } := by
    rw [halfCopy]; dsimp only
    rw [get_set_ne hne2.symm]
    exact get_append hb1 _
  have e3 : (World.changeModule s (some m)).run (halfCopy w s x c) = (.ok (), sharedCopy w s x c) := by
    unfold World.changeModule
    rw [run_bind_ok (getSys_run h3), run_bind_ok (setSys_run _ _ _)]
    rw [onBasis_run (by exact h4), hcm]
    show _ = (Except.ok (), sharedCopy w s x c)
    rw [show ({ x with np := some m } : Sys) = x by rw [← hxnp]]
    rfl
  rw [run_bind_ok e3]
  have h5 : (sharedCopy w s x c).systems[s]? = some x := get_set h3 _
  have h6 : (sharedCopy w s x c).bases[x.basis]? = some (withBra c) := get_set h4 _
  rw [run_bind_ok (getSys_run h5), hxnp]
  simp only [PyM.assert, decide_true, if_true, PyM.run_bind, run_pure, getBasis_run h6]
  rw [show (withBra c).np = some m from hm]
  simp [run_pure]

/-! ## What is copied -/

theorem next_iff {w : World K T} {r q : ℕ} : w.next r = some q ↔ w.Leads r q := by
  unfold next Leads
  simp only [Option.bind_eq_some_iff]

theorem bare_next (hx : w.systems[s]? = some x) (r : ℕ) : (bare w s x c).next r = w.next r := by
  unfold next
  show ((bare w s x c).systems[r]?).bind _ = _
  rcases h : w.systems[r]? with _ | z
  · have : (bare w s x c).systems[r]? = none := by
      rw [List.getElem?_eq_none_iff] at h ⊢
      simpa [bare] using h
    rw [this]; rfl
  · obtain ⟨z', h1, -, h2, -⟩ := bare_sys (c := c) hx r h
    rw [h1, Option.bind_some, Option.bind_some, h2]
    rfl

theorem reach_sound {w : World K T} {a : ℕ} (fuel s : ℕ) (acc : List ℕ) (ha : ∀ r ∈ acc, w.Reaches a r) (hs : w.Reaches a s) :
    ∀ r ∈ w.reach fuel s acc, w.Reaches a r := by
  induction fuel generalizing s acc with
  | zero => exact ha
  | succ fuel ih =>
    have app : ∀ r ∈ acc ++ [s], w.Reaches a r := fun r hr => by
      rcases List.mem_append.1 hr with h | h
      · exact ha r h
      · rw [List.mem_singleton.1 h]; exact hs
    unfold reach
    split
    · exact ha
    split
    · exact ha
    split
    · exact app
    split
    · exact app
    · rename_i _ x hx _ o ho _ q hq
      refine ih q _ app (hs.step ?_)
      rw [← next_iff]
      simp [next, hx, ho, hq]

theorem reaches_bare (hx : w.systems[s]? = some x) {r : ℕ} : (bare w s x c).Reaches s r ↔ w.Reaches s r := by
  constructor
  · intro h
    induction h with
    | refl => exact .refl
    | step _ h2 ih => exact ih.step (by rw [← next_iff, ← bare_next (c := c) hx, next_iff]; exact h2)
  · intro h
    induction h with
    | refl => exact .refl
    | step _ h2 ih => exact ih.step (by rw [← next_iff, bare_next (c := c) hx, next_iff]; exact h2)

/-- Exactly the systems that can be reached are copied. -/
theorem mem_copied (cl : w.Closed) (hx : w.systems[s]? = some x) (hc : w.bases[x.basis]? = some c) {r : ℕ} :
    r ∈ copiedSystems w s x c ↔ w.Reaches s r := by
  constructor
  · intro h
    rw [← reaches_bare (c := c) hx]
    exact reach_sound _ s [] (by simp) .refl r h
  · intro h
    obtain ⟨-, h2, h3⟩ := copied_facts cl hx hc
    induction h with
    | refl => exact h3
    | step _ h ih => exact h2 _ ih _ (by rw [bare_next hx, next_iff]; exact h)

end

end World

end QS
