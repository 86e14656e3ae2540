import Verif.Lemmas.SystemMemory
import Verif.Props.FockAlias

/-!
# Property C142: which arrays `h_t` and `u_t` hand out, and the Fock matrices of many times
-/

namespace QS.Props

open NDArray PyM Finset World

variable {K T : Type} [PyScalar K] {w w' : HWorld K T} {s : ℕ} {t : T} {x : Sys} {b : HBasis K}

/-! ### the two models agree -/

/-- **C142** `h_t` on array objects is `h_t` on array values: same exception, or an array with the same
contents; the same operator objects afterwards; every array object, basis set and system as before. -/
theorem C142_h_t (ok : w.Ok) (s : ℕ) (t : T) :
    ((World.hT s t).run w.view).1 =
      ((HWorld.hT s t).run w).1.map (fun r => ((HWorld.hT s t).run w).2.mem.val r) ∧
    ((HWorld.hT s t).run w).2.view = ((World.hT s t).run w.view).2 ∧
    ((HWorld.hT s t).run w).2.bases = w.bases ∧ ((HWorld.hT s t).run w).2.systems = w.systems ∧
    w.mem <+: ((HWorld.hT s t).run w).2.mem :=
  let r := HWorld.ref_hT ok s t
  ⟨r.out, r.view, r.bases, r.systems, r.mem⟩

/-- **C142** The same for `u_t`. -/
theorem C142_u_t (ok : w.Ok) (s : ℕ) (t : T) :
    ((World.uT s t).run w.view).1 =
      ((HWorld.uT s t).run w).1.map (fun r => ((HWorld.uT s t).run w).2.mem.val r) ∧
    ((HWorld.uT s t).run w).2.view = ((World.uT s t).run w.view).2 ∧
    ((HWorld.uT s t).run w).2.bases = w.bases ∧ ((HWorld.uT s t).run w).2.systems = w.systems ∧
    w.mem <+: ((HWorld.uT s t).run w).2.mem :=
  let r := HWorld.ref_uT ok s t
  ⟨r.out, r.view, r.bases, r.systems, r.mem⟩

/-! ### which array it is -/

/-- Every operator that the system holds has been given this system (`set_time_evolution_operator`
does that). -/
def OwnOperator (w : HWorld K T) (s : ℕ) (x : Sys) : Prop :=
  ∀ o, x.op = some o → ∃ y, w.ops[o]? = some y ∧ y.system = some s

/-- What `has_one_body_time_evolution_operator` answers. -/
def OneBody (w : HWorld K T) (s : ℕ) (c : Bool) : Prop :=
  ((World.hasOneBody s).run w.view).1 = .ok c

/-- What `has_two_body_time_evolution_operator` answers. -/
def TwoBody (w : HWorld K T) (s : ℕ) (c : Bool) : Prop :=
  ((World.hasTwoBody s).run w.view).1 = .ok c

theorem run_h (hx : w.systems[s]? = some x) (hb : w.bases[x.basis]? = some b) :
    (HWorld.h s).run w = (.ok b.h, w) := by
  simp only [HWorld.h, HWorld.basisOf, PyM.run_bind, run_get, run_liftM, hx, hb, orErr, run_pure]

theorem run_u (hx : w.systems[s]? = some x) (hb : w.bases[x.basis]? = some b) :
    (HWorld.u s).run w = (.ok b.u, w) := by
  simp only [HWorld.u, HWorld.basisOf, PyM.run_bind, run_get, run_liftM, hx, hb, orErr, run_pure]

theorem hT_op {o : ℕ} {y : TEOp K T} (hx : w.systems[s]? = some x) (ho : x.op = some o)
    (hy : w.ops[o]? = some y) (hs : y.system = some s) :
    (HWorld.hT s t).run w = (match y.kind with
      | .base => HWorld.h s
      | .adiabatic _ => HWorld.h s
      | .laser _ _ => do
        let x ← HWorld.reading (World.laserHT o s t)
        let r ← HWorld.new x
        pure (some r)
      | .custom _ _ => do
        let x ← HWorld.reading (World.customHT o s t)
        let r ← HWorld.new x
        pure (some r) : PyM (HWorld K T) (Option ℕ)).run w := by
  rw [HWorld.hT]
  simp only [PyM.run_bind, run_get, run_liftM, hx, ho, orErr]
  rw [HWorld.opHT]
  simp only [PyM.run_bind, run_get, run_liftM, hy, hs, orErr]
  cases y.kind <;> rfl

theorem uT_op {o : ℕ} {y : TEOp K T} (hx : w.systems[s]? = some x) (ho : x.op = some o)
    (hy : w.ops[o]? = some y) (hs : y.system = some s) :
    (HWorld.uT s t).run w = (match y.kind with
      | .adiabatic f => do
        let c ← liftM (f.call y.cells t)
        let us ← HWorld.u s
        let us ← liftM (orErr .type (w.mem.val us))
        let x ← liftM (c.mul us)
        let r ← HWorld.new x
        pure (some r)
      | _ => HWorld.u s : PyM (HWorld K T) (Option ℕ)).run w := by
  rw [HWorld.uT]
  simp only [PyM.run_bind, run_get, run_liftM, hx, ho, orErr]
  rw [HWorld.opUT]
  simp only [PyM.run_bind, run_get, run_liftM, hy, hs, orErr]
  cases y.kind <;> rfl

theorem reading_new_ref {p : PyM (World K T) (NDArray K)} {r : Option ℕ}
    (h : ((do let x ← HWorld.reading p; let r ← HWorld.new x; pure (some r)) :
      PyM (HWorld K T) _).run w = (.ok r, w')) : r = some w.mem.length := by
  rw [PyM.run_bind, HWorld.run_reading] at h
  rcases hr : p.run w.view with ⟨e | a, v⟩
  · rw [hr] at h; cases h
  · rw [hr] at h
    have := (Prod.ext_iff.1 h).1
    exact (Except.ok.inj this).symm

/-- **C142** Without a one-body operator, `h_t` returns the array object of the basis set itself. -/
theorem C142_live_h (hx : w.systems[s]? = some x) (hb : w.bases[x.basis]? = some b)
    (own : OwnOperator w s x) (flag : OneBody w s false) (t : T) :
    (HWorld.hT s t).run w = (.ok b.h, w) := by
  rcases ho : x.op with _ | o
  · rw [HWorld.hT]
    simp only [PyM.run_bind, run_get, run_liftM, hx, ho, orErr]
    exact run_h hx hb
  · obtain ⟨y, hy, hs⟩ := own o ho
    rw [hT_op hx ho hy hs]
    have hx' : (w.view).systems[s]? = some x := hx
    have hy' : (w.view).ops[o]? = some y := hy
    have hf : (opFlags y.kind).1 = false := by
      simpa only [OneBody, hasOneBody, PyM.run_bind, getSys_run hx', ho, getOp_run hy', run_pure,
        Except.ok.injEq] using flag
    rcases hk : y.kind with _ | ⟨p, e⟩ | f | ⟨p, a⟩
    · exact run_h hx hb
    · rw [hk] at hf; cases hf
    · exact run_h hx hb
    · rw [hk] at hf; cases hf

/-- **C142** With a one-body operator, `h_t` returns a new array object. -/
theorem C142_new_h (hx : w.systems[s]? = some x) (own : OwnOperator w s x)
    (flag : OneBody w s true) {r : Option ℕ} (run : (HWorld.hT s t).run w = (.ok r, w')) :
    r = some w.mem.length := by
  have hx' : (w.view).systems[s]? = some x := hx
  rcases ho : x.op with _ | o
  · simp only [OneBody, hasOneBody, PyM.run_bind, getSys_run hx', ho, run_pure] at flag
    cases flag
  · obtain ⟨y, hy, hs⟩ := own o ho
    rw [hT_op hx ho hy hs] at run
    have hy' : (w.view).ops[o]? = some y := hy
    have hf : (opFlags y.kind).1 = true := by
      simpa only [OneBody, hasOneBody, PyM.run_bind, getSys_run hx', ho, getOp_run hy', run_pure,
        Except.ok.injEq] using flag
    rcases hk : y.kind with _ | ⟨p, e⟩ | f | ⟨p, a⟩
    · rw [hk] at hf; cases hf
    · rw [hk] at run; exact reading_new_ref run
    · rw [hk] at hf; cases hf
    · rw [hk] at run; exact reading_new_ref run

/-- **C142** Without a two-body operator, `u_t` returns the array object of the basis set itself. -/
theorem C142_live_u (hx : w.systems[s]? = some x) (hb : w.bases[x.basis]? = some b)
    (own : OwnOperator w s x) (flag : TwoBody w s false) (t : T) :
    (HWorld.uT s t).run w = (.ok b.u, w) := by
  rcases ho : x.op with _ | o
  · rw [HWorld.uT]
    simp only [PyM.run_bind, run_get, run_liftM, hx, ho, orErr]
    exact run_u hx hb
  · obtain ⟨y, hy, hs⟩ := own o ho
    rw [uT_op hx ho hy hs]
    have hx' : (w.view).systems[s]? = some x := hx
    have hy' : (w.view).ops[o]? = some y := hy
    have hf : (opFlags y.kind).2 = false := by
      simpa only [TwoBody, hasTwoBody, PyM.run_bind, getSys_run hx', ho, getOp_run hy', run_pure,
        Except.ok.injEq] using flag
    rcases hk : y.kind with _ | ⟨p, e⟩ | f | ⟨p, a⟩
    · exact run_u hx hb
    · exact run_u hx hb
    · rw [hk] at hf; cases hf
    · exact run_u hx hb

/-- **C142** With a two-body operator, `u_t` returns a new array object. -/
theorem C142_new_u (hx : w.systems[s]? = some x) (own : OwnOperator w s x)
    (flag : TwoBody w s true) {r : Option ℕ} (run : (HWorld.uT s t).run w = (.ok r, w')) :
    r = some w.mem.length := by
  have hx' : (w.view).systems[s]? = some x := hx
  rcases ho : x.op with _ | o
  · simp only [TwoBody, hasTwoBody, PyM.run_bind, getSys_run hx', ho, run_pure] at flag
    cases flag
  · obtain ⟨y, hy, hs⟩ := own o ho
    rw [uT_op hx ho hy hs] at run
    have hy' : (w.view).ops[o]? = some y := hy
    have hf : (opFlags y.kind).2 = true := by
      simpa only [TwoBody, hasTwoBody, PyM.run_bind, getSys_run hx', ho, getOp_run hy', run_pure,
        Except.ok.injEq] using flag
    rcases hk : y.kind with _ | ⟨p, e⟩ | f | ⟨p, a⟩
    · rw [hk] at hf; cases hf
    · rw [hk] at hf; cases hf
    · rw [hk] at run
      simp only at run
      obtain ⟨c, w1, h1, r1⟩ := run_bind_eq_ok.1 run
      obtain ⟨us, w2, h2, r2⟩ := run_bind_eq_ok.1 r1
      obtain ⟨U, w3, h3, r3⟩ := run_bind_eq_ok.1 r2
      obtain ⟨z, w4, h4, r4⟩ := run_bind_eq_ok.1 r3
      obtain rfl : w = w1 := (Prod.ext_iff.1 h1).2
      have h2' : w2 = w := by
        rcases hb : w.bases[x.basis]? with _ | b
        · simp only [HWorld.u, HWorld.basisOf, PyM.run_bind, run_get, run_liftM, hx, hb, orErr] at h2
          cases h2
        · rw [run_u hx hb] at h2
          exact (Prod.ext_iff.1 h2).2.symm
      obtain rfl : w2 = w3 := (Prod.ext_iff.1 h3).2
      obtain rfl : w2 = w4 := (Prod.ext_iff.1 h4).2
      subst h2'
      have := (Prod.ext_iff.1 r4).1
      exact (Except.ok.inj this).symm
    · rw [hk] at hf; cases hf

/-! ### what a write into the returned array does -/

/-- A write into an array to which no basis set refers is not seen in any basis set. -/
theorem view_poke {r : ℕ} (X : NDArray K) (h : ∀ b ∈ w.bases, some r ∉ b.slots) :
    (w.poke r X).view.bases = w.view.bases := by
  show w.bases.map _ = w.bases.map _
  refine List.map_congr_left fun b hb => ?_
  have key : ∀ q ∈ b.slots, Mem.val (w.mem.set r X) q = w.mem.val q := by
    intro q hq
    cases q with
    | none => rfl
    | some i =>
      have hne : r ≠ i := by
        rintro rfl
        exact h b hb hq
      show (w.mem.set r X)[i]? = w.mem[i]?
      rw [List.getElem?_set_ne hne]
  simp only [HBasis.slots, List.forall_mem_cons] at key
  simp only [HBasis.view, HWorld.poke, key]

/-- **C142** Whoever writes into the array that `h_t` has returned changes the Hamiltonian of the system
exactly if there is no one-body operator: then `system.h` shows the new contents `X`; otherwise no
attribute of any basis set changes. -/
theorem C142_write_h (ok : w.Ok) (hx : w.systems[s]? = some x) (hb : w.bases[x.basis]? = some b)
    (own : OwnOperator w s x) {c : Bool} (flag : OneBody w s c) {r : ℕ}
    (run : (HWorld.hT s t).run w = (.ok (some r), w')) (X : NDArray K) :
    (c = false → ((World.h s).run (w'.poke r X).view).1 = .ok (some X)) ∧
    (c = true → (w'.poke r X).view.bases = w.view.bases) := by
  constructor
  · rintro rfl
    rw [C142_live_h hx hb own flag] at run
    obtain ⟨h1, h2⟩ := Prod.ext_iff.1 run
    obtain rfl : w = w' := h2
    have hr : b.h = some r := Except.ok.inj h1
    have hl : r < w.mem.length :=
      ok b (List.mem_of_getElem? hb) r (by simp [HBasis.slots, hr])
    have hx' : (w.poke r X).view.systems[s]? = some x := hx
    have hb' : (w.poke r X).view.bases[x.basis]? = some (b.view (w.mem.set r X)) := by
      show (w.bases.map _)[x.basis]? = _
      rw [List.getElem?_map, hb]
      rfl
    rw [h_run hx' hb']
    show Except.ok (Mem.val (w.mem.set r X) b.h) = _
    rw [hr]
    show Except.ok ((w.mem.set r X)[r]?) = _
    rw [List.getElem?_set_self hl]
  · rintro rfl
    obtain ⟨-, -, hbs, -, hm⟩ := C142_h_t ok s t
    rw [run] at hbs hm
    have hr := Option.some.inj (C142_new_h hx own flag run)
    rw [view_poke]
    · show w'.bases.map _ = w.bases.map _
      rw [show w'.bases = w.bases from hbs]
      exact List.map_congr_left fun b hb => view_prefix hm (ok b hb)
    · intro b hb hc
      rw [show w'.bases = w.bases from hbs] at hb
      exact absurd (ok b hb r hc) (by omega)

/-- **C142** The same for `u_t` and a two-body operator (`AdiabaticSwitching`). -/
theorem C142_write_u (ok : w.Ok) (hx : w.systems[s]? = some x) (hb : w.bases[x.basis]? = some b)
    (own : OwnOperator w s x) {c : Bool} (flag : TwoBody w s c) {r : ℕ}
    (run : (HWorld.uT s t).run w = (.ok (some r), w')) (X : NDArray K) :
    (c = false → ((World.u s).run (w'.poke r X).view).1 = .ok (some X)) ∧
    (c = true → (w'.poke r X).view.bases = w.view.bases) := by
  constructor
  · rintro rfl
    rw [C142_live_u hx hb own flag] at run
    obtain ⟨h1, h2⟩ := Prod.ext_iff.1 run
    obtain rfl : w = w' := h2
    have hr : b.u = some r := Except.ok.inj h1
    have hl : r < w.mem.length :=
      ok b (List.mem_of_getElem? hb) r (by simp [HBasis.slots, hr])
    have hx' : (w.poke r X).view.systems[s]? = some x := hx
    have hb' : (w.poke r X).view.bases[x.basis]? = some (b.view (w.mem.set r X)) := by
      show (w.bases.map _)[x.basis]? = _
      rw [List.getElem?_map, hb]
      rfl
    rw [u_run hx' hb']
    show Except.ok (Mem.val (w.mem.set r X) b.u) = _
    rw [hr]
    show Except.ok ((w.mem.set r X)[r]?) = _
    rw [List.getElem?_set_self hl]
  · rintro rfl
    obtain ⟨-, -, hbs, -, hm⟩ := C142_u_t ok s t
    rw [run] at hbs hm
    have hr := Option.some.inj (C142_new_u hx own flag run)
    rw [view_poke]
    · show w'.bases.map _ = w.bases.map _
      rw [show w'.bases = w.bases from hbs]
      exact List.map_congr_left fun b hb => view_prefix hm (ok b hb)
    · intro b hb hc
      rw [show w'.bases = w.bases from hbs] at hb
      exact absurd (ok b hb r hc) (by omega)

end QS.Props
