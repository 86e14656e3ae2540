import Verif.Lemmas.Memory
import Verif.Lemmas.TimeEvolution
import Verif.Model.SystemMemory

/-! # Array objects of a system (helper file) -/

namespace QS

open PyM

variable {K T : Type} [PyScalar K] {α β : Type}

namespace World

/-- A call that changes operator objects only. -/
def OnlyOps (p : PyM (World K T) α) : Prop :=
  ∀ w, (p.run w).2.bases = w.bases ∧ (p.run w).2.systems = w.systems

theorem onlyOps_of_state {p : PyM (World K T) α} (h : ∀ w, (p.run w).2 = w) : OnlyOps p :=
  fun w => by rw [h w]; exact ⟨rfl, rfl⟩

theorem onlyOps_bind {p : PyM (World K T) α} {f : α → PyM (World K T) β} (h : OnlyOps p)
    (hf : ∀ a, OnlyOps (f a)) : OnlyOps (p >>= f) := by
  intro w
  obtain ⟨h1, h2⟩ := h w
  rw [PyM.run_bind]
  rcases hr : p.run w with ⟨_ | a, w'⟩
  · rw [hr] at h1 h2; exact ⟨h1, h2⟩
  · rw [hr] at h1 h2
    obtain ⟨h3, h4⟩ := hf a w'
    exact ⟨h3.trans h1, h4.trans h2⟩

theorem onlyOps_pure (a : α) : OnlyOps (pure a : PyM (World K T) α) := onlyOps_of_state fun _ => rfl
theorem onlyOps_raise (e : PyErr) : OnlyOps (raise e : PyM (World K T) α) :=
  onlyOps_of_state fun _ => rfl
theorem onlyOps_lift (x : Except PyErr α) : OnlyOps (liftM x : PyM (World K T) α) :=
  onlyOps_of_state fun _ => rfl
theorem onlyOps_getSys (i : ℕ) : OnlyOps (getSys i : PyM (World K T) Sys) :=
  onlyOps_of_state fun w => by simp only [getSys, PyM.run_bind, run_get]; rfl
theorem onlyOps_getBasis (i : ℕ) : OnlyOps (getBasis i : PyM (World K T) (BasisSet K)) :=
  onlyOps_of_state fun w => by simp only [getBasis, PyM.run_bind, run_get]; rfl
theorem onlyOps_getOp (i : ℕ) : OnlyOps (getOp i : PyM (World K T) (TEOp K T)) :=
  onlyOps_of_state fun w => by simp only [getOp, PyM.run_bind, run_get]; rfl
theorem onlyOps_setOp (i : ℕ) (y : TEOp K T) : OnlyOps (setOp i y : PyM (World K T) Unit) :=
  fun _ => ⟨rfl, rfl⟩
theorem onlyOps_h (s : ℕ) : OnlyOps (World.h s : PyM (World K T) _) :=
  onlyOps_bind (onlyOps_getSys _) fun _ => onlyOps_bind (onlyOps_getBasis _) fun _ => onlyOps_pure _
theorem onlyOps_dipole (s : ℕ) : OnlyOps (World.dipole s : PyM (World K T) _) :=
  onlyOps_bind (onlyOps_getSys _) fun _ => onlyOps_bind (onlyOps_getBasis _) fun _ => onlyOps_pure _

theorem onlyOps_wrapPulse (o n : ℕ) : OnlyOps (wrapPulse o n : PyM (World K T) Unit) :=
  onlyOps_bind (onlyOps_getOp _) fun _ => by
    split
    · exact onlyOps_setOp _ _
    · exact onlyOps_pure _

theorem onlyOps_wrapPol (o n : ℕ) : OnlyOps (wrapPol o n : PyM (World K T) Unit) :=
  onlyOps_bind (onlyOps_getOp _) fun _ => by
    split
    · exact onlyOps_setOp _ _
    · exact onlyOps_pure _

theorem onlyOps_wrapWeight (o n : ℕ) : OnlyOps (wrapWeight o n : PyM (World K T) Unit) :=
  onlyOps_bind (onlyOps_getOp _) fun _ => by
    split
    · exact onlyOps_setOp _ _
    · exact onlyOps_pure _

theorem onlyOps_fillPol (o s : ℕ) : OnlyOps (fillPol o s : PyM (World K T) Unit) :=
  onlyOps_bind (onlyOps_getOp _) fun _ => by
    split
    · exact onlyOps_bind (onlyOps_getSys _) fun _ => onlyOps_bind (onlyOps_lift _) fun _ =>
        onlyOps_bind (onlyOps_dipole _) fun _ => onlyOps_bind (onlyOps_lift _) fun _ =>
        onlyOps_setOp _ _
    · exact onlyOps_pure _

theorem onlyOps_laserValue (o s : ℕ) (t : T) : OnlyOps (laserValue o s t : PyM (World K T) _) := by
  refine onlyOps_bind (onlyOps_getSys _) fun _ => onlyOps_bind (onlyOps_h _) fun _ =>
    onlyOps_bind (onlyOps_getOp _) fun _ => ?_
  split
  · exact onlyOps_bind (onlyOps_lift _) fun _ => onlyOps_bind (onlyOps_lift _) fun _ =>
      onlyOps_bind (onlyOps_lift _) fun _ => onlyOps_bind (onlyOps_dipole _) fun _ =>
      onlyOps_bind (onlyOps_lift _) fun _ => onlyOps_bind (onlyOps_lift _) fun _ =>
      onlyOps_bind (onlyOps_lift _) fun _ => onlyOps_lift _
  · exact onlyOps_raise _

theorem onlyOps_laserHT (o s : ℕ) (t : T) : OnlyOps (laserHT o s t : PyM (World K T) _) :=
  onlyOps_bind (onlyOps_getOp _) fun _ => onlyOps_bind (onlyOps_wrapPulse _ _) fun _ =>
    onlyOps_bind (onlyOps_fillPol _ _) fun _ => onlyOps_bind (onlyOps_wrapPol _ _) fun _ =>
    onlyOps_laserValue _ _ _

theorem onlyOps_customHT (o s : ℕ) (t : T) : OnlyOps (customHT o s t : PyM (World K T) _) := by
  refine onlyOps_bind (onlyOps_getOp _) fun _ => onlyOps_bind (onlyOps_wrapWeight _ _) fun _ =>
    onlyOps_bind (onlyOps_h _) fun _ => onlyOps_bind (onlyOps_getOp _) fun _ => ?_
  split
  · exact onlyOps_bind (onlyOps_lift _) fun _ => onlyOps_bind (onlyOps_lift _) fun _ =>
      onlyOps_bind (onlyOps_lift _) fun _ => onlyOps_lift _
  · exact onlyOps_raise _

end World

namespace HWorld

/-- The attributes of all basis sets refer to arrays that exist. -/
def Ok (w : HWorld K T) : Prop := ∀ b ∈ w.bases, ∀ i, some i ∈ b.slots → i < w.mem.length

/-- The call `q` on array objects does what `p` does on array values: same exception or same value,
same objects afterwards; no array object, basis set or system that existed before is changed. -/
structure Ref (w : HWorld K T) (p : PyM (World K T) (Option (NDArray K)))
    (q : PyM (HWorld K T) (Option ℕ)) : Prop where
  out : (p.run w.view).1 = (q.run w).1.map fun r => (q.run w).2.mem.val r
  view : (q.run w).2.view = (p.run w.view).2
  bases : (q.run w).2.bases = w.bases
  systems : (q.run w).2.systems = w.systems
  mem : w.mem <+: (q.run w).2.mem

variable {w : HWorld K T}

theorem view_of_prefix (ok : w.Ok) {m : Mem K} (h : w.mem <+: m) (ops : List (TEOp K T)) :
    ({ w with mem := m, ops := ops } : HWorld K T).view = { w.view with ops := ops } := by
  simp only [HWorld.view]
  congr 1
  exact List.map_congr_left fun b hb => view_prefix h (ok b hb)

theorem Ok.of_prefix (ok : w.Ok) {w' : HWorld K T} (hb : w'.bases = w.bases)
    (h : w.mem <+: w'.mem) : w'.Ok := fun b hm i hi =>
  (ok b (hb ▸ hm) i hi).trans_le h.length_le

theorem ref_error {p : PyM (World K T) (Option (NDArray K))} {q : PyM (HWorld K T) (Option ℕ)}
    {e : PyErr} (hp : p.run w.view = (.error e, w.view)) (hq : q.run w = (.error e, w)) :
    Ref w p q := by
  constructor <;> simp [hp, hq, Except.map]

theorem ref_ok {p : PyM (World K T) (Option (NDArray K))} {q : PyM (HWorld K T) (Option ℕ)}
    {r : Option ℕ} (hp : p.run w.view = (.ok (w.mem.val r), w.view)) (hq : q.run w = (.ok r, w)) :
    Ref w p q := by
  constructor <;> simp [hp, hq, Except.map]

theorem ref_basisOf (s : ℕ) (f : HBasis K → Option ℕ) (g : BasisSet K → Option (NDArray K))
    (hfg : ∀ b, g (b.view w.mem) = w.mem.val (f b)) :
    Ref w (do let x ← World.getSys s; let b ← World.getBasis x.basis; pure (g b))
      (do let b ← basisOf s; pure (f b)) := by
  have e1 : (w.view : World K T).systems = w.systems := rfl
  have e2 : (w.view : World K T).bases = w.bases.map fun b => b.view w.mem := rfl
  rcases hx : w.systems[s]? with _ | x
  · have l : ((do let x ← World.getSys s; let b ← World.getBasis x.basis; pure (g b)) :
        PyM (World K T) _).run w.view = (.error .name, w.view) := by
      simp only [World.getSys, PyM.run_bind, run_get, run_liftM, e1, hx, orErr]
    have r : ((do let b ← basisOf s; pure (f b)) : PyM (HWorld K T) _).run w =
        (.error .name, w) := by
      simp only [basisOf, PyM.run_bind, run_get, run_liftM, hx, orErr]
    exact ref_error l r
  rcases hb : w.bases[x.basis]? with _ | b
  · have l : ((do let x ← World.getSys s; let b ← World.getBasis x.basis; pure (g b)) :
        PyM (World K T) _).run w.view = (.error .name, w.view) := by
      simp only [World.getSys, World.getBasis, PyM.run_bind, run_get, run_liftM, e1, hx, orErr, e2,
        List.getElem?_map, hb, Option.map_none]
    have r : ((do let b ← basisOf s; pure (f b)) : PyM (HWorld K T) _).run w =
        (.error .name, w) := by
      simp only [basisOf, PyM.run_bind, run_get, run_liftM, hx, hb, orErr]
    exact ref_error l r
  · have l : ((do let x ← World.getSys s; let b ← World.getBasis x.basis; pure (g b)) :
        PyM (World K T) _).run w.view = (.ok (w.mem.val (f b)), w.view) := by
      simp only [World.getSys, World.getBasis, PyM.run_bind, run_get, run_liftM, e1, hx, orErr, e2,
        List.getElem?_map, hb, Option.map_some, run_pure, hfg]
    have r : ((do let b ← basisOf s; pure (f b)) : PyM (HWorld K T) _).run w =
        (.ok (f b), w) := by
      simp only [basisOf, PyM.run_bind, run_get, run_liftM, hx, hb, orErr, run_pure]
    exact ref_ok l r

theorem ref_h (s : ℕ) : Ref w (World.h s) (h s) := ref_basisOf s (·.h) (·.h) fun _ => rfl
theorem ref_u (s : ℕ) : Ref w (World.u s) (u s) := ref_basisOf s (·.u) (·.u) fun _ => rfl

theorem run_reading (p : PyM (World K T) α) :
    (reading p).run w = ((p.run w.view).1, { w with ops := (p.run w.view).2.ops }) := rfl

/-- A call that returns a new array. -/
theorem ref_reading (ok : w.Ok) {p : PyM (World K T) (NDArray K)} (hp : World.OnlyOps p) :
    Ref w (do let x ← p; pure (some x))
      (do let x ← reading p; let r ← new x; pure (some r)) := by
  obtain ⟨hb, hs⟩ := hp w.view
  rcases hr : p.run w.view with ⟨e | x, v⟩
  · rw [hr] at hb hs
    have l : ((do let x ← p; pure (some x)) : PyM (World K T) _).run w.view = (.error e, v) := by
      simp only [PyM.run_bind, hr]
    have r : ((do let x ← reading p; let r ← new x; pure (some r)) : PyM (HWorld K T) _).run w =
        (.error e, { w with ops := v.ops }) := by
      rw [PyM.run_bind, run_reading, hr]
    constructor
    · rw [l, r]; rfl
    · rw [l, r]
      show ({ w with mem := w.mem, ops := v.ops } : HWorld K T).view = v
      rw [view_of_prefix ok (List.prefix_refl _)]
      cases v; subst hb hs; rfl
    · rw [r]
    · rw [r]
    · rw [r]
  · rw [hr] at hb hs
    have l : ((do let x ← p; pure (some x)) : PyM (World K T) _).run w.view = (.ok (some x), v) := by
      simp only [PyM.run_bind, hr, run_pure]
    have r : ((do let x ← reading p; let r ← new x; pure (some r)) : PyM (HWorld K T) _).run w =
        (.ok (some w.mem.length), { w with mem := w.mem ++ [x], ops := v.ops }) := by
      rw [PyM.run_bind, run_reading, hr]
      rfl
    constructor
    · rw [l, r]
      show Except.ok (some x) = Except.ok (Mem.val (w.mem ++ [x]) (some w.mem.length))
      rw [Mem.val_push]
    · rw [l, r]
      show ({ w with mem := w.mem ++ [x], ops := v.ops } : HWorld K T).view = v
      rw [view_of_prefix ok (List.prefix_append _ _)]
      cases v; subst hb hs; rfl
    · rw [r]
    · rw [r]
    · rw [r]; exact List.prefix_append _ _

theorem ref_of_run {p p' : PyM (World K T) (Option (NDArray K))} {q q' : PyM (HWorld K T) (Option ℕ)}
    (hp : p.run w.view = p'.run w.view) (hq : q.run w = q'.run w) (h : Ref w p' q') : Ref w p q := by
  obtain ⟨a, b, c, d, e⟩ := h
  exact ⟨by rw [hp, hq]; exact a, by rw [hp, hq]; exact b, by rw [hq]; exact c, by rw [hq]; exact d,
    by rw [hq]; exact e⟩

theorem ref_opHT (ok : w.Ok) (o : ℕ) (t : T) : Ref w (World.opHT o t) (opHT o t) := by
  have e1 : (w.view : World K T).ops = w.ops := rfl
  rcases hy : w.ops[o]? with _ | y
  · exact ref_error (e := .name)
      (by simp only [World.opHT, World.getOp, PyM.run_bind, run_get, run_liftM, e1, hy, orErr])
      (by simp only [opHT, PyM.run_bind, run_get, run_liftM, hy, orErr])
  rcases hs : y.system with _ | s
  · exact ref_error (e := .attribute) (World.opHT_unbound (by rw [e1]; exact hy) hs)
      (by simp only [opHT, PyM.run_bind, run_get, run_liftM, hy, hs, orErr])
  rcases hk : y.kind with _ | ⟨p, e⟩ | f | ⟨p, a⟩
  · exact ref_of_run (p' := World.h s) (q' := h s)
      (by simp only [World.opHT, World.getOp, PyM.run_bind, run_get, run_liftM, e1, hy, hs, hk, orErr])
      (by simp only [opHT, PyM.run_bind, run_get, run_liftM, hy, hs, hk, orErr]) (ref_h s)
  · exact ref_of_run (p' := do let x ← World.laserHT o s t; pure (some x))
      (q' := do let x ← reading (World.laserHT o s t); let r ← new x; pure (some r))
      (by rw [World.opHT, World.getOp]
          simp only [PyM.run_bind, run_get, run_liftM, e1, hy, hs, hk, orErr])
      (by rw [opHT]; simp only [PyM.run_bind, run_get, run_liftM, hy, hs, hk, orErr])
      (ref_reading ok (World.onlyOps_laserHT o s t))
  · exact ref_of_run (p' := World.h s) (q' := h s)
      (by simp only [World.opHT, World.getOp, PyM.run_bind, run_get, run_liftM, e1, hy, hs, hk, orErr])
      (by simp only [opHT, PyM.run_bind, run_get, run_liftM, hy, hs, hk, orErr]) (ref_h s)
  · exact ref_of_run (p' := do let x ← World.customHT o s t; pure (some x))
      (q' := do let x ← reading (World.customHT o s t); let r ← new x; pure (some r))
      (by rw [World.opHT, World.getOp]
          simp only [PyM.run_bind, run_get, run_liftM, e1, hy, hs, hk, orErr])
      (by rw [opHT]; simp only [PyM.run_bind, run_get, run_liftM, hy, hs, hk, orErr])
      (ref_reading ok (World.onlyOps_customHT o s t))

theorem ref_opUT (ok : w.Ok) (o : ℕ) (t : T) : Ref w (World.opUT o t) (opUT o t) := by
  have e1 : (w.view : World K T).ops = w.ops := rfl
  rcases hy : w.ops[o]? with _ | y
  · exact ref_error (e := .name)
      (by simp only [World.opUT, World.getOp, PyM.run_bind, run_get, run_liftM, e1, hy, orErr])
      (by simp only [opUT, PyM.run_bind, run_get, run_liftM, hy, orErr])
  rcases hs : y.system with _ | s
  · exact ref_error (e := .attribute) (World.opUT_unbound (by rw [e1]; exact hy) hs)
      (by simp only [opUT, PyM.run_bind, run_get, run_liftM, hy, hs, orErr])
  rcases hk : y.kind with _ | ⟨p, e⟩ | f | ⟨p, a⟩
  case adiabatic =>
    have hl : (World.opUT o t).run w.view = (do
        let c ← liftM (f.call y.cells t)
        let us ← World.u s
        let us ← liftM (orErr .type us)
        let r ← liftM (c.mul us)
        pure (some r) : PyM (World K T) _).run w.view := by
      rw [World.opUT, World.getOp]
      simp only [PyM.run_bind, run_get, run_liftM, e1, hy, hs, hk, orErr]
    have hr : (opUT o t).run w = (do
        let c ← liftM (f.call y.cells t)
        let us ← u s
        let us ← liftM (orErr .type (w.mem.val us))
        let x ← liftM (c.mul us)
        let r ← new x
        pure (some r) : PyM (HWorld K T) _).run w := by
      rw [opUT]
      simp only [PyM.run_bind, run_get, run_liftM, hy, hs, hk, orErr]
    refine ref_of_run (p' := _) (q' := _) hl hr ?_
    obtain ⟨out, vw, bs, sy, mm⟩ := ref_u (w := w) s
    cases hc : f.call y.cells t with
    | error e =>
      exact ref_error (e := e) (by simp only [PyM.run_bind, run_liftM])
        (by simp only [PyM.run_bind, run_liftM])
    | ok c =>
      have hst : ((u s).run w).2 = w := by
        simp only [u, basisOf, PyM.run_bind, run_get, run_liftM]
        cases w.systems[s]? with
        | none => rfl
        | some x => simp only [orErr]; cases w.bases[x.basis]? <;> rfl
      rw [hst] at vw out
      rcases hu : (u s).run w with ⟨e | us, w'⟩
      · rw [hu] at out hst
        obtain rfl : w' = w := hst
        have hl' : (World.u s).run w'.view = (.error e, w'.view) := Prod.ext out vw.symm
        exact ref_error (e := e) (by simp only [PyM.run_bind, run_liftM, hl'])
          (by simp only [PyM.run_bind, run_liftM, hu])
      · rw [hu] at out hst
        obtain rfl : w' = w := hst
        have hl' : (World.u s).run w'.view = (.ok (w'.mem.val us), w'.view) := Prod.ext out vw.symm
        cases hv : w'.mem.val us with
        | none =>
          rw [hv] at hl'
          exact ref_error (e := .type) (by simp only [PyM.run_bind, run_liftM, hl', orErr])
            (by simp only [PyM.run_bind, run_liftM, hu, hv, orErr])
        | some U =>
          rw [hv] at hl'
          cases hm : c.mul U with
          | error e =>
            exact ref_error (e := e) (by simp only [PyM.run_bind, run_liftM, hl', orErr, hm])
              (by simp only [PyM.run_bind, run_liftM, hu, hv, orErr, hm])
          | ok x =>
            refine ref_of_run (p' := do let x ← (pure x : PyM (World K T) _); pure (some x))
              (q' := do let x ← reading (pure x : PyM (World K T) _); let r ← new x; pure (some r))
              ?_ ?_ (ref_reading ok (World.onlyOps_pure x))
            · simp only [PyM.run_bind, run_liftM, hl', orErr, hm, run_pure]
            · simp only [PyM.run_bind, run_liftM, hu, hv, orErr, hm, run_pure]
              rfl
  all_goals
    exact ref_of_run (p' := World.u s) (q' := u s)
      (by simp only [World.opUT, World.getOp, PyM.run_bind, run_get, run_liftM, e1, hy, hs, hk, orErr])
      (by simp only [opUT, PyM.run_bind, run_get, run_liftM, hy, hs, hk, orErr]) (ref_u s)

theorem ref_hT (ok : w.Ok) (s : ℕ) (t : T) : Ref w (World.hT s t) (hT s t) := by
  have e1 : (w.view : World K T).systems = w.systems := rfl
  rcases hx : w.systems[s]? with _ | x
  · exact ref_error (e := .name)
      (by simp only [World.hT, World.getSys, PyM.run_bind, run_get, run_liftM, e1, hx, orErr])
      (by simp only [hT, PyM.run_bind, run_get, run_liftM, hx, orErr])
  rcases ho : x.op with _ | o
  · exact ref_of_run (p' := World.h s) (q' := h s)
      (by simp only [World.hT, World.getSys, PyM.run_bind, run_get, run_liftM, e1, hx, ho, orErr])
      (by simp only [hT, PyM.run_bind, run_get, run_liftM, hx, ho, orErr]) (ref_h s)
  · exact ref_of_run (p' := World.opHT o t) (q' := opHT o t)
      (by simp only [World.hT, World.getSys, PyM.run_bind, run_get, run_liftM, e1, hx, ho, orErr])
      (by simp only [hT, PyM.run_bind, run_get, run_liftM, hx, ho, orErr]) (ref_opHT ok o t)

theorem ref_uT (ok : w.Ok) (s : ℕ) (t : T) : Ref w (World.uT s t) (uT s t) := by
  have e1 : (w.view : World K T).systems = w.systems := rfl
  rcases hx : w.systems[s]? with _ | x
  · exact ref_error (e := .name)
      (by simp only [World.uT, World.getSys, PyM.run_bind, run_get, run_liftM, e1, hx, orErr])
      (by simp only [uT, PyM.run_bind, run_get, run_liftM, hx, orErr])
  rcases ho : x.op with _ | o
  · exact ref_of_run (p' := World.u s) (q' := u s)
      (by simp only [World.uT, World.getSys, PyM.run_bind, run_get, run_liftM, e1, hx, ho, orErr])
      (by simp only [uT, PyM.run_bind, run_get, run_liftM, hx, ho, orErr]) (ref_u s)
  · exact ref_of_run (p' := World.opUT o t) (q' := opUT o t)
      (by simp only [World.uT, World.getSys, PyM.run_bind, run_get, run_liftM, e1, hx, ho, orErr])
      (by simp only [uT, PyM.run_bind, run_get, run_liftM, hx, ho, orErr]) (ref_opUT ok o t)

end HWorld

end QS
