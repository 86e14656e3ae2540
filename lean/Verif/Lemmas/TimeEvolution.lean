import Verif.Lemmas.World

set_option linter.unusedSimpArgs false

/-! # Running the time-evolution operators (helper file) -/

namespace QS

open Finset NDArray PyM

variable {K T : Type} [PyScalar K]

namespace World

/-- Result of `wrapPulse` on the operator object. -/
def wrapPulse' (y : TEOp K T) (frame : ℕ) : TEOp K T :=
  match y.kind with
  | .laser (.const v) pol =>
    { y with kind := .laser (.closure frame) pol, cells := storeCell y.cells frame v }
  | _ => y

def fillPol' (np : Option Module) (d : Option (NDArray K)) (y : TEOp K T) :
    Except PyErr (TEOp K T) :=
  match y.kind with
  | .laser p none => do
    needNp np
    let e ← defaultPol d
    .ok { y with kind := .laser p (some (.const (.array e))) }
  | _ => .ok y

def wrapPol' (y : TEOp K T) (frame : ℕ) : TEOp K T :=
  match y.kind with
  | .laser p (some (.const v)) =>
    { y with kind := .laser p (some (.closure frame)), cells := storeCell y.cells frame v }
  | _ => y

def laserValue' (np : Option Module) (b : BasisSet K) (y : TEOp K T) (t : T) :
    Except PyErr (NDArray K) :=
  match y.kind with
  | .laser p (some e) => do
    let c ← p.call y.cells t
    needNp np
    let v ← e.call y.cells t
    let z ← polDot v b.dipole
    let z ← c.mul z
    let hs ← orErr .type b.h
    NDArray.add hs z
  | _ => .error .type

def wrapWeight' (y : TEOp K T) (frame : ℕ) : TEOp K T :=
  match y.kind with
  | .custom (.const v) a =>
    { y with kind := .custom (.closure frame) a, cells := storeCell y.cells frame v }
  | _ => y

def customValue' (b : BasisSet K) (y : TEOp K T) (t : T) : Except PyErr (NDArray K) :=
  match y.kind with
  | .custom w a => do
    let c ← w.call y.cells t
    let z ← c.mul a
    let hs ← orErr .type b.h
    NDArray.add hs z
  | _ => .error .type

/-- Outcome of `h_t` of an operator object and the operator object afterwards, given the module and
basis set of the system it is bound to. -/
def evalHT (np : Option Module) (b : BasisSet K) (y : TEOp K T) (t : T) :
    Except PyErr (Option (NDArray K)) × TEOp K T :=
  match y.kind with
  | .base => (.ok b.h, y)
  | .adiabatic _ => (.ok b.h, y)
  | .laser _ _ =>
    match fillPol' np b.dipole (wrapPulse' y y.cells.length) with
    | .error e => (.error e, wrapPulse' y y.cells.length)
    | .ok z => ((laserValue' np b (wrapPol' z y.cells.length) t).map some,
        wrapPol' z y.cells.length)
  | .custom _ _ => ((customValue' b (wrapWeight' y y.cells.length) t).map some,
      wrapWeight' y y.cells.length)

/-- Outcome of `u_t`. -/
def evalUT (b : BasisSet K) (y : TEOp K T) (t : T) : Except PyErr (Option (NDArray K)) :=
  match y.kind with
  | .adiabatic f => do
    let c ← f.call y.cells t
    let us ← orErr .type b.u
    let r ← c.mul us
    .ok (some r)
  | _ => .ok b.u

theorem ok_bind {α β : Type} (a : α) (f : α → Except PyErr β) : (Except.ok a >>= f) = f a := rfl
theorem error_bind {α β : Type} (e : PyErr) (f : α → Except PyErr β) :
    (Except.error e >>= f) = .error e := rfl

theorem set_same {α : Type} {m : List α} {r : ℕ} {x : α} (h : m[r]? = some x) : m.set r x = m := by
  apply List.ext_getElem?
  intro i
  by_cases hi : i = r
  · subst hi; rw [get_set h, h]
  · rw [get_set_ne hi]

theorem setOps_same {w : World K T} {o : ℕ} {y : TEOp K T} (h : w.ops[o]? = some y) :
    { w with ops := w.ops.set o y } = w := by
  rw [set_same h]

variable {w : World K T} {s o : ℕ} {x : Sys} {b : BasisSet K} {y : TEOp K T} {t : T}

theorem wrapPulse_run (hy : w.ops[o]? = some y) (n : ℕ) :
    (wrapPulse o n).run w = (.ok (), { w with ops := w.ops.set o (wrapPulse' y n) }) := by
  simp only [wrapPulse, PyM.run_bind, getOp_run hy, wrapPulse']
  rcases hk : y.kind with _ | ⟨_ | f | c, _ | _ | f' | c'⟩ | f | ⟨_ | f | c, a⟩ <;> simp only <;>
    first
      | rw [setOp_run]
      | (rw [setOps_same hy]; rfl)

theorem wrapPol_run (hy : w.ops[o]? = some y) (n : ℕ) :
    (wrapPol o n).run w = (.ok (), { w with ops := w.ops.set o (wrapPol' y n) }) := by
  simp only [wrapPol, PyM.run_bind, getOp_run hy, wrapPol']
  rcases hk : y.kind with _ | ⟨_ | f | c, _ | _ | f' | c'⟩ | f | ⟨_ | f | c, a⟩ <;> simp only <;>
    first
      | rw [setOp_run]
      | (rw [setOps_same hy]; rfl)

theorem wrapWeight_run (hy : w.ops[o]? = some y) (n : ℕ) :
    (wrapWeight o n).run w = (.ok (), { w with ops := w.ops.set o (wrapWeight' y n) }) := by
  simp only [wrapWeight, PyM.run_bind, getOp_run hy, wrapWeight']
  rcases hk : y.kind with _ | ⟨_ | f | c, _ | _ | f' | c'⟩ | f | ⟨_ | f | c, a⟩ <;> simp only <;>
    first
      | rw [setOp_run]
      | (rw [setOps_same hy]; rfl)

theorem fillPol_run (hx : w.systems[s]? = some x) (hb : w.bases[x.basis]? = some b)
    (hy : w.ops[o]? = some y) :
    (fillPol o s).run w = match fillPol' x.np b.dipole y with
      | .error e => (.error e, w)
      | .ok z => (.ok (), { w with ops := w.ops.set o z }) := by
  simp only [fillPol, PyM.run_bind, getOp_run hy, fillPol']
  rcases hk : y.kind with _ | ⟨p, _ | e⟩ | f | ⟨_, a⟩
  case laser.none =>
    simp only [PyM.run_bind, getSys_run hx, run_liftM, dipole_run hx hb]
    cases needNp x.np with
    | error e => rfl
    | ok a =>
      simp only [ok_bind, error_bind, dipole_run hx hb]
      cases defaultPol b.dipole with
      | error e => rfl
      | ok e => rfl
  all_goals
    simp only
    rw [setOps_same hy]; rfl

theorem laserValue_run (hx : w.systems[s]? = some x) (hb : w.bases[x.basis]? = some b)
    (hy : w.ops[o]? = some y) :
    (laserValue o s t).run w = (laserValue' x.np b y t, w) := by
  simp only [laserValue, PyM.run_bind, getSys_run hx, h_run hx hb, getOp_run hy, laserValue']
  rcases hk : y.kind with _ | ⟨p, _ | e⟩ | f | ⟨_, a⟩
  case laser.some =>
    simp only [PyM.run_bind, run_liftM, dipole_run hx hb]
    cases p.call y.cells t with
    | error e => rfl
    | ok c =>
      simp only [ok_bind, error_bind, dipole_run hx hb]
      cases needNp x.np with
      | error e => rfl
      | ok a =>
        simp only [ok_bind, error_bind, dipole_run hx hb]
        cases e.call y.cells t with
        | error e => rfl
        | ok v =>
          simp only [ok_bind, error_bind, dipole_run hx hb]
          cases polDot v b.dipole with
          | error e => rfl
          | ok z =>
            simp only [ok_bind, error_bind, dipole_run hx hb]
            cases c.mul z with
            | error e => rfl
            | ok z =>
              simp only [ok_bind, error_bind, dipole_run hx hb]
              cases orErr PyErr.type b.h with
              | error e => rfl
              | ok h => rfl
  all_goals rfl

theorem laserHT_run (hx : w.systems[s]? = some x) (hb : w.bases[x.basis]? = some b)
    (hy : w.ops[o]? = some y) :
    (laserHT o s t).run w = match fillPol' x.np b.dipole (wrapPulse' y y.cells.length) with
      | .error e => (.error e, { w with ops := w.ops.set o (wrapPulse' y y.cells.length) })
      | .ok z => (laserValue' x.np b (wrapPol' z y.cells.length) t,
          { w with ops := w.ops.set o (wrapPol' z y.cells.length) }) := by
  simp only [laserHT, PyM.run_bind, getOp_run hy, wrapPulse_run hy]
  have h1 := get_set hy (wrapPulse' y y.cells.length)
  rw [fillPol_run (w := { w with ops := w.ops.set o (wrapPulse' y y.cells.length) }) hx hb h1]
  cases fillPol' x.np b.dipole (wrapPulse' y y.cells.length) with
  | error e => rfl
  | ok z =>
    have h2 := get_set h1 z
    simp only
    rw [wrapPol_run (w := { w with
      ops := (w.ops.set o (wrapPulse' y y.cells.length)).set o z }) h2]
    simp only [List.set_set] at h2 ⊢
    rw [laserValue_run (w := { w with ops := w.ops.set o (wrapPol' z y.cells.length) }) hx hb
      (get_set hy _)]

theorem customHT_run (hx : w.systems[s]? = some x) (hb : w.bases[x.basis]? = some b)
    (hy : w.ops[o]? = some y) :
    (customHT o s t).run w = (customValue' b (wrapWeight' y y.cells.length) t,
      { w with ops := w.ops.set o (wrapWeight' y y.cells.length) }) := by
  simp only [customHT, PyM.run_bind, getOp_run hy, wrapWeight_run hy]
  have h1 := get_set hy (wrapWeight' y y.cells.length)
  rw [h_run (w := { w with ops := w.ops.set o (wrapWeight' y y.cells.length) }) hx hb]
  simp only
  rw [getOp_run (w := { w with ops := w.ops.set o (wrapWeight' y y.cells.length) }) h1]
  simp only [customValue']
  rcases hk : (wrapWeight' y y.cells.length).kind with _ | ⟨p, _ | e⟩ | f | ⟨p, a⟩
  case custom =>
    simp only [PyM.run_bind, run_liftM]
    cases p.call (wrapWeight' y y.cells.length).cells t with
    | error e => rfl
    | ok c =>
      simp only [ok_bind, error_bind]
      cases c.mul a with
      | error e => rfl
      | ok z =>
        simp only [ok_bind, error_bind]
        cases orErr PyErr.type b.h with
        | error e => rfl
        | ok h => rfl
  all_goals rfl

theorem opHT_run (hx : w.systems[s]? = some x) (hb : w.bases[x.basis]? = some b)
    (hy : w.ops[o]? = some y) (hs : y.system = some s) :
    (opHT o t).run w = ((evalHT x.np b y t).1,
      { w with ops := w.ops.set o (evalHT x.np b y t).2 }) := by
  simp only [opHT, PyM.run_bind, getOp_run hy, hs, orErr, run_liftM, evalHT]
  rcases hk : y.kind with _ | ⟨p, e⟩ | f | ⟨p, a⟩ <;> simp only
  · rw [h_run hx hb, setOps_same hy]
  · rw [PyM.run_bind, laserHT_run hx hb hy]
    cases fillPol' x.np b.dipole (wrapPulse' y y.cells.length) with
    | error e => rfl
    | ok z =>
      simp only
      cases laserValue' x.np b (wrapPol' z y.cells.length) t <;> rfl
  · rw [h_run hx hb, setOps_same hy]
  · rw [PyM.run_bind, customHT_run hx hb hy]
    cases customValue' b (wrapWeight' y y.cells.length) t <;> rfl

theorem opHT_unbound (hy : w.ops[o]? = some y) (hs : y.system = none) :
    (opHT o t).run w = (.error .attribute, w) := by
  simp only [opHT, PyM.run_bind, getOp_run hy, hs, orErr, run_liftM]

theorem opUT_run (hx : w.systems[s]? = some x) (hb : w.bases[x.basis]? = some b)
    (hy : w.ops[o]? = some y) (hs : y.system = some s) :
    (opUT o t).run w = (evalUT b y t, w) := by
  simp only [opUT, PyM.run_bind, getOp_run hy, hs, orErr, run_liftM, evalUT]
  rcases hk : y.kind with _ | ⟨p, e⟩ | f | ⟨p, a⟩
  case adiabatic =>
    simp only [PyM.run_bind, run_liftM, u_run hx hb]
    cases f.call y.cells t with
    | error e => rfl
    | ok c =>
      simp only [ok_bind, error_bind, u_run hx hb]
      cases b.u with
      | none => rfl
      | some u =>
        simp only [ok_bind, error_bind, u_run hx hb]
        cases c.mul u <;> rfl
  all_goals
    simp only
    rw [u_run hx hb]

theorem opUT_unbound (hy : w.ops[o]? = some y) (hs : y.system = none) :
    (opUT o t).run w = (.error .attribute, w) := by
  simp only [opUT, PyM.run_bind, getOp_run hy, hs, orErr, run_liftM]

theorem hT_none (hx : w.systems[s]? = some x) (hb : w.bases[x.basis]? = some b) (ho : x.op = none) :
    (World.hT s t).run w = (.ok b.h, w) := by
  simp only [World.hT, PyM.run_bind, getSys_run hx, ho, h_run hx hb]

theorem uT_none (hx : w.systems[s]? = some x) (hb : w.bases[x.basis]? = some b) (ho : x.op = none) :
    (World.uT s t).run w = (.ok b.u, w) := by
  simp only [World.uT, PyM.run_bind, getSys_run hx, ho, u_run hx hb]

theorem hT_some (hx : w.systems[s]? = some x) (ho : x.op = some o) :
    (World.hT s t).run w = (opHT o t).run w := by
  simp only [World.hT, PyM.run_bind, getSys_run hx, ho]

theorem uT_some (hx : w.systems[s]? = some x) (ho : x.op = some o) :
    (World.uT s t).run w = (opUT o t).run w := by
  simp only [World.uT, PyM.run_bind, getSys_run hx, ho]

theorem wrapPulse'_system (y : TEOp K T) (n : ℕ) : (wrapPulse' y n).system = y.system := by
  unfold wrapPulse'; split <;> rfl
theorem wrapPol'_system (y : TEOp K T) (n : ℕ) : (wrapPol' y n).system = y.system := by
  unfold wrapPol'; split <;> rfl
theorem wrapWeight'_system (y : TEOp K T) (n : ℕ) : (wrapWeight' y n).system = y.system := by
  unfold wrapWeight'; split <;> rfl
theorem fillPol'_system {np : Option Module} {d : Option (NDArray K)} {y z : TEOp K T}
    (h : fillPol' np d y = .ok z) : z.system = y.system := by
  unfold fillPol' at h
  split at h
  · simp only [bind, Except.bind] at h
    split at h
    · simp at h
    · split at h
      · simp at h
      · obtain rfl := Except.ok.inj h; rfl
  · obtain rfl := Except.ok.inj h; rfl

theorem evalHT_system (np : Option Module) (b : BasisSet K) (y : TEOp K T) (t : T) :
    (evalHT np b y t).2.system = y.system := by
  unfold evalHT
  split
  · rfl
  · rfl
  · split
    · exact wrapPulse'_system _ _
    · rename_i h
      exact (wrapPol'_system _ _).trans ((fillPol'_system h).trans (wrapPulse'_system _ _))
  · exact wrapWeight'_system _ _

end World

end QS
