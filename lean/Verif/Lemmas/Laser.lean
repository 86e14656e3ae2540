import Verif.Lemmas.Copies
import Verif.Spec.TimeEvolution

set_option linter.unusedSimpArgs false

/-! # Time-evolution operators under histories of readings (helper file) -/

namespace QS

open Finset NDArray PyM BasisSet World

variable {K T : Type} [PyScalar K]

/-- An attribute of an operator object stands for a function of time. -/
def Denotes (cells : List (Val K)) (a : Attr K T) (f : T → Val K) : Prop :=
  match a with
  | .const v => ∀ t, f t = v
  | .fn g => g = f
  | .closure c => ∃ v, cells[c]? = some v ∧ ∀ t, f t = v

theorem Given.denotes {a : Attr K T} {f : T → Val K} (h : Given a f) (cells : List (Val K)) :
    Denotes cells a f := by
  rcases h with rfl | ⟨v, rfl, h⟩
  · rfl
  · exact h

theorem Denotes.append {cells : List (Val K)} {a : Attr K T} {f : T → Val K}
    (h : Denotes cells a f) (v : List (Val K)) : Denotes (cells ++ v) a f := by
  cases a with
  | const _ => exact h
  | fn _ => exact h
  | closure c =>
    obtain ⟨v', h1, h2⟩ := h
    exact ⟨v', get_append h1 _, h2⟩

theorem storeCell_length (cells : List (Val K)) (v : Val K) :
    storeCell cells cells.length v = cells ++ [v] := by
  simp [storeCell]

theorem denotes_new {cells : List (Val K)} {f : T → Val K} {v : Val K} (h : ∀ t, f t = v) :
    Denotes (cells ++ [v]) (.closure cells.length : Attr K T) f := ⟨v, by simp, h⟩

/-- Not a plain value. -/
def Wrapped : Attr K T → Prop
  | .const _ => False
  | _ => True

theorem Denotes.call {cells : List (Val K)} {a : Attr K T} {f : T → Val K} (h : Denotes cells a f)
    (hw : Wrapped a) (t : T) : a.call cells t = .ok (f t) := by
  cases a with
  | const _ => exact hw.elim
  | fn g => subst h; rfl
  | closure c =>
    obtain ⟨v, h1, h2⟩ := h
    simp [Attr.call, h1, h2]

/-- The default polarisation. -/
def unitPol (n : ℕ) : NDArray K := NDArray.ofFn .float64 [n] (fun i => match i with
  | [0] => 1
  | _ => 0)

/-- The polarisation attribute stands for a function of time. -/
def DenotesPol (n : ℕ) (cells : List (Val K)) (a : Option (Attr K T)) (f : T → Val K) : Prop :=
  match a with
  | none => ∀ t, f t = .array (unitPol n)
  | some a => Denotes cells a f

/-- A laser field that stands for pulse `E` and polarisation `P`, and in which not both are plain
values (or missing). -/
def LaserState (n : ℕ) (y : TEOp K T) (E P : T → Val K) : Prop :=
  ∃ p e, y.kind = .laser p e ∧ Denotes y.cells p E ∧ DenotesPol n y.cells e P ∧
    (Wrapped p ∨ ∃ a, e = some a ∧ Wrapped a)

/-- `h + c * (v · d)`. -/
def laserFormula (b : BasisSet K) (c v : Val K) : Except PyErr (NDArray K) := do
  let z ← polDot v b.dipole
  let z ← c.mul z
  let hs ← orErr .type b.h
  NDArray.add hs z

/-- One evaluation of `h_t`: the right value, and the state still stands for the same. -/
theorem laser_step {n : ℕ} {y : TEOp K T} {E P : T → Val K} {b : BasisSet K} {d : NDArray K}
    {m : Module} (hs : LaserState n y E P) (hd : b.dipole = some d) (hn : d.shape[0]? = some n)
    (hn0 : n ≠ 0) (t : T) :
    (evalHT (some m) b y t).1 = (laserFormula b (E t) (P t)).map some ∧
    LaserState n (evalHT (some m) b y t).2 E P := by
  obtain ⟨p, e, hk, hp, he, hw⟩ := hs
  have hdef : defaultPol b.dipole = .ok (unitPol n) := by
    rw [hd]
    simp only [defaultPol, orErr, ok_bind, shapeAt, hn, hn0, if_false]
    rfl
  -- the final value
  have fin : ∀ (z : TEOp K T) (p' e' : Attr K T), z.kind = .laser p' (some e') →
      Denotes z.cells p' E → Denotes z.cells e' P → Wrapped p' → Wrapped e' →
      (laserValue' (some m) b z t).map some = (laserFormula b (E t) (P t)).map some := by
    intro z p' e' hz h1 h2 h3 h4
    simp only [laserValue', hz, h1.call h3, h2.call h4, ok_bind, needNp]
    rfl
  rcases y with ⟨k, σ, cells⟩
  simp only at hk hp he
  subst hk
  rcases p with v | f | c
  · -- a plain pulse: the polarisation is wrapped
    obtain ⟨a, rfl, ha⟩ := hw.resolve_left (fun h => h)
    have h1 := denotes_new (cells := cells) hp
    have h2 : Denotes (cells ++ [v]) a P := Denotes.append he _
    rcases a with v' | f' | c'
    · exact ha.elim
    all_goals
      simp only [evalHT, wrapPulse', fillPol', wrapPol', storeCell_length]
      exact ⟨fin _ _ _ rfl h1 h2 trivial trivial, _, _, rfl, h1, h2, .inl trivial⟩
  all_goals
    rcases e with _ | v' | f' | c'
    · -- no polarisation
      simp only [evalHT, wrapPulse', fillPol', hdef, needNp, ok_bind, wrapPol', storeCell_length]
      have h1 := Denotes.append hp [Val.array (unitPol n)]
      have h2 := denotes_new (cells := cells) he
      exact ⟨fin _ _ _ rfl h1 h2 trivial trivial, _, _, rfl, h1, h2, .inl trivial⟩
    · simp only [evalHT, wrapPulse', fillPol', wrapPol', storeCell_length]
      have h1 := Denotes.append hp [v']
      have h2 := denotes_new (cells := cells) he
      exact ⟨fin _ _ _ rfl h1 h2 trivial trivial, _, _, rfl, h1, h2, .inl trivial⟩
    all_goals
      simp only [evalHT, wrapPulse', fillPol', wrapPol', storeCell_length]
      exact ⟨fin _ _ _ rfl hp he trivial trivial, _, _, rfl, hp, he, .inl trivial⟩

/-- The value of the formula. -/
theorem laserFormula_eq {b : BasisSet K} {l n : ℕ} {H d : NDArray K} {c v : Val K} {c' : K} {e : ℕ → K}
    (hh : b.h = some H) (hH : H.shape = [l, l]) (hd : b.dipole = some d) (hD : d.shape = [n, l, l])
    (hc : IsNumber c c') (hv : IsVector v n e) :
    ∃ r, laserFormula b c v = .ok r ∧ IsLaser H d l n c' e r := by
  obtain ⟨dt, rfl⟩ := hc
  obtain ⟨a, rfl, ha, hae⟩ := hv
  have e1 : polDot (.array a) b.dipole = .ok (ofFn (a.dtype.promote d.dtype) [l, l]
      (fun idx => ∑ t ∈ range n, a.get [t] * d.get (t :: idx))) := by
    rw [hd]
    simp only [polDot]
    unfold tensordot
    simp [ha, hD, ndim]
  have key : ∀ z : NDArray K, z.shape = [l, l] → (∀ p < l, ∀ q < l,
      z.get [p, q] = ∑ k ∈ range n, a.get [k] * d.get [k, p, q]) → ∀ r,
      NDArray.add H (NDArray.smul dt c' z) = .ok r → IsLaser H d l n c' e r := by
    intro z hz hzg r hr
    rw [add_same (by simp [hH, smul, hz])] at hr
    obtain rfl := Except.ok.inj hr
    refine ⟨hH, fun p hp q hq => ?_⟩
    have hi : InRange [l, l] [p, q] := inRange_two.2 ⟨p, q, rfl, hp, hq⟩
    rw [ofFn_get_of (by rw [hH]; exact hi), smul, ofFn_get_of (by rw [hz]; exact hi), hzg p hp q hq]
    congr 2
    refine Finset.sum_congr rfl fun k hk => ?_
    rw [hae k (Finset.mem_range.1 hk)]
  have hadd : laserFormula b (.scalar dt c') (.array a) = NDArray.add H (NDArray.smul dt c'
      (ofFn (a.dtype.promote d.dtype) [l, l]
        (fun idx => ∑ t ∈ range n, a.get [t] * d.get (t :: idx)))) := by
    simp only [laserFormula, e1, ok_bind, Val.mul, hh, orErr]
  have hok := add_same (a := H) (b := NDArray.smul dt c' (ofFn (a.dtype.promote d.dtype) [l, l]
        (fun idx => ∑ t ∈ range n, a.get [t] * d.get (t :: idx)))) (by simp [hH, smul])
  refine ⟨_, hadd.trans hok, key _ rfl (fun p hp q hq => ?_) _ hok⟩
  rw [ofFn_get_of (inRange_two.2 ⟨p, q, rfl, hp, hq⟩)]

theorem unitPol_vector (n : ℕ) :
    IsVector (.array (unitPol (K := K) n)) n (fun k => if k = 0 then 1 else 0) := by
  refine ⟨_, rfl, rfl, fun k hk => ?_⟩
  rw [unitPol, ofFn_get_of (inRange_one.2 ⟨k, rfl, hk⟩)]
  rcases k with _ | k <;> simp

/-! ### worlds -/

/-- System `s` is the consistent object `x` with basis set `b`, its operator `o` is bound to it and
satisfies `P`. -/
structure Bound (w : World K T) (s o : ℕ) (x : Sys) (b : BasisSet K) (P : TEOp K T → Prop) : Prop where
  ok : SysOK w s x b
  op : x.op = some o
  state : ∃ y, w.ops[o]? = some y ∧ y.system = some s ∧ P y

/-- Reading keeps a property of the operator that evaluations of `h_t` keep. -/
theorem bound_reading {w : World K T} {s o : ℕ} {x : Sys} {b : BasisSet K} {P : TEOp K T → Prop}
    (hP : ∀ y t, P y → P (evalHT x.np b y t).2) (h : Bound w s o x b P) {op : SOp K T}
    (hr : Reading o op) :
    ∃ b', (b' = b ∨ b' = withBra b) ∧ Bound ((op.run s).run w).2 s o x b' P := by
  obtain ⟨y, hy, hys, hPy⟩ := h.state
  have same : ∀ {α : Type} {m : PyM (World K T) α}, (m.run w).2 = w →
      ∃ b', (b' = b ∨ b' = withBra b) ∧
        Bound ((do let _ ← m; pure () : PyM (World K T) Unit).run w).2 s o x b' P := by
    intro α m hm
    refine ⟨b, .inl rfl, ?_⟩
    have : ((do let _ ← m; pure () : PyM (World K T) Unit).run w).2 = w := by
      rw [PyM.run_bind]
      rcases hr : m.run w with ⟨_ | a, w'⟩ <;> rw [hr] at hm <;> exact hm
    rw [this]; exact h
  have hht : ∀ t, ∃ b', (b' = b ∨ b' = withBra b) ∧
      Bound ((do let _ ← opHT o t; pure () : PyM (World K T) Unit).run w).2 s o x b' P := by
    intro t
    refine ⟨b, .inl rfl, ?_⟩
    have e : ((do let _ ← opHT o t; pure () : PyM (World K T) Unit).run w).2 =
        { w with ops := w.ops.set o (evalHT x.np b y t).2 } := by
      rw [PyM.run_bind, opHT_run h.ok.sys h.ok.basis hy hys]
      cases (evalHT x.np b y t).1 <;> rfl
    rw [e]
    exact ⟨⟨h.ok.sys, h.ok.basis, h.ok.wf, h.ok.np, h.ok.size⟩, h.op, _, get_set hy _,
      by rw [evalHT_system]; exact hys, hP y t hPy⟩
  have hut : ∀ t, ((opUT o t).run w).2 = w := by
    intro t
    rw [opUT_run h.ok.sys h.ok.basis hy hys]
  cases op with
  | hT t =>
    have : ∀ (v : World K T), (World.hT s t).run w = (opHT o t).run w := fun _ => hT_some h.ok.sys h.op
    obtain ⟨b', hb', hB⟩ := hht t
    refine ⟨b', hb', ?_⟩
    show Bound ((do let _ ← World.hT s t; pure () : PyM (World K T) Unit).run w).2 s o x b' P
    rw [PyM.run_bind, this w, ← PyM.run_bind]
    exact hB
  | uT t =>
    refine same ?_
    rw [uT_some h.ok.sys h.op]
    exact hut t
  | opHT o' t => obtain rfl : o' = o := hr; exact hht t
  | opUT o' t => obtain rfl : o' = o := hr; exact same (hut t)
  | density rho C Ct =>
    have e : ((SOp.density rho C Ct : SOp K T).run s |>.run w).2 =
        { w with bases := w.bases.set x.basis (if b.spf.isSome then withBra b else b) } := by
      show ((do let _ ← World.computeParticleDensity s rho C Ct; pure () :
        PyM (World K T) Unit).run w).2 = _
      rw [PyM.run_bind, World.computeParticleDensity, run_bind_ok (getSys_run h.ok.sys),
        onBasis_run h.ok.basis, density_state]
      cases ((BasisSet.computeParticleDensity rho C Ct).run b).1 <;> rfl
    refine ⟨if b.spf.isSome then withBra b else b, by split_ifs <;> simp, ?_⟩
    rw [e]
    refine ⟨⟨h.ok.sys, get_set h.ok.basis _, ?_, ?_, h.ok.size⟩, h.op, y, hy, hys, hPy⟩
    · split_ifs
      · exact withBra_wf h.ok.wf
      · exact h.ok.wf
    · split_ifs <;> exact h.ok.np
  | transformOneBody z C Ct =>
    refine same ?_
    simp only [World.transformOneBody, PyM.run_bind, getSys_run h.ok.sys, run_liftM]
  | transformTwoBody z C Ct =>
    refine same ?_
    simp only [World.transformTwoBody, PyM.run_bind, getSys_run h.ok.sys, getBasis_run h.ok.basis]
    split <;> rfl
  | referenceEnergy =>
    refine same ?_
    simp only [World.referenceEnergy, PyM.run_bind, getSys_run h.ok.sys, h_run h.ok.sys h.ok.basis,
      u_run h.ok.sys h.ok.basis]
    split <;> rfl
  | setSystemSize _ _ => exact hr.elim
  | changeModule _ => exact hr.elim
  | changeBasis _ _ => exact hr.elim
  | setOperator _ => exact hr.elim
  | changeToHfBasis => exact hr.elim
  | basis _ => exact hr.elim
  | copy => exact hr.elim
  | toGeneral _ _ _ => exact hr.elim

theorem withBra_idem (b : BasisSet K) : withBra (withBra b) = withBra b := by
  show ({ withBra b with braSpf := (withBra b).bra } : BasisSet K) = _
  rw [withBra_bra]; rfl

theorem bound_history {w : World K T} {s o : ℕ} {x : Sys} {b : BasisSet K} {P : TEOp K T → Prop}
    (hP : ∀ y t, P y → P (evalHT x.np b y t).2) (h : Bound w s o x b P) {ops : List (SOp K T)}
    (hr : ∀ op ∈ ops, Reading o op) :
    ∃ b', (b' = b ∨ b' = withBra b) ∧ Bound (afterReading w s ops) s o x b' P := by
  induction ops generalizing w b with
  | nil => exact ⟨b, .inl rfl, h⟩
  | cons op ops ih =>
    obtain ⟨b1, hb1, h1⟩ := bound_reading hP h (hr op (by simp))
    have hP1 : ∀ y t, P y → P (evalHT x.np b1 y t).2 := by
      rcases hb1 with rfl | rfl
      · exact hP
      · exact hP
    obtain ⟨b2, hb2, h2⟩ := ih hP1 h1 (fun op' h' => hr op' (by simp [h']))
    refine ⟨b2, ?_, h2⟩
    rcases hb1 with rfl | rfl <;> rcases hb2 with rfl | rfl <;> simp [withBra_idem]

/-- `set_time_evolution_operator` binds. -/
theorem setOperator_bound {w : World K T} {s o : ℕ} {x : Sys} {b : BasisSet K} {y : TEOp K T}
    (ok : SysOK w s x b) (hy : w.ops[o]? = some y) {P : TEOp K T → Prop}
    (hP : P { y with system := some s }) :
    ∃ w', (setTimeEvolutionOperator s (some o)).run w = (.ok (), w') ∧
      Bound w' s o { x with op := some o } b P := by
  refine ⟨{ w with systems := w.systems.set s { x with op := some o }
                   ops := w.ops.set o { y with system := some s } }, ?_, ?_⟩
  · unfold setTimeEvolutionOperator
    simp only [PyM.run_bind, getSys_run ok.sys, setSys_run]
    rw [getOp_run (by exact hy)]
    simp only [setOp_run]
  · exact ⟨⟨get_set ok.sys _, ok.basis, ok.wf, ok.np, ⟨ok.size.le, ok.size.m, ok.size.o, ok.size.v⟩⟩,
      rfl, _, get_set hy _, rfl, hP⟩

/-- The answers of a system with a bound laser field. -/
theorem bound_laser {w : World K T} {s o : ℕ} {x : Sys} {b : BasisSet K} {d : NDArray K} {E P : T → Val K}
    {c : T → K} {e : T → ℕ → K} (h : Bound w s o x b (fun y => LaserState b.dim y E P))
    (hd : b.dipole = some d) (hE : ∀ t, IsNumber (E t) (c t)) (hP : ∀ t, IsVector (P t) b.dim (e t)) :
    LaserAnswers w s o b c e := by
  intro ops hr t
  obtain ⟨hd0, hds⟩ := h.ok.wf.dipole d hd
  obtain ⟨m, hm⟩ := h.ok.wf.np
  have hnp : x.np = some m := h.ok.np.trans hm
  have hstep : ∀ y t, LaserState b.dim y E P → LaserState b.dim (evalHT x.np b y t).2 E P := by
    intro y t hy
    rw [hnp]
    exact (laser_step hy hd (by rw [hds]; rfl) (by omega) t).2
  obtain ⟨b', hb', hB⟩ := bound_history hstep h hr
  obtain ⟨y, hy, hys, hst⟩ := hB.state
  obtain ⟨H, hH, hHs⟩ := h.ok.wf.h
  obtain ⟨r, hr1, hr2⟩ := laserFormula_eq hH hHs hd hds (hE t) (hP t)
  refine ⟨H, d, r, hH, hd, ?_, ?_, ?_⟩
  · rw [hT_some hB.ok.sys hB.op, opHT_run hB.ok.sys hB.ok.basis hy hys]
    have e1 : evalHT x.np b' y t = evalHT x.np b y t := by rcases hb' with rfl | rfl <;> rfl
    show (evalHT x.np b' y t).1 = _
    rw [e1, hnp, (laser_step hst hd (by rw [hds]; rfl) (by omega) t).1, hr1]
    rfl
  · rw [h.ok.wf.l_eq]; exact hr2
  · rw [uT_some hB.ok.sys hB.op, opUT_run hB.ok.sys hB.ok.basis hy hys]
    obtain ⟨p, e, hk, -⟩ := hst
    show evalUT b' y t = _
    simp only [evalUT, hk]
    rcases hb' with rfl | rfl <;> rfl

/-- What a laser field given by the user stands for. -/
theorem given_laserState {y : TEOp K T} {pulse : Attr K T} {pol : Option (Attr K T)} {n : ℕ}
    {f : T → Val K} {e : T → ℕ → K} (hk : y.kind = .laser pulse pol) (hp : Given pulse f)
    (he : GivenPol pol n e) (hc : IsCallable pulse ∨ ∃ a, pol = some a ∧ IsCallable a) (q : Option ℕ) :
    ∃ P, LaserState n { y with system := q } f P ∧ ∀ t, IsVector (P t) n (e t) := by
  have hc' : Wrapped pulse ∨ ∃ a, pol = some a ∧ Wrapped a := by
    rcases hc with ⟨g, rfl⟩ | ⟨a, ha, g, rfl⟩
    · exact .inl trivial
    · exact .inr ⟨_, ha, trivial⟩
  rcases pol with _ | a
  · refine ⟨fun _ => .array (unitPol n), ⟨pulse, none, hk, hp.denotes _, fun _ => rfl, hc'⟩, fun t => ?_⟩
    have : e t = fun k => if k = 0 then 1 else 0 := by funext k; exact he t k
    rw [this]
    exact unitPol_vector n
  · obtain ⟨g, hg, hv⟩ := he
    exact ⟨g, ⟨pulse, some a, hk, hp.denotes _, hg.denotes _, hc'⟩, hv⟩

/-! ### the other operators -/

def SwitchState (y : TEOp K T) (f : T → Val K) : Prop :=
  ∃ a, y.kind = .adiabatic a ∧ Denotes y.cells a f ∧ Wrapped a

def CustomState (a : NDArray K) (y : TEOp K T) (f : T → Val K) : Prop :=
  ∃ c, y.kind = .custom c a ∧ Denotes y.cells c f

theorem switch_step {y : TEOp K T} {f : T → Val K} {b : BasisSet K} {np : Option Module}
    (h : SwitchState y f) (t : T) : evalHT np b y t = (.ok b.h, y) ∧
      evalUT b y t = (do
        let us ← orErr .type b.u
        let r ← (f t).mul us
        .ok (some r)) := by
  obtain ⟨a, hk, hd, hw⟩ := h
  simp only [evalHT, evalUT, hk, hd.call hw, ok_bind, and_self]

theorem custom_step {y : TEOp K T} {f : T → Val K} {b : BasisSet K} {np : Option Module}
    {a : NDArray K} (h : CustomState a y f) (t : T) :
    (evalHT np b y t).1 = ((do
        let z ← (f t).mul a
        let hs ← orErr .type b.h
        NDArray.add hs z) : Except PyErr (NDArray K)).map some ∧
    CustomState a (evalHT np b y t).2 f ∧ evalUT b y t = .ok b.u := by
  obtain ⟨c, hk, hd⟩ := h
  have fin : ∀ (z : TEOp K T) (c' : Attr K T), z.kind = .custom c' a → Denotes z.cells c' f →
      Wrapped c' → customValue' b z t = (do
        let z ← (f t).mul a
        let hs ← orErr .type b.h
        NDArray.add hs z) := by
    intro z c' hz h1 h2
    simp only [customValue', hz, h1.call h2, ok_bind]
  rcases y with ⟨k, σ, cells⟩
  simp only at hk hd
  subst hk
  rcases c with v | g | i
  · have h1 := denotes_new (cells := cells) hd
    simp only [evalHT, wrapWeight', storeCell_length, evalUT]
    exact ⟨congrArg _ (fin _ (.closure cells.length) rfl h1 trivial), ⟨_, rfl, h1⟩, trivial⟩
  · simp only [evalHT, wrapWeight', evalUT]
    exact ⟨congrArg _ (fin _ (.fn g) rfl hd trivial), ⟨_, rfl, hd⟩, trivial⟩
  · simp only [evalHT, wrapWeight', evalUT]
    exact ⟨congrArg _ (fin _ (.closure i) rfl hd trivial), ⟨_, rfl, hd⟩, trivial⟩

theorem bound_switch {w : World K T} {s o : ℕ} {x : Sys} {b : BasisSet K} {f : T → Val K}
    {c : T → K} (h : Bound w s o x b (fun y => SwitchState y f)) (hf : ∀ t, IsNumber (f t) (c t)) :
    SwitchingAnswers w s o b c := by
  intro ops hr t
  have hstep : ∀ y t, SwitchState y f → SwitchState (evalHT x.np b y t).2 f := by
    intro y t hy
    rw [(switch_step hy t).1]; exact hy
  obtain ⟨b', hb', hB⟩ := bound_history hstep h hr
  obtain ⟨y, hy, hys, hst⟩ := hB.state
  obtain ⟨U, hU, hUs⟩ := h.ok.wf.u
  obtain ⟨dt, hdt⟩ := hf t
  have eu : b'.u = some U := by rcases hb' with rfl | rfl <;> exact hU
  refine ⟨U, NDArray.smul dt (c t) U, hU, ?_, rfl, fun i hi => ?_, ?_⟩
  · rw [uT_some hB.ok.sys hB.op, opUT_run hB.ok.sys hB.ok.basis hy hys]
    show evalUT b' y t = _
    rw [(switch_step (np := none) hst t).2, eu, hdt]
    rfl
  · rw [smul, ofFn_get_of hi]
  · rw [hT_some hB.ok.sys hB.op, opHT_run hB.ok.sys hB.ok.basis hy hys, (switch_step hst t).1]
    rcases hb' with rfl | rfl <;> rfl

theorem bound_custom {w : World K T} {s o : ℕ} {x : Sys} {b : BasisSet K} {f : T → Val K} {a : NDArray K}
    {c : T → K} (h : Bound w s o x b (fun y => CustomState a y f)) (hf : ∀ t, IsNumber (f t) (c t))
    (ha : a.shape = [b.l, b.l]) : CustomAnswers w s o b c a := by
  intro ops hr t
  have hstep : ∀ y t, CustomState a y f → CustomState a (evalHT x.np b y t).2 f :=
    fun y t hy => (custom_step hy t).2.1
  obtain ⟨b', hb', hB⟩ := bound_history hstep h hr
  obtain ⟨y, hy, hys, hst⟩ := hB.state
  obtain ⟨H, hH, hHs⟩ := h.ok.wf.h
  rw [← h.ok.wf.l_eq] at hHs
  obtain ⟨dt, hdt⟩ := hf t
  have eh : b'.h = some H := by rcases hb' with rfl | rfl <;> exact hH
  have hadd := add_same (a := H) (b := NDArray.smul dt (c t) a) (by rw [hHs]; exact ha.symm)
  refine ⟨H, ofFn (H.dtype.promote (NDArray.smul dt (c t) a).dtype) H.shape
      (fun i => H.get i + (NDArray.smul dt (c t) a).get i), hH, ?_, ?_, fun p hp q hq => ?_, ?_⟩
  · rw [hT_some hB.ok.sys hB.op, opHT_run hB.ok.sys hB.ok.basis hy hys]
    show (evalHT x.np b' y t).1 = _
    rw [(custom_step hst t).1, eh, hdt]
    simp only [Val.mul, ok_bind, orErr, hadd]
    rfl
  · exact hHs
  · have hi : InRange [b.l, b.l] [p, q] := inRange_two.2 ⟨p, q, rfl, hp, hq⟩
    rw [ofFn_get_of (by rw [hHs]; exact hi), smul, ofFn_get_of (by rw [ha]; exact hi)]
  · rw [uT_some hB.ok.sys hB.op, opUT_run hB.ok.sys hB.ok.basis hy hys]
    show evalUT b' y t = _
    rw [(custom_step (np := none) hst t).2.2]
    rcases hb' with rfl | rfl <;> rfl

/-- A successful change of basis of the system keeps the operator. -/
theorem bound_changeBasis {w w' : World K T} {s o : ℕ} {x : Sys} {b : BasisSet K} {P : TEOp K T → Prop}
    {C : NDArray K} {Ct : Option (NDArray K)} {r : Unit} (h : Bound w s o x b P)
    (hc : (World.changeBasis s C Ct).run w = (.ok r, w')) :
    ∃ n, C.shape = [x.l, n] ∧
      Bound w' s o (sized x x.n n) (changed b C (Ct.getD C.conj.T) x.l n) P := by
  obtain ⟨n, hC, -, hn, rfl⟩ := changeBasis_ok h.ok hc
  refine ⟨n, hC, ?_, h.op, h.state⟩
  exact withChanged_ok h.ok (changed_wellFormed h.ok.wf) rfl hn

end QS
