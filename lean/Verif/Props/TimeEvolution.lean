import Verif.Lemmas.Laser
import Verif.Props.Systems

/-!
# Time-evolution operators (C36–C41)
-/

namespace QS.Props

open Finset NDArray PyM BasisSet World Demo

variable {K T : Type} [PyScalar K]

/-! ## C36 -/

/-- The claim of C36: once a laser field built from `pulse` and `pol` is set on a system with dipole
moments, `h_t` and `u_t` follow the formula after any readings. -/
def C36_statement (K T : Type) [PyScalar K] : Prop :=
  ∀ (w w' : World K T) (s o : ℕ) (x : Sys) (b : BasisSet K) (y : TEOp K T) (pulse : Attr K T)
    (pol : Option (Attr K T)) (f : T → Val K) (c : T → K) (e : T → ℕ → K),
    SysOK w s x b → b.dipole.isSome = true → w.ops[o]? = some y → y.kind = .laser pulse pol →
    Given pulse f → (∀ t, IsNumber (f t) (c t)) → GivenPol pol b.dim e →
    (setTimeEvolutionOperator s (some o)).run w = (.ok (), w') → LaserAnswers w' s o b c e

/-- **C36** (partial; missing: a plain pulse together with a plain or missing polarisation, for which
the claim is false) With a laser field set whose pulse or polarisation is callable,
`h_t(t) = h + E(t) Σ_k e_k(t) d_k` and `u_t(t) = u`, after any number of evaluations at whatever times
(and densities, energies, transformations), also failing ones. -/
theorem C36_partial {w w' : World K T} {s o : ℕ} {x : Sys} {b : BasisSet K} {y : TEOp K T}
    {pulse : Attr K T} {pol : Option (Attr K T)} {f : T → Val K} {c : T → K} {e : T → ℕ → K}
    (ok : SysOK w s x b) (hd : b.dipole.isSome = true) (hy : w.ops[o]? = some y)
    (hk : y.kind = .laser pulse pol) (hp : Given pulse f) (hf : ∀ t, IsNumber (f t) (c t))
    (he : GivenPol pol b.dim e)
    (callable : IsCallable pulse ∨ ∃ a, pol = some a ∧ IsCallable a)
    (hset : (setTimeEvolutionOperator s (some o)).run w = (.ok (), w')) :
    LaserAnswers w' s o b c e := by
  obtain ⟨d, hd⟩ := Option.isSome_iff_exists.1 hd
  obtain ⟨P, hP, hv⟩ := given_laserState hk hp he callable (some s)
  obtain ⟨w1, h1, hB⟩ := setOperator_bound (P := fun y => LaserState b.dim y f P) ok hy hP
  obtain rfl : w1 = w' := congrArg Prod.snd (h1.symm.trans hset)
  exact bound_laser hB hd hf hv

/-- A laser field with a callable pulse and the default polarisation. -/
example : ∃ w', (setTimeEvolutionOperator 0 (some 1)).run lworld = (.ok (), w') ∧
    LaserAnswers w' 0 1 basis (fun t => (⟨2 * t, 0⟩ : GaussQ)) (fun _ k => if k = 0 then 1 else 0) :=
  ⟨_, rfl, C36_partial (pol := none) lworld_ok rfl rfl rfl (.inl rfl) (fun _ => ⟨_, rfl⟩)
    (fun _ _ => rfl) (.inl ⟨_, rfl⟩) rfl⟩

/-- The world of the demo system and one laser field with these plain values. -/
def plainWorld (v : GaussQ) : World GaussQ ℤ :=
  { world with ops := [laserField (.const (.scalar .float64 v)) none] }

/-- **C36** is false: with the constant pulse `3` and the default polarisation, `h_t` uses the value 1. -/
theorem C36_false : ¬ C36_statement GaussQ ℤ := by
  intro h
  obtain ⟨H, d, r, hH, hd, hr, hl, -⟩ := h (plainWorld (g 3 0)) _ 0 0 sys basis _
    (.const (.scalar .float64 (g 3 0))) none (fun _ => .scalar .float64 (g 3 0)) (fun _ => g 3 0)
    (fun _ k => if k = 0 then 1 else 0)
    ⟨rfl, rfl, basis_wf, rfl, by decide, rfl, rfl, rfl⟩ rfl rfl rfl (.inr ⟨_, rfl, fun _ => rfl⟩)
    (fun _ => ⟨_, rfl⟩) (fun _ _ => rfl) rfl [] (by simp) 0
  have h1 := hl.get 0 (by decide) 1 (by decide)
  obtain rfl := Option.some.inj hH
  obtain rfl := Option.some.inj hd
  obtain rfl := Option.some.inj (Except.ok.inj hr)
  revert h1
  decide +kernel

/-- **C36** What happens instead: with a plain polarisation, or none, a plain pulse is ignored: any two
plain pulses give the same `h_t`, or the same exception, at all times. -/
theorem C36_actual {w : World K T} {s o : ℕ} {x : Sys} {b : BasisSet K} {v v' : Val K}
    {pol : Option (Attr K T)} {cells : List (Val K)} (ok : SysOK w s x b) (hop : x.op = some o)
    (ho : o < w.ops.length) (hpol : pol = none ∨ ∃ e, pol = some (.const e)) (t : T) :
    ((World.hT s t).run { w with ops := w.ops.set o ⟨.laser (.const v) pol, some s, cells⟩ }).1 =
    ((World.hT s t).run { w with ops := w.ops.set o ⟨.laser (.const v') pol, some s, cells⟩ }).1 := by
  have get : ∀ z : TEOp K T, (w.ops.set o z)[o]? = some z := fun z => by simp [ho]
  have run : ∀ z : TEOp K T, z.system = some s →
      ((World.hT s t).run { w with ops := w.ops.set o z }).1 = (evalHT x.np b z t).1 := by
    intro z hz
    rw [hT_some (by exact ok.sys) hop, opHT_run (by exact ok.sys) (by exact ok.basis) (get z) hz]
  rw [run _ rfl, run _ rfl]
  have st : ∀ a c : Val K, storeCell (cells ++ [a]) cells.length c = cells ++ [c] := by
    intro a c; simp [storeCell]
  rcases hpol with rfl | ⟨e, rfl⟩
  · simp only [evalHT, wrapPulse', storeCell_length, fillPol']
    cases needNp x.np with
    | error _ => rfl
    | ok _ =>
      simp only [ok_bind]
      cases defaultPol b.dipole with
      | error _ => rfl
      | ok a => simp only [ok_bind, wrapPol', st]
  · simp only [evalHT, wrapPulse', storeCell_length, fillPol', wrapPol', st]

/-! ## C37 -/

/-- **C37** With an `AdiabaticSwitching` operator set, `u_t(t) = f(t) u` and `h_t = h`, after any
readings. -/
theorem C37_switching {w w' : World K T} {s o : ℕ} {x : Sys} {b : BasisSet K} {a : Attr K T}
    {f : T → Val K} {c : T → K} (ok : SysOK w s x b)
    (hy : w.ops[o]? = some (adiabaticSwitching a)) (hp : Given a f) (hf : ∀ t, IsNumber (f t) (c t))
    (hset : (setTimeEvolutionOperator s (some o)).run w = (.ok (), w')) :
    SwitchingAnswers w' s o b c := by
  have hst : SwitchState { adiabaticSwitching a with system := some s } f := by
    rcases hp with rfl | ⟨v, rfl, hv⟩
    · exact ⟨.fn f, rfl, rfl, trivial⟩
    · exact ⟨.fn fun _ => v, rfl, (funext hv).symm, trivial⟩
  obtain ⟨w1, h1, hB⟩ := setOperator_bound (P := fun y => SwitchState y f) ok hy hst
  obtain rfl : w1 = w' := congrArg Prod.snd (h1.symm.trans hset)
  exact bound_switch hB hf

/-- **C37** With a `CustomOneBodyOperator` set, `h_t(t) = h + w(t) A` and `u_t = u`, after any
readings. -/
theorem C37_custom {w w' : World K T} {s o : ℕ} {x : Sys} {b : BasisSet K} {a : Attr K T}
    {A : NDArray K} {f : T → Val K} {c : T → K} (ok : SysOK w s x b)
    (hy : w.ops[o]? = some (customOneBodyOperator a A)) (hp : Given a f)
    (hf : ∀ t, IsNumber (f t) (c t)) (hA : A.shape = [b.l, b.l])
    (hset : (setTimeEvolutionOperator s (some o)).run w = (.ok (), w')) :
    CustomAnswers w' s o b c A := by
  obtain ⟨w1, h1, hB⟩ := setOperator_bound (P := fun y => CustomState A y f) ok hy
    ⟨a, rfl, hp.denotes _⟩
  obtain rfl : w1 = w' := congrArg Prod.snd (h1.symm.trans hset)
  exact bound_custom hB hf hA

/-- The demo system and operators of these classes with plain values. -/
def cworld : World GaussQ ℤ :=
  { world with ops := [adiabaticSwitching (.const (.scalar .float64 (g 2 0))),
      customOneBodyOperator (.const (.scalar .complex128 (g 0 1))) Demo.h] }

example : ∃ w', (setTimeEvolutionOperator 0 (some 0)).run cworld = (.ok (), w') ∧
    SwitchingAnswers w' 0 0 basis (fun _ => g 2 0) :=
  ⟨_, rfl, C37_switching (w := cworld) (b := basis) (x := sys) ⟨rfl, rfl, basis_wf, rfl, by decide, rfl, rfl, rfl⟩ rfl
    (.inr ⟨_, rfl, fun _ => rfl⟩) (fun _ => ⟨_, rfl⟩) rfl⟩

example : ∃ w', (setTimeEvolutionOperator 0 (some 1)).run cworld = (.ok (), w') ∧
    CustomAnswers w' 0 1 basis (fun _ => g 0 1) Demo.h :=
  ⟨_, rfl, C37_custom (w := cworld) (b := basis) (x := sys) ⟨rfl, rfl, basis_wf, rfl, by decide, rfl, rfl, rfl⟩ rfl
    (.inr ⟨_, rfl, fun _ => rfl⟩) (fun _ => ⟨_, rfl⟩) rfl rfl⟩

/-! ## C38 -/

/-- **C38** A system whose operator (if it has one) is bound to it: if the one-body flag is false, then
`h_t` is `h` at all times; if the two-body flag is false, then `u_t` is `u` at all times. -/
theorem C38_flags {w : World K T} {s : ℕ} {x : Sys} {b : BasisSet K} (ok : SysOK w s x b)
    (hb : ∀ o, x.op = some o → ∃ y, w.ops[o]? = some y ∧ y.system = some s) :
    (((hasOneBody s).run w).1 = .ok false → ∀ t, ((World.hT s t).run w).1 = .ok b.h) ∧
    (((hasTwoBody s).run w).1 = .ok false → ∀ t, ((World.uT s t).run w).1 = .ok b.u) := by
  rcases ho : x.op with _ | o
  · exact ⟨fun _ t => by rw [hT_none ok.sys ok.basis ho], fun _ t => by rw [uT_none ok.sys ok.basis ho]⟩
  · obtain ⟨y, hy, hs⟩ := hb o ho
    refine ⟨fun h t => ?_, fun h t => ?_⟩
    · simp only [hasOneBody, PyM.run_bind, getSys_run ok.sys, ho, getOp_run hy, run_pure] at h
      rw [hT_some ok.sys ho, opHT_run ok.sys ok.basis hy hs]
      rcases hk : y.kind with _ | ⟨p, e⟩ | f | ⟨p, a⟩ <;> simp_all [opFlags, evalHT]
    · simp only [hasTwoBody, PyM.run_bind, getSys_run ok.sys, ho, getOp_run hy, run_pure] at h
      rw [uT_some ok.sys ho, opUT_run ok.sys ok.basis hy hs]
      rcases hk : y.kind with _ | ⟨p, e⟩ | f | ⟨p, a⟩ <;> simp_all [opFlags, evalUT]

/-- **C38** Setting an operator binds it to the system, so that the flags can be trusted. -/
theorem C38_set {w : World K T} {s o : ℕ} {x : Sys} {b : BasisSet K} {y : TEOp K T}
    (ok : SysOK w s x b) (hy : w.ops[o]? = some y) :
    ∃ w', (setTimeEvolutionOperator s (some o)).run w = (.ok (), w') ∧
    (((hasOneBody s).run w').1 = .ok false → ∀ t, ((World.hT s t).run w').1 = .ok b.h) ∧
    (((hasTwoBody s).run w').1 = .ok false → ∀ t, ((World.uT s t).run w').1 = .ok b.u) := by
  obtain ⟨w', h1, hB⟩ := setOperator_bound (P := fun _ => True) ok hy trivial
  refine ⟨w', h1, C38_flags hB.ok fun o' ho' => ?_⟩
  obtain rfl : o = o' := by simpa using ho'
  obtain ⟨y', hy', hs', -⟩ := hB.state
  exact ⟨y', hy', hs'⟩

/-- **C38** Setting the operator to `None`: both flags are false, `h_t` is `h` and `u_t` is `u`. -/
theorem C38_none {w : World K T} {s : ℕ} {x : Sys} {b : BasisSet K} (ok : SysOK w s x b) :
    ∃ w', (setTimeEvolutionOperator s none).run w = (.ok (), w') ∧
      ((hasOneBody s).run w').1 = .ok false ∧ ((hasTwoBody s).run w').1 = .ok false ∧
      ∀ t, ((World.hT s t).run w').1 = .ok b.h ∧ ((World.uT s t).run w').1 = .ok b.u := by
  have hx : (w.systems.set s { x with op := none })[s]? = some { x with op := none } :=
    get_set ok.sys _
  refine ⟨{ w with systems := w.systems.set s { x with op := none } }, ?_, ?_, ?_, fun t => ⟨?_, ?_⟩⟩
  · simp only [setTimeEvolutionOperator, PyM.run_bind, getSys_run ok.sys, setSys_run]
    rfl
  · simp only [hasOneBody]
    rw [run_bind_ok (getSys_run (by exact hx))]
    rfl
  · simp only [hasTwoBody]
    rw [run_bind_ok (getSys_run (by exact hx))]
    rfl
  · rw [hT_none (by exact hx) (by exact ok.basis) rfl]
  · rw [uT_none (by exact hx) (by exact ok.basis) rfl]

/-- The laser field leaves the two-body part alone and says so. -/
example : ((hasTwoBody 0).run lworld).1 = .ok false ∧ ((hasOneBody 0).run lworld).1 = .ok true ∧
    ∀ t, ((World.uT 0 t).run lworld).1 = .ok basis.u :=
  ⟨rfl, rfl, (C38_flags lworld_ok fun _ ho => ⟨_, by cases ho; rfl, rfl⟩).2 rfl⟩

/-! ## C39 -/

/-- The claim of C39 about laser fields: readings, a change of basis, further readings. -/
def C39_statement (K T : Type) [PyScalar K] : Prop :=
  ∀ (w w₁ w₂ : World K T) (s o : ℕ) (x : Sys) (b : BasisSet K) (y : TEOp K T) (pulse : Attr K T)
    (pol : Option (Attr K T)) (f : T → Val K) (c : T → K) (e : T → ℕ → K) (before after : List (SOp K T))
    (C : NDArray K) (Ct : Option (NDArray K)) (t : T),
    SysOK w s x b → b.dipole.isSome = true → w.ops[o]? = some y → y.kind = .laser pulse pol →
    Given pulse f → (∀ t, IsNumber (f t) (c t)) → GivenPol pol b.dim e →
    (setTimeEvolutionOperator s (some o)).run w = (.ok (), w₁) →
    (∀ op ∈ before, Reading o op) → (∀ op ∈ after, Reading o op) →
    (World.changeBasis s C Ct).run (afterReading w₁ s before) = (.ok (), w₂) →
    ∃ n r r', C.shape = [x.l, n] ∧
      ((World.hT s t).run (afterReading w₁ s before)).1 = .ok (some r) ∧
      ((World.hT s t).run (afterReading w₂ s after)).1 = .ok (some r') ∧
      IsOneBody C (Ct.getD C.conj.T) x.l n r r'

/-- **C39** (partial; missing: a plain pulse together with a plain or missing polarisation, for which
the claim is false) `h_t(t)` after `change_basis(C, C_tilde)` is the transform of `h_t(t)` before, for
laser fields with a callable pulse or polarisation, whatever was read before and after. -/
theorem C39_partial {w w₁ w₂ : World K T} {s o : ℕ} {x : Sys} {b : BasisSet K} {y : TEOp K T}
    {pulse : Attr K T} {pol : Option (Attr K T)} {f : T → Val K} {c : T → K} {e : T → ℕ → K}
    {before after : List (SOp K T)} {C : NDArray K} {Ct : Option (NDArray K)}
    (ok : SysOK w s x b) (hd : b.dipole.isSome = true) (hy : w.ops[o]? = some y)
    (hk : y.kind = .laser pulse pol) (hp : Given pulse f) (hf : ∀ t, IsNumber (f t) (c t))
    (he : GivenPol pol b.dim e)
    (callable : IsCallable pulse ∨ ∃ a, pol = some a ∧ IsCallable a)
    (hset : (setTimeEvolutionOperator s (some o)).run w = (.ok (), w₁))
    (hbef : ∀ op ∈ before, Reading o op) (haft : ∀ op ∈ after, Reading o op)
    (hc : (World.changeBasis s C Ct).run (afterReading w₁ s before) = (.ok (), w₂)) (t : T) :
    ∃ n r r', C.shape = [x.l, n] ∧
      ((World.hT s t).run (afterReading w₁ s before)).1 = .ok (some r) ∧
      ((World.hT s t).run (afterReading w₂ s after)).1 = .ok (some r') ∧
      IsOneBody C (Ct.getD C.conj.T) x.l n r r' := by
  obtain ⟨d, hd⟩ := Option.isSome_iff_exists.1 hd
  obtain ⟨P, hP, hv⟩ := given_laserState hk hp he callable (some s)
  obtain ⟨w1, h1, hB⟩ := setOperator_bound (P := fun y => LaserState b.dim y f P) ok hy hP
  obtain rfl : w1 = w₁ := congrArg Prod.snd (h1.symm.trans hset)
  have a1 := bound_laser hB hd hf hv before hbef t
  obtain ⟨hd0, hds⟩ := ok.wf.dipole d hd
  obtain ⟨m, hm⟩ := ok.wf.np
  have hstep : ∀ y t, LaserState b.dim y f P → LaserState b.dim (evalHT x.np b y t).2 f P := by
    intro y t hy
    rw [ok.np, hm]
    exact (laser_step hy hd (by rw [hds]; rfl) (by omega) t).2
  obtain ⟨b', hb', hB'⟩ := bound_history (x := { x with op := some o }) hstep hB hbef
  obtain ⟨n, hC, hB2⟩ := bound_changeBasis hB' hc
  have hdim : b'.dim = b.dim := by rcases hb' with rfl | rfl <;> rfl
  have hd' : b'.dipole = some d := by rcases hb' with rfl | rfl <;> exact hd
  have wf' : WellFormed b' x.l := hB'.ok.wf
  have ch : BasisChanged b' (changed b' C (Ct.getD C.conj.T) x.l n) C (Ct.getD C.conj.T) x.l n :=
    changed_isChanged wf'
  have hdd := ch.dipole
  rw [hd'] at hdd
  rcases hd2 : (changed b' C (Ct.getD C.conj.T) x.l n).dipole with _ | d2
  · rw [hd2] at hdd; exact hdd.elim
  rw [hd2] at hdd
  have hdim2 : (changed b' C (Ct.getD C.conj.T) x.l n).dim = b.dim := ch.rest.2.2.2.2.1.trans hdim
  have a2 := bound_laser (c := c) (e := e) (b := changed b' C (Ct.getD C.conj.T) x.l n)
    (by rw [hdim2]; exact hB2) hd2 hf (by rw [hdim2]; exact hv) after haft t
  obtain ⟨H, d1, r, hH, hd1, hr, hl, -⟩ := a1
  obtain ⟨H', d1', r', hH', hd1', hr', hl', -⟩ := a2
  obtain rfl := Option.some.inj (hd.symm.trans hd1)
  obtain rfl := Option.some.inj (hd2.symm.trans hd1')
  have hhh := ch.h
  have hH2 : b'.h = some H := by rcases hb' with rfl | rfl <;> exact hH
  rw [hH2, hH'] at hhh
  refine ⟨n, r, r', hC, hr, hr', ?_⟩
  rw [ch.size, hdim2] at hl'
  rw [ok.wf.l_eq] at hl
  rw [hdim] at hdd
  refine ⟨hl'.shape, fun p hp q hq => ?_⟩
  rw [hl'.get p hp q hq, hhh.2 p hp q hq]
  have e1 : ∀ k ∈ range b.dim, e t k * d2.get [k, p, q] = ∑ i ∈ range x.l, ∑ j ∈ range x.l,
      (Ct.getD C.conj.T).get [p, i] * (e t k * d.get [k, i, j]) * C.get [j, q] := by
    intro k hk
    rw [hdd.2 k (mem_range.1 hk) p hp q hq]
    simp only [mul_sum]
    refine sum_congr rfl fun i _ => sum_congr rfl fun j _ => by ring
  have e2 : ∀ X : ℕ → ℕ → ℕ → K, ∑ k ∈ range b.dim, ∑ i ∈ range x.l, ∑ j ∈ range x.l, X k i j =
      ∑ i ∈ range x.l, ∑ j ∈ range x.l, ∑ k ∈ range b.dim, X k i j := by
    intro X
    rw [sum_comm]
    exact sum_congr rfl fun i _ => sum_comm
  rw [sum_congr rfl e1, e2, mul_sum, ← sum_add_distrib]
  refine sum_congr rfl fun i hi => ?_
  rw [mul_sum, ← sum_add_distrib]
  refine sum_congr rfl fun j hj => ?_
  rw [hl.get i (mem_range.1 hi) j (mem_range.1 hj), ← sum_mul, ← mul_sum]
  ring

/-- A two-dimensional set of two orbitals. -/
def basis2 : BasisSet GaussQ :=
  { BasisSet.init 2 2 with
    h := some Demo.s, u := some u
    dipole := some (NDArray.ofFn .float64 [2, 2, 2] (fun i => match i with
      | [_, p, q] => g (1 + p + q) 0
      | _ => 0)) }

theorem basis2_wf : WellFormed basis2 2 := by
  constructor
  · rfl
  · exact ⟨0, rfl⟩
  · exact ⟨_, rfl, rfl⟩
  · exact ⟨_, rfl, rfl⟩
  · rintro x ⟨⟩
  · rintro x ⟨⟩; exact ⟨by decide, rfl⟩
  · rintro x ⟨⟩
  · rintro x ⟨⟩
  · rintro ⟨⟩; rfl
  · rintro x ⟨⟩

/-- A system on `basis2` and a laser field with constant pulse and polarisation `(1, 0)`. -/
def world2 : World GaussQ ℤ :=
  { bases := [basis2]
    systems := [sys]
    ops := [laserField (.const (.scalar .float64 1)) none] }

theorem world2_ok : SysOK world2 0 sys basis2 :=
  ⟨rfl, rfl, basis2_wf, rfl, by decide, rfl, rfl, rfl⟩

/-- **C39** is false for a constant pulse with the default polarisation. -/
theorem C39_false : ¬ C39_statement GaussQ ℤ := by
  intro h
  obtain ⟨n, r, r', hC, hr, hr', h1, h2⟩ := h world2 _ _ 0 0 sys basis2 _
    (.const (.scalar .float64 1)) none (fun _ => .scalar .float64 1) (fun _ => 1)
    (fun _ k => if k = 0 then 1 else 0) [] [] (mat .float64 [[g 0 0, g 1 0], [g 1 0, g 0 0]]) none 0
    world2_ok rfl rfl rfl (.inr ⟨_, rfl, fun _ => rfl⟩) (fun _ => ⟨_, rfl⟩) (fun _ _ => rfl) rfl
    (by simp) (by simp) rfl
  obtain rfl : 2 = n := by
    have : [2, 2] = [2, n] := hC
    simpa using this
  have h3 := h2 0 (by decide) 1 (by decide)
  obtain rfl := Option.some.inj (Except.ok.inj hr)
  obtain rfl := Option.some.inj (Except.ok.inj hr')
  revert h3
  decide +kernel

/-- **C39** The second half: `u_t(t)` with `AdiabaticSwitching` after `change_basis` is the transform of
`u_t(t)` before. -/
theorem C39_switching {w w₁ w₂ : World K T} {s o : ℕ} {x : Sys} {b : BasisSet K}
    {a : Attr K T} {f : T → Val K} {c : T → K}
    {before after : List (SOp K T)} {C : NDArray K} {Ct : Option (NDArray K)}
    (ok : SysOK w s x b) (hy : w.ops[o]? = some (adiabaticSwitching a))
    (hp : Given a f) (hf : ∀ t, IsNumber (f t) (c t))
    (hset : (setTimeEvolutionOperator s (some o)).run w = (.ok (), w₁))
    (hbef : ∀ op ∈ before, Reading o op) (haft : ∀ op ∈ after, Reading o op)
    (hc : (World.changeBasis s C Ct).run (afterReading w₁ s before) = (.ok (), w₂)) (t : T) :
    ∃ n r r', C.shape = [x.l, n] ∧
      ((World.uT s t).run (afterReading w₁ s before)).1 = .ok (some r) ∧
      ((World.uT s t).run (afterReading w₂ s after)).1 = .ok (some r') ∧
      IsTwoBody C (Ct.getD C.conj.T) x.l n r r' := by
  have hst : SwitchState { adiabaticSwitching a with system := some s } f := by
    rcases hp with rfl | ⟨v, rfl, hv⟩
    · exact ⟨.fn f, rfl, rfl, trivial⟩
    · exact ⟨.fn fun _ => v, rfl, (funext hv).symm, trivial⟩
  obtain ⟨w1, h1, hB⟩ := setOperator_bound (P := fun y => SwitchState y f) ok hy hst
  obtain rfl : w1 = w₁ := congrArg Prod.snd (h1.symm.trans hset)
  have hstep : ∀ y t, SwitchState y f → SwitchState (evalHT x.np b y t).2 f := by
    intro y t hy
    rw [(switch_step hy t).1]; exact hy
  obtain ⟨U, r, hU, hr, hrs, hrg, -⟩ := bound_switch hB hf before hbef t
  obtain ⟨b', hb', hB'⟩ := bound_history (x := { x with op := some o }) hstep hB hbef
  obtain ⟨n, hC, hB2⟩ := bound_changeBasis hB' hc
  obtain ⟨U', r', hU', hr', hrs', hrg', -⟩ := bound_switch hB2 hf after haft t
  have ch : BasisChanged b' (changed b' C (Ct.getD C.conj.T) x.l n) C (Ct.getD C.conj.T) x.l n :=
    changed_isChanged hB'.ok.wf
  have huu := ch.u
  have hU2 : b'.u = some U := by rcases hb' with rfl | rfl <;> exact hU
  rw [hU2, hU'] at huu
  obtain ⟨U₀, hU₀, hUs⟩ := ok.wf.u
  obtain rfl := Option.some.inj (hU.symm.trans hU₀)
  refine ⟨n, r, r', hC, hr, hr', by rw [hrs', huu.1], fun p hp q hq i hi j hj => ?_⟩
  rw [hrg' _ (by rw [huu.1]; exact inRange_four.2 ⟨p, q, i, j, rfl, hp, hq, hi, hj⟩),
    huu.2 p hp q hq i hi j hj]
  simp only [mul_sum]
  refine sum_congr rfl fun k hk => sum_congr rfl fun l hl => sum_congr rfl fun m hm =>
    sum_congr rfl fun v hv => ?_
  rw [hrg _ (by
    rw [hUs]
    exact inRange_four.2 ⟨k, l, m, v, rfl, mem_range.1 hk, mem_range.1 hl, mem_range.1 hm,
      mem_range.1 hv⟩)]
  ring

example : ∃ w₁ w₂ n r r', (setTimeEvolutionOperator 0 (some 1)).run lworld = (.ok (), w₁) ∧
    (World.changeBasis 0 C22 (some C22inv)).run w₁ = (.ok (), w₂) ∧ C22.shape = [2, n] ∧
    ((World.hT 0 7).run w₁).1 = .ok (some r) ∧ ((World.hT 0 7).run w₂).1 = .ok (some r') ∧
    IsOneBody C22 C22inv 2 n r r' := by
  obtain ⟨n, r, r', h⟩ := C39_partial (before := []) (after := []) (o := 1) (C := C22) (Ct := some C22inv) (pol := none)
    (w₁ := ((setTimeEvolutionOperator 0 (some 1)).run lworld).2) (w₂ := ((World.changeBasis 0 C22
      (some C22inv)).run ((setTimeEvolutionOperator 0 (some 1)).run lworld).2).2)
    lworld_ok rfl rfl rfl (.inl rfl) (fun _ => ⟨_, rfl⟩) (fun _ _ => rfl) (.inl ⟨_, rfl⟩) rfl (by simp)
    (by simp) rfl 7
  exact ⟨_, _, n, r, r', rfl, rfl, h⟩

/-! ## C40 -/

/-- The claim of C40. -/
def C40_statement (K T : Type) [PyScalar K] : Prop :=
  ∀ (w w' : World K T) (s o : ℕ) (x : Sys) (b : BasisSet K) (y : TEOp K T) (pulse : Attr K T)
    (pol : Option (Attr K T)) (f : T → Val K) (c : T → K) (e : T → ℕ → K) (ops : List (SOp K T)) (t : T),
    SysOK w s x b → b.dipole.isSome = true → w.ops[o]? = some y → y.kind = .laser pulse pol →
    Given pulse f → (∀ t, IsNumber (f t) (c t)) → GivenPol pol b.dim e →
    (setTimeEvolutionOperator s (some o)).run w = (.ok (), w') → (∀ op ∈ ops, Reading o op) →
    OnSome (HermMat x.l) b.h → OnSome (HermDip b.dim x.l) b.dipole →
    star (c t) = c t → (∀ k, star (e t k) = e t k) →
    ∃ r, ((World.hT s t).run (afterReading w' s ops)).1 = .ok (some r) ∧ HermMat x.l r

/-- **C40** (partial; missing: a plain pulse together with a plain or missing polarisation, for which
the claim is false) With Hermitian `h` and dipole components and a pulse and polarisation that are
real at `t`, `h_t(t)` is Hermitian, whatever was read before. -/
theorem C40_partial {w w' : World K T} {s o : ℕ} {x : Sys} {b : BasisSet K} {y : TEOp K T}
    {pulse : Attr K T} {pol : Option (Attr K T)} {f : T → Val K} {c : T → K} {e : T → ℕ → K}
    {ops : List (SOp K T)} {t : T}
    (ok : SysOK w s x b) (hd : b.dipole.isSome = true) (hy : w.ops[o]? = some y)
    (hk : y.kind = .laser pulse pol) (hp : Given pulse f) (hf : ∀ t, IsNumber (f t) (c t))
    (he : GivenPol pol b.dim e)
    (callable : IsCallable pulse ∨ ∃ a, pol = some a ∧ IsCallable a)
    (hset : (setTimeEvolutionOperator s (some o)).run w = (.ok (), w'))
    (hr : ∀ op ∈ ops, Reading o op)
    (hh : OnSome (HermMat x.l) b.h) (hdip : OnSome (HermDip b.dim x.l) b.dipole)
    (hc : star (c t) = c t) (hpol : ∀ k, star (e t k) = e t k) :
    ∃ r, ((World.hT s t).run (afterReading w' s ops)).1 = .ok (some r) ∧ HermMat x.l r := by
  obtain ⟨H, d, r, hH, hd, hr, hl, -⟩ := C36_partial ok hd hy hk hp hf he callable hset ops hr t
  rw [ok.wf.l_eq] at hl
  refine ⟨r, hr, fun p hp q hq => ?_⟩
  rw [hl.get p hp q hq, hl.get q hq p hp, star_add, star_mul', star_sum, ← hh H hH p hp q hq, hc]
  congr 2
  refine sum_congr rfl fun k hk => ?_
  rw [star_mul', hpol, ← hdip d hd k (mem_range.1 hk) p hp q hq]

/-- **C40** is false for a constant pulse with the default polarisation. -/
theorem C40_false : ¬ C40_statement GaussQ ℤ := by
  intro h
  obtain ⟨r, hr, h1⟩ := h world2 _ 0 0 sys basis2 _
    (.const (.scalar .float64 1)) none (fun _ => .scalar .float64 1) (fun _ => 1)
    (fun _ k => if k = 0 then 1 else 0) [] 0
    world2_ok rfl rfl rfl (.inr ⟨_, rfl, fun _ => rfl⟩) (fun _ => ⟨_, rfl⟩) (fun _ _ => rfl) rfl
    (by simp) (by rintro _ ⟨⟩; unfold HermMat; decide +kernel)
    (by rintro _ ⟨⟩; unfold HermDip; decide +kernel) (star_one _)
    (fun k => by by_cases h : k = 0 <;> simp [h])
  have h3 := h1 0 (by decide) 1 (by decide)
  obtain rfl := Option.some.inj (Except.ok.inj hr)
  revert h3
  decide +kernel

example : ∃ w' r, (setTimeEvolutionOperator 0 (some 1)).run lworld = (.ok (), w') ∧
    ((World.hT 0 3).run w').1 = .ok (some r) ∧ HermMat 2 r := by
  obtain ⟨r, h⟩ := C40_partial (ops := []) (t := 3) (o := 1) (pol := none) (b := basis)
    (w := lworld) (w' := ((setTimeEvolutionOperator 0 (some 1)).run lworld).2) (s := 0)
    (x := { sys with op := some 0 })
    (c := fun t => (⟨2 * t, 0⟩ : GaussQ)) lworld_ok rfl rfl rfl (.inl rfl)
    (fun _ => ⟨_, rfl⟩) (fun _ _ => rfl) (.inl ⟨_, rfl⟩) rfl (by simp)
    (by rintro _ ⟨⟩; unfold HermMat; decide +kernel)
    (by rintro _ ⟨⟩; unfold HermDip; decide +kernel) (by decide +kernel)
    (fun k => by by_cases h : k = 0 <;> simp [h])
  exact ⟨_, r, rfl, h⟩

/-! ## C41 -/

/-- The claim of C41: start with systems without operators and unbound operators, and call
`set_time_evolution_operator` on any systems with any operators. Then `h_t` and `u_t` of a system depend
on nothing but that system, its basis set and the operators: they are the same in any world that agrees
with this one on these. -/
def C41_statement (K T : Type) [PyScalar K] : Prop :=
  ∀ (w : World K T), (∀ x ∈ w.systems, x.op = none) → (∀ y ∈ w.ops, y.system = none) →
    ∀ (hist : List (ℕ × Option ℕ)) (w₁ w₂ : World K T) (s : ℕ) (x : Sys),
    w₁ = performAll w (hist.map fun a => (a.1, .setOperator a.2)) →
    w₁.systems[s]? = some x → w₂.systems[s]? = some x →
    w₂.bases[x.basis]? = w₁.bases[x.basis]? → w₂.ops = w₁.ops → ∀ t,
    ((World.hT s t).run w₁).1 = ((World.hT s t).run w₂).1 ∧
    ((World.uT s t).run w₁).1 = ((World.uT s t).run w₂).1

/-- Two systems on different basis sets and an operator. -/
def twoWorld (b : BasisSet GaussQ) : World GaussQ ℤ :=
  { bases := [basis, b]
    systems := [sys, { sys with basis := 1 }]
    ops := [⟨.base, none, []⟩] }

/-- **C41** is false: an operator that is set on system 0 and then on system 1 makes `h_t` of system 0
that of system 1. -/
theorem C41_false : ¬ C41_statement GaussQ ℤ := by
  intro h
  have h1 := (h (twoWorld basis) (by decide) (by simp [twoWorld])
    [(0, some 0), (1, some 0)] _
    (performAll (twoWorld basis2) ([(0, some 0), (1, some 0)].map fun a => (a.1, .setOperator a.2)))
    0 { sys with op := some 0 } rfl rfl rfl rfl rfl 0).1
  have h2 : basis.h = basis2.h := Except.ok.inj h1
  have h3 := congrArg (Option.map fun a : NDArray GaussQ => a.get [0, 1]) h2
  revert h3
  decide +kernel

/-- **C41** What happens instead: all systems with the same operator object get the `h_t` and `u_t` of
the system that it was set on last. -/
theorem C41_actual {w : World K T} {s s' o : ℕ} {x x' : Sys} (hx : w.systems[s]? = some x)
    (hx' : w.systems[s']? = some x') (ho : x.op = some o) (ho' : x'.op = some o) (t : T) :
    (World.hT s t).run w = (World.hT s' t).run w ∧ (World.uT s t).run w = (World.uT s' t).run w := by
  rw [hT_some hx ho, hT_some hx' ho', uT_some hx ho, uT_some hx' ho']
  exact ⟨rfl, rfl⟩

/-- **C41** (partial; missing: handing one operator object to several systems, for which the claim is
false) Take systems that share no basis set and no operator object, and any history — of any operations,
not only `set_time_evolution_operator` — in which an operator object is only used with the system it
belongs to. Then `h_t` and `u_t` of a system are the same in any world that agrees with this one on
that system, its basis set and its operators. -/
theorem C41_partial {w : World K T} {S : ℕ → Prop} {B : ℕ → ℕ} {A : ℕ → ℕ → Prop}
    (sep : Separate w S B A) {hist : List (ℕ × SOp K T)} (hd : Disciplined S A hist)
    {w₂ : World K T} {s : ℕ} (hs : S s)
    (hsys : w₂.systems[s]? = (performAll w hist).systems[s]?)
    (hbas : w₂.bases[B s]? = (performAll w hist).bases[B s]?)
    (hops : ∀ o, A s o → w₂.ops[o]? = (performAll w hist).ops[o]?) (t : T) :
    ((World.hT s t).run (performAll w hist)).1 = ((World.hT s t).run w₂).1 ∧
    ((World.uT s t).run (performAll w hist)).1 = ((World.uT s t).run w₂).1 := by
  have own := (separate_history sep hd).owns s hs
  have := sameReports_of_same own ⟨hsys, hbas, hops⟩
  exact ⟨this.hT t, this.uT t⟩

/-- **C41** (partial, as above) In particular they do not change when something is done with another
system. -/
theorem C41_partial_others {w : World K T} {S : ℕ → Prop} {B : ℕ → ℕ} {A : ℕ → ℕ → Prop}
    (sep : Separate w S B A) {hist : List (ℕ × SOp K T)} (hd : Disciplined S A hist)
    {s i : ℕ} {op : SOp K T} (hs : S s) (hi : S i) (hne : s ≠ i) (hm : ∀ o, op.mentions o → A i o) (t : T) :
    ((World.hT s t).run (performAll w hist)).1 =
      ((World.hT s t).run (performAll w (hist ++ [(i, op)]))).1 ∧
    ((World.uT s t).run (performAll w hist)).1 =
      ((World.uT s t).run (performAll w (hist ++ [(i, op)]))).1 := by
  have h := (separate_step (separate_history sep hd) hi hm).2 s hs hne
  have e : performAll w (hist ++ [(i, op)]) = ((op.run i).run (performAll w hist)).2 := by
    simp [performAll]
  rw [e]
  exact C41_partial sep hd hs h.sys h.basis h.ops t

/-- Systems 0 and 1 with their own operator objects. -/
def pairWorld : World GaussQ ℤ :=
  { bases := [basis, basis2]
    systems := [sys, { sys with basis := 1 }]
    ops := [laserField (.fn fun t => .scalar .float64 ⟨t, 0⟩) none, ⟨.base, none, []⟩] }

theorem pair_separate : Separate pairWorld (fun i => i < 2) (fun i => i) (fun i o => o = i) := by
  refine ⟨fun i hi => ?_, fun i j _ _ h => h, fun i j o _ _ h ho => ho ▸ h⟩
  obtain rfl | rfl : i = 0 ∨ i = 1 := by omega
  · exact ⟨⟨_, rfl, rfl, by rintro _ ⟨⟩⟩, ⟨_, rfl⟩, by rintro _ rfl; exact ⟨_, rfl, by rintro _ ⟨⟩⟩⟩
  · exact ⟨⟨_, rfl, rfl, by rintro _ ⟨⟩⟩, ⟨_, rfl⟩, by rintro _ rfl; exact ⟨_, rfl, by rintro _ ⟨⟩⟩⟩

example (t : ℤ) : ((World.hT 0 t).run (performAll pairWorld [(0, .setOperator (some 0))])).1 =
    ((World.hT 0 t).run (performAll pairWorld [(0, .setOperator (some 0)), (1, .setOperator (some 1))])).1 :=
  (C41_partial_others pair_separate (hist := [(0, .setOperator (some 0))]) (op := .setOperator (some 1))
    (by
      intro e he
      obtain rfl : e = _ := by simpa using he
      exact ⟨by decide, fun o ho => ho⟩) (s := 0) (i := 1) (by decide) (by decide) (by decide)
    (fun o ho => ho) t).1

end QS.Props
