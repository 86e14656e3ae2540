import Verif.Props.SystemMemory
import Verif.Spec.DemoSystem
import Verif.Props.Memory

/-!
# Property C142: the Fock matrices of many times in one buffer
-/

namespace QS.Props

open NDArray PyM Finset World

variable {K T : Type} [PyScalar K] {w w' : HWorld K T} {s : ℕ} {t : T} {x : Sys} {b : HBasis K}

/-- An array that a call returns is one of a basis set, or new. -/
def OldOrNew (w : HWorld K T) (q : PyM (HWorld K T) (Option ℕ)) : Prop :=
  ∀ r w', q.run w = (.ok (some r), w') → (∃ b ∈ w.bases, some r ∈ b.slots) ∨ w.mem.length ≤ r

theorem oldOrNew_of_run {q q' : PyM (HWorld K T) (Option ℕ)} (hq : q.run w = q'.run w)
    (h : OldOrNew w q') : OldOrNew w q := fun r w' e => h r w' (hq ▸ e)

theorem oldOrNew_basis {f : HBasis K → Option ℕ} (hf : ∀ b, f b ∈ b.slots) :
    OldOrNew w (do let b ← HWorld.basisOf s; pure (f b)) := by
  intro r w' e
  rcases hx : w.systems[s]? with _ | x
  · simp only [HWorld.basisOf, PyM.run_bind, run_get, run_liftM, hx, orErr] at e
    cases e
  rcases hb : w.bases[x.basis]? with _ | b
  · simp only [HWorld.basisOf, PyM.run_bind, run_get, run_liftM, hx, hb, orErr] at e
    cases e
  · simp only [HWorld.basisOf, PyM.run_bind, run_get, run_liftM, hx, hb, orErr, run_pure] at e
    have : f b = some r := Except.ok.inj (Prod.ext_iff.1 e).1
    exact .inl ⟨b, List.mem_of_getElem? hb, this ▸ hf b⟩

theorem oldOrNew_h : OldOrNew w (HWorld.h s) := oldOrNew_basis fun b => by simp [HBasis.slots]
theorem oldOrNew_u : OldOrNew w (HWorld.u s) := oldOrNew_basis fun b => by simp [HBasis.slots]

theorem oldOrNew_error {q : PyM (HWorld K T) (Option ℕ)} {e : PyErr} {v : HWorld K T}
    (h : q.run w = (.error e, v)) : OldOrNew w q := fun r w' c => by rw [h] at c; cases c

theorem oldOrNew_hT : OldOrNew w (HWorld.hT s t) := by
  rcases hx : w.systems[s]? with _ | x
  · exact oldOrNew_error (e := .name) (v := w)
      (by simp only [HWorld.hT, PyM.run_bind, run_get, run_liftM, hx, orErr])
  rcases ho : x.op with _ | o
  · exact oldOrNew_of_run (q' := HWorld.h s)
      (by simp only [HWorld.hT, PyM.run_bind, run_get, run_liftM, hx, ho, orErr]) oldOrNew_h
  rcases hy : w.ops[o]? with _ | y
  · exact oldOrNew_error (e := .name) (v := w)
      (by simp only [HWorld.hT, HWorld.opHT, PyM.run_bind, run_get, run_liftM, hx, ho, hy, orErr])
  rcases hs : y.system with _ | s'
  · exact oldOrNew_error (e := .attribute) (v := w)
      (by simp only [HWorld.hT, HWorld.opHT, PyM.run_bind, run_get, run_liftM, hx, ho, hy, hs, orErr])
  rcases hk : y.kind with _ | ⟨p, e⟩ | f | ⟨p, a⟩
  · exact oldOrNew_of_run (q' := HWorld.h s')
      (by simp only [HWorld.hT, HWorld.opHT, PyM.run_bind, run_get, run_liftM, hx, ho, hy, hs, hk,
        orErr]) oldOrNew_h
  · refine oldOrNew_of_run (q' := do
        let x ← HWorld.reading (World.laserHT o s' t)
        let r ← HWorld.new x
        pure (some r)) ?_ fun r w' e => .inr (Option.some.inj (reading_new_ref e)).ge
    rw [HWorld.hT]
    simp only [PyM.run_bind, run_get, run_liftM, hx, ho, orErr]
    rw [HWorld.opHT]
    simp only [PyM.run_bind, run_get, run_liftM, hy, hs, hk, orErr]
  · exact oldOrNew_of_run (q' := HWorld.h s')
      (by simp only [HWorld.hT, HWorld.opHT, PyM.run_bind, run_get, run_liftM, hx, ho, hy, hs, hk,
        orErr]) oldOrNew_h
  · refine oldOrNew_of_run (q' := do
        let x ← HWorld.reading (World.customHT o s' t)
        let r ← HWorld.new x
        pure (some r)) ?_ fun r w' e => .inr (Option.some.inj (reading_new_ref e)).ge
    rw [HWorld.hT]
    simp only [PyM.run_bind, run_get, run_liftM, hx, ho, orErr]
    rw [HWorld.opHT]
    simp only [PyM.run_bind, run_get, run_liftM, hy, hs, hk, orErr]

theorem oldOrNew_uT : OldOrNew w (HWorld.uT s t) := by
  rcases hx : w.systems[s]? with _ | x
  · exact oldOrNew_error (e := .name) (v := w)
      (by simp only [HWorld.uT, PyM.run_bind, run_get, run_liftM, hx, orErr])
  rcases ho : x.op with _ | o
  · exact oldOrNew_of_run (q' := HWorld.u s)
      (by simp only [HWorld.uT, PyM.run_bind, run_get, run_liftM, hx, ho, orErr]) oldOrNew_u
  rcases hy : w.ops[o]? with _ | y
  · exact oldOrNew_error (e := .name) (v := w)
      (by simp only [HWorld.uT, HWorld.opUT, PyM.run_bind, run_get, run_liftM, hx, ho, hy, orErr])
  rcases hs : y.system with _ | s'
  · exact oldOrNew_error (e := .attribute) (v := w)
      (by simp only [HWorld.uT, HWorld.opUT, PyM.run_bind, run_get, run_liftM, hx, ho, hy, hs, orErr])
  rcases hk : y.kind with _ | ⟨p, e⟩ | f | ⟨p, a⟩
  case adiabatic =>
    refine oldOrNew_of_run (q' := do
        let c ← liftM (f.call y.cells t)
        let us ← HWorld.u s'
        let us ← liftM (orErr .type (w.mem.val us))
        let x ← liftM (c.mul us)
        let r ← HWorld.new x
        pure (some r)) ?_ fun r w' e => ?_
    · rw [HWorld.uT]
      simp only [PyM.run_bind, run_get, run_liftM, hx, ho, orErr]
      rw [HWorld.opUT]
      simp only [PyM.run_bind, run_get, run_liftM, hy, hs, hk, orErr]
    · obtain ⟨c, w1, h1, r1⟩ := run_bind_eq_ok.1 e
      obtain ⟨us, w2, h2, r2⟩ := run_bind_eq_ok.1 r1
      obtain ⟨U, w3, h3, r3⟩ := run_bind_eq_ok.1 r2
      obtain ⟨z, w4, h4, r4⟩ := run_bind_eq_ok.1 r3
      have e1 : w = w1 := (Prod.ext_iff.1 h1).2
      have e2 := (HWorld.ref_u (w := w1) s').mem
      rw [h2] at e2
      have e3 : w2 = w3 := (Prod.ext_iff.1 h3).2
      have e4 : w3 = w4 := (Prod.ext_iff.1 h4).2
      have e5 : w4.mem.length = r := Option.some.inj (Except.ok.inj (Prod.ext_iff.1 r4).1)
      right
      rw [← e5, ← e4, ← e3, e1]
      exact e2.length_le
  all_goals
    exact oldOrNew_of_run (q' := HWorld.u s')
      (by simp only [HWorld.uT, HWorld.opUT, PyM.run_bind, run_get, run_liftM, hx, ho, hy, hs, hk,
        orErr]) oldOrNew_u

/-! ### one time -/

/-- A buffer that the caller may pass: an `l × l` array of dtype `d` to which no basis set refers. -/
def FreeBuffer (w : HWorld K T) (l : ℕ) (d : DType) (f : Option ℕ) : Prop :=
  ∀ r, f = some r → (∃ X, w.mem[r]? = some X ∧ X.shape = [l, l] ∧ X.dtype = d) ∧
    ∀ b ∈ w.bases, some r ∉ b.slots

/-- `F` is the Fock matrix of `H` and `U` for the `n` lowest functions. -/
def IsFock (x : Sys) (l : ℕ) (H U F : NDArray K) : Prop :=
  F.shape = [l, l] ∧ ∀ p < l, ∀ q < l,
    (x.kind = .general → F.get [p, q] = H.get [p, q] + ∑ i ∈ range x.n, U.get [p, i, q, i]) ∧
    (x.kind = .spatial → F.get [p, q] = H.get [p, q] +
      ∑ i ∈ range x.n, (2 * U.get [p, i, q, i] - U.get [p, i, i, q]))

/-- **C142** `f = system.construct_fock_matrix(system.h_t(t), system.u_t(t), f)`: the Fock matrix of the
arrays at time `t`, in the buffer if there is one; no basis set and no other array changes, even if
`h_t` and `u_t` return arrays of the basis set themselves. -/
theorem C142_step (ok : w.Ok) (hx : w.systems[s]? = some x) {np : Module} {l : ℕ} {d : DType}
    (hnp : x.np = some np) (ho : x.o = (0, x.n)) (hn : x.n ≤ l) {f : Option ℕ}
    (hf : FreeBuffer w l d f) {H U : NDArray K} {v₁ v₂ : World K T}
    (hH : (World.hT s t).run w.view = (.ok (some H), v₁))
    (hU : (World.uT s t).run v₁ = (.ok (some U), v₂))
    (sh : H.shape = [l, l]) (su : U.shape = [l, l, l, l])
    (dh : d.promote H.dtype = d) (du : d.promote U.dtype = d) (d0 : f = none → H.dtype = d) :
    ∃ r w' F, (HWorld.fockStep s t f).run w = (.ok r, w') ∧ w'.view = v₂ ∧
      w'.view.bases = w.view.bases ∧ w'.bases = w.bases ∧ w'.systems = w.systems ∧ w'.Ok ∧
      w'.mem[r]? = some F ∧ IsFock x l H U F ∧ FreeBuffer w' l d (some r) ∧
      (∀ f', f = some f' → r = f') ∧ (f = none → w.mem.length ≤ r) ∧
      (∀ k < w.mem.length, f ≠ some k → w'.mem[k]? = w.mem[k]?) := by
  obtain ⟨out1, vw1, bs1, sy1, mm1⟩ := HWorld.ref_hT ok s t
  rw [hH] at out1 vw1
  rcases r1 : (HWorld.hT s t).run w with ⟨_ | hr, w1⟩
  · rw [r1] at out1; cases out1
  rw [r1] at out1 vw1 bs1 sy1 mm1
  have out1 : some H = w1.mem.val hr := Except.ok.inj out1
  have vw1 : w1.view = v₁ := vw1
  have bs1 : w1.bases = w.bases := bs1
  have sy1 : w1.systems = w.systems := sy1
  have mm1 : w.mem <+: w1.mem := mm1
  have ok1 : w1.Ok := ok.of_prefix bs1 mm1
  obtain ⟨out2, vw2, bs2, sy2, mm2⟩ := HWorld.ref_uT ok1 s t
  rw [vw1, hU] at out2 vw2
  rcases r2 : (HWorld.uT s t).run w1 with ⟨_ | ur, w2⟩
  · rw [r2] at out2; cases out2
  rw [r2] at out2 vw2 bs2 sy2 mm2
  have out2 : some U = w2.mem.val ur := Except.ok.inj out2
  have vw2 : w2.view = v₂ := vw2
  have bs2 : w2.bases = w1.bases := bs2
  have sy2 : w2.systems = w1.systems := sy2
  have mm2 : w1.mem <+: w2.mem := mm2
  have ok2 : w2.Ok := ok1.of_prefix bs2 mm2
  cases hr with
  | none => cases out1
  | some h =>
  cases ur with
  | none => cases out2
  | some u =>
  have hh1 : w1.mem[h]? = some H := out1.symm
  have hu : w2.mem[u]? = some U := out2.symm
  have hh : w2.mem[h]? = some H := by
    rw [← hh1]
    exact Mem.val_of_prefix mm2 (r := some h) fun i hi => by
      cases hi; exact lookup_lt hh1
  have hmm : w.mem <+: w2.mem := mm1.trans mm2
  have fne : ∀ r, f = some r → r < w.mem.length ∧ r ≠ h ∧ r ≠ u ∧
      ∃ X, w2.mem[r]? = some X ∧ X.shape = [l, l] ∧ X.dtype = d := by
    intro r hr
    obtain ⟨⟨X, hX, sX, dX⟩, free⟩ := hf r hr
    have hl : r < w.mem.length := lookup_lt hX
    refine ⟨hl, ?_, ?_, X, ?_, sX, dX⟩
    · rintro rfl
      rcases oldOrNew_hT _ _ r1 with ⟨b, hb, hc⟩ | hc
      · exact free b hb hc
      · omega
    · rintro rfl
      rcases oldOrNew_uT _ _ r2 with ⟨b, hb, hc⟩ | hc
      · rw [bs1] at hb; exact free b hb hc
      · have : w.mem.length ≤ w1.mem.length := mm1.length_le
        omega
    · rw [← hX]
      exact Mem.val_of_prefix hmm (r := some r) fun i hi => by cases hi; exact hl
  have good : GoodBuffer w2.mem h u l f := fun r hr =>
    let ⟨_, a, b, X, hX, sX, _⟩ := fne r hr
    ⟨a, b, X, hX, sX⟩
  have dout : outDtype w2.mem H f = d := by
    cases f with
    | none => exact d0 rfl
    | some r =>
      obtain ⟨-, -, -, X, hX, -, dX⟩ := fne r rfl
      simp only [outDtype, hX]
      exact dX
  obtain ⟨r, m', F, run, hF, rf, rn, keep, -, -, sF, dF, ent⟩ :=
    C26_fock hnp ho hn hh hu sh su good (by rw [dout]; exact dh) (by rw [dout]; exact du)
  have step : (HWorld.fockStep s t f).run w = (.ok r, { w2 with mem := m' }) := by
    have hx2 : w2.systems[s]? = some x := by rw [sy2, sy1]; exact hx
    rw [HWorld.fockStep, run_bind_ok r1, run_bind_ok r2]
    simp only [PyM.run_bind, run_get, run_liftM, hx2, orErr]
    show ((World.constructFock x h u f).run w2.mem |>.1,
      { w2 with mem := ((World.constructFock x h u f).run w2.mem).2 }) = _
    rw [run]
  have lenr : r < m'.length := lookup_lt hF
  have free : ∀ b ∈ w.bases, some r ∉ b.slots := by
    intro b hb hc
    cases hf' : f with
    | none =>
      have := ok b hb r hc
      have := rn hf'
      have := hmm.length_le
      omega
    | some f' =>
      obtain rfl := rf f' hf'
      exact (hf r hf').2 b hb hc
  have hbases : w2.bases = w.bases := bs2.trans bs1
  have slotsEq : ∀ b ∈ w.bases, b.view m' = b.view w2.mem := by
    intro b hb
    have key : ∀ q ∈ b.slots, Mem.val m' q = Mem.val w2.mem q := by
      intro q hq
      cases q with
      | none => rfl
      | some i =>
        have hi : i < w2.mem.length := (ok b hb i hq).trans_le hmm.length_le
        exact keep i hi (by rintro rfl; exact free b hb hq)
    simp only [HBasis.slots, List.forall_mem_cons] at key
    simp only [HBasis.view, key]
  have hview : ({ w2 with mem := m' } : HWorld K T).view = w2.view := by
    simp only [HWorld.view]
    congr 1
    exact List.map_congr_left fun b hb => slotsEq b (hbases ▸ hb)
  have hv0 : w2.view.bases = w.view.bases := by
    show w2.bases.map _ = w.bases.map _
    rw [hbases]
    exact List.map_congr_left fun b hb => view_prefix hmm (ok b hb)
  have mlen : w2.mem.length ≤ m'.length := by
    rcases Nat.lt_or_ge m'.length w2.mem.length with hc | hc
    · exfalso
      have := keep m'.length hc (by omega)
      rw [List.getElem?_eq_getElem hc] at this
      simp at this
    · exact hc
  refine ⟨r, { w2 with mem := m' }, F, step, hview.trans vw2, by rw [hview, hv0], hbases,
    sy2.trans sy1, ?_, hF, ⟨sF, ent⟩, ?_, rf, fun hf' => ?_, fun k hk hne => ?_⟩
  · intro b hb i hi
    exact (ok2 b hb i hi).trans_le mlen
  · intro r' hr'
    obtain rfl := Option.some.inj hr'
    exact ⟨⟨F, hF, sF, dF.trans dout⟩, fun b hb => free b (hbases ▸ hb)⟩
  · have := rn hf'
    have := hmm.length_le
    omega
  · have hk2 : k < w2.mem.length := hk.trans_le hmm.length_le
    rw [keep k hk2]
    · exact Mem.val_of_prefix hmm (r := some k) fun i hi => by cases hi; exact hk
    · rintro rfl
      cases hf' : f with
      | none =>
        have := rn hf'
        omega
      | some f' =>
        obtain rfl := rf f' hf'
        exact hne hf'

/-! ### many times -/

/-- `E` lists times with the contents of `h_t` and `u_t` there, evaluated one after the other on array
values, from the objects `v` to the objects `v'`. -/
inductive Evals (s : ℕ) : World K T → List (T × NDArray K × NDArray K) → World K T → Prop
  | nil (v : World K T) : Evals s v [] v
  | cons {v v₁ v₂ v' : World K T} {t : T} {H U : NDArray K} {E : List (T × NDArray K × NDArray K)} :
    (World.hT s t).run v = (.ok (some H), v₁) → (World.uT s t).run v₁ = (.ok (some U), v₂) →
    Evals s v₂ E v' → Evals s v ((t, H, U) :: E) v'

/-- **C142** The loop `for t in ts: f = system.construct_fock_matrix(system.h_t(t), system.u_t(t), f)`,
for any number of times and any operator, with one recycled buffer: at the end the buffer has the Fock
matrix of the last time (so, for every beginning of the loop, of the time reached), no earlier contents
are left in it, the basis sets are as before, and no other array has been written to. -/
theorem C142_loop {np : Module} {l : ℕ} {d : DType} (hnp : x.np = some np) (ho : x.o = (0, x.n))
    (hn : x.n ≤ l) {E : List (T × NDArray K × NDArray K)} {v' : World K T} :
    ∀ {w : HWorld K T} {f : Option ℕ}, w.Ok → w.systems[s]? = some x → FreeBuffer w l d f →
    Evals s w.view E v' →
    (∀ e ∈ E, e.2.1.shape = [l, l] ∧ e.2.2.shape = [l, l, l, l] ∧ d.promote e.2.1.dtype = d ∧
      d.promote e.2.2.dtype = d) →
    (f = none → ∀ e ∈ E.head?, e.2.1.dtype = d) →
    ∃ r w', (HWorld.fockLoop s (E.map (·.1)) f).run w = (.ok r, w') ∧ w'.view = v' ∧
      w'.view.bases = w.view.bases ∧ w'.bases = w.bases ∧
      (∀ f', f = some f' → r = some f') ∧
      (∀ k < w.mem.length, f ≠ some k → w'.mem[k]? = w.mem[k]?) ∧
      ∀ e ∈ E.getLast?, ∃ i F, r = some i ∧ w'.mem[i]? = some F ∧ IsFock x l e.2.1 e.2.2 F := by
  induction E with
  | nil =>
    intro w f ok hx hf ev _ _
    cases ev
    exact ⟨f, w, rfl, rfl, rfl, rfl, fun f' h => h, fun _ _ _ => rfl, by simp⟩
  | cons e E ih =>
    intro w f ok hx hf ev hE hd
    cases ev with
    | @cons _ v₁ v₂ _ t H U _ hH hU ev =>
    obtain ⟨sh, su, dh, du⟩ := hE _ List.mem_cons_self
    obtain ⟨r, w1, F, step, vw, vb, bs, sy, ok1, hF, isF, fb, rf, rn, keep⟩ :=
      C142_step ok hx hnp ho hn hf hH hU sh su dh du fun h => hd h (t, H, U) rfl
    obtain ⟨r', w', run, vw', vb', bs', rf', keep', last⟩ :=
      ih (w := w1) (f := some r) ok1 (by rw [sy]; exact hx) fb (by rw [vw]; exact ev)
        (fun e he => hE e (List.mem_cons_of_mem _ he)) (by simp)
    refine ⟨r', w', ?_, vw', vb'.trans vb, bs'.trans bs, fun f' h => ?_, fun k hk hne => ?_, ?_⟩
    · show (HWorld.fockStep s t f >>= fun r => HWorld.fockLoop s (E.map (·.1)) (some r)).run w = _
      rw [run_bind_ok step]
      exact run
    · obtain rfl := rf f' h
      exact rf' r rfl
    · have hk1 : w1.mem[k]? = w.mem[k]? := keep k hk hne
      have hk2 : k < w1.mem.length := by
        rw [List.getElem?_eq_getElem hk] at hk1
        exact lookup_lt hk1
      rw [keep' k hk2, hk1]
      intro hc
      obtain rfl := Option.some.inj hc
      cases hf' : f with
      | none =>
        have := rn hf'
        omega
      | some f' =>
        obtain rfl := rf f' hf'
        exact hne hf'
    · intro e he
      cases E with
      | nil =>
        simp only [List.getLast?_singleton, Option.mem_def, Option.some.injEq] at he
        subst he
        cases ev
        obtain ⟨rfl, rfl⟩ : r' = some r ∧ w' = w1 := by
          have := Prod.ext_iff.1 run
          exact ⟨(Except.ok.inj this.1).symm, this.2.symm⟩
        exact ⟨r, F, rfl, hF, isF⟩
      | cons e' E =>
        exact last e (by simpa [List.getLast?_cons_cons] using he)

/-- **C142** Using the array that `h_t` has returned as the buffer loses the one-body part of the result
in any case; without a one-body operator it also overwrites the Hamiltonian of the system, with one the
basis sets keep their contents. -/
theorem C142_buffer_h (ok : w.Ok) (hx : w.systems[s]? = some x) (hb : w.bases[x.basis]? = some b)
    (own : OwnOperator w s x) {c : Bool} (flag : OneBody w s c) {np : Module} {l r q : ℕ}
    (hnp : x.np = some np) (ho : x.o = (0, x.n)) (hn : x.n ≤ l) {w₁ w₂ : HWorld K T}
    (hr : (HWorld.hT s t).run w = (.ok (some r), w₁))
    (hq : (HWorld.uT s t).run w₁ = (.ok (some q), w₂)) {H U : NDArray K}
    (hH : w₂.mem[r]? = some H) (hU : w₂.mem[q]? = some U)
    (sh : H.shape = [l, l]) (su : U.shape = [l, l, l, l]) (du : H.dtype.promote U.dtype = H.dtype) :
    ∃ m' F, (World.constructFock x r q (some r)).run w₂.mem = (.ok r, m') ∧ m'[r]? = some F ∧
      (∀ p < l, ∀ q < l,
        (x.kind = .general → F.get [p, q] = ∑ i ∈ range x.n, U.get [p, i, q, i]) ∧
        (x.kind = .spatial → F.get [p, q] =
          ∑ i ∈ range x.n, (2 * U.get [p, i, q, i] - U.get [p, i, i, q]))) ∧
      (c = false → ((World.h s).run ({ w₂ with mem := m' } : HWorld K T).view).1 = .ok (some F)) ∧
      (c = true → ({ w₂ with mem := m' } : HWorld K T).view.bases = w.view.bases) := by
  have hne : r ≠ q := by
    rintro rfl
    rw [hH] at hU
    cases hU
    rw [sh] at su
    simp at su
  obtain ⟨m', F, run, hF, keep, -, ent⟩ := C26_alias hnp ho hn hH hU sh su hne du
  obtain ⟨-, -, bs1, sy1, mm1⟩ := HWorld.ref_hT ok s t
  rw [hr] at bs1 sy1 mm1
  have bs1 : w₁.bases = w.bases := bs1
  have sy1 : w₁.systems = w.systems := sy1
  have ok1 : w₁.Ok := ok.of_prefix bs1 mm1
  obtain ⟨-, -, bs2, sy2, mm2⟩ := HWorld.ref_uT ok1 s t
  rw [hq] at bs2 sy2 mm2
  have bs2 : w₂.bases = w₁.bases := bs2
  have sy2 : w₂.systems = w₁.systems := sy2
  have mm : w.mem <+: w₂.mem := mm1.trans mm2
  refine ⟨m', F, run, hF, ent, ?_, ?_⟩
  · rintro rfl
    rw [C142_live_h hx hb own flag] at hr
    have hbr : b.h = some r := Except.ok.inj (Prod.ext_iff.1 hr).1
    have hx' : ({ w₂ with mem := m' } : HWorld K T).view.systems[s]? = some x := by
      show w₂.systems[s]? = _
      rw [sy2, sy1, hx]
    have hb' : ({ w₂ with mem := m' } : HWorld K T).view.bases[x.basis]? = some (b.view m') := by
      show (w₂.bases.map _)[x.basis]? = _
      rw [bs2, bs1, List.getElem?_map, hb]
      rfl
    rw [h_run hx' hb']
    show Except.ok (Mem.val m' b.h) = _
    rw [hbr]
    exact congrArg Except.ok hF
  · rintro rfl
    have hrn := Option.some.inj (C142_new_h hx own flag hr)
    show w₂.bases.map _ = w.bases.map _
    rw [bs2, bs1]
    refine List.map_congr_left fun b hb => ?_
    have key : ∀ q ∈ b.slots, Mem.val m' q = w.mem.val q := by
      intro k hk
      cases k with
      | none => rfl
      | some i =>
        have hi := ok b hb i hk
        show m'[i]? = w.mem[i]?
        rw [keep i (by omega)]
        exact Mem.val_of_prefix mm (r := some i) fun j hj => by cases hj; exact hi
    simp only [HBasis.slots, List.forall_mem_cons] at key
    simp only [HBasis.view, key]

/-! ### an example -/

/-- A system of one particle whose interaction is switched on linearly in time. -/
def liveWorld : HWorld GaussQ ℤ where
  mem := demoState.mem
  bases := [demoState.obj]
  systems := [{ Demo.gsys with op := some 0 }]
  ops := [{ kind := .adiabatic (.fn fun t => .scalar .float64 (Demo.g t 0)), system := some 0, cells := [] }]

theorem liveWorld_ok : liveWorld.Ok := by
  intro b hb i hi
  have hb : b = demoState.obj := by simpa [liveWorld] using hb
  subst hb
  exact demoState_ok.bound i hi

theorem liveWorld_own : OwnOperator liveWorld 0 { Demo.gsys with op := some 0 } := by
  intro o ho
  obtain rfl := Option.some.inj ho
  exact ⟨_, rfl, rfl⟩

/-- `h_t` is the array number 0, that of the basis set; `u_t` is a new array. -/
example : (HWorld.hT 0 3).run liveWorld = (.ok (some 0), liveWorld) :=
  C142_live_h (x := { Demo.gsys with op := some 0 }) rfl rfl liveWorld_own rfl 3

example : ((HWorld.uT 0 3).run liveWorld).1 = .ok (some 6) := rfl

/-- Adding something to `h_t(3)` in place is seen in `system.h`; the same on `u_t(3)` is not. -/
example : ((World.h 0).run (liveWorld.poke 0 Demo.C22).view).1 = .ok (some Demo.C22) :=
  (C142_write_h (x := { Demo.gsys with op := some 0 }) (t := 3) liveWorld_ok rfl rfl liveWorld_own
    (c := false) rfl (C142_live_h (x := { Demo.gsys with op := some 0 }) rfl rfl liveWorld_own rfl 3)
    Demo.C22).1 rfl

/-- The loop over two times without a buffer: the array it ends with has the Fock matrix at the second
time, `h + 2 u`, and `h` and `u` of the basis set are as before. -/
example : ∃ i w' F, (HWorld.fockLoop 0 [1, 2] none).run liveWorld = (.ok (some i), w') ∧
    w'.view.bases = [Demo.basis] ∧ w'.mem[i]? = some F ∧
    F.get [0, 1] = Demo.h.get [0, 1] + 2 * Demo.u.get [0, 0, 1, 0] := by
  have ev : Evals 0 liveWorld.view [(1, Demo.h, NDArray.smul .float64 (Demo.g 1 0) Demo.u),
      (2, Demo.h, NDArray.smul .float64 (Demo.g 2 0) Demo.u)] liveWorld.view :=
    .cons rfl rfl (.cons rfl rfl (.nil _))
  obtain ⟨r, w', run, -, vb, -, -, -, last⟩ := C142_loop (x := { Demo.gsys with op := some 0 })
    (np := 0) (l := 2) (d := .complex128) (f := none) rfl rfl (by decide) liveWorld_ok rfl
    (fun r h => by cases h) ev (by
      intro e he
      simp only [List.mem_cons, List.not_mem_nil, or_false] at he
      rcases he with rfl | rfl <;> exact ⟨rfl, rfl, rfl, rfl⟩)
    (by intro _ e he; cases he; rfl)
  obtain ⟨i, F, rfl, hF, -, isF⟩ := last _ rfl
  refine ⟨i, w', F, run, vb, hF, ?_⟩
  rw [(isF 0 (by decide) 1 (by decide)).1 rfl]
  decide +kernel

end QS.Props
