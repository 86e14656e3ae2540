import Verif.Lemmas.SharedCopies
import Verif.Spec.Persistence

/-! # Operations keep references valid (helper file) -/

namespace QS

open NDArray PyM BasisSet World

variable {K T : Type} [PyScalar K] {α β : Type}

theorem TEOp.Kept.refl (y : TEOp K T) : y.Kept y :=
  ⟨le_rfl, id, fun p e h => ⟨p, e, h, fun _ h => h, fun _ h => h⟩, fun _ h => ⟨h, rfl⟩, fun c _ h => ⟨c, h, rfl⟩⟩

theorem TEOp.Kept.trans {x y z : TEOp K T} (h : x.Kept y) (h' : y.Kept z) : x.Kept z := by
  refine ⟨h.cells.trans h'.cells, fun e => h'.base (h.base e), fun p e hk => ?_, fun f hk => ?_, fun c a hk => ?_⟩
  · obtain ⟨p', e', h1, h2, h3⟩ := h.laser p e hk
    obtain ⟨p'', e'', h4, h5, h6⟩ := h'.laser p' e' h1
    exact ⟨p'', e'', h4, fun f hf => h5 f (h2 f hf), fun f hf => h6 f (h3 f hf)⟩
  · obtain ⟨h1, h2⟩ := h.adiabatic f hk
    obtain ⟨h3, h4⟩ := h'.adiabatic f h1
    exact ⟨h3, h4.trans h2⟩
  · obtain ⟨c', h1, h2⟩ := h.custom c a hk
    obtain ⟨c'', h3, h4⟩ := h'.custom c' a h1
    exact ⟨c'', h3, h4.trans h2⟩

theorem kept_system (y : TEOp K T) (q : Option ℕ) : y.Kept { y with system := q } :=
  ⟨le_rfl, id, fun p e h => ⟨p, e, h, fun _ h => h, fun _ h => h⟩, fun _ h => ⟨h, rfl⟩, fun c _ h => ⟨c, h, rfl⟩⟩

theorem Attr.Live.mono {n m : ℕ} (h : n ≤ m) {a : Attr K T} (ha : a.Live n) : a.Live m := by
  cases a with
  | closure c => exact lt_of_lt_of_le ha h
  | _ => trivial

theorem storeCell_grows {cells : List (Val K)} {i : ℕ} (h : i ≤ cells.length) (v : Val K) :
    i < (storeCell cells i v).length ∧ cells.length ≤ (storeCell cells i v).length := by
  unfold storeCell
  split_ifs with hi
  · simp [hi]
  · simp; omega

namespace World

theorem Intact.refl (w : World K T) : w.Intact w :=
  ⟨fun _ x h => ⟨x, h, rfl, rfl⟩, fun _ c h => ⟨c, h⟩, fun _ y h => ⟨y, h, .refl y⟩⟩

theorem Intact.trans {w w' w'' : World K T} (h : w.Intact w') (h' : w'.Intact w'') : w.Intact w'' := by
  refine ⟨fun s x hx => ?_, fun r c hc => ?_, fun o y hy => ?_⟩
  · obtain ⟨x', h1, h2, h3⟩ := h.sys s x hx
    obtain ⟨x'', h4, h5, h6⟩ := h'.sys s x' h1
    exact ⟨x'', h4, h5.trans h2, h6.trans h3⟩
  · obtain ⟨c', h1⟩ := h.basis r c hc
    exact h'.basis r c' h1
  · obtain ⟨y', h1, h2⟩ := h.op o y hy
    obtain ⟨y'', h3, h4⟩ := h'.op o y' h1
    exact ⟨y'', h3, h2.trans h4⟩

/-- A call keeps what must be kept. -/
def Good (w : World K T) (m : PyM (World K T) α) : Prop := w.Sound → (m.run w).2.Sound ∧ w.Intact (m.run w).2

variable {w : World K T}

theorem good_state {m : PyM (World K T) α} (h : (m.run w).2 = w) : Good w m := fun hw => by
  rw [h]; exact ⟨hw, .refl w⟩

theorem good_pure (a : α) : Good w (pure a : PyM (World K T) α) := good_state rfl
theorem good_raise (e : PyErr) : Good w (raise e : PyM (World K T) α) := good_state rfl
theorem good_lift (x : Except PyErr α) : Good w (liftM x : PyM (World K T) α) := good_state rfl
theorem good_assert (c : Bool) : Good w (PyM.assert c : PyM (World K T) Unit) := good_state (by rw [run_assert])

theorem good_bind {m : PyM (World K T) α} {f : α → PyM (World K T) β} (h : Good w m)
    (hf : ∀ a w', m.run w = (.ok a, w') → w.Intact w' → w'.Sound → Good w' (f a)) : Good w (m >>= f) := by
  intro hw
  obtain ⟨h1, h2⟩ := h hw
  rw [PyM.run_bind]
  rcases hr : m.run w with ⟨_ | a, w'⟩
  · rw [hr] at h1 h2; exact ⟨h1, h2⟩
  · rw [hr] at h1 h2
    obtain ⟨h3, h4⟩ := hf a w' hr h2 h1 h1
    exact ⟨h3, h2.trans h4⟩

/-- Readings. -/
theorem good_read {m : PyM (World K T) α} {f : α → PyM (World K T) β} (h : (m.run w).2 = w)
    (hf : ∀ a, Good w (f a)) : Good w (m >>= f) :=
  good_bind (good_state h) fun a w' e _ _ => by
    rw [e] at h
    obtain rfl : w' = w := h
    exact hf a

theorem good_getSys {s : ℕ} {f : Sys → PyM (World K T) β} (hf : ∀ x, w.systems[s]? = some x → Good w (f x)) :
    Good w (getSys s >>= f) := by
  intro hw
  rcases hr : w.systems[s]? with _ | x
  · have : (getSys s).run w = (.error .name, w) := by simp [getSys, PyM.run_bind, hr, orErr]
    rw [run_bind_error this]
    exact ⟨hw, .refl w⟩
  · rw [run_bind_ok (getSys_run hr)]
    exact hf x hr hw

theorem good_getOp {s : ℕ} {f : TEOp K T → PyM (World K T) β} (hf : ∀ x, w.ops[s]? = some x → Good w (f x)) :
    Good w (getOp s >>= f) := by
  intro hw
  rcases hr : w.ops[s]? with _ | x
  · have : (getOp s).run w = (.error .name, w) := by simp [getOp, PyM.run_bind, hr, orErr]
    rw [run_bind_error this]
    exact ⟨hw, .refl w⟩
  · rw [run_bind_ok (getOp_run hr)]
    exact hf x hr hw

theorem good_getBasis {s : ℕ} {f : BasisSet K → PyM (World K T) β}
    (hf : ∀ x, w.bases[s]? = some x → Good w (f x)) : Good w (getBasis s >>= f) := by
  intro hw
  rcases hr : w.bases[s]? with _ | x
  · have : (getBasis s).run w = (.error .name, w) := by simp [getBasis, PyM.run_bind, hr, orErr]
    rw [run_bind_error this]
    exact ⟨hw, .refl w⟩
  · rw [run_bind_ok (getBasis_run hr)]
    exact hf x hr hw

theorem good_liftB {x : Except PyErr α} {f : α → PyM (World K T) β} (hf : ∀ a, Good w (f a)) :
    Good w ((liftM x : PyM (World K T) α) >>= f) := good_read rfl hf

theorem good_setSys {s : ℕ} {x x' : Sys} (hx : w.systems[s]? = some x) (hk : x'.kind = x.kind)
    (hb : x'.basis = x.basis) (ho : ∀ o, x'.op = some o → x.op = some o ∨ ∃ y, w.ops[o]? = some y) :
    Good w (setSys s x' : PyM (World K T) Unit) := by
  intro hw
  rw [setSys_run]
  refine ⟨⟨⟨fun j z hz => ?_, fun j z o hz hzo => ?_, fun o y q hy hq => ?_⟩, hw.live⟩, fun j z hz => ?_,
    fun r c h => ⟨c, h⟩, fun o y h => ⟨y, h, .refl y⟩⟩
  · by_cases e : j = s
    · subst e
      have : z = x' := by rw [show _ = some x' from get_set hx x'] at hz; exact (Option.some.inj hz).symm
      rw [this, hb]
      exact hw.closed.basis _ x hx
    · exact hw.closed.basis j z ((get_set_ne e x').symm.trans hz)
  · by_cases e : j = s
    · subst e
      have : z = x' := by rw [show _ = some x' from get_set hx x'] at hz; exact (Option.some.inj hz).symm
      rw [this] at hzo
      rcases ho o hzo with h | h
      · exact hw.closed.op _ x o hx h
      · exact h
    · exact hw.closed.op j z o ((get_set_ne e x').symm.trans hz) hzo
  · obtain ⟨z, hz⟩ := hw.closed.sys o y q hy hq
    by_cases e : q = s
    · subst e; exact ⟨_, get_set hx x'⟩
    · exact ⟨z, (get_set_ne e x').trans hz⟩
  · by_cases e : j = s
    · subst e
      have : z = x := by rw [hx] at hz; exact (Option.some.inj hz).symm
      exact ⟨_, get_set hx x', by rw [this, hk], by rw [this, hb]⟩
    · exact ⟨z, (get_set_ne e x').trans hz, rfl, rfl⟩

theorem good_setOp {o : ℕ} {y y' : TEOp K T} (hy : w.ops[o]? = some y) (hk : y.Kept y') (hl : y.Live → y'.Live)
    (hs : ∀ q, y'.system = some q → y.system = some q ∨ ∃ x, w.systems[q]? = some x) :
    Good w (setOp o y' : PyM (World K T) Unit) := by
  intro hw
  rw [setOp_run]
  refine ⟨⟨⟨hw.closed.basis, fun j z p hz hzo => ?_, fun p z q hz hq => ?_⟩, fun p z hz => ?_⟩,
    fun j z hz => ⟨z, hz, rfl, rfl⟩, fun r c h => ⟨c, h⟩, fun p z hz => ?_⟩
  · obtain ⟨z', hz'⟩ := hw.closed.op j z p hz hzo
    by_cases e : p = o
    · subst e; exact ⟨_, get_set hy y'⟩
    · exact ⟨z', (get_set_ne e y').trans hz'⟩
  · by_cases e : p = o
    · subst e
      have : z = y' := by rw [show _ = some y' from get_set hy y'] at hz; exact (Option.some.inj hz).symm
      rw [this] at hq
      rcases hs q hq with h | h
      · exact hw.closed.sys _ y q hy h
      · exact h
    · exact hw.closed.sys p z q ((get_set_ne e y').symm.trans hz) hq
  · by_cases e : p = o
    · subst e
      have : z = y' := by rw [show _ = some y' from get_set hy y'] at hz; exact (Option.some.inj hz).symm
      rw [this]
      exact hl (hw.live _ y hy)
    · exact hw.live p z ((get_set_ne e y').symm.trans hz)
  · by_cases e : p = o
    · subst e
      have : z = y := by rw [hy] at hz; exact (Option.some.inj hz).symm
      exact ⟨_, get_set hy y', by rw [this]; exact hk⟩
    · exact ⟨z, (get_set_ne e y').trans hz, .refl z⟩

theorem good_onBasis (r : ℕ) (m : PyM (BasisSet K) α) : Good w (onBasis r m : PyM (World K T) α) := by
  rcases hr : w.bases[r]? with _ | y
  · exact good_state (by simp only [PyM.run, onBasis, hr])
  intro hw
  rw [onBasis_run hr]
  have key : ∀ (j : ℕ) (c : BasisSet K), w.bases[j]? = some c →
      ∃ c', (w.bases.set r (m.run y).2)[j]? = some c' := fun j c hc => by
    by_cases e : j = r
    · subst e; exact ⟨_, get_set hr _⟩
    · exact ⟨c, (get_set_ne e _).trans hc⟩
  refine ⟨⟨⟨fun j z hz => ?_, hw.closed.op, hw.closed.sys⟩, hw.live⟩, fun j z hz => ⟨z, hz, rfl, rfl⟩, key,
    fun p z hz => ⟨z, hz, .refl z⟩⟩
  obtain ⟨c, hc⟩ := hw.closed.basis j z hz
  exact key _ c hc

/-- Adding objects whose references are valid. -/
theorem grow_sound {bs : List (BasisSet K)} {ss : List Sys} {os : List (TEOp K T)} (hw : w.Sound)
    (hb : ∀ z ∈ ss, ∃ c, (w.bases ++ bs)[z.basis]? = some c)
    (ho : ∀ z ∈ ss, ∀ o, z.op = some o → ∃ y, (w.ops ++ os)[o]? = some y)
    (hs : ∀ y ∈ os, ∀ q, y.system = some q → ∃ x, (w.systems ++ ss)[q]? = some x) (hl : ∀ y ∈ os, y.Live) :
    (World.Sound ⟨w.bases ++ bs, w.systems ++ ss, w.ops ++ os⟩) ∧
      w.Intact ⟨w.bases ++ bs, w.systems ++ ss, w.ops ++ os⟩ := by
  have split : ∀ {γ : Type} {l m : List γ} {j : ℕ} {z : γ}, (l ++ m)[j]? = some z → l[j]? = some z ∨ z ∈ m := by
    intro γ l m j z h
    by_cases hj : j < l.length
    · rw [List.getElem?_append_left hj] at h; exact .inl h
    · rw [List.getElem?_append_right (by omega)] at h; exact .inr (List.mem_of_getElem? h)
  refine ⟨⟨⟨fun j z hz => ?_, fun j z o hz hzo => ?_, fun o y q hy hq => ?_⟩, fun o y hy => ?_⟩,
    fun j z hz => ⟨z, get_append hz _, rfl, rfl⟩, fun r c hc => ⟨c, get_append hc _⟩,
    fun o y hy => ⟨y, get_append hy _, .refl y⟩⟩
  · rcases split hz with h | h
    · obtain ⟨c, hc⟩ := hw.closed.basis j z h
      exact ⟨c, get_append hc _⟩
    · exact hb z h
  · rcases split hz with h | h
    · obtain ⟨c, hc⟩ := hw.closed.op j z o h hzo
      exact ⟨c, get_append hc _⟩
    · exact ho z h o hzo
  · rcases split hy with h | h
    · obtain ⟨c, hc⟩ := hw.closed.sys o y q h hq
      exact ⟨c, get_append hc _⟩
    · exact hs y h q hq
  · rcases split hy with h | h
    · exact hw.live o y h
    · exact hl y h

theorem good_newBasis (c : BasisSet K) : Good w (newBasis c : PyM (World K T) ℕ) := fun hw => by
  have h := grow_sound (bs := [c]) (ss := []) (os := []) hw (by simp) (by simp) (by simp) (by simp)
  simp only [List.append_nil] at h
  exact h

theorem good_newOp {y : TEOp K T} (h0 : y.system = none) (hl : y.Live) : Good w (newOp y : PyM (World K T) ℕ) :=
  fun hw => by
  have h := grow_sound (bs := []) (ss := []) (os := [y]) hw (by simp) (by simp)
    (by simp [h0]) (by simpa using hl)
  simp only [List.append_nil] at h
  exact h

theorem good_initSystem (k : SysKind) (n r : ℕ) : Good w (initSystem k n r : PyM (World K T) ℕ) := by
  rcases hr : w.bases[r]? with _ | y
  · exact good_state (by simp [initSystem, getBasis, PyM.run_bind, hr, orErr])
  intro hw
  rw [initSystem_run hr]
  split_ifs with h
  · have h := grow_sound (bs := []) (ss := [newSys k r n y.l y.np]) (os := []) hw
      (by intro z hz; rw [List.mem_singleton.1 hz, List.append_nil]; exact ⟨y, hr⟩)
      (by intro z hz o ho; rw [List.mem_singleton.1 hz] at ho; cases ho) (by simp) (by simp)
    simp only [List.append_nil] at h
    exact h
  · exact ⟨hw, .refl w⟩

/-- Copies of objects. -/
theorem good_copyObjects {ss bs os : List ℕ} (hw : w.Sound) (hs : ∀ r ∈ ss, ∃ x, w.systems[r]? = some x)
    (hb : ∀ r ∈ bs, ∃ x, w.bases[r]? = some x) (ho : ∀ r ∈ os, ∃ x, w.ops[r]? = some x) :
    (w.copyObjects ss bs os).Sound ∧ w.Intact (w.copyObjects ss bs os) := by
  have ren : ∀ {γ : Type} {l : List γ} {rs : List ℕ} {f : ℕ → Option γ} (_ : ∀ a ∈ rs, ∃ b, f a = some b) {r : ℕ}
      (_ : ∃ z, l[r]? = some z), ∃ z, (l ++ rs.filterMap f)[rename l.length rs r]? = some z := by
    intro γ l rs f hf r hr
    by_cases h : r ∈ rs
    · rw [rename_get hf h]; exact hf r h
    · obtain ⟨z, hz⟩ := hr
      rw [rename, if_neg h]
      exact ⟨z, get_append hz _⟩
  refine grow_sound hw (fun z hz => ?_) (fun z hz o hzo => ?_) (fun y hy q hq => ?_) (fun y hy => ?_)
  · simp only [List.mem_filterMap, Option.map_eq_some_iff] at hz
    obtain ⟨i, -, x, hx, rfl⟩ := hz
    exact ren hb (hw.closed.basis i x hx)
  · simp only [List.mem_filterMap, Option.map_eq_some_iff] at hz
    obtain ⟨i, -, x, hx, rfl⟩ := hz
    simp only [Option.map_eq_some_iff] at hzo
    obtain ⟨o', ho', rfl⟩ := hzo
    refine ren (fun a ha => ?_) (hw.closed.op i x o' hx ho')
    obtain ⟨y, hy⟩ := ho a ha
    exact ⟨_, by rw [hy]; rfl⟩
  · simp only [List.mem_filterMap, Option.map_eq_some_iff] at hy
    obtain ⟨i, -, z, hz, rfl⟩ := hy
    simp only [Option.map_eq_some_iff] at hq
    obtain ⟨q', hq', rfl⟩ := hq
    refine ren (fun a ha => ?_) (hw.closed.sys i z q' hz hq')
    obtain ⟨x, hx⟩ := hs a ha
    exact ⟨_, by rw [hx]; rfl⟩
  · simp only [List.mem_filterMap, Option.map_eq_some_iff] at hy
    obtain ⟨i, -, z, hz, rfl⟩ := hy
    exact hw.live i z hz

theorem reach_valid (cl : w.Closed) {s : ℕ} : ∀ r ∈ w.reach (w.systems.length + 1) s [], ∃ x, w.systems[r]? = some x := by
  rcases hs : w.systems[s]? with _ | x
  · intro r hr
    simp [reach, hs] at hr
  · exact (reach_closed cl (w.systems.length + 1) s [] List.nodup_nil (by simp) ⟨x, hs⟩ (by simp) (by simp)).2.1

theorem reachBases_valid (cl : w.Closed) (ss : List ℕ) : ∀ r ∈ (w.reachBases ss).dedup, ∃ c, w.bases[r]? = some c := by
  intro r hr
  rw [List.mem_dedup, reachBases, List.mem_filterMap] at hr
  obtain ⟨i, -, hi⟩ := hr
  simp only [Option.map_eq_some_iff] at hi
  obtain ⟨z, hz, rfl⟩ := hi
  exact cl.basis i z hz

theorem reachOps_valid (cl : w.Closed) (ss : List ℕ) : ∀ r ∈ w.reachOps ss, ∃ c, w.ops[r]? = some c := by
  intro r hr
  rw [reachOps, List.mem_filterMap] at hr
  obtain ⟨i, -, hi⟩ := hr
  simp only [Option.bind_eq_some_iff] at hi
  obtain ⟨z, hz, h⟩ := hi
  exact cl.op i z r hz h

theorem good_deepcopySystem (s : ℕ) : Good w (deepcopySystem s : PyM (World K T) ℕ) := by
  intro hw
  simp only [deepcopySystem, PyM.run_bind, run_get]
  by_cases hm : w.holdsModule (w.reach (w.systems.length + 1) s []) = true
  · rw [if_pos hm]; exact ⟨hw, .refl w⟩
  · rw [if_neg hm]
    exact good_copyObjects hw (reach_valid hw.closed) (reachBases_valid hw.closed _)
      (fun r hr => reachOps_valid hw.closed _ r (List.mem_dedup.1 hr))

theorem good_deepcopyOp (o : ℕ) : Good w (deepcopyOp o : PyM (World K T) ℕ) := by
  intro hw
  rcases hy : w.ops[o]? with _ | y
  · have e : (deepcopyOp o).run w = (.error .name, w) := by
      simp [deepcopyOp, PyM.run_bind, getOp, hy, orErr]
    rw [e]; exact ⟨hw, .refl w⟩
  · rw [deepcopyOp_run hy]
    split_ifs
    · exact ⟨hw, .refl w⟩
    · refine good_copyObjects hw (fun r hr => ?_) (reachBases_valid hw.closed _) (fun r hr => ?_)
      · rcases hq : y.system with _ | q
        · simp [reachFromOp, hq] at hr
        · simp only [reachFromOp, hq] at hr
          exact reach_valid hw.closed r hr
      · rcases List.mem_cons.1 (List.mem_dedup.1 hr) with rfl | h
        · exact ⟨y, hy⟩
        · exact reachOps_valid hw.closed _ r h

theorem deepcopyOp_new {w w' : World K T} {o i : ℕ} (hw : w.Sound) (h : (deepcopyOp o).run w = (.ok i, w')) :
    ∃ y, w'.ops[i]? = some y := by
  rcases hy : w.ops[o]? with _ | y
  · have e : (deepcopyOp o).run w = (.error .name, w) := by
      simp [deepcopyOp, PyM.run_bind, getOp, hy, orErr]
    rw [e] at h; cases h
  · rw [deepcopyOp_run hy] at h
    split_ifs at h
    · cases h
    · simp only [Prod.mk.injEq, Except.ok.injEq] at h
      obtain ⟨rfl, rfl⟩ := h
      rw [copyObjects]
      have hmem : o ∈ (o :: w.reachOps (w.reachFromOp y)).dedup := by simp
      refine ⟨_, (rename_get (fun a ha => ?_) hmem).trans (by rw [hy]; rfl)⟩
      obtain ⟨z, hz⟩ : ∃ z, w.ops[a]? = some z := by
        rcases List.mem_cons.1 (List.mem_dedup.1 ha) with rfl | h
        · exact ⟨y, hy⟩
        · exact reachOps_valid hw.closed _ a h
      exact ⟨_, by rw [hz]; rfl⟩

theorem good_setSystemSize (s n l : ℕ) : Good w (setSystemSize s n l : PyM (World K T) Unit) :=
  good_read (by rw [run_assert]) fun _ => good_getSys fun _ hx => good_setSys hx rfl rfl fun _ h => .inl h

theorem good_changeModule (s : ℕ) (np : Option Module) : Good w (World.changeModule s np : PyM (World K T) Unit) :=
  good_getSys fun _ hx => good_bind (good_setSys hx rfl rfl fun _ h => .inl h) fun _ _ _ _ _ => good_onBasis _ _

theorem good_setOperator (s : ℕ) {o : Option ℕ} (ho : ∀ o', o = some o' → ∃ y, w.ops[o']? = some y) :
    Good w (setTimeEvolutionOperator s o : PyM (World K T) Unit) := by
  refine good_getSys fun x hx => good_bind (good_setSys hx rfl rfl fun o' h => .inr (ho o' h)) fun _ w' e _ _ => ?_
  rw [setSys_run] at e
  obtain rfl := (Prod.mk.inj e).2
  split
  · exact good_pure _
  · exact good_getOp fun y hy => good_setOp hy (kept_system y _) id fun q hq => .inr
      ⟨_, by obtain rfl := Option.some.inj hq; exact get_set hx _⟩

theorem state_bind {m : PyM (World K T) α} {f : α → PyM (World K T) β} (h : (m.run w).2 = w)
    (hf : ∀ a, ((f a).run w).2 = w) : ((m >>= f).run w).2 = w := by
  rw [PyM.run_bind]
  rcases hr : m.run w with ⟨_ | a, w'⟩
  · rw [hr] at h; exact h
  · rw [hr] at h
    obtain rfl : w' = w := h
    exact hf a

theorem getSys_state (s : ℕ) : ((getSys s).run w).2 = w := state_bind rfl fun _ => rfl
theorem getBasis_state (s : ℕ) : ((getBasis s).run w).2 = w := state_bind rfl fun _ => rfl
theorem h_state (s : ℕ) : ((World.h s).run w).2 = w :=
  state_bind (getSys_state s) fun _ => state_bind (getBasis_state _) fun _ => rfl
theorem u_state (s : ℕ) : ((World.u s).run w).2 = w :=
  state_bind (getSys_state s) fun _ => state_bind (getBasis_state _) fun _ => rfl
theorem dipole_state (s : ℕ) : ((World.dipole s).run w).2 = w :=
  state_bind (getSys_state s) fun _ => state_bind (getBasis_state _) fun _ => rfl

theorem good_opUT (o : ℕ) (t : T) : Good w (opUT o t : PyM (World K T) _) := by
  refine good_getOp fun y hy => good_liftB fun s' => ?_
  split
  · exact good_liftB fun _ => good_read (u_state _) fun _ => good_liftB fun _ => good_liftB fun _ => good_pure _
  · exact good_state (u_state _)

theorem good_wrapPulse {o frame : ℕ} (hf : ∀ y, w.ops[o]? = some y → frame ≤ y.cells.length) :
    Good w (wrapPulse o frame : PyM (World K T) Unit) := by
  refine good_getOp fun y hy => ?_
  split
  · rename_i v pol hk
    have hc := storeCell_grows (hf y hy) v
    refine good_setOp hy ⟨hc.2, fun h => by simp [hk] at h, fun p e h => ?_, fun f h => by simp [hk] at h,
      fun c a h => by simp [hk] at h⟩ (fun hl => ?_) fun _ h => .inl h
    · rw [hk] at h
      obtain ⟨rfl, rfl⟩ := OpKind.laser.inj h
      exact ⟨_, _, rfl, fun f h => (by cases h), fun f h => h⟩
    · simp only [TEOp.Live, hk] at hl ⊢
      exact ⟨hc.1, fun a ha => (hl.2 a ha).mono hc.2⟩
  · exact good_pure _

theorem good_wrapPol {o frame : ℕ} (hf : ∀ y, w.ops[o]? = some y → frame ≤ y.cells.length) :
    Good w (wrapPol o frame : PyM (World K T) Unit) := by
  refine good_getOp fun y hy => ?_
  split
  · rename_i p v hk
    have hc := storeCell_grows (hf y hy) v
    refine good_setOp hy ⟨hc.2, fun h => by simp [hk] at h, fun p' e h => ?_, fun f h => by simp [hk] at h,
      fun c a h => by simp [hk] at h⟩ (fun hl => ?_) fun _ h => .inl h
    · rw [hk] at h
      obtain ⟨rfl, rfl⟩ := OpKind.laser.inj h
      exact ⟨_, _, rfl, fun f h => h, fun f h => by cases h⟩
    · simp only [TEOp.Live, hk] at hl ⊢
      refine ⟨hl.1.mono hc.2, fun a ha => ?_⟩
      obtain rfl := Option.some.inj ha
      exact hc.1
  · exact good_pure _

theorem good_fillPol (o s : ℕ) : Good w (fillPol o s : PyM (World K T) Unit) := by
  refine good_getOp fun y hy => ?_
  split
  · rename_i p hk
    refine good_getSys fun x hx => good_liftB fun _ => good_read (dipole_state _) fun d => good_liftB fun e =>
      good_setOp hy ⟨le_rfl, fun h => by simp [hk] at h, fun p' e h => ?_, fun f h => by simp [hk] at h,
      fun c a h => by simp [hk] at h⟩ (fun hl => ?_) fun _ h => .inl h
    · rw [hk] at h
      obtain ⟨rfl, rfl⟩ := OpKind.laser.inj h
      exact ⟨_, _, rfl, fun f h => h, fun f h => by cases h⟩
    · simp only [TEOp.Live, hk] at hl ⊢
      refine ⟨hl.1, fun a ha => ?_⟩
      obtain rfl := Option.some.inj ha
      trivial
  · exact good_pure _

/-- The cells of operator `o` are still there. -/
theorem frame_le {w w' : World K T} {o frame : ℕ} (hi : w.Intact w') {y : TEOp K T} (hy : w.ops[o]? = some y)
    (hf : frame ≤ y.cells.length) : ∀ y', w'.ops[o]? = some y' → frame ≤ y'.cells.length := by
  intro y' hy'
  obtain ⟨y'', h1, h2⟩ := hi.op o y hy
  rw [h1] at hy'
  obtain rfl := Option.some.inj hy'
  exact hf.trans h2.cells

theorem good_laserHT (o s : ℕ) (t : T) : Good w (laserHT o s t : PyM (World K T) _) := by
  refine good_getOp fun y hy => good_bind (good_wrapPulse fun y' hy' => by
    rw [hy] at hy'; obtain rfl := Option.some.inj hy'; exact le_rfl) fun _ w₁ _ h₁ _ =>
    good_bind (good_fillPol _ _) fun _ w₂ _ h₂ _ => good_bind (good_wrapPol (frame_le (h₁.trans h₂) hy le_rfl))
      fun _ w₃ _ _ _ => ?_
  refine good_getSys fun _ _ => good_read (h_state _) fun _ => good_getOp fun y' _ => ?_
  split
  · exact good_liftB fun _ => good_liftB fun _ => good_liftB fun _ => good_read (dipole_state _) fun _ =>
      good_liftB fun _ => good_liftB fun _ => good_liftB fun _ => good_lift _
  · exact good_raise _

theorem good_customHT (o s : ℕ) (t : T) : Good w (customHT o s t : PyM (World K T) _) := by
  refine good_getOp fun y hy => good_bind ?_ fun _ w₁ _ _ _ => good_read (h_state _) fun _ =>
    good_getOp fun y' _ => ?_
  · refine good_getOp fun y' hy' => ?_
    rw [hy] at hy'
    obtain rfl := Option.some.inj hy'
    split
    · rename_i v a hk
      have hc := storeCell_grows (le_refl y.cells.length) v
      refine good_setOp hy ⟨hc.2, fun h => by simp [hk] at h, fun p e h => by simp [hk] at h,
        fun f h => by simp [hk] at h, fun c a' h => ?_⟩ (fun hl => ?_) fun _ h => .inl h
      · rw [hk] at h
        obtain ⟨rfl, rfl⟩ := OpKind.custom.inj h
        exact ⟨_, rfl, by simp [Attr.value, storeCell]⟩
      · simp only [TEOp.Live, hk] at hl ⊢
        exact hc.1
    · exact good_pure _
  · split
    · exact good_liftB fun _ => good_liftB fun _ => good_liftB fun _ => good_lift _
    · exact good_raise _

theorem good_opHT (o : ℕ) (t : T) : Good w (opHT o t : PyM (World K T) _) := by
  refine good_getOp fun y hy => good_liftB fun s' => ?_
  split
  · exact good_state (h_state _)
  · exact good_state (h_state _)
  · exact good_bind (good_laserHT _ _ _) fun _ _ _ _ _ => good_pure _
  · exact good_bind (good_customHT _ _ _) fun _ _ _ _ _ => good_pure _

theorem good_generalInit (n r : ℕ) (a c : List K) (anti : Bool) :
    Good w (World.generalInit n r a c anti : PyM (World K T) ℕ) := by
  refine good_getBasis fun x _ => ?_
  cases hx : x.includesSpin <;> cases anti <;>
    simp only [Bool.not_true, Bool.not_false, Bool.false_eq_true, if_true, if_false, bind_assoc, pure_bind]
  · exact good_bind (good_onBasis _ _) fun _ _ _ _ _ => good_initSystem _ _ _
  · exact good_bind (good_onBasis _ _) fun _ _ _ _ _ => good_bind (good_onBasis _ _) fun _ _ _ _ _ =>
      good_initSystem _ _ _
  · exact good_initSystem _ _ _
  · exact good_bind (good_onBasis _ _) fun _ _ _ _ _ => good_initSystem _ _ _

theorem good_spatialInit (n r : ℕ) : Good w (World.spatialInit n r : PyM (World K T) ℕ) :=
  good_read (by rw [run_assert]) fun _ => good_getBasis fun _ _ => good_read (by rw [run_assert]) fun _ =>
    good_initSystem _ _ _

/-- Every operation. -/
theorem good_sop (s : ℕ) (op : SOp K T) (hm : ∀ o, op.mentions o → ∃ y, w.ops[o]? = some y) :
    Good w (op.run s) := by
  have drop : ∀ {α : Type} {m : PyM (World K T) α}, Good w m → Good w (do let _ ← m; pure ()) :=
    fun h => good_bind h fun _ _ _ _ _ => good_pure _
  cases op with
  | setSystemSize n l => exact good_setSystemSize s n l
  | changeModule np => exact good_changeModule s np
  | changeBasis C Ct =>
    exact good_getSys fun _ _ => good_bind (good_onBasis _ _) fun _ _ _ _ _ =>
      good_getBasis fun _ _ => good_setSystemSize _ _ _
  | density rho C Ct => exact drop (good_getSys fun _ _ => good_onBasis _ _)
  | setOperator o =>
    refine good_setOperator s fun o' ho => ?_
    subst ho
    exact hm o' rfl
  | hT t =>
    refine drop (good_getSys fun x _ => ?_)
    split
    · exact good_state (h_state _)
    · exact good_opHT _ _
  | uT t =>
    refine drop (good_getSys fun x _ => ?_)
    split
    · exact good_state (u_state _)
    · exact good_opUT _ _
  | opHT o t => exact drop (good_opHT _ _)
  | opUT o t => exact drop (good_opUT _ _)
  | transformOneBody x C Ct => exact drop (good_getSys fun _ _ => good_lift _)
  | transformTwoBody x C Ct =>
    refine drop (good_getSys fun _ _ => good_getBasis fun _ _ => ?_)
    split <;> exact good_lift _
  | referenceEnergy =>
    refine drop (good_getSys fun _ _ => good_read (h_state _) fun _ => good_read (u_state _) fun _ => ?_)
    split <;> exact good_lift _
  | changeToHfBasis => exact good_raise _
  | basis op => exact good_getSys fun _ _ => good_onBasis _ _
  | copy =>
    exact drop (good_getSys fun x hx => good_bind (good_setSys hx rfl rfl fun _ h => .inl h) fun _ _ _ _ _ =>
      good_bind (good_onBasis _ _) fun _ _ _ _ _ => good_bind (good_deepcopySystem _) fun _ _ _ _ _ =>
      good_bind (good_changeModule _ _) fun _ _ _ _ _ => good_bind (good_changeModule _ _) fun _ _ _ _ _ =>
      good_getSys fun _ _ => good_bind (good_assert _) fun _ _ _ _ _ =>
      good_getBasis fun _ _ => good_bind (good_assert _) fun _ _ _ _ _ => good_pure _)
  | toGeneral a c anti =>
    refine drop (good_getSys fun x _ => good_bind (good_onBasis _ _) fun _ _ _ _ _ =>
      good_bind (good_newBasis _) fun _ _ _ _ _ => good_bind (good_generalInit _ _ _ _ _) fun _ _ _ _ _ => ?_)
    split
    · exact good_pure _
    · exact good_bind (good_deepcopyOp _) fun i w' e _ _ => good_bind (good_setOperator _ fun o' ho => by
        obtain rfl := Option.some.inj ho
        exact deepcopyOp_new (by assumption) e) fun _ _ _ _ _ => good_pure _

end World

end QS
