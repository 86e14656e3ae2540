import Verif.Model.Memory

/-!
# Simulation between the two models of a basis set

`Sim st Φ p q`: the method `q` on array objects, run in the state `st`, and the method `p` on array
values, run on what is seen in `st`, end in the same way, and what is seen afterwards is the state
that `p` leaves.  No array object that existed before is changed.
-/

namespace QS

open PyM HBasis

variable {K : Type} [PyScalar K] {α β γ δ : Type}

/-- An array whose dtype is not complex has real entries. -/
def RealTyped (x : NDArray K) : Prop := x.dtype ≠ .complex128 → x.conj = x

/-- The attributes refer to arrays that exist; the single-particle functions are real if their
dtype is. -/
structure HState.Ok (st : HState K) : Prop where
  bound : ∀ i, some i ∈ st.obj.slots → i < st.mem.length
  real : ∀ x, st.mem.val st.obj.spf = some x → RealTyped x

/-- One more array object. -/
def HState.push (st : HState K) (x : NDArray K) : HState K := { st with mem := st.mem ++ [x] }

theorem Mem.val_of_prefix {m m' : Mem K} (h : m <+: m') {r : Option ℕ}
    (hr : ∀ i, r = some i → i < m.length) : m'.val r = m.val r := by
  obtain ⟨t, rfl⟩ := h
  cases r with
  | none => rfl
  | some i =>
    show (m ++ t)[i]? = m[i]?
    rw [List.getElem?_append_left (hr i rfl)]

theorem Mem.val_isSome {m : Mem K} {r : Option ℕ} (hr : ∀ i, r = some i → i < m.length) :
    (m.val r).isSome = r.isSome := by
  cases r with
  | none => rfl
  | some i =>
    show (m[i]?).isSome = true
    rw [List.getElem?_eq_getElem (hr i rfl)]
    rfl

theorem view_prefix {o : HBasis K} {m m' : Mem K} (h : m <+: m')
    (hb : ∀ i, some i ∈ o.slots → i < m.length) : o.view m' = o.view m := by
  have key : ∀ r ∈ o.slots, m'.val r = m.val r := fun r hr =>
    Mem.val_of_prefix h fun i hi => hb i (hi ▸ hr)
  simp only [slots, List.forall_mem_cons] at key
  simp only [HBasis.view, key]

theorem HState.Ok.val {st : HState K} (ok : st.Ok) {m : Mem K} (h : st.mem <+: m)
    {r : Option ℕ} (hr : r ∈ st.obj.slots) : m.val r = st.mem.val r :=
  Mem.val_of_prefix h fun i hi => ok.bound i (hi ▸ hr)

theorem HState.Ok.isSome {st : HState K} (ok : st.Ok) {r : Option ℕ} (hr : r ∈ st.obj.slots) :
    (st.mem.val r).isSome = r.isSome :=
  Mem.val_isSome fun i hi => ok.bound i (hi ▸ hr)

theorem HState.Ok.push {st : HState K} (ok : st.Ok) (x : NDArray K) : (st.push x).Ok where
  bound i hi := by
    have := ok.bound i hi
    simp only [HState.push, List.length_append]
    omega
  real y hy := ok.real y (by
    rwa [show (st.push x).mem = st.mem ++ [x] from rfl, show (st.push x).obj = st.obj from rfl,
      ok.val (List.prefix_append _ _) (by simp [slots])] at hy)

theorem HState.Ok.view_push {st : HState K} (ok : st.Ok) (x : NDArray K) :
    (st.push x).view = st.view :=
  view_prefix (List.prefix_append _ _) ok.bound

theorem Mem.val_push (m : Mem K) (x : NDArray K) : Mem.val (m ++ [x]) (some m.length) = some x := by
  simp [Mem.val]

/-- `q` on array objects does the same as `p` on array values. -/
def Sim (st : HState K) (Φ : α → β → HState K → Prop) (p : PyM (BasisSet K) α)
    (q : PyM (HState K) β) : Prop :=
  st.Ok → ∃ st' : HState K, st.mem <+: st'.mem ∧ st'.Ok ∧
    ((∃ a b, p.run st.view = (.ok a, st'.view) ∧ q.run st = (.ok b, st') ∧ Φ a b st') ∨
      ∃ e, p.run st.view = (.error e, st'.view) ∧ q.run st = (.error e, st'))

variable {st : HState K} {Φ : α → β → HState K → Prop} {Ψ : γ → δ → HState K → Prop}
  {p : PyM (BasisSet K) α} {q : PyM (HState K) β}

theorem sim_bind {f : α → PyM (BasisSet K) γ} {g : β → PyM (HState K) δ} (h : Sim st Φ p q)
    (hf : ∀ a b st', st.mem <+: st'.mem → st.Ok → st'.Ok → Φ a b st' → Sim st' Ψ (f a) (g b)) :
    Sim st Ψ (p >>= f) (q >>= g) := by
  intro ok
  obtain ⟨s₁, hp, ok₁, ⟨a, b, ra, rb, hΦ⟩ | ⟨e, ra, rb⟩⟩ := h ok
  · obtain ⟨s₂, hp', ok₂, h₂⟩ := hf a b s₁ hp ok ok₁ hΦ ok₁
    refine ⟨s₂, hp.trans hp', ok₂, ?_⟩
    rw [run_bind_ok ra, run_bind_ok rb]
    exact h₂
  · exact ⟨s₁, hp, ok₁, .inr ⟨e, run_bind_error ra, run_bind_error rb⟩⟩

theorem sim_mono {Φ' : α → β → HState K → Prop} (h : Sim st Φ p q)
    (hΦ : ∀ a b st', st.mem <+: st'.mem → st.Ok → st'.Ok → Φ a b st' → Φ' a b st') :
    Sim st Φ' p q := by
  intro ok
  obtain ⟨s₁, hp, ok₁, ⟨a, b, ra, rb, hab⟩ | he⟩ := h ok
  · exact ⟨s₁, hp, ok₁, .inl ⟨a, b, ra, rb, hΦ a b s₁ hp ok ok₁ hab⟩⟩
  · exact ⟨s₁, hp, ok₁, .inr he⟩

theorem sim_ok (h : st.Ok → Sim st Φ p q) : Sim st Φ p q := fun ok => h ok ok

theorem sim_pure {a : α} {b : β} (h : Φ a b st) :
    Sim st Φ (pure a : PyM (BasisSet K) α) (pure b : PyM (HState K) β) :=
  fun ok => ⟨st, List.prefix_rfl, ok, .inl ⟨a, b, rfl, rfl, h⟩⟩

theorem sim_raise {e : PyErr} :
    Sim st Φ (raise e : PyM (BasisSet K) α) (raise e : PyM (HState K) β) :=
  fun ok => ⟨st, List.prefix_rfl, ok, .inr ⟨e, rfl, rfl⟩⟩

theorem sim_get_l {f : BasisSet K → PyM (BasisSet K) α} (h : Sim st Φ (f st.view) q) :
    Sim st Φ (PyM.get >>= f) q := h

theorem sim_get_r {g : HState K → PyM (HState K) β} (h : Sim st Φ p (g st)) :
    Sim st Φ p (PyM.get >>= g) := h

theorem sim_self {g : HBasis K → PyM (HState K) β} (h : Sim st Φ p (g st.obj)) :
    Sim st Φ p (self >>= g) := h

theorem sim_pure_r {b : δ} {g : δ → PyM (HState K) β} (h : Sim st Φ p (g b)) :
    Sim st Φ p (pure b >>= g) := h

theorem sim_pure_l {b : δ} {f : δ → PyM (BasisSet K) α} (h : Sim st Φ (f b) q) :
    Sim st Φ (pure b >>= f) q := h

theorem run_self_bind {g : HBasis K → PyM (HState K) β} :
    (self >>= g).run st = (g st.obj).run st := rfl

theorem sim_fetch {r : Option ℕ} {g : Option (NDArray K) → PyM (HState K) β}
    (h : Sim st Φ p (g (st.mem.val r))) : Sim st Φ p (fetch r >>= g) := h

theorem sim_new {x : NDArray K} {g : ℕ → PyM (HState K) β}
    (h : Sim (st.push x) Φ p (g st.mem.length)) : Sim st Φ p (new x >>= g) := by
  intro ok
  obtain ⟨s₁, hp, ok₁, h₁⟩ := h (ok.push x)
  refine ⟨s₁, (List.prefix_append _ _).trans hp, ok₁, ?_⟩
  rw [ok.view_push] at h₁
  exact h₁

theorem sim_lift {e : Except PyErr γ} {f : γ → PyM (BasisSet K) α} {g : γ → PyM (HState K) β}
    (h : ∀ c, e = .ok c → Sim st Φ (f c) (g c)) :
    Sim st Φ (liftM e >>= f) (liftM e >>= g) := by
  intro ok
  cases e with
  | error e => exact ⟨st, List.prefix_rfl, ok, .inr ⟨e, rfl, rfl⟩⟩
  | ok c => exact h c rfl ok

theorem sim_lift' {e : Except PyErr γ} {Φ : γ → γ → HState K → Prop}
    (h : ∀ c, e = .ok c → Φ c c st) :
    Sim st Φ (liftM e : PyM (BasisSet K) γ) (liftM e : PyM (HState K) γ) := by
  intro ok
  cases e with
  | error e => exact ⟨st, List.prefix_rfl, ok, .inr ⟨e, rfl, rfl⟩⟩
  | ok c => exact ⟨st, List.prefix_rfl, ok, .inl ⟨c, c, rfl, rfl, h c rfl⟩⟩

theorem sim_assert {c : Bool} {f : Unit → PyM (BasisSet K) α} {g : Unit → PyM (HState K) β}
    (h : c = true → Sim st Φ (f ()) (g ())) :
    Sim st Φ (PyM.assert c >>= f) (PyM.assert c >>= g) := by
  intro ok
  cases c with
  | false => exact ⟨st, List.prefix_rfl, ok, .inr ⟨_, rfl, rfl⟩⟩
  | true => exact h rfl ok

/-- The state after assigning attributes. -/
def HState.put (st : HState K) (G : HBasis K → HBasis K) : HState K :=
  { st with obj := G st.obj }

theorem run_assign_bind {G : HBasis K → HBasis K} {g : Unit → PyM (HState K) β} :
    (assign G >>= g).run st = (g ()).run (st.put G) := rfl

theorem sim_assign {F : BasisSet K → BasisSet K} {G : HBasis K → HBasis K}
    {Φ : Unit → Unit → HState K → Prop} (hv : st.Ok → (st.put G).view = F st.view)
    (ho : st.Ok → (st.put G).Ok) (h : Φ () () (st.put G)) :
    Sim st Φ (modify F) (assign G) := by
  intro ok
  refine ⟨st.put G, List.prefix_rfl, ho ok, .inl ⟨(), (), ?_, rfl, h⟩⟩
  rw [hv ok]
  rfl

theorem sim_assign_bind {F : BasisSet K → BasisSet K} {G : HBasis K → HBasis K}
    {f : Unit → PyM (BasisSet K) α} {g : Unit → PyM (HState K) β}
    (hv : st.Ok → (st.put G).view = F st.view)
    (ho : st.Ok → (st.put G).Ok) (h : Sim (st.put G) Φ (f ()) (g ())) :
    Sim st Φ (modify F >>= f) (assign G >>= g) := by
  refine sim_bind (Φ := fun _ _ s => s = st.put G) (sim_assign hv ho rfl) ?_
  rintro a b st' - - - rfl
  exact h

/-- An attribute other than the single-particle functions is assigned an array that exists. -/
theorem put_ok {G : HBasis K → HBasis K} {r : Option ℕ}
    (hs : ∀ t ∈ (G st.obj).slots, t ∈ st.obj.slots ∨ t = r)
    (hf : (G st.obj).spf = st.obj.spf) (hr : ∀ i, r = some i → i < st.mem.length) (ok : st.Ok) :
    (st.put G).Ok where
  bound i hi := by
    rcases hs _ hi with h | h
    · exact ok.bound i h
    · exact hr i h.symm
  real x hx := ok.real x (by
    rwa [show (st.put G).obj.spf = st.obj.spf from hf] at hx)

/-- What is found at a reference. -/
theorem val_lt {m : Mem K} {i : ℕ} {x : NDArray K} (h : m.val (some i) = some x) : i < m.length := by
  simp only [Mem.val, Option.bind_some] at h
  exact (List.getElem?_eq_some_iff.1 h).1

end QS
