import Verif.Model.ParallelCoulomb
import Verif.Lemmas.Coulomb

/-!
# Property C109: the parallel loop over the Coulomb elements

All executions of the threads, in every interleaving, are compared with the loop done in order.
-/

namespace QS.Props

open QS.Coulomb QS.Idx NDArray

/-- The value of an entry. -/
noncomputable def coulombAt (p q r s : ℕ) : ℝ :=
  coulombHo (getIndicesNm p).1 (getIndicesNm p).2 (getIndicesNm q).1 (getIndicesNm q).2
    (getIndicesNm r).1 (getIndicesNm r).2 (getIndicesNm s).1 (getIndicesNm s).2

/-- The private variables of a thread hold what the code after them expects. -/
def Locals (num : ℕ) (t : Thread) : Prop :=
  ∀ p rest, t.todo = p :: rest →
    match t.pc with
    | .start => True
    | .loopQ => t.nmP = getIndicesNm p
    | .loopR => t.nmP = getIndicesNm p ∧ t.q < num ∧ t.nmQ = getIndicesNm t.q
    | .loopS => t.nmP = getIndicesNm p ∧ t.q < num ∧ t.nmQ = getIndicesNm t.q ∧ t.r < num ∧ t.nmR = getIndicesNm t.r
    | .store => t.nmP = getIndicesNm p ∧ t.q < num ∧ t.nmQ = getIndicesNm t.q ∧ t.r < num ∧
        t.nmR = getIndicesNm t.r ∧ t.s < num ∧ t.nmS = getIndicesNm t.s

/-- The entries that a thread will write. -/
def Pending (t : Thread) (p q r s : ℕ) : Prop :=
  match t.todo with
  | [] => False
  | p' :: rest => p ∈ rest ∨ p = p' ∧
    match t.pc with
    | .start => True
    | .loopQ => t.q ≤ q
    | .loopR => t.q < q ∨ t.q = q ∧ t.r ≤ r
    | .loopS => t.q < q ∨ t.q = q ∧ (t.r < r ∨ t.r = r ∧ t.s ≤ s)
    | .store => t.q < q ∨ t.q = q ∧ (t.r < r ∨ t.r = r ∧ t.s ≤ s)

/-- Steps of one iteration of the loop over `r`, of the loop over `q`, and of the parallel loop. -/
def costR (num : ℕ) : ℕ := 2 * num + 2
def costQ (num : ℕ) : ℕ := num * costR num + 2
def costP (num : ℕ) : ℕ := num * costQ num + 2

/-- Steps that a thread has before it. -/
def cost (num : ℕ) (t : Thread) : ℕ :=
  match t.todo with
  | [] => 0
  | _ :: rest => rest.length * costP num +
    match t.pc with
    | .start => costP num
    | .loopQ => (num - t.q) * costQ num + 1
    | .loopR => (num - t.r) * costR num + 1 + ((num - (t.q + 1)) * costQ num + 1)
    | .loopS => 2 * (num - t.s) + 1 + ((num - (t.r + 1)) * costR num + 1) + ((num - (t.q + 1)) * costQ num + 1)
    | .store => 2 * (num - t.s) + ((num - (t.r + 1)) * costR num + 1) + ((num - (t.q + 1)) * costQ num + 1)

/-- One step of a thread. -/
theorem thread_step {num : ℕ} {t : Thread} {u : NDArray ℂ} (ht : t.todo ≠ []) (hl : Locals num t)
    (hr : ∀ p ∈ t.todo, p < num) (hu : u.shape = [num, num, num, num]) :
    ∃ t' u', t.step num u = .ok (t', u') ∧ Locals num t' ∧ (t'.todo = t.todo ∨ t'.todo = t.todo.tail) ∧
      u'.shape = u.shape ∧ u'.dtype = u.dtype ∧ cost num t = cost num t' + 1 ∧
      (∀ p < num, ∀ q < num, ∀ r < num, ∀ s < num, u'.get [p, q, r, s] = u.get [p, q, r, s] ∨
        u'.get [p, q, r, s] = coulombAt p q r s) ∧
      (∀ p < num, ∀ q < num, ∀ r < num, ∀ s < num, Pending t p q r s →
        Pending t' p q r s ∨ u'.get [p, q, r, s] = coulombAt p q r s) := by
  obtain ⟨todo, pc, vq, vr, vs, nmP, nmQ, nmR, nmS⟩ := t
  cases todo with
  | nil => exact absurd rfl ht
  | cons p₀ rest =>
    have hp₀ : p₀ < num := hr p₀ (by simp)
    have hl := hl p₀ rest rfl
    cases pc with
    | start =>
      refine ⟨_, _, rfl, ?_, .inl rfl, rfl, rfl, ?_, fun _ _ _ _ _ _ _ _ => .inl rfl, ?_⟩
      · intro p r e
        cases e
        rfl
      · simp only [cost, costP]
        rw [Nat.sub_zero]; ring
      · intro p hp q hq r hr s hs h
        left
        simp only [Pending] at h ⊢
        rcases h with h | h
        · exact .inl h
        · exact .inr ⟨h.1, Nat.zero_le _⟩
    | loopQ =>
      by_cases hq : vq < num
      · refine ⟨_, _, if_pos hq, ?_, .inl rfl, rfl, rfl, ?_,
          fun _ _ _ _ _ _ _ _ => .inl rfl, ?_⟩
        · intro p r e
          cases e
          exact ⟨hl, hq, rfl⟩
        · simp only [cost, Nat.sub_zero]
          obtain ⟨d, hd⟩ : ∃ d, num - vq = d + 1 := ⟨num - vq - 1, by omega⟩
          have hd' : num - (vq + 1) = d := by omega
          rw [hd, hd', costQ]
          ring
        · intro p hp q hq r hr s hs h
          left
          simp only [Pending] at h ⊢
          rcases h with h | ⟨h, h'⟩
          · exact .inl h
          · exact .inr ⟨h, by omega⟩
      · refine ⟨_, _, if_neg hq, ?_, .inr rfl, rfl, rfl, ?_,
          fun _ _ _ _ _ _ _ _ => .inl rfl, ?_⟩
        · intro p r e
          trivial
        · have : num - vq = 0 := by omega
          cases rest with
          | nil => simp [cost, this]
          | cons p₁ rest =>
            simp only [cost, this, List.length_cons]
            ring
        · intro p hp q hq r hr s hs h
          left
          simp only [Pending] at h ⊢
          rcases h with h | ⟨h, h'⟩
          · cases rest with
            | nil => exact absurd h (by simp)
            | cons p₁ rest =>
              simp only [List.mem_cons] at h
              rcases h with rfl | h
              · exact .inr ⟨rfl, trivial⟩
              · exact .inl h
          · omega
    | loopR =>
      obtain ⟨l1, l2, l3⟩ := hl
      by_cases hq : vr < num
      · refine ⟨_, _, if_pos hq, ?_, .inl rfl, rfl, rfl, ?_,
          fun _ _ _ _ _ _ _ _ => .inl rfl, ?_⟩
        · intro p r e
          cases e
          exact ⟨l1, l2, l3, hq, rfl⟩
        · simp only [cost, Nat.sub_zero]
          obtain ⟨d, hd⟩ : ∃ d, num - vr = d + 1 := ⟨num - vr - 1, by omega⟩
          have hd' : num - (vr + 1) = d := by omega
          rw [hd, hd', costR]
          ring
        · intro p hp q hq r hr s hs h
          left
          simp only [Pending] at h ⊢
          rcases h with h | ⟨h, h'⟩
          · exact .inl h
          · exact .inr ⟨h, by omega⟩
      · refine ⟨_, _, if_neg hq, ?_, .inl rfl, rfl, rfl, ?_,
          fun _ _ _ _ _ _ _ _ => .inl rfl, ?_⟩
        · intro p r e
          cases e
          exact l1
        · have : num - vr = 0 := by omega
          simp only [cost, this]
          ring
        · intro p hp q hq r hr s hs h
          left
          simp only [Pending] at h ⊢
          rcases h with h | ⟨h, h'⟩
          · exact .inl h
          · exact .inr ⟨h, by omega⟩
    | loopS =>
      obtain ⟨l1, l2, l3, l4, l5⟩ := hl
      by_cases hq : vs < num
      · refine ⟨_, _, if_pos hq, ?_, .inl rfl, rfl, rfl, ?_,
          fun _ _ _ _ _ _ _ _ => .inl rfl, ?_⟩
        · intro p r e
          cases e
          exact ⟨l1, l2, l3, l4, l5, hq, rfl⟩
        · simp only [cost]
          ring
        · intro p hp q hq r hr s hs h
          left
          exact h
      · refine ⟨_, _, if_neg hq, ?_, .inl rfl, rfl, rfl, ?_,
          fun _ _ _ _ _ _ _ _ => .inl rfl, ?_⟩
        · intro p r e
          cases e
          exact ⟨l1, l2, l3⟩
        · have : num - vs = 0 := by omega
          simp only [cost, this]
          ring
        · intro p hp q hq r hr s hs h
          left
          simp only [Pending] at h ⊢
          rcases h with h | ⟨h, h'⟩
          · exact .inl h
          · exact .inr ⟨h, by omega⟩
    | store =>
      simp only at hl
      obtain ⟨rfl, l2, rfl, l4, rfl, l6, rfl⟩ := hl
      have hin : InRange u.shape [p₀, vq, vr, vs] := by
        rw [hu]; exact ⟨hp₀, l2, l4, l6, trivial⟩
      have e := setItem_ok u ((coulombAt p₀ vq vr vs : ℝ) : ℂ) hin
      have val : ∀ p < num, ∀ q < num, ∀ r < num, ∀ s < num,
          (u.pointwise (fun i x => if i = [p₀, vq, vr, vs] then ((coulombAt p₀ vq vr vs : ℝ) : ℂ) else x)).get
            [p, q, r, s] = if [p, q, r, s] = [p₀, vq, vr, vs] then ((coulombAt p q r s : ℝ) : ℂ)
              else u.get [p, q, r, s] := by
        intro p hp q hq r hr s hs
        rw [pointwise_get _ _ _ (by rw [hu]; exact ⟨hp, hq, hr, hs, trivial⟩)]
        split_ifs with h
        · simp only [List.cons.injEq, and_true] at h
          obtain ⟨rfl, rfl, rfl, rfl⟩ := h
          rfl
        · rfl
      refine ⟨⟨p₀ :: rest, .loopS, vq, vr, vs + 1, getIndicesNm p₀, getIndicesNm vq, getIndicesNm vr, getIndicesNm vs⟩,
        u.pointwise (fun i x => if i = [p₀, vq, vr, vs] then ((coulombAt p₀ vq vr vs : ℝ) : ℂ) else x),
        by simp only [Thread.step]; unfold coulombAt at e ⊢; rw [e], ?_, .inl rfl, rfl, rfl, ?_, ?_, ?_⟩
      · intro p r e
        cases e
        exact ⟨rfl, l2, rfl, l4, rfl⟩
      · simp only [cost]
        obtain ⟨d, hd⟩ : ∃ d, num - vs = d + 1 := ⟨num - vs - 1, by omega⟩
        have hd' : num - (vs + 1) = d := by omega
        rw [hd, hd']
        ring
      · intro p hp q hq r hr s hs
        have := val p hp q hq r hr s hs
        simp only [coulombAt] at this ⊢
        rw [this]
        split_ifs
        · exact .inr rfl
        · exact .inl rfl
      · intro p hp q hq r hr s hs h
        by_cases hc : [p, q, r, s] = [p₀, vq, vr, vs]
        · right
          have := val p hp q hq r hr s hs
          rw [if_pos hc] at this
          simp only [coulombAt] at this ⊢
          exact this
        · left
          simp only [List.cons.injEq, and_true, not_and] at hc
          simp only [Pending] at h ⊢
          rcases h with h | ⟨h, h'⟩
          · exact .inl h
          · exact .inr ⟨h, by
              have hc := hc h
              by_cases e1 : vq = q
              · have hc := hc e1.symm
                by_cases e2 : vr = r
                · have hc := hc e2.symm
                  omega
                · omega
              · omega⟩

/-- What holds all the time. -/
structure TeamInv (num : ℕ) (a : Team) : Prop where
  shape : a.u.shape = [num, num, num, num]
  dtype : a.u.dtype = .float64
  locals' : ∀ t ∈ a.threads, Locals num t
  todo : ∀ t ∈ a.threads, ∀ p ∈ t.todo, p < num
  nodup : (a.threads.flatMap Thread.todo).Nodup
  values : ∀ p < num, ∀ q < num, ∀ r < num, ∀ s < num, a.u.get [p, q, r, s] = 0 ∨
    a.u.get [p, q, r, s] = coulombAt p q r s
  written : ∀ p < num, ∀ q < num, ∀ r < num, ∀ s < num, (∃ t ∈ a.threads, Pending t p q r s) ∨
    a.u.get [p, q, r, s] = coulombAt p q r s

/-- Steps that all threads have before them. -/
def teamCost (num : ℕ) (a : Team) : ℕ := (a.threads.map (cost num)).sum

theorem start_inv {num : ℕ} {a : Team} (h : a.Start num) : TeamInv num a := by
  have hmem : ∀ p, (∃ t ∈ a.threads, p ∈ t.todo) ↔ p < num := by
    intro p
    rw [← List.mem_range, ← h.todo.mem_iff, List.mem_flatMap]
  refine ⟨by rw [h.u]; rfl, by rw [h.u]; rfl, ?_, fun t ht p hp => (hmem p).1 ⟨t, ht, hp⟩,
    h.todo.nodup_iff.2 List.nodup_range, ?_, ?_⟩
  · intro t ht p rest e
    rw [h.pc t ht]
    trivial
  · intro p hp q hq r hr s hs
    left
    rw [h.u]
    exact ite_self _
  · intro p hp q hq r hr s hs
    obtain ⟨t, ht, hpt⟩ := (hmem p).2 hp
    refine .inl ⟨t, ht, ?_⟩
    unfold Pending
    rw [h.pc t ht]
    cases e : t.todo with
    | nil => rw [e] at hpt; simp at hpt
    | cons p' rest =>
      rw [e, List.mem_cons] at hpt
      rcases hpt with rfl | hpt
      · exact .inr ⟨rfl, trivial⟩
      · exact .inl hpt

theorem sum_set {ts : List Thread} {i : ℕ} {t t' : Thread} (f : Thread → ℕ) (h : ts[i]? = some t) (c : f t = f t' + 1) :
    (ts.map f).sum = ((ts.set i t').map f).sum + 1 := by
  induction ts generalizing i with
  | nil => simp at h
  | cons x ts ih =>
    cases i with
    | zero => simp only [List.getElem?_cons_zero, Option.some.injEq] at h; subst h; simp; omega
    | succ i =>
      simp only [List.getElem?_cons_succ] at h
      have := ih h
      simp only [List.set_cons_succ, List.map_cons, List.sum_cons]
      omega

theorem flatMap_set {ts : List Thread} {i : ℕ} {t t' : Thread} (h : ts[i]? = some t)
    (c : t'.todo.Sublist t.todo) : ((ts.set i t').flatMap Thread.todo).Sublist (ts.flatMap Thread.todo) := by
  induction ts generalizing i with
  | nil => simp at h
  | cons x ts ih =>
    cases i with
    | zero =>
      simp only [List.getElem?_cons_zero, Option.some.injEq] at h; subst h
      exact c.append (List.Sublist.refl _)
    | succ i =>
      simp only [List.getElem?_cons_succ] at h
      exact (List.Sublist.refl _).append (ih h)

theorem step_inv {num : ℕ} {a b : Team} (h : TeamInv num a) (hs : a.Step num b) :
    TeamInv num b ∧ teamCost num a = teamCost num b + 1 ∧
    (∀ p < num, ∀ q < num, ∀ r < num, ∀ s < num, b.u.get [p, q, r, s] = a.u.get [p, q, r, s] ∨
        b.u.get [p, q, r, s] = coulombAt p q r s) := by
  obtain ⟨i, t, t', u', ht, hne, hst, rfl⟩ := hs
  have hm : t ∈ a.threads := List.mem_of_getElem? ht
  obtain ⟨t₁, u₁, e, hl, htodo, hsh, hdt, hc, hv, hp⟩ := thread_step hne (h.locals' t hm) (h.todo t hm) h.shape
  rw [hst] at e
  cases e
  have sub : t'.todo.Sublist t.todo := by
    rcases htodo with e | e
    · rw [e]
    · rw [e]; exact List.tail_sublist _
  have mem : ∀ x ∈ a.threads.set i t', x = t' ∨ x ∈ a.threads := fun x hx =>
    (List.mem_or_eq_of_mem_set hx).symm
  refine ⟨⟨hsh.trans h.shape, hdt.trans h.dtype, ?_, ?_, (flatMap_set ht sub).nodup h.nodup, ?_, ?_⟩,
    sum_set _ ht hc, hv⟩
  · intro x hx
    rcases mem x hx with rfl | hx
    · exact hl
    · exact h.locals' x hx
  · intro x hx p hpx
    rcases mem x hx with rfl | hx
    · exact h.todo t hm p (sub.subset hpx)
    · exact h.todo x hx p hpx
  · intro p hp q hq r hr s hs
    rcases hv p hp q hq r hr s hs with e | e
    · rw [e]; exact h.values p hp q hq r hr s hs
    · exact .inr e
  · intro p hp' q hq r hr s hs
    rcases h.written p hp' q hq r hr s hs with ⟨x, hx, hpend⟩ | e
    · obtain ⟨j, hj, rfl⟩ := List.mem_iff_getElem.1 hx
      obtain ⟨hi, hti⟩ := List.getElem?_eq_some_iff.1 ht
      by_cases hij : i = j
      · subst hij
        rw [hti] at hpend
        rcases hp p hp' q hq r hr s hs hpend with h1 | h1
        · exact .inl ⟨t', List.mem_iff_getElem.2 ⟨i, by simpa using hj, by simp⟩, h1⟩
        · exact .inr h1
      · exact .inl ⟨_, List.mem_iff_getElem.2 ⟨j, by simpa using hj, by rw [List.getElem_set_ne hij]⟩, hpend⟩
    · right
      rcases hv p hp' q hq r hr s hs with e' | e'
      · show u'.get _ = _
        rw [e', e]
      · exact e'

theorem run_inv {num : ℕ} {a b : Team} {k : ℕ} (h : TeamInv num a) (hr : Team.Run num a k b) :
    TeamInv num b ∧ teamCost num a = teamCost num b + k := by
  induction hr with
  | refl => exact ⟨h, rfl⟩
  | step _ hs ih =>
    obtain ⟨i1, i2⟩ := ih
    obtain ⟨j1, j2, -⟩ := step_inv i1 hs
    exact ⟨j1, by omega⟩

theorem start_cost {num : ℕ} {a : Team} (h : a.Start num) : teamCost num a = num * costP num := by
  have : ∀ ts : List Thread, (∀ t ∈ ts, t.pc = .start) →
      (ts.map (cost num)).sum = (ts.flatMap Thread.todo).length * costP num := by
    intro ts hts
    induction ts with
    | nil => simp
    | cons t ts ih =>
      rw [List.map_cons, List.sum_cons, ih fun x hx => hts x (by simp [hx]), List.flatMap_cons, List.length_append,
        add_mul]
      congr 1
      unfold cost
      rw [hts t (by simp)]
      cases e : t.todo with
      | nil => simp
      | cons p rest => simp only [List.length_cons]; ring
  unfold teamCost
  rw [this _ h.pc, h.todo.length_eq, List.length_range]

theorem cost_zero {num : ℕ} {t : Thread} (h : Locals num t) (h0 : cost num t = 0) : t.todo = [] := by
  unfold cost at h0
  cases e : t.todo with
  | nil => rfl
  | cons p rest =>
    rw [e] at h0
    have := h p rest e
    cases epc : t.pc <;> simp only [epc, costP] at h0 this <;> omega

/-- **C109** Whatever the number of threads, the distribution of the iterations, the values of the private variables
at the start and the interleaving of the steps are: when all threads are finished the shared array is the one that
the loop gives when it is done in order. -/
theorem C109_deterministic {num : ℕ} {a b : Team} {k : ℕ} (ha : a.Start num) (hr : Team.Run num a k b) (hd : b.Done) :
    getCoulombElementsRaw num = .ok b.u := by
  have h := (run_inv (start_inv ha) hr).1
  rw [getCoulombElementsRaw_eq]
  congr 1
  refine (NDArray.ext' ?_ ?_ ?_).symm
  · exact h.dtype
  · exact h.shape
  · intro i hi
    rw [h.shape] at hi
    obtain ⟨p, q, r, s, rfl, hp, hq, hr, hs⟩ := inRange_four.1 hi
    rw [ofFn_get_of hi]
    rcases h.written p hp q hq r hr s hs with ⟨t, ht, hpend⟩ | e
    · unfold Pending at hpend
      rw [hd t ht] at hpend
      exact hpend.elim
    · exact e

/-- **C109** Every execution makes the same number of steps: none is longer, and the threads are finished exactly
after this number. -/
theorem C109_terminates {num : ℕ} {a b : Team} {k : ℕ} (ha : a.Start num) (hr : Team.Run num a k b) :
    k ≤ num * (num * (num * (2 * num + 2) + 2) + 2) ∧
      (b.Done ↔ k = num * (num * (num * (2 * num + 2) + 2) + 2)) := by
  obtain ⟨h, hc⟩ := run_inv (start_inv ha) hr
  rw [start_cost ha] at hc
  have e : num * costP num = num * (num * (num * (2 * num + 2) + 2) + 2) := rfl
  refine ⟨by omega, fun hd => ?_, fun hk t ht => ?_⟩
  · have : teamCost num b = 0 := by
      unfold teamCost
      rw [List.sum_eq_zero_iff]
      intro x hx
      obtain ⟨t, ht, rfl⟩ := List.mem_map.1 hx
      unfold cost
      rw [hd t ht]
    omega
  · have : teamCost num b = 0 := by omega
    unfold teamCost at this
    rw [List.sum_eq_zero_iff] at this
    exact cost_zero (h.locals' t ht) (this _ (List.mem_map_of_mem ht))

/-- **C109** No step raises and nobody waits: at every time each thread that is not finished can do its next step. -/
theorem C109_progress {num : ℕ} {a b : Team} {k i : ℕ} {t : Thread} (ha : a.Start num) (hr : Team.Run num a k b)
    (hi : b.threads[i]? = some t) (ht : t.todo ≠ []) :
    ∃ t' u', t.step num b.u = .ok (t', u') ∧ b.Step num { threads := b.threads.set i t', u := u' } := by
  have h := (run_inv (start_inv ha) hr).1
  have hm : t ∈ b.threads := List.mem_of_getElem? hi
  obtain ⟨t', u', e, -⟩ := thread_step ht (h.locals' t hm) (h.todo t hm) h.shape
  exact ⟨t', u', e, i, t, t', u', hi, ht, e, rfl⟩

/-- **C109** Every execution that has begun can be completed. -/
theorem C109_completes {num : ℕ} {a b : Team} {k : ℕ} (ha : a.Start num) (hr : Team.Run num a k b) :
    ∃ c, Team.Run num a (num * (num * (num * (2 * num + 2) + 2) + 2)) c ∧ c.Done := by
  obtain ⟨d, hd⟩ : ∃ d, k + d = num * (num * (num * (2 * num + 2) + 2) + 2) :=
    ⟨_, Nat.add_sub_cancel' (C109_terminates ha hr).1⟩
  induction d generalizing k b with
  | zero => exact ⟨b, by rw [← hd]; exact hr, (C109_terminates ha hr).2.2 hd⟩
  | succ d ih =>
    have hnd : ¬ b.Done := fun h => by
      have := (C109_terminates ha hr).2.1 h
      omega
    unfold Team.Done at hnd
    push Not at hnd
    obtain ⟨t, ht, hne⟩ := hnd
    obtain ⟨i, hi⟩ := List.mem_iff_getElem?.1 ht
    obtain ⟨t', u', -, hs⟩ := C109_progress ha hr hi hne
    exact ih (hr.step hs) (by omega)

/-- **C109** Two threads never work on the same iteration, so they never write the same entry. -/
theorem C109_race_free {num : ℕ} {a b : Team} {k i j p p' : ℕ} {t t' : Thread} {rest rest' : List ℕ}
    (ha : a.Start num) (hr : Team.Run num a k b) (hij : i ≠ j) (hi : b.threads[i]? = some t)
    (hj : b.threads[j]? = some t') (ht : t.todo = p :: rest) (ht' : t'.todo = p' :: rest') : p ≠ p' := by
  have h := (run_inv (start_inv ha) hr).1.nodup
  rw [List.nodup_flatMap] at h
  obtain ⟨-, h⟩ := h
  obtain ⟨hi, ei⟩ := List.getElem?_eq_some_iff.1 hi
  obtain ⟨hj, ej⟩ := List.getElem?_eq_some_iff.1 hj
  have key : List.Disjoint t.todo t'.todo := by
    rcases Nat.lt_or_gt_of_ne hij with hlt | hlt
    · have := List.pairwise_iff_getElem.1 h i j hi hj hlt
      rw [ei, ej] at this
      exact this
    · have := List.pairwise_iff_getElem.1 h j i hj hi hlt
      rw [ei, ej] at this
      exact this.symm
  rintro rfl
  exact key (a := p) (by simp [ht]) (by simp [ht'])

/-- **C109** At all times every entry is zero or has its final value, and a final value stays. -/
theorem C109_entries {num : ℕ} {a b c : Team} {k m p q r s : ℕ} {u : NDArray ℂ} (ha : a.Start num)
    (hr : Team.Run num a k b) (hr' : Team.Run num b m c) (hu : getCoulombElementsRaw num = .ok u)
    (hp : p < num) (hq : q < num) (hr₀ : r < num) (hs : s < num) :
    (b.u.get [p, q, r, s] = 0 ∨ b.u.get [p, q, r, s] = u.get [p, q, r, s]) ∧
    (b.u.get [p, q, r, s] = u.get [p, q, r, s] → c.u.get [p, q, r, s] = u.get [p, q, r, s]) := by
  have h := (run_inv (start_inv ha) hr).1
  have e : u.get [p, q, r, s] = coulombAt p q r s := by
    rw [getCoulombElementsRaw_eq] at hu
    cases hu
    exact ofFn_get_of ⟨hp, hq, hr₀, hs, trivial⟩
  rw [e]
  refine ⟨h.values p hp q hq r hr₀ s hs, fun hb => ?_⟩
  clear hr
  induction hr' with
  | refl => exact hb
  | step hrun hst ih =>
    have hi := (run_inv h hrun).1
    rcases (step_inv hi hst).2.2 p hp q hq r hr₀ s hs with e' | e'
    · rw [e']; exact ih
    · exact e'

/-- Three threads, one of them without work, and three orbitals: finished after 240 steps. -/
example : ∃ a b : Team, a.Start 3 ∧ a.threads.length = 3 ∧ Team.Run 3 a 240 b ∧ b.Done ∧
    getCoulombElementsRaw 3 = .ok b.u := by
  let t : List ℕ → Thread := fun l => ⟨l, .start, 7, 8, 9, (1, 2), (3, 4), (5, 6), (7, 8)⟩
  have ha : Team.Start 3 ⟨[t [2, 0], t [], t [1]], zeros .float64 [3, 3, 3, 3]⟩ := by
    refine ⟨rfl, ?_, ?_⟩
    · intro x hx
      simp only [List.mem_cons, List.not_mem_nil, or_false] at hx
      rcases hx with rfl | rfl | rfl <;> rfl
    · show [2, 0, 1].Perm (List.range 3)
      decide
  obtain ⟨b, hr, hd⟩ := C109_completes ha (.refl _)
  exact ⟨_, b, ha, rfl, hr, hd, C109_deterministic ha hr hd⟩

end QS.Props
