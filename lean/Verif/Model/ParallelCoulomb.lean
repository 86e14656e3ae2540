import Verif.Model.Coulomb

/-!
# `_get_coulomb_elements` with threads

`quantum_systems/quantum_dots/two_dim/two_dim_helper.py` 252-271 is compiled by numba with `parallel=True`: the
iterations of the loop over `p` (`numba.prange`) are distributed over threads.  All threads write to the array `u`;
the variables that are assigned in the body of the loop are private to a thread and hold arbitrary values before
their first assignment.
-/

namespace QS.Coulomb

open Idx

/-- Where a thread is in the body of the parallel loop (`two_dim_helper.py` 258-269). -/
inductive Pc
  /-- Line 259, at the start of an iteration of the loop over `p`. -/
  | start
  /-- Line 260, the next iteration of the loop over `q`. -/
  | loopQ
  /-- Line 262, the next iteration of the loop over `r`. -/
  | loopR
  /-- Line 264, the next iteration of the loop over `s`. -/
  | loopS
  /-- Line 267, the assignment to the entry. -/
  | store
deriving DecidableEq

/-- A thread: the iterations `p` that it still has to do, the first one being the current one, and its private
variables. -/
structure Thread where
  todo : List ℕ
  pc : Pc
  q : ℕ
  r : ℕ
  s : ℕ
  nmP : ℤ × ℤ
  nmQ : ℤ × ℤ
  nmR : ℤ × ℤ
  nmS : ℤ × ℤ

/-- One step of a thread with the shared array (`two_dim_helper.py` 258-269): an assignment of the private
variables, the test of a loop with the assignment that follows it, or the write of one entry.  A thread without
iterations does nothing. -/
noncomputable def Thread.step (num : ℕ) (t : Thread) (u : NDArray ℂ) : Except PyErr (Thread × NDArray ℂ) :=
  match t.todo with
  | [] => .ok (t, u)
  | p :: rest =>
    match t.pc with
    | .start => .ok ({ t with nmP := getIndicesNm p, q := 0, pc := .loopQ }, u)
    | .loopQ =>
      if t.q < num then .ok ({ t with nmQ := getIndicesNm t.q, r := 0, pc := .loopR }, u)
      else .ok ({ t with todo := rest, pc := .start }, u)
    | .loopR =>
      if t.r < num then .ok ({ t with nmR := getIndicesNm t.r, s := 0, pc := .loopS }, u)
      else .ok ({ t with q := t.q + 1, pc := .loopQ }, u)
    | .loopS =>
      if t.s < num then .ok ({ t with nmS := getIndicesNm t.s, pc := .store }, u)
      else .ok ({ t with r := t.r + 1, pc := .loopR }, u)
    | .store =>
      match NDArray.setItem u [p, t.q, t.r, t.s] (coulombHo t.nmP.1 t.nmP.2 t.nmQ.1 t.nmQ.2 t.nmR.1 t.nmR.2
          t.nmS.1 t.nmS.2 : ℝ) with
      | .ok u' => .ok ({ t with s := t.s + 1, pc := .loopS }, u')
      | .error e => .error e

/-- The threads and the shared array. -/
structure Team where
  threads : List Thread
  u : NDArray ℂ

/-- Some thread that is not finished does one step. -/
def Team.Step (num : ℕ) (a b : Team) : Prop :=
  ∃ i t t' u', a.threads[i]? = some t ∧ t.todo ≠ [] ∧ t.step num a.u = .ok (t', u') ∧
    b = { threads := a.threads.set i t', u := u' }

/-- `a` becomes `b` in `k` steps, in some order of the threads. -/
inductive Team.Run (num : ℕ) : Team → ℕ → Team → Prop
  | refl (a : Team) : Run num a 0 a
  | step {a b c : Team} {k : ℕ} : Run num a k b → b.Step num c → Run num a (k + 1) c

/-- The start: zeros (`two_dim_helper.py` 255-256), every thread with a list of iterations and arbitrary private
variables; together they have every iteration once. -/
structure Team.Start (num : ℕ) (a : Team) : Prop where
  u : a.u = NDArray.zeros .float64 [num, num, num, num]
  pc : ∀ t ∈ a.threads, t.pc = .start
  todo : (a.threads.flatMap Thread.todo).Perm (List.range num)

/-- All threads are finished; numba waits for this before line 271. -/
def Team.Done (a : Team) : Prop := ∀ t ∈ a.threads, t.todo = []

end QS.Coulomb
