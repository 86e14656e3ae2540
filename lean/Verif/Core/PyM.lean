import Verif.Core.NDArray

/-!
# Python method calls

`PyM σ α`: a method that reads and mutates an object (or heap) `σ` and returns `α` or raises.
Mutations made before the raise are kept, as in Python.
-/

namespace QS

/-- A call: result or exception, together with the state it leaves behind. -/
def PyM (σ α : Type) := σ → Except PyErr α × σ

namespace PyM

variable {σ α β : Type}

def run (m : PyM σ α) (s : σ) : Except PyErr α × σ := m s

instance : Monad (PyM σ) where
  pure a := fun s => (.ok a, s)
  bind m f := fun s => match m s with
    | (.ok a, s') => f a s'
    | (.error e, s') => (.error e, s')

/-- The object's current state. -/
def get : PyM σ σ := fun s => (.ok s, s)
/-- Mutate the object. -/
def modify (f : σ → σ) : PyM σ Unit := fun s => (.ok (), f s)
/-- `raise` -/
def raise (e : PyErr) : PyM σ α := fun s => (.error e, s)
/-- A call of a pure function that may raise. -/
def ofExcept (x : Except PyErr α) : PyM σ α := fun s => (x, s)
/-- `assert b` -/
def assert (b : Bool) : PyM σ Unit := if b then pure () else raise .assertion

instance : MonadLift (Except PyErr) (PyM σ) := ⟨ofExcept⟩

@[simp] theorem run_pure (a : α) (s : σ) : (pure a : PyM σ α).run s = (.ok a, s) := rfl
theorem run_bind (m : PyM σ α) (f : α → PyM σ β) (s : σ) :
    (m >>= f).run s = match m.run s with
      | (.ok a, s') => (f a).run s'
      | (.error e, s') => (.error e, s') := rfl
@[simp] theorem run_get (s : σ) : (get : PyM σ σ).run s = (.ok s, s) := rfl
@[simp] theorem run_modify (f : σ → σ) (s : σ) : (modify f).run s = (.ok (), f s) := rfl
@[simp] theorem run_raise (e : PyErr) (s : σ) : (raise e : PyM σ α).run s = (.error e, s) := rfl
@[simp] theorem run_ofExcept (x : Except PyErr α) (s : σ) : (ofExcept x).run s = (x, s) := rfl
@[simp] theorem run_liftM (x : Except PyErr α) (s : σ) :
    (liftM x : PyM σ α).run s = (x, s) := rfl
@[simp] theorem run_monadLift (x : Except PyErr α) (s : σ) :
    (MonadLift.monadLift x : PyM σ α).run s = (x, s) := rfl
theorem run_assert (b : Bool) (s : σ) :
    (assert b : PyM σ Unit).run s = (if b then .ok () else .error .assertion, s) := by
  cases b <;> rfl
@[simp] theorem run_assert_true (s : σ) : (assert true : PyM σ Unit).run s = (.ok (), s) := rfl
@[simp] theorem run_assert_false (s : σ) :
    (assert false : PyM σ Unit).run s = (.error .assertion, s) := rfl

theorem run_bind_ok {m : PyM σ α} {f : α → PyM σ β} {s s' : σ} {a : α}
    (h : m.run s = (.ok a, s')) : (m >>= f).run s = (f a).run s' := by
  rw [run_bind, h]

theorem run_bind_error {m : PyM σ α} {f : α → PyM σ β} {s s' : σ} {e : PyErr}
    (h : m.run s = (.error e, s')) : (m >>= f).run s = (.error e, s') := by
  rw [run_bind, h]

/-- A successful sequence splits into two successful calls. -/
theorem run_bind_eq_ok {m : PyM σ α} {f : α → PyM σ β} {s s' : σ} {b : β} :
    (m >>= f).run s = (.ok b, s') ↔
      ∃ a s₁, m.run s = (.ok a, s₁) ∧ (f a).run s₁ = (.ok b, s') := by
  rw [run_bind]
  rcases h : m.run s with ⟨_ | a, s₁⟩
  · simp
  · simp

instance : LawfulMonad (PyM σ) := LawfulMonad.mk'
  (id_map := by
    intro α m; funext s
    show (match m s with | (.ok a, s') => _ | (.error e, s') => _) = m s
    rcases m s with ⟨_ | a, s₁⟩ <;> rfl)
  (pure_bind := by intros; rfl)
  (bind_assoc := by
    intro α β γ m f g; funext s
    show (match (match m s with | (.ok a, s') => f a s' | (.error e, s') => (.error e, s')) with
        | (.ok a, s') => g a s' | (.error e, s') => (.error e, s')) =
      (match m s with
        | (.ok a, s') => (match f a s' with
            | (.ok a, s') => g a s' | (.error e, s') => (.error e, s'))
        | (.error e, s') => (.error e, s'))
    rcases m s with ⟨_ | a, s₁⟩ <;> rfl)

end PyM

end QS
