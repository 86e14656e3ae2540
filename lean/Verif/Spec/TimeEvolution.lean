import Verif.Spec.Independence

/-!
# Specification of time-dependent Hamiltonians
-/

namespace QS

open Finset

variable {K T : Type} [PyScalar K]

/-- The function of time that a value given by the user stands for: a callable stands for itself, a
plain value for the constant function. -/
def Given (a : Attr K T) (f : T → Val K) : Prop := a = .fn f ∨ ∃ v, a = .const v ∧ ∀ t, f t = v

/-- The value is the number `c`. -/
def IsNumber (v : Val K) (c : K) : Prop := ∃ dt, v = .scalar dt c

/-- The value is an array of `n` numbers `e 0, …, e (n-1)`. -/
def IsVector (v : Val K) (n : ℕ) (e : ℕ → K) : Prop :=
  ∃ a, v = .array a ∧ a.shape = [n] ∧ ∀ k < n, a.get [k] = e k

/-- The polarisation that a user's choice stands for at time `t`: the given vector, or the unit vector
along the first axis if none was given. -/
def GivenPol (a : Option (Attr K T)) (n : ℕ) (e : T → ℕ → K) : Prop :=
  match a with
  | none => ∀ t k, e t k = if k = 0 then 1 else 0
  | some a => ∃ f, Given a f ∧ ∀ t, IsVector (f t) n (e t)

/-- A callable. -/
def IsCallable (a : Attr K T) : Prop := ∃ f, a = .fn f

/-- `r = h + c Σ_k e_k d_k`, entry by entry. -/
structure IsLaser (h d : NDArray K) (l n : ℕ) (c : K) (e : ℕ → K) (r : NDArray K) : Prop where
  shape : r.shape = [l, l]
  get : ∀ p < l, ∀ q < l, r.get [p, q] = h.get [p, q] + c * ∑ k ∈ range n, e k * d.get [k, p, q]

/-- Operations that read from a system and its operator `o` and are not meant to change anything:
evaluations of `h_t` and `u_t` at any time (of the system or the operator object), particle densities,
the reference energy and transformations of given arrays. -/
def Reading (o : ℕ) : SOp K T → Prop
  | .hT _ => True
  | .uT _ => True
  | .opHT o' _ => o' = o
  | .opUT o' _ => o' = o
  | .density _ _ _ => True
  | .referenceEnergy => True
  | .transformOneBody _ _ _ => True
  | .transformTwoBody _ _ _ => True
  | _ => False

/-- The world after a series of readings on system `s`, whether they succeed or raise. -/
def afterReading (w : World K T) (s : ℕ) (ops : List (SOp K T)) : World K T :=
  performAll w (ops.map fun op => (s, op))

/-- After any readings, `h_t(t) = h + c(t) Σ_k e_k(t) d_k` and `u_t(t) = u` for every `t`, with `h`, `u`
and `d` those of `b`. -/
def LaserAnswers (w : World K T) (s o : ℕ) (b : BasisSet K) (c : T → K) (e : T → ℕ → K) : Prop :=
  ∀ ops : List (SOp K T), (∀ op ∈ ops, Reading o op) → ∀ t,
    ∃ h d r, b.h = some h ∧ b.dipole = some d ∧
      ((World.hT s t).run (afterReading w s ops)).1 = .ok (some r) ∧
      IsLaser h d b.l b.dim (c t) (e t) r ∧
      ((World.uT s t).run (afterReading w s ops)).1 = .ok b.u

/-- After any readings, `u_t(t) = f(t) u` and `h_t(t) = h` for every `t`. -/
def SwitchingAnswers (w : World K T) (s o : ℕ) (b : BasisSet K) (f : T → K) : Prop :=
  ∀ ops : List (SOp K T), (∀ op ∈ ops, Reading o op) → ∀ t,
    ∃ u r, b.u = some u ∧
      ((World.uT s t).run (afterReading w s ops)).1 = .ok (some r) ∧
      r.shape = u.shape ∧ (∀ i, InRange u.shape i → r.get i = f t * u.get i) ∧
      ((World.hT s t).run (afterReading w s ops)).1 = .ok b.h

/-- After any readings, `h_t(t) = h + c(t) a` and `u_t(t) = u` for every `t`. -/
def CustomAnswers (w : World K T) (s o : ℕ) (b : BasisSet K) (c : T → K) (a : NDArray K) : Prop :=
  ∀ ops : List (SOp K T), (∀ op ∈ ops, Reading o op) → ∀ t,
    ∃ h r, b.h = some h ∧
      ((World.hT s t).run (afterReading w s ops)).1 = .ok (some r) ∧
      r.shape = [b.l, b.l] ∧
      (∀ p < b.l, ∀ q < b.l, r.get [p, q] = h.get [p, q] + c t * a.get [p, q]) ∧
      ((World.uT s t).run (afterReading w s ops)).1 = .ok b.u

end QS
