import Verif.Spec.Sharing
import Verif.Spec.Independence

/-! # What objects keep, and which worlds can arise -/

namespace QS

variable {K T : Type} [PyScalar K]

/-- The function of time that an attribute stands for: a plain value is constant, a lambda reads its cell. -/
def Attr.value (cells : List (Val K)) : Attr K T → Option (T → Val K)
  | .const v => some fun _ => v
  | .fn f => some f
  | .closure c => (cells[c]?).map fun v _ => v

/-- A lambda reads one of the first `n` cells. -/
def Attr.Live (n : ℕ) : Attr K T → Prop
  | .closure c => c < n
  | _ => True

/-- The lambdas of an operator object read local variables that exist. -/
def TEOp.Live (y : TEOp K T) : Prop :=
  match y.kind with
  | .base => True
  | .laser p e => p.Live y.cells.length ∧ ∀ a, e = some a → a.Live y.cells.length
  | .adiabatic f => f.Live y.cells.length
  | .custom c _ => c.Live y.cells.length

/-- What an operator object keeps: its class, the functions it was given, the matrix and the weight of a
`CustomOneBodyOperator`, and the variables of its lambdas.  (Nothing is said about plain pulses and polarisations
of a `LaserField`.) -/
structure TEOp.Kept (y y' : TEOp K T) : Prop where
  cells : y.cells.length ≤ y'.cells.length
  base : y.kind = .base → y'.kind = .base
  laser : ∀ p e, y.kind = .laser p e → ∃ p' e', y'.kind = .laser p' e' ∧ (∀ f, p = .fn f → p' = .fn f) ∧
    ∀ f, e = some (.fn f) → e' = some (.fn f)
  adiabatic : ∀ f, y.kind = .adiabatic f → y'.kind = .adiabatic f ∧ f.value y'.cells = f.value y.cells
  custom : ∀ c a, y.kind = .custom c a → ∃ c', y'.kind = .custom c' a ∧ c'.value y'.cells = c.value y.cells

/-- What the objects of `w` keep in `w'`. -/
structure World.Intact (w w' : World K T) : Prop where
  sys : ∀ (s : ℕ) (x : Sys), w.systems[s]? = some x →
    ∃ x', w'.systems[s]? = some x' ∧ x'.kind = x.kind ∧ x'.basis = x.basis
  basis : ∀ (r : ℕ) (c : BasisSet K), w.bases[r]? = some c → ∃ c', w'.bases[r]? = some c'
  op : ∀ (o : ℕ) (y : TEOp K T), w.ops[o]? = some y → ∃ y', w'.ops[o]? = some y' ∧ y.Kept y'

/-- No reference and no lambda leads nowhere. -/
structure World.Sound (w : World K T) : Prop where
  closed : w.Closed
  live : ∀ (o : ℕ) (y : TEOp K T), w.ops[o]? = some y → y.Live

/-- The worlds that can arise: start without objects, make basis sets, operators that are not yet bound, and
systems, and perform operations with operators that exist.  Constructors and operations may raise exceptions. -/
inductive World.Arises : World K T → Prop
  | empty : Arises ⟨[], [], []⟩
  | newBasis {w : World K T} (c : BasisSet K) : Arises w → Arises ((World.newBasis c).run w).2
  | newOp {w : World K T} (y : TEOp K T) : y.system = none → y.Live → Arises w → Arises ((World.newOp y).run w).2
  | generalInit {w : World K T} (n r : ℕ) (a b : List K) (anti : Bool) :
    Arises w → Arises ((World.generalInit n r a b anti).run w).2
  | spatialInit {w : World K T} (n r : ℕ) : Arises w → Arises ((World.spatialInit n r).run w).2
  | perform {w : World K T} (s : ℕ) (op : SOp K T) : (∀ o, op.mentions o → ∃ y, w.ops[o]? = some y) →
    Arises w → Arises ((op.run s).run w).2

end QS
