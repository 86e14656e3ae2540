import Verif.Spec.System
import Verif.Spec.History

/-!
# Operations on systems and what systems report
-/

namespace QS

variable {K T : Type} [PyScalar K]

/-- The operations on a system object: its public methods, evaluations of a time-evolution operator
object, and every operation on the system's basis set.  `o` refers to operator objects. -/
inductive SOp (K T : Type) [PyScalar K]
  | setSystemSize (n l : ℕ)
  | changeModule (np : Option Module)
  | changeBasis (C : NDArray K) (Ct : Option (NDArray K))
  | density (rho : NDArray K) (C Ct : Option (NDArray K))
  | setOperator (o : Option ℕ)
  | hT (t : T)
  | uT (t : T)
  | opHT (o : ℕ) (t : T)
  | opUT (o : ℕ) (t : T)
  | transformOneBody (x C : NDArray K) (Ct : Option (NDArray K))
  | transformTwoBody (x C : NDArray K) (Ct : Option (NDArray K))
  | referenceEnergy
  | changeToHfBasis
  | basis (op : Op K)
  | copy
  | toGeneral (a b : List K) (anti : Bool)

/-- Perform an operation on system `s`, dropping its result. -/
def SOp.run (s : ℕ) : SOp K T → PyM (World K T) Unit
  | .setSystemSize n l => World.setSystemSize s n l
  | .changeModule np => World.changeModule s np
  | .changeBasis C Ct => World.changeBasis s C Ct
  | .density rho C Ct => do let _ ← World.computeParticleDensity s rho C Ct; pure ()
  | .setOperator o => World.setTimeEvolutionOperator s o
  | .hT t => do let _ ← World.hT s t; pure ()
  | .uT t => do let _ ← World.uT s t; pure ()
  | .opHT o t => do let _ ← World.opHT o t; pure ()
  | .opUT o t => do let _ ← World.opUT o t; pure ()
  | .transformOneBody x C Ct => do let _ ← World.transformOneBody s x C Ct; pure ()
  | .transformTwoBody x C Ct => do let _ ← World.transformTwoBody s x C Ct; pure ()
  | .referenceEnergy => do let _ ← World.referenceEnergy s; pure ()
  | .changeToHfBasis => World.changeToHfBasis s
  | .basis op => do
    let x ← World.getSys s
    World.onBasis x.basis op.run
  | .copy => do let _ ← World.copySystem s; pure ()
  | .toGeneral a b anti => do let _ ← World.constructGeneral s a b anti; pure ()

/-- The operator objects that an operation mentions. -/
def SOp.mentions : SOp K T → ℕ → Prop
  | .setOperator (some o), o' => o' = o
  | .opHT o _, o' => o' = o
  | .opUT o _, o' => o' = o
  | _, _ => False

/-- The world after performing operations, each on the system it is paired with; exceptions are
caught, so every operation is performed whatever the outcome of the earlier ones. -/
def performAll (w : World K T) (ops : List (ℕ × SOp K T)) : World K T :=
  ops.foldl (fun w op => ((op.2.run op.1).run w).2) w

/-- Systems `s` in world `w` and `s'` in world `w'` report the same: class, sizes, slices and array
module, all attributes of the basis set (`bra_spf` as its getter returns it), `h_t` and `u_t` at all
times, the kind of time-evolution operator, the reference energy and all particle densities —
including the exceptions raised. -/
structure SameReports (w : World K T) (s : ℕ) (w' : World K T) (s' : ℕ) : Prop where
  sizes : (w.systems[s]?).map (fun x => (x.kind, x.np, x.n, x.l, x.m, x.o, x.v)) =
    (w'.systems[s']?).map (fun x => (x.kind, x.np, x.n, x.l, x.m, x.o, x.v))
  basis : (w.systems[s]?).bind (fun x => (w.bases[x.basis]?).map
      fun b => ({ b with braSpf := b.bra } : BasisSet K)) =
    (w'.systems[s']?).bind (fun x => (w'.bases[x.basis]?).map
      fun b => ({ b with braSpf := b.bra } : BasisSet K))
  hT : ∀ t, ((World.hT s t).run w).1 = ((World.hT s' t).run w').1
  uT : ∀ t, ((World.uT s t).run w).1 = ((World.uT s' t).run w').1
  oneBody : ((World.hasOneBody s).run w).1 = ((World.hasOneBody s').run w').1
  twoBody : ((World.hasTwoBody s).run w).1 = ((World.hasTwoBody s').run w').1
  energy : ((World.referenceEnergy s).run w).1 = ((World.referenceEnergy s').run w').1
  density : ∀ rho C Ct, ((World.computeParticleDensity s rho C Ct).run w).1 =
    ((World.computeParticleDensity s' rho C Ct).run w').1

/-- System `s` has basis set object `b`, and its operator objects are among `A`; those are not bound
to other systems. -/
structure Owns (w : World K T) (s b : ℕ) (A : ℕ → Prop) : Prop where
  sys : ∃ x, w.systems[s]? = some x ∧ x.basis = b ∧ ∀ o, x.op = some o → A o
  basis : ∃ y, w.bases[b]? = some y
  ops : ∀ o, A o → ∃ y, w.ops[o]? = some y ∧ ∀ s', y.system = some s' → s' = s

/-- The systems in `S` share nothing: system `i` has basis set object `B i` and operator objects among
`A i`, different ones for different systems. -/
structure Separate (w : World K T) (S : ℕ → Prop) (B : ℕ → ℕ) (A : ℕ → ℕ → Prop) : Prop where
  owns : ∀ i, S i → Owns w i (B i) (A i)
  bases : ∀ i j, S i → S j → i ≠ j → B i ≠ B j
  ops : ∀ i j o, S i → S j → i ≠ j → A i o → ¬ A j o

/-- A history on the systems in `S` in which an operator object is only ever used with the system it
belongs to. -/
def Disciplined (S : ℕ → Prop) (A : ℕ → ℕ → Prop) (ops : List (ℕ × SOp K T)) : Prop :=
  ∀ e ∈ ops, S e.1 ∧ ∀ o, e.2.mentions o → A e.1 o

/-- After any disciplined history on the systems in `S`, no further operation on one of them changes
what another one reports. -/
def Independent (w : World K T) (S : ℕ → Prop) (A : ℕ → ℕ → Prop) : Prop :=
  ∀ ops : List (ℕ × SOp K T), Disciplined S A ops →
    ∀ (i : ℕ) (op : SOp K T), S i → (∀ o, op.mentions o → A i o) → ∀ j, S j → j ≠ i →
      SameReports (performAll w ops) j ((op.run i).run (performAll w ops)).2 j

end QS
