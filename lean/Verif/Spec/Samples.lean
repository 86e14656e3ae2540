import Verif.Spec.WellFormed

/-!
# Functions on a grid as samples of functions on a space with an integral
-/

namespace QS

open Finset

variable {K : Type} [PyScalar K]

/-- The `n` functions of the basis set, on a grid of shape `g`, are the values of `φ` at the points `γ i`, the dual
functions those of `φt`. -/
structure Samples {X : Type} (b : BasisSet K) (n : ℕ) (g : List ℕ) (γ : List ℕ → X) (φ φt : ℕ → X → K) : Prop where
  ket : ∃ x, b.spf = some x ∧ x.shape = n :: g ∧ ∀ p < n, ∀ i, InRange g i → x.get (p :: i) = φ p (γ i)
  bra : ∃ y, b.bra = some y ∧ y.shape = n :: g ∧ ∀ p < n, ∀ i, InRange g i → y.get (p :: i) = φt p (γ i)

/-- `A p q` is the integral of `φt p · φ q`, for an integral `J` that is linear on the combinations of these
products. -/
structure Elements {X : Type} (n : ℕ) (J : (X → K) → K) (φ φt : ℕ → X → K) (A : ℕ → ℕ → K) : Prop where
  eq : ∀ p < n, ∀ q < n, A p q = J fun z => φt p z * φ q z
  lin : ∀ c : ℕ → ℕ → K, J (fun z => ∑ p ∈ range n, ∑ q ∈ range n, c p q * (φt p z * φ q z)) =
    ∑ p ∈ range n, ∑ q ∈ range n, c p q * J fun z => φt p z * φ q z

/-- The basis set describes the functions `φ` (dual functions `φt`) on a space with the integral `I`: `spf` and
`bra_spf` hold their values at the grid points, `s` their overlaps, component `k` of the dipole moment the matrix
elements of `w k`. -/
structure OfFunctions {X : Type} (b : BasisSet K) (n : ℕ) (g : List ℕ) (γ : List ℕ → X) (φ φt : ℕ → X → K)
    (I : (X → K) → K) (w : ℕ → X → K) : Prop where
  samples : Samples b n g γ φ φt
  overlap : ∃ s, b.s = some s ∧ Elements n I φ φt fun p q => s.get [p, q]
  dipole : ∃ x, b.dipole = some x ∧
    ∀ k < b.dim, Elements n (fun F => I fun z => w k z * F z) φ φt fun p q => x.get [k, p, q]

/-- The density `∑_pq φt_p ρ_qp φ_q` as a function on the space. -/
def densityOn {X : Type} (n : ℕ) (rho : NDArray K) (φ φt : ℕ → X → K) (z : X) : K :=
  ∑ p ∈ range n, ∑ q ∈ range n, φt p z * rho.get [q, p] * φ q z

/-- The functions after a change of basis. -/
def ketCombination {X : Type} (l : ℕ) (C : NDArray K) (φ : ℕ → X → K) (p : ℕ) (z : X) : K :=
  ∑ a ∈ range l, C.get [a, p] * φ a z

/-- The dual functions after a change of basis. -/
def braCombination {X : Type} (l : ℕ) (Ct : NDArray K) (φt : ℕ → X → K) (p : ℕ) (z : X) : K :=
  ∑ a ∈ range l, Ct.get [p, a] * φt a z

end QS
