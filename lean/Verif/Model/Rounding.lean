import Verif.Model.System
import Mathlib.Analysis.Complex.Basic

/-!
# Contractions and energies in floating-point arithmetic

The other files compute exactly.  Here the results of the contractions are relations: `r` is a possible result if it
comes out of roundings with relative error at most `u` after every operation (the standard model of floating-point
arithmetic without overflow and underflow; for complex numbers `u` is a small multiple of the unit roundoff).  The
order and the grouping of the additions is arbitrary, as it is for the BLAS routines behind `np.dot` and
`np.tensordot`; fused operations are allowed since an error may be zero.
-/

namespace QS.Rounding

/-- `z` is `x` after rounding. -/
def Near (u : ℝ) (x z : ℂ) : Prop := ‖z - x‖ ≤ u * ‖x‖

/-- `z` is a possible result of adding the numbers `t i` for the indices `i` of a list, in some order, with some
grouping and with some accumulators set to zero, using `d` additions. -/
inductive FloatSum {ι : Type} (u : ℝ) (t : ι → ℂ) : List ι → ℕ → ℂ → Prop
  | nil : FloatSum u t [] 0 0
  | single (i : ι) : FloatSum u t [i] 0 (t i)
  | add {L L' : List ι} {d d' : ℕ} {x y z : ℂ} : FloatSum u t L d x → FloatSum u t L' d' y → Near u (x + y) z →
      FloatSum u t (L ++ L') (d + d' + 1) z
  | perm {L L' : List ι} {d : ℕ} {x : ℂ} : FloatSum u t L d x → L.Perm L' → FloatSum u t L' d x

/-- `z` is a possible result of `sum_a f[a] * g[a]` over `n` terms with at most `d` additions: one entry of `np.dot`
or `np.tensordot`. -/
def FloatDot (u : ℝ) (d n : ℕ) (f g : ℕ → ℂ) (z : ℂ) : Prop :=
  ∃ t : ℕ → ℂ, (∀ a < n, Near u (f a * g a) (t a)) ∧ ∃ d' ≤ d, FloatSum u t (List.range n) d' z

/-- `z` is a possible result of `sum_a f[a]` with at most `d` additions: `np.trace`, `np.einsum` of one array. -/
def FloatTrace (u : ℝ) (d n : ℕ) (f : ℕ → ℂ) (z : ℂ) : Prop :=
  ∃ d' ≤ d, FloatSum u f (List.range n) d' z

/-- `R` is a possible result of `transform_one_body_elements` (`basis_set.py` 308-312). -/
def FloatOneBody (u : ℝ) (d m k l n : ℕ) (h C Ct R : NDArray ℂ) : Prop :=
  ∃ M : ℕ → ℕ → ℂ,
    (∀ a < k, ∀ q < n, FloatDot u d l (fun b => h.get [a, b]) (fun b => C.get [b, q]) (M a q)) ∧
    ∀ p < m, ∀ q < n, FloatDot u d k (fun a => Ct.get [p, a]) (fun a => M a q) (R.get [p, q])

/-- `R` is a possible result of `transform_two_body_elements` (`basis_set.py` 315-328); transpositions are exact. -/
def FloatTwoBody (u : ℝ) (d m l n : ℕ) (U C Ct R : NDArray ℂ) : Prop :=
  ∃ M₁ M₂ M₃ : ℕ → ℕ → ℕ → ℕ → ℂ,
    (∀ a < l, ∀ b < l, ∀ c < l, ∀ s < n,
      FloatDot u d l (fun e => U.get [a, b, c, e]) (fun e => C.get [e, s]) (M₁ a b c s)) ∧
    (∀ a < l, ∀ b < l, ∀ r < n, ∀ s < n, FloatDot u d l (fun c => M₁ a b c s) (fun c => C.get [c, r]) (M₂ a b r s)) ∧
    (∀ a < l, ∀ q < m, ∀ r < n, ∀ s < n, FloatDot u d l (fun b => M₂ a b r s) (fun b => Ct.get [q, b]) (M₃ a q r s)) ∧
    ∀ p < m, ∀ q < m, ∀ r < n, ∀ s < n,
      FloatDot u d l (fun a => Ct.get [p, a]) (fun a => M₃ a q r s) (R.get [p, q, r, s])

/-- `e` is a possible result of `compute_reference_energy` (`general_orbital_system.py` 94-96,
`spatial_orbital_system.py` 124-129) from the arrays `H` and `U`. -/
def FloatEnergy (u : ℝ) (d n : ℕ) (H U : NDArray ℂ) : SysKind → ℂ → Prop
  | .general, e => ∃ t x y : ℂ, ∃ M : ℕ → ℂ, FloatTrace u d n (fun i => H.get [i, i]) t ∧
      (∀ i < n, FloatTrace u d n (fun j => U.get [i, j, i, j]) (M i)) ∧ FloatTrace u d n M x ∧
      Near u (1 / 2 * x) y ∧ Near u (t + y) e
  | .spatial, e => ∃ t t' x x' y z : ℂ, ∃ M M' : ℕ → ℂ, FloatTrace u d n (fun i => H.get [i, i]) t ∧
      Near u (2 * t) t' ∧
      (∀ i < n, FloatTrace u d n (fun j => U.get [i, j, i, j]) (M i)) ∧ FloatTrace u d n M x ∧ Near u (2 * x) x' ∧
      (∀ i < n, FloatTrace u d n (fun j => U.get [i, j, j, i]) (M' i)) ∧ FloatTrace u d n M' y ∧
      Near u (t' + x') z ∧ Near u (z - y) e

/-- `f` is a possible entry `(p, q)` of the result of `construct_fock_matrix` (`general_orbital_system.py` 127-138,
`spatial_orbital_system.py` 159-171) from the arrays `H` and `U`. -/
def FloatFock (u : ℝ) (d n : ℕ) (H U : NDArray ℂ) (p q : ℕ) : SysKind → ℂ → Prop
  | .general, f => ∃ a x : ℂ, Near u (0 + H.get [p, q]) a ∧ FloatTrace u d n (fun i => U.get [p, i, q, i]) x ∧
      Near u (a + x) f
  | .spatial, f => ∃ a x x' b y : ℂ, Near u (0 + H.get [p, q]) a ∧
      FloatTrace u d n (fun i => U.get [p, i, q, i]) x ∧ Near u (2 * x) x' ∧ Near u (a + x') b ∧
      FloatTrace u d n (fun i => U.get [p, i, i, q]) y ∧ Near u (b - y) f

/-- Rounding of the parts of a complex number. -/
def flC (fl : ℝ → ℝ) (z : ℂ) : ℂ := ⟨fl z.re, fl z.im⟩

/-- Entry `(p, q, r, s)` of `anti_symmetrize_u` (`basis_set.py` 732-733), with a rounding function `fl`. -/
def floatAnti (fl : ℝ → ℝ) (U : NDArray ℂ) (p q r s : ℕ) : ℂ := flC fl (U.get [p, q, r, s] - U.get [p, q, s, r])

end QS.Rounding
