import Verif.Spec.BasisChange
import Verif.Spec.ManyBody

/-!
# Specification: the arrays of one object are those of another one in orthonormal combinations of its functions
-/

namespace QS

open Finset

/-- The `l` functions `f` are the combinations of the functions `f'` (of which there are `n`) with the coefficients in the columns
of `D`, which are orthonormal, and the elements `h`, `u`, `d` are those of the same operators as `h'`, `u'`, `d'`. -/
structure Combined (D : NDArray ℂ) (n l dim : ℕ) (h' u' d' f' h u d f : NDArray ℂ) : Prop where
  shape : D.shape = [n, l]
  orthonormal : ∀ p < l, ∀ q < l, ∑ a ∈ range n, star (D.get [a, p]) * D.get [a, q] = if p = q then 1 else 0
  one : IsOneBody D D.conj.T n l h' h
  two : IsTwoBody D D.conj.T n l u' u
  dipole : IsDipole D D.conj.T dim n l d' d
  ket : IsKet D n l f' f

end QS
