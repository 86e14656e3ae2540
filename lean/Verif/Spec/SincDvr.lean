import Verif.Core.NDArray
import Mathlib.Analysis.Complex.Basic
import Mathlib.Analysis.SpecialFunctions.Trigonometric.Basic

/-!
# Two representations of a local interaction
-/

namespace QS.Spec

/-- The four-index array `u4` and the two-index array `u2` hold the same interaction, one that is diagonal in
the positions of both particles: `u4[p, q, r, s] = u2[p, q] δ_pr δ_qs`. -/
structure SameInteraction {K : Type} [Zero K] (l : ℕ) (u2 u4 : NDArray K) : Prop where
  two : u2.shape = [l, l]
  four : u4.shape = [l, l, l, l]
  same : ∀ p < l, ∀ q < l, ∀ r < l, ∀ s < l,
    u4.get [p, q, r, s] = if p = r ∧ q = s then u2.get [p, q] else 0

/-- The sum `∑ᵢ dx conj f_p(xᵢ) f_q(xᵢ)` over the `n` points of a grid of spacing `dx`. -/
noncomputable def gridOverlap (dx : ℝ) (n : ℕ) (f : NDArray ℂ) (p q : ℕ) : ℂ :=
  ∑ i ∈ Finset.range n, (dx : ℂ) * (starRingEnd ℂ) (f.get [p, i]) * f.get [q, i]

/-- The sinc function around `c` of width `dx`, normalised. -/
noncomputable def sincFunction (dx c x : ℝ) : ℝ :=
  if x = c then 1 / Real.sqrt dx
  else 1 / Real.sqrt dx * (Real.sin (Real.pi * (x - c) / dx) / (Real.pi * (x - c) / dx))

end QS.Spec
