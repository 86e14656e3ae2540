import Mathlib.Data.Real.Sqrt

/-!
# Matrix elements of the radius between oscillator functions with neighbouring angular momenta
-/

namespace QS.Spec

/-- `⟨n, a| r |n', a+1⟩` between normalised radial functions of the two-dimensional oscillator, in units of the
oscillator length `1/√(mω)`: raising `a` keeps `n` or lowers it by one. -/
noncomputable def ladder (n a n' : ℕ) : ℝ :=
  if n' = n then √((n : ℝ) + a + 1) else if n' + 1 = n then -√(n : ℝ) else 0

/-- The matrix element between the functions `(n, m)` and `(n', m')` with `|m - m'| = 1`. -/
noncomputable def radialStep (n m n' m' : ℤ) : ℝ :=
  if m'.natAbs = m.natAbs + 1 then ladder n.toNat m.natAbs n'.toNat
  else ladder n'.toNat m'.natAbs n.toNat

end QS.Spec
