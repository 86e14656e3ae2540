import Mathlib.Analysis.SpecialFunctions.Pow.Real
import Mathlib.Analysis.SpecialFunctions.Trigonometric.Basic

/-!
# The oscillator functions of `ODHO` in double precision

`Model/OneDim.lean` computes exactly.  Here the formulas with factorials are computed with the numbers of double
precision: reals, the infinities, and NaN.  The two zeros are not distinguished.  The rounding function `rnd` is a
parameter of all operations; `Ieee` says what is used of it.
-/

namespace QS.Overflow

/-- A float: a finite number, an infinity (`true`: the negative one), or NaN. -/
inductive Flt
  | fin (x : ℝ)
  | inf (neg : Bool)
  | nan

/-- What is used of the rounding of binary64: zero is exact, from `2 ^ 1024` on a result is infinite, and normal numbers
get a relative error of at most `2 ^ -53`. -/
structure Ieee (rnd : ℝ → Flt) : Prop where
  zero : rnd 0 = .fin 0
  over : ∀ x : ℝ, (2 : ℝ) ^ 1024 ≤ |x| → rnd x = .inf (decide (x < 0))
  near : ∀ x : ℝ, 1 / (2 : ℝ) ^ 1022 ≤ |x| → |x| ≤ (2 : ℝ) ^ 1023 →
    ∃ y, rnd x = .fin y ∧ |y - x| ≤ 1 / (2 : ℝ) ^ 53 * |x|

/-- What is used of `scipy.special.factorial(n)` (`exact=False`, so the gamma function): it is accurate up to `170!`, the
largest factorial below `2 ^ 1024`, and infinite from then on. -/
structure Factorials (fact : ℕ → Flt) : Prop where
  near : ∀ n ≤ 170, ∃ y : ℝ, fact n = .fin y ∧ |y - n.factorial| ≤ 1 / (2 : ℝ) ^ 40 * n.factorial
  over : ∀ n, 171 ≤ n → fact n = .inf false

variable (rnd : ℝ → Flt)

/-- The product of two floats. -/
noncomputable def mul : Flt → Flt → Flt
  | .fin x, .fin y => rnd (x * y)
  | .fin x, .inf s => if x = 0 then .nan else .inf (xor (decide (x < 0)) s)
  | .inf s, .fin y => if y = 0 then .nan else .inf (xor s (decide (y < 0)))
  | .inf s, .inf t => .inf (xor s t)
  | .nan, _ => .nan
  | _, .nan => .nan

/-- The sum of two floats. -/
noncomputable def add : Flt → Flt → Flt
  | .fin x, .fin y => rnd (x + y)
  | .fin _, .inf s => .inf s
  | .inf s, .fin _ => .inf s
  | .inf s, .inf t => if s = t then .inf s else .nan
  | .nan, _ => .nan
  | _, .nan => .nan

/-- The quotient of two floats (division by zero gives an infinity or NaN, as for the scalars of numpy). -/
noncomputable def div : Flt → Flt → Flt
  | .fin x, .fin y => if y = 0 then (if x = 0 then .nan else .inf (decide (x < 0))) else rnd (x / y)
  | .fin _, .inf _ => .fin 0
  | .inf s, .fin y => .inf (xor s (decide (y < 0)))
  | .inf _, .inf _ => .nan
  | .nan, _ => .nan
  | _, .nan => .nan

/-- `np.sqrt`. -/
noncomputable def sqrt : Flt → Flt
  | .fin x => if x < 0 then .nan else rnd (Real.sqrt x)
  | .inf s => if s then .nan else .inf false
  | .nan => .nan

/-- The conversion of the integer `2 ** n` to a float before a multiplication; `none` is `OverflowError` ("int too large
to convert to float"). -/
noncomputable def pow2 (n : ℕ) : Option Flt := if n < 1024 then some (rnd (2 ^ n)) else none

/-- `ODHO.normalization(n)` (`one_dim_qd.py` 142-147); `c` is the float `(self.omega / np.pi) ** 0.25`. -/
noncomputable def normalization (fact : ℕ → Flt) (c : Flt) (n : ℕ) : Option Flt := do
  let two ← pow2 rnd n
  pure (mul rnd (div rnd (.fin 1) (sqrt rnd (mul rnd two (fact n)))) c)

/-- `ODHO.ho_function(x, n)` (`one_dim_qd.py` 135-140) at one point; `e` is the float
`np.exp(-0.5 * self.omega * x ** 2)` and `k` the float `spec.hermite(n)(np.sqrt(self.omega) * x)`. -/
noncomputable def hoFunction (fact : ℕ → Flt) (c : Flt) (n : ℕ) (e k : Flt) : Option Flt := do
  let N ← normalization rnd fact c n
  pure (mul rnd (mul rnd N e) k)

/-- The element of `ODHO.construct_dipole_moment` between the functions `n` and `n + 1` (`one_dim_qd.py` 153-163); `p` is
the float `np.sqrt(np.pi)`. -/
noncomputable def dipole (fact : ℕ → Flt) (c p : Flt) (omega : ℝ) (n : ℕ) : Option Flt := do
  let Nn ← normalization rnd fact c n
  let Nup ← normalization rnd fact c (n + 1)
  let two ← pow2 rnd n
  pure (div rnd
    (mul rnd (mul rnd (mul rnd (mul rnd (mul rnd Nn Nup) (rnd (n + 1))) p) two) (fact n)) (.fin omega))

/-- `_trapz(f, x)` (`one_dim_qd.py` 20-29) of real numbers at `num` points with spacing `dx`. -/
noncomputable def trapz (num : ℕ) (f : ℕ → Flt) (dx : Flt) : Flt :=
  let val := (List.range' 1 (num - 1)).foldl (fun val i => add rnd val (add rnd (f (i - 1)) (f i))) (.fin 0)
  mul rnd (mul rnd (.fin (1 / 2)) val) dx

/-- One entry of `_compute_inner_integral` (`one_dim_qd.py` 37-51) for real functions; `v i j` is the float
`_shielded_coulomb(grid[i], grid[j])`. -/
noncomputable def inner (num : ℕ) (fq fs : ℕ → Flt) (v : ℕ → ℕ → Flt) (dx : Flt) (i : ℕ) : Flt :=
  trapz rnd num (fun j => mul rnd (mul rnd (fq j) (v i j)) (fs j)) dx

/-- One entry of `_compute_orbital_integrals` (`one_dim_qd.py` 54-66) for real functions.  The inner integrals are
complex numbers in the code; the products with their imaginary parts, which are zero, are left out. -/
noncomputable def orbital (num : ℕ) (fp fq fr fs : ℕ → Flt) (v : ℕ → ℕ → Flt) (dx : Flt) : Flt :=
  trapz rnd num (fun i => mul rnd (mul rnd (fp i) (inner rnd num fq fs v dx i)) (fr i)) dx

/-- `spf_norm(n, m, mass, omega)` (`two_dim_helper.py` 25-33) for `abs(m) = m`; `a` is the float
`bohr_radius(mass, omega)` and `p` the float `np.pi`. -/
noncomputable def spfNorm (fact : ℕ → Flt) (a p : Flt) (n m : ℕ) : Flt :=
  mul rnd a (sqrt rnd (div rnd (fact n) (mul rnd p (fact (n + m)))))

end QS.Overflow
