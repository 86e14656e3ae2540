import Verif.Model.Indices

/-!
# The orbital indices in machine arithmetic

`Model/Indices` uses unbounded integers and rational numbers.  Numba compiles `get_index_p` and `get_indices_nm`
(`quantum_systems/quantum_dots/two_dim/two_dim_helper.py` 113-168) to 64-bit integers that wrap around and to
binary64 floating-point numbers.  Here every integer operation is followed by `w64` and every floating-point operation
by a rounding function `rd`.
-/

namespace QS.Idx

/-- A 64-bit integer: the result of an operation modulo `2^64`, between `-2^63` and `2^63 - 1`. -/
def w64 (x : ℤ) : ℤ := Int.bmod x (2 ^ 64)

/-- The finite binary64 numbers. -/
def Representable (x : ℚ) : Prop := ∃ m e : ℤ, |m| ≤ 2 ^ 53 ∧ -1074 ≤ e ∧ e ≤ 900 ∧ x = m * (2 : ℚ) ^ e

/-- A rounding function: it is monotone and does not change representable numbers (all rounding modes of IEEE 754 are
of this kind). -/
structure CorrectRounding (rd : ℚ → ℚ) : Prop where
  exact : ∀ x, Representable x → rd x = x
  mono : Monotone rd

/-- The local variables of the `while` loop of `get_indices_nm` (`two_dim_helper.py` 141-143). -/
structure MachineLoop where
  previous : ℤ
  current : ℤ
  counter : ℤ

/-- The loop body (`two_dim_helper.py` 146-148). -/
def MachineLoop.body (s : MachineLoop) : MachineLoop :=
  let counter := w64 (s.counter + 1)
  let previous := s.current
  ⟨previous, w64 (previous + counter), counter⟩

/-- The `while` loop (`two_dim_helper.py` 145-148), run for at most `fuel` tests of the condition. -/
def MachineLoop.run (p : ℤ) : ℕ → MachineLoop → Option MachineLoop
  | 0, _ => none
  | fuel + 1, s => if s.current ≤ p then run p fuel s.body else some s

/-- The code after the loop (`two_dim_helper.py` 150-168): `/` converts both integers to floats, `math.floor` gives an
integer, comparisons of integers with floats convert the integers. -/
def machineAfter (rd : ℚ → ℚ) (p : ℤ) (s : MachineLoop) : ℤ × ℤ :=
  let diff := w64 (s.current - s.previous)
  let middle : ℚ := rd (rd (rd diff / rd 2) + rd s.previous)
  if diff % 2 = 1 ∧ rd (w64 |w64 (p - w64 ⌊middle⌋)| : ℤ) < rd (1 / 10 ^ 8) then (s.counter / 2, 0)
  else if rd p < middle then
    let n := w64 (p - s.previous)
    (n, w64 (-w64 (w64 (s.counter - 1) - w64 (2 * n))))
  else
    let n := w64 (w64 (s.current - 1) - p)
    (n, w64 (w64 (s.counter - 1) - w64 (2 * n)))

/-- `get_indices_nm(p)` in machine arithmetic (`two_dim_helper.py` 138-168). -/
def machineIndicesNm (rd : ℚ → ℚ) (fuel : ℕ) (p : ℤ) : Option (ℤ × ℤ) :=
  (MachineLoop.run p fuel ⟨0, 1, 1⟩).map (machineAfter rd p)

/-- `get_index_p(n, m)` in machine arithmetic (`two_dim_helper.py` 113-135). -/
def machineIndexP (n m : ℤ) : ℤ :=
  let numShells := w64 (w64 (w64 (2 * n) + w64 |m|) + 1)
  let previous := (List.range (numShells - 1).toNat).foldl (fun (prev : ℤ) (i : ℕ) => w64 (prev + w64 ((i : ℤ) + 1))) 0
  let current := w64 (previous + numShells)
  if m = 0 then
    if n = 0 then 0 else w64 (previous + w64 (current - previous) / 2)
  else if m < 0 then w64 (previous + n)
  else w64 (current - w64 (n + 1))

end QS.Idx
