import Mathlib.Data.Rat.Floor
import Mathlib.Data.Nat.Bitwise
import Mathlib.Tactic.Linarith
import Mathlib.Tactic.Ring

/-!
# Model of the orbital indices: `quantum_dots/two_dim/two_dim_helper.py` 113-173 and
`system_helper.py` 4-11

Python integers are `ℤ` (for arguments of `m`) or `ℕ` (for values that never get negative).
Simplification: no 64-bit overflow of numba integers.
-/

namespace QS.Idx

/-- `previous_shell` as the loop in `get_index_p` computes it (`two_dim_helper.py` 117-119):
`for i in range(1, num_shells): previous_shell += i`. -/
def previousShell (numShells : ℤ) : ℤ :=
  (List.range (numShells - 1).toNat).foldl (fun (prev : ℤ) (i : ℕ) => prev + ((i : ℤ) + 1)) 0

/-- `get_index_p(n, m)` (`two_dim_helper.py` 113-135). -/
def getIndexP (n m : ℤ) : ℤ :=
  let numShells := 2 * n + |m| + 1
  let previous := previousShell numShells
  let current := previous + numShells
  if m = 0 then
    if n = 0 then 0 else previous + (current - previous) / 2
  else if m < 0 then previous + n
  else current - (n + 1)

/-- The local variables of the `while` loop of `get_indices_nm` (`two_dim_helper.py` 141-143). -/
structure ShellLoop where
  previous : ℕ
  current : ℕ
  counter : ℕ
deriving DecidableEq, Repr

/-- The initial values (`two_dim_helper.py` 141-143). -/
def ShellLoop.start : ShellLoop := ⟨0, 1, 1⟩

/-- The loop condition `current_shell <= p` (`two_dim_helper.py` 145). -/
def ShellLoop.guard (p : ℕ) (s : ShellLoop) : Prop := s.current ≤ p

instance (p : ℕ) (s : ShellLoop) : Decidable (s.guard p) := inferInstanceAs (Decidable (_ ≤ _))

/-- The loop body (`two_dim_helper.py` 146-148). -/
def ShellLoop.body (s : ShellLoop) : ShellLoop :=
  let counter := s.counter + 1
  let previous := s.current
  ⟨previous, previous + counter, counter⟩

/-- The `while` loop (`two_dim_helper.py` 145-148), run for at most `fuel` rounds; `none` if the
loop has not stopped by then. -/
def ShellLoop.run (p : ℕ) : ℕ → ShellLoop → Option ShellLoop
  | 0, _ => none
  | fuel + 1, s => if s.guard p then run p fuel s.body else some s

/-- The code after the loop of `get_indices_nm` (`two_dim_helper.py` 150-168).  `middle` is a float in
the code and a rational number here. -/
def afterLoop (p : ℕ) (s : ShellLoop) : ℤ × ℤ :=
  let middle : ℚ := ((s.current : ℚ) - s.previous) / 2 + s.previous
  if (s.current - s.previous) % 2 = 1 ∧ |(p : ℚ) - ⌊middle⌋| < 1 / 10 ^ 8 then
    ((s.counter : ℤ) / 2, 0)
  else if (p : ℚ) < middle then
    let n : ℤ := (p : ℤ) - s.previous
    (n, -(((s.counter : ℤ) - 1) - 2 * n))
  else
    let n : ℤ := ((s.current : ℤ) - 1) - p
    (n, ((s.counter : ℤ) - 1) - 2 * n)

/-- `get_indices_nm(p)` (`two_dim_helper.py` 138-168) allowed `fuel` tests of the loop condition; `none`
if it is still running then. -/
def getIndicesNm? (fuel p : ℕ) : Option (ℤ × ℤ) :=
  (ShellLoop.run p fuel .start).map (afterLoop p)

/-- `get_indices_nm(p)` (`two_dim_helper.py` 138-168).  Termination of the loop (`C42_terminates`) shows
that `p + 1` tests of the loop condition are enough; the `(0, 0)` is never used. -/
def getIndicesNm (p : ℕ) : ℤ × ℤ :=
  (getIndicesNm? (p + 1) p).getD (0, 0)

/-- `get_shell_energy(n, m)` (`two_dim_helper.py` 171-173). -/
def getShellEnergy (n m : ℤ) : ℤ := 2 * n + |m| + 1

/-- `delta(p, q)` (`system_helper.py` 4-6). -/
def delta (p q : ℕ) : Bool := p == q

/-- `spin_delta(p, q)` (`system_helper.py` 9-11). -/
def spinDelta (p q : ℕ) : ℕ := ((p &&& 1) ^^^ (q &&& 1)) ^^^ 1

end QS.Idx
