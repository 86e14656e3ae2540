import Verif.Model.Coulomb

/-!
# Model of the Coulomb cache (`two_dim_helper.py` 187-249)

`get_coulomb_elements` is written as a program whose steps act on the environment and the file system, so
that it can be interrupted between any two steps and interleaved with the steps of other processes.

A file is a list of cells: the header of the `.npy` format, and one cell per number.  `np.save` opens the
file with mode `"wb"` (which empties it) and then writes the cells one after the other at its own file
offset; a write beyond the end of the file leaves a hole that reads as zeros, as POSIX says.  The number of
cells that reach the disk together is up to the buffers of Python and the operating system; writing them one by one
covers all cases.  `time.time` and the prints of `verbose` are left out.
-/

namespace QS.Cache

/-- A piece of a file. -/
inductive Cell
  | hole
  | header (dtype : DType) (shape : List ℕ)
  | value (z : ℂ)

/-- Position in C order of a multi-index. -/
def ravel : List ℕ → List ℕ → ℕ
  | _ :: sh, i :: is => i * sh.prod + ravel sh is
  | _, _ => 0

/-- The multi-index at a position in C order. -/
def unravel : List ℕ → ℕ → List ℕ
  | [], _ => []
  | _ :: sh, k => (k / sh.prod) :: unravel sh (k % sh.prod)

/-- What `np.save` writes. -/
def encode (a : NDArray ℂ) : List Cell :=
  .header a.dtype a.shape :: (List.range a.shape.prod).map fun k => .value (a.get (unravel a.shape k))

/-- The number `np.load` reads from a cell; a header where a number should be is not read. -/
def Cell.number : Cell → Except PyErr ℂ
  | .hole => .ok 0
  | .value z => .ok z
  | .header _ _ => .error .value

/-- `np.load`: `EOFError` for an empty file, `ValueError` for a file without header (it is taken for pickled
data) and for one with too few numbers; numbers after the last needed one are not read. -/
noncomputable def decode : List Cell → Except PyErr (NDArray ℂ)
  | [] => .error .eof
  | .header dt sh :: data =>
    if data.length < sh.prod then .error .value
    else do
      let zs ← (data.take sh.prod).mapM Cell.number
      .ok (NDArray.ofFn dt sh fun i => zs.getD (ravel sh i) 0)
  | _ => .error .value

/-- A path. -/
abbrev Path := List Char

/-- The environment and the file system.  `opened` counts how often a file was opened for writing; no program
reads it. -/
structure Disk where
  env : Bool
  sysPath0 : Path
  files : Path → Option (List Cell)
  opened : Path → ℕ

/-- Programs that read the environment and use files. -/
inductive Prog (α : Type)
  | done (r : Except PyErr α)
  | getenv (k : Bool → Prog α)
  | sysPath (k : Path → Prog α)
  | pathExists (f : Path) (k : Bool → Prog α)
  | readFile (f : Path) (k : Option (List Cell) → Prog α)
  | create (f : Path) (k : Prog α)
  | write (f : Path) (offset : ℕ) (c : Cell) (k : Prog α)

/-- Writing one cell at an offset. -/
def writeAt (offset : ℕ) (c : Cell) (L : List Cell) : List Cell :=
  if offset < L.length then L.set offset c else L ++ List.replicate (offset - L.length) .hole ++ [c]

/-- Opening a file for writing. -/
def createFile (w : Disk) (f : Path) : Disk :=
  { w with files := Function.update w.files f (some [])
           opened := Function.update w.opened f (w.opened f + 1) }

/-- Writing one cell to a file. -/
def writeFile (w : Disk) (f : Path) (offset : ℕ) (c : Cell) : Disk :=
  { w with files := Function.update w.files f ((w.files f).map (writeAt offset c)) }

/-- One step of a program. -/
def step {α : Type} : Prog α × Disk → Prog α × Disk
  | (.done r, w) => (.done r, w)
  | (.getenv k, w) => (k w.env, w)
  | (.sysPath k, w) => (k w.sysPath0, w)
  | (.pathExists f k, w) => (k (w.files f).isSome, w)
  | (.readFile f k, w) => (k (w.files f), w)
  | (.create f k, w) => (k, createFile w f)
  | (.write f o c k, w) => (k, writeFile w f o c)

/-- The first `n` steps of a program. -/
def steps {α : Type} : ℕ → Prog α × Disk → Prog α × Disk
  | 0, s => s
  | n + 1, s => steps n (step s)

/-- A program run to its end. -/
def exec {α : Type} : Prog α → Disk → Except PyErr α × Disk
  | .done r, w => (r, w)
  | .getenv k, w => exec (k w.env) w
  | .sysPath k, w => exec (k w.sysPath0) w
  | .pathExists f k, w => exec (k (w.files f).isSome) w
  | .readFile f k, w => exec (k (w.files f)) w
  | .create f k, w => exec k (createFile w f)
  | .write f o c k, w => exec k (writeFile w f o c)

/-- Writing cells one after the other, starting at an offset. -/
def writes {α : Type} (f : Path) : ℕ → List Cell → Prog α → Prog α
  | _, [], k => k
  | o, c :: cs, k => .write f o c (writes f (o + 1) cs k)

/-- `np.save(f, a)`. -/
def save {α : Type} (f : Path) (a : NDArray ℂ) (k : Prog α) : Prog α := .create f (writes f 0 (encode a) k)

/-- `np.load(f)`. -/
noncomputable def load (f : Path) : Prog (NDArray ℂ) := .readFile f fun
  | none => .done (.error .os)
  | some cells => .done (decode cells)

/-- `f"tdho_coulomb_num_orbitals={num_orbitals}.npy"` (`two_dim_helper.py` 219). -/
def fileName (num : ℕ) : Path := "tdho_coulomb_num_orbitals=".toList ++ Nat.toDigits 10 num ++ ".npy".toList

/-- `os.path.join(a, b)` on POSIX, for a relative `b`. -/
def join (a b : Path) : Path := if a = [] ∨ a.getLast? = some '/' then a ++ b else a ++ '/' :: b

/-- `get_coulomb_elements(num_orbitals)` (`two_dim_helper.py` 207-249). -/
noncomputable def getCoulombElements (num : ℕ) : Prog (NDArray ℂ) :=
  .getenv fun set =>
    if set = false then .done (Coulomb.getCoulombElementsRaw num)
    else .sysPath fun storage =>
      let f := join storage (fileName num)
      .pathExists f fun ex =>
        if ex then load f
        else
          match Coulomb.getCoulombElementsRaw num with
          | .error e => .done (.error e)
          | .ok u => save f u (.done (.ok u))

/-- What can happen to a process and its disk: the environment variable is set or removed, `sys.path[0]` is changed, a
file is removed, `get_coulomb_elements` is called, or called and interrupted after some number of steps. -/
inductive Event
  | setEnv (b : Bool)
  | setPath (p : Path)
  | remove (f : Path)
  | call (num : ℕ)
  | interrupted (num : ℕ) (after : ℕ)

/-- The disk after an event. -/
noncomputable def Event.apply (w : Disk) : Event → Disk
  | .setEnv b => { w with env := b }
  | .setPath p => { w with sysPath0 := p }
  | .remove f => { w with files := Function.update w.files f none }
  | .call num => (exec (getCoulombElements num) w).2
  | .interrupted num after => (steps after (getCoulombElements num, w)).2

/-- The disk after a history. -/
noncomputable def history (w : Disk) (es : List Event) : Disk := es.foldl Event.apply w

/-- Several processes and the disk they share: the process at position `i` of the schedule makes its next
step. -/
noncomputable def schedule {α : Type} : List ℕ → List (Prog α) × Disk → List (Prog α) × Disk
  | [], s => s
  | i :: is, (ps, w) =>
    match ps[i]? with
    | none => schedule is (ps, w)
    | some p => schedule is (ps.set i (step (p, w)).1, (step (p, w)).2)

end QS.Cache
