import Verif.Model.TwoDim

/-!
# Model of the smooth double well (`two_dim_helper.py` 345-380, `two_dim_ho.py` 194-207)
-/

namespace QS.TwoDim

open Idx

/-- `get_smooth_double_well_one_body_elements(num_orbitals, omega, mass, a, b, dtype)`
(`two_dim_helper.py` 345-380). -/
noncomputable def getSmoothDoubleWellOneBodyElements (num : ℕ) (omega mass a b : ℝ) (dtype : DType) :
    Except PyErr (NDArray ℂ) :=
  let prefactor := omega ^ 2 / 4
  (List.range num).foldlM (fun h p => do
      let np := (getIndicesNm p).1
      let mp := (getIndicesNm p).2
      let rp := spfRadial np mp mass omega
      let h ← NDArray.modifyItem h [p, p] (fun x => x +
        ((omega * getShellEnergy np mp + omega ^ 2 * a ^ 2 / 64 : ℝ) : ℂ))
      (List.range num).foldlM (fun h q => do
        let nq := (getIndicesNm q).1
        let mq := (getIndicesNm q).2
        let rq := spfRadial nq mq mass omega
        let h ← NDArray.modifyItem h [p, q] (fun x => x +
          ((prefactor * (1 / a ^ 2) * spfNorm np mp mass omega * spfNorm nq mq mass omega
            * radialIntegral rp rq 4 * smoothTheta1 mp mq : ℝ) : ℂ))
        NDArray.modifyItem h [p, q] (fun x => x -
          ((prefactor * (5 * b / 2) * spfNorm np mp mass omega * spfNorm nq mq mass omega
            * radialIntegral rp rq 2 * smoothTheta2 mp mq : ℝ) : ℂ))) h)
    (NDArray.zeros dtype [num, num])

/-- Python's lookup of a name in a function body: local variables, then the globals of the module, then
the builtins; `NameError` if none has it. -/
def lookupName (locals globals builtins : List String) (x : String) : Except PyErr Unit :=
  if x ∈ locals ∨ x ∈ globals ∨ x ∈ builtins then .ok () else .error .name

/-- The names bound in `TwoDimSmoothDoubleWell.__init__` when its first assignment is evaluated
(`two_dim_ho.py` 195-202): the parameters, the class cell that `super()` adds.  Arguments that the caller names
`l` end up inside the dictionary `kwargs`, positional ones inside the tuple `args`. -/
def smoothInitLocals : List String := ["self", "args", "a", "b", "l_ho_factor", "kwargs", "__class__"]

/-- The global names of the module `two_dim_ho.py` (lines 1-20 and its four classes) and the names every
module has. -/
def twoDimHoGlobals : List String :=
  ["np", "math", "BasisSet", "get_coulomb_elements", "get_one_body_elements",
   "get_double_well_one_body_elements", "get_smooth_double_well_one_body_elements", "get_indices_nm",
   "spf_state", "spf_norm", "spf_radial_function", "radial_integral", "theta_1_integral",
   "theta_2_integral", "construct_dataframe", "get_one_body_elements_B", "get_coulomb_elements_B",
   "TwoDimensionalHarmonicOscillator", "TwoDimensionalDoubleWell", "TwoDimSmoothDoubleWell",
   "TwoDimHarmonicOscB", "__name__", "__doc__", "__package__", "__loader__", "__spec__", "__file__",
   "__cached__", "__builtins__"]

/-- The functions and constants of Python's module `builtins` (the exception classes, whose names are
capitalised, are left out). -/
def pythonBuiltins : List String :=
  ["abs", "aiter", "all", "anext", "any", "ascii", "bin", "bool", "breakpoint", "bytearray", "bytes",
   "callable", "chr", "classmethod", "compile", "complex", "copyright", "credits", "delattr", "dict", "dir",
   "divmod", "enumerate", "eval", "exec", "exit", "filter", "float", "format", "frozenset", "getattr",
   "globals", "hasattr", "hash", "help", "hex", "id", "input", "int", "isinstance", "issubclass", "iter",
   "len", "license", "list", "locals", "map", "max", "memoryview", "min", "next", "object", "oct", "open",
   "ord", "pow", "print", "property", "quit", "range", "repr", "reversed", "round", "set", "setattr",
   "slice", "sorted", "staticmethod", "str", "sum", "super", "tuple", "type", "vars", "zip", "None", "True",
   "False", "Ellipsis", "NotImplemented", "__debug__", "__import__", "__build_class__"]

/-- `TwoDimSmoothDoubleWell(*args, a, b, l_ho_factor, **kwargs)` (`two_dim_ho.py` 195-207) up to the first use of
a name, `l` in line 202; `rest` is whatever the lines after it do. -/
noncomputable def smoothDoubleWell {α : Type} (lHoFactor : ℝ) (rest : Except PyErr α) : Except PyErr α := do
  if 1 ≤ lHoFactor then pure () else throw .assertion
  lookupName smoothInitLocals twoDimHoGlobals pythonBuiltins "math"
  lookupName smoothInitLocals twoDimHoGlobals pythonBuiltins "l"
  rest

end QS.TwoDim
