import Verif.Core.Scalar
import Mathlib.Algebra.BigOperators.Group.Finset.Basic
import Mathlib.Algebra.BigOperators.Ring.Finset
import Mathlib.Algebra.Star.BigOperators

/-!
# NumPy arrays

`NDArray K` models a `numpy.ndarray` holding exact scalars: a dtype tag, a shape and the
entries.  The primitives below are the NumPy operations the repository calls, with the
error raised on incompatible shapes.  They follow NumPy's documented semantics; they are
part of the trusted reading (see DESIGN.md).
-/

namespace QS

open Finset

/-- Python exceptions that the modelled code can raise. -/
inductive PyErr
  | assertion      -- AssertionError
  | type           -- TypeError (also numpy.core._exceptions.UFuncTypeError)
  | value          -- ValueError
  | attribute      -- AttributeError
  | index          -- IndexError
  | name           -- NameError
  | key            -- KeyError
  | eof            -- EOFError
  | os             -- OSError (FileNotFoundError)
  | notImplemented -- NotImplementedError
deriving DecidableEq, Repr

/-- The dtypes that occur: `int64`, `float64`, `complex128`. -/
inductive DType
  | int64 | float64 | complex128
deriving DecidableEq, Repr

namespace DType

/-- Position in NumPy's promotion order. -/
def rank : DType → ℕ
  | int64 => 0 | float64 => 1 | complex128 => 2

/-- `numpy.result_type` of two dtypes. -/
def promote (a b : DType) : DType := if a.rank ≤ b.rank then b else a

end DType

/-- `i` is a valid (non-negative) multi-index for `shape`. -/
def InRange : List ℕ → List ℕ → Prop
  | [], [] => True
  | n :: ns, i :: is => i < n ∧ InRange ns is
  | _, _ => False

instance InRange.dec : (sh i : List ℕ) → Decidable (InRange sh i)
  | [], [] => isTrue trivial
  | n :: ns, i :: is =>
    have := InRange.dec ns is
    inferInstanceAs (Decidable (i < n ∧ InRange ns is))
  | [], _ :: _ => isFalse (fun h => h)
  | _ :: _, [] => isFalse (fun h => h)

/-- A `numpy.ndarray`.  Entries outside the shape are 0 by convention, so that equality of
`NDArray`s is equality of dtype, shape and all entries. -/
structure NDArray (K : Type) [Zero K] where
  dtype : DType
  shape : List ℕ
  get : List ℕ → K
  supp : ∀ i, ¬ InRange shape i → get i = 0

namespace NDArray

variable {K : Type}

section zero
variable [Zero K]

/-- Array with given dtype, shape and entries. -/
def ofFn (dt : DType) (sh : List ℕ) (f : List ℕ → K) : NDArray K :=
  ⟨dt, sh, fun i => if InRange sh i then f i else 0, fun _ h => if_neg h⟩

/-- `arr.ndim` -/
def ndim (a : NDArray K) : ℕ := a.shape.length

/-- `np.zeros(shape, dtype)` -/
def zeros (dt : DType) (sh : List ℕ) : NDArray K := ofFn dt sh (fun _ => 0)

/-- `np.zeros_like(a)` -/
def zerosLike (a : NDArray K) : NDArray K := zeros a.dtype a.shape

/-- `a.fill(0)`: same dtype and shape, all entries 0. -/
def fillZero (a : NDArray K) : NDArray K := zeros a.dtype a.shape

/-- `a.astype(np.complex128)`; the value of every entry is kept. -/
def toComplex (a : NDArray K) : NDArray K := { a with dtype := .complex128 }

/-- `a.transpose(perm)`: axis `k` of the result is axis `perm[k]` of `a`, i.e.
`result[i] = a[j]` with `j[perm[k]] = i[k]`.  `ValueError` if `perm` is not a permutation
of the axes. -/
def transpose (perm : List ℕ) (a : NDArray K) : Except PyErr (NDArray K) :=
  if perm.length = a.ndim ∧ ∀ t ∈ List.range a.ndim, t ∈ perm then
    .ok (ofFn a.dtype (perm.map (fun t => a.shape.getD t 0))
      (fun i => a.get ((List.range a.ndim).map (fun t => i.getD (perm.idxOf t) 0))))
  else .error .value

/-- `a.T`: all axes reversed. -/
def T (a : NDArray K) : NDArray K :=
  ofFn a.dtype a.shape.reverse (fun i => a.get i.reverse)

/-- Basic slicing `a[s₀, s₁, …]` with one `start:stop` slice per axis (`none` is `:`);
out-of-range bounds are clipped as in Python.  Too many slices: `IndexError`;
missing trailing slices mean `:`. -/
def slice (ss : List (Option (ℕ × ℕ))) (a : NDArray K) : Except PyErr (NDArray K) :=
  if ss.length ≤ a.ndim then
    let full := ss ++ List.replicate (a.ndim - ss.length) none
    let bounds := List.zipWith (fun s d => match s with
      | none => (0, d)
      | some (b, e) => (min b d, min e d)) full a.shape
    .ok (ofFn a.dtype (bounds.map (fun be => be.2 - be.1))
      (fun i => a.get (List.zipWith (fun be k => be.1 + k) bounds i)))
  else .error .index

/-- `a[i]` for an integer `i ≥ 0`: sub-array along the first axis.  `IndexError` if out of
range or 0-dimensional. -/
def item (i : ℕ) (a : NDArray K) : Except PyErr (NDArray K) :=
  match a.shape with
  | [] => .error .index
  | d :: sh => if i < d then .ok (ofFn a.dtype sh (fun j => a.get (i :: j))) else .error .index

/-- `len(a)`; `TypeError` for a 0-d array. -/
def len (a : NDArray K) : Except PyErr ℕ :=
  match a.shape with
  | [] => .error .type
  | d :: _ => .ok d

/-- `a.shape[k]`; `IndexError` if there is no such axis. -/
def shapeAt (k : ℕ) (a : NDArray K) : Except PyErr ℕ :=
  match a.shape[k]? with
  | none => .error .index
  | some d => .ok d

end zero

/-- Promotion dtype of a list of arrays (`np.array(list)`). -/
def promoteAll [Zero K] : List (NDArray K) → DType
  | [] => .float64
  | [a] => a.dtype
  | a :: as => a.dtype.promote (promoteAll as)

/-- `np.array([a₀, a₁, …])` / `np.asarray([...])` of equally shaped arrays: stack along a
new first axis.  An empty list gives an array of shape `(0,)`.  `ValueError` for differing
shapes (ragged input). -/
def stack [Zero K] (as : List (NDArray K)) : Except PyErr (NDArray K) :=
  match as with
  | [] => .ok (zeros .float64 [0])
  | a :: _ =>
    if ∀ b ∈ as, b.shape = a.shape then
      .ok (ofFn (promoteAll as) (as.length :: a.shape) (fun i => match i with
        | [] => 0
        | k :: j => match as[k]? with
          | none => 0
          | some b => b.get j))
    else .error .value

section ops
variable [PyScalar K]

/-- `a.conj()` -/
def conj (a : NDArray K) : NDArray K := ofFn a.dtype a.shape (fun i => star (a.get i))

/-- `np.eye(n)` (dtype float64) -/
def eye (n : ℕ) : NDArray K :=
  ofFn .float64 [n, n] (fun i => match i with
    | [p, q] => if p = q then 1 else 0
    | _ => 0)

/-- `np.ones((m, n))` (dtype float64) -/
def ones (sh : List ℕ) : NDArray K := ofFn .float64 sh (fun _ => 1)

/-- `np.tensordot(a, b, axes=(i, j))` with one axis of each array.  `ValueError` ("shape-mismatch
for sum") if the axes have different lengths, `IndexError` if an axis does not exist. -/
def tensordot (a b : NDArray K) (i j : ℕ) : Except PyErr (NDArray K) :=
  match a.shape[i]?, b.shape[j]? with
  | some n, some m =>
    if n = m then
      .ok (ofFn (a.dtype.promote b.dtype) (a.shape.eraseIdx i ++ b.shape.eraseIdx j)
        (fun idx => ∑ t ∈ range n,
          a.get ((idx.take (a.ndim - 1)).insertIdx i t) *
          b.get ((idx.drop (a.ndim - 1)).insertIdx j t)))
    else .error .value
  | _, _ => .error .index

/-- Broadcast shape (NumPy rule) on reversed shapes. -/
def bcRev : List ℕ → List ℕ → Option (List ℕ)
  | [], ys => some ys
  | x :: xs, [] => some (x :: xs)
  | x :: xs, y :: ys =>
    if x = y then (bcRev xs ys).map (x :: ·)
    else if x = 1 then (bcRev xs ys).map (y :: ·)
    else if y = 1 then (bcRev xs ys).map (x :: ·)
    else none

/-- Broadcast shape of two shapes, `none` if they are incompatible. -/
def bcShape (s t : List ℕ) : Option (List ℕ) := (bcRev s.reverse t.reverse).map List.reverse

/-- The index into an array of shape `sh` that a broadcast index reads. -/
def bcIdx (sh idx : List ℕ) : List ℕ :=
  List.zipWith (fun d i => if d = 1 then 0 else i) sh (idx.drop (idx.length - sh.length))

/-- Element-wise binary operation with broadcasting. -/
def binop (f : K → K → K) (a b : NDArray K) : Except PyErr (NDArray K) :=
  match bcShape a.shape b.shape with
  | none => .error .value
  | some sh => .ok (ofFn (a.dtype.promote b.dtype) sh
      (fun i => f (a.get (bcIdx a.shape i)) (b.get (bcIdx b.shape i))))

/-- `a + b` -/
def add (a b : NDArray K) : Except PyErr (NDArray K) := binop (· + ·) a b
/-- `a - b` -/
def sub (a b : NDArray K) : Except PyErr (NDArray K) := binop (· - ·) a b
/-- `a * b` (element-wise) -/
def mul (a b : NDArray K) : Except PyErr (NDArray K) := binop (· * ·) a b

/-- In-place element-wise update `a op= b`: the result keeps `a`'s dtype and shape; `TypeError`
(UFuncTypeError) if the result dtype cannot be cast to `a`'s with `same_kind`,
`ValueError` if `b` does not broadcast to `a`'s shape. -/
def ibinop (f : K → K → K) (a b : NDArray K) : Except PyErr (NDArray K) :=
  if a.dtype.promote b.dtype = a.dtype then
    if bcShape a.shape b.shape = some a.shape then
      .ok (ofFn a.dtype a.shape (fun i => f (a.get i) (b.get (bcIdx b.shape i))))
    else .error .value
  else .error .type

/-- `a += b` -/
def iadd (a b : NDArray K) : Except PyErr (NDArray K) := ibinop (· + ·) a b
/-- `a -= b` -/
def isub (a b : NDArray K) : Except PyErr (NDArray K) := ibinop (· - ·) a b

/-- `c * a` for a Python scalar `c` of type class `dt` (int, float or complex literal). -/
def smul (dt : DType) (c : K) (a : NDArray K) : NDArray K :=
  ofFn (dt.promote a.dtype) a.shape (fun i => c * a.get i)

/-- `np.dot(a, b)`: sum over the last axis of `a` and the second-to-last axis of `b` (its only
axis if `b` is 1-d); element-wise product if one operand is 0-d.  `a @ b` is the same for the
2-d arrays the code uses it with. -/
def dot (a b : NDArray K) : Except PyErr (NDArray K) :=
  if a.ndim = 0 ∨ b.ndim = 0 then mul a b
  else tensordot a b (a.ndim - 1) (b.ndim - 2)

/-- `a` with leading axes of length 1 up to `nd` axes (what `np.kron` does first). -/
def padTo (nd : ℕ) (a : NDArray K) : NDArray K :=
  ofFn a.dtype (List.replicate (nd - a.ndim) 1 ++ a.shape) (fun i => a.get (i.drop (nd - a.ndim)))

/-- `np.kron(a, b)`: `kron(a,b)[k] = a[k // s] * b[k % s]` axis by axis, `s = b.shape`. -/
def kron (a b : NDArray K) : NDArray K :=
  let a' := padTo (max a.ndim b.ndim) a
  let b' := padTo (max a.ndim b.ndim) b
  ofFn (a.dtype.promote b.dtype) (List.zipWith (· * ·) a'.shape b'.shape)
    (fun k => a'.get (List.zipWith (· / ·) k b'.shape) *
      b'.get (List.zipWith (· % ·) k b'.shape))

/-- `np.einsum("pr, qs -> pqrs", a, b)` for 2-d `a`, `b`. -/
def einsum_pr_qs (a b : NDArray K) : Except PyErr (NDArray K) :=
  match a.shape, b.shape with
  | [p, r], [q, s] => .ok (ofFn (a.dtype.promote b.dtype) [p, q, r, s] (fun i => match i with
      | [p, q, r, s] => a.get [p, r] * b.get [q, s]
      | _ => 0))
  | _, _ => .error .value

/-- `np.einsum("piqi -> pq", a)` for 4-d `a`. -/
def einsum_piqi (a : NDArray K) : Except PyErr (NDArray K) :=
  match a.shape with
  | [p, i, q, i'] => if i = i' then .ok (ofFn a.dtype [p, q] (fun x => match x with
      | [p, q] => ∑ t ∈ range i, a.get [p, t, q, t]
      | _ => 0)) else .error .value
  | _ => .error .value

/-- `np.einsum("piiq -> pq", a)` for 4-d `a`. -/
def einsum_piiq (a : NDArray K) : Except PyErr (NDArray K) :=
  match a.shape with
  | [p, i, i', q] => if i = i' then .ok (ofFn a.dtype [p, q] (fun x => match x with
      | [p, q] => ∑ t ∈ range i, a.get [p, t, t, q]
      | _ => 0)) else .error .value
  | _ => .error .value

/-- `np.trace(a, axis1=i, axis2=j)` for `i < j`: sum over the diagonal of the two axes, the other
axes stay in order.  (`np.trace(a)` is `i = 0, j = 1`; for 2-d `a` the result is 0-d.)
`ValueError` if the axes do not exist. -/
def trace (i j : ℕ) (a : NDArray K) : Except PyErr (NDArray K) :=
  match a.shape[i]?, a.shape[j]? with
  | some n, some m =>
    if i < j then
      .ok (ofFn a.dtype ((a.shape.eraseIdx j).eraseIdx i)
        (fun idx => ∑ t ∈ range (min n m), a.get ((idx.insertIdx i t).insertIdx j t)))
    else .error .value
  | _, _ => .error .value

end ops

end NDArray

end QS
