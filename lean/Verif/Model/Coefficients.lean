import Verif.Py.Basic
import Mathlib.Algebra.Field.Defs

/-!
# Model of `starwinds_magnetogram/coefficients.py`

Arrays held by the container are one-dimensional (`List α`, the length is the shape); this is the only way
the package uses the class. Aliasing between arrays is not visible here; see `Verif.Model.Heap`.
-/

namespace Verif

/-- numpy dtype kinds that occur as coefficient dtypes, in promotion order (coefficients.py:13, 34). -/
inductive DType
  | bool | int | real | cplx
  deriving DecidableEq, Repr

namespace DType

/-- Position in the promotion order (coefficients.py:13, 34). -/
def rank : DType → ℕ
  | bool => 0 | int => 1 | real => 2 | cplx => 3

/-- numpy type promotion (`np.result_type`) restricted to these kinds (coefficients.py:280, 358). -/
def promote (a b : DType) : DType := if a.rank ≤ b.rank then b else a

end DType

/-- Element types of coefficient arrays, with `astype` (coefficients.py:33-34). -/
class Elem (α : Type) where
  /-- `x.astype(d)`. -/
  cast : DType → α → α
  cast_idem : ∀ d x, cast d (cast d x) = cast d x
  /-- A value of a lower dtype survives a cast to a higher one. -/
  cast_mono : ∀ d d' x, d.rank ≤ d'.rank → cast d x = x → cast d' x = x

/-- Element types whose arithmetic is closed within each numeric dtype (coefficients.py:33-34). -/
class ElemRing (α : Type) [CommRing α] extends Elem α where
  cast_zero : ∀ d, cast d 0 = 0
  cast_one : ∀ d, cast d 1 = 1
  cast_add : ∀ d x y, d ≠ .bool → cast d x = x → cast d y = y → cast d (x + y) = x + y
  cast_mul : ∀ d x y, cast d x = x → cast d y = y → cast d (x * y) = x * y
  cast_neg : ∀ d x, d ≠ .bool → cast d x = x → cast d (-x) = -x

/-- ... and closed under inversion for floating dtypes (coefficients.py:33-34). -/
class ElemField (α : Type) [Field α] extends ElemRing α where
  cast_inv : ∀ d x, (d = .real ∨ d = .cplx) → cast d x = x → cast d x⁻¹ = x⁻¹

/-- `Coefficients` objects (coefficients.py:7-18; read with `degree_max` and `order_min`, coefficients.py:58-66). `dict` is
`self.coefficients`, `dflt` is
`self._default_coefficients`, `dtype` its dtype. -/
structure Coefs (α : Type) where
  dflt : List α
  dtype : DType
  dict : List (Key × List α)
  degreeMax : ℤ
  orderMin : ℤ

/-- One-dimensional numpy broadcasting of a binary operation (coefficients.py:235, 316, 333, 343). -/
def bcast {α β γ : Type} (f : α → β → γ) (xs : List α) (ys : List β) : Res (List γ) :=
  if xs.length = ys.length then .ok (List.zipWith f xs ys)
  else match xs, ys with
    | [x], ys => .ok (ys.map (f x))
    | xs, [y] => .ok (xs.map (f · y))
    | _, _ => .error .value

namespace Coefs

variable {α : Type}

/-- `Coefficients.__init__` (coefficients.py:13-18). -/
def new (dflt : List α) (dtype : DType) : Coefs α :=
  { dflt := dflt, dtype := dtype, dict := [], degreeMax := 0, orderMin := 0 }

/-- `(degree, order) in self.coefficients`: tuple equality by `==`, so `1.0` matches `1`
(coefficients.py:27, 48). -/
def keyIn (s : Coefs α) (degree order : Idx) : Bool :=
  s.dict.any fun kv => decide ((kv.1.1 : ℚ) = degree.val) && decide ((kv.1.2 : ℚ) = order.val)

section
variable [Elem α]

/-- `Coefficients.set` (coefficients.py:31-44), statement by statement. -/
def set (degree order : Idx) (data : List α) : Meth (Coefs α) Unit := do
  let self ← get
  let data := data.map (Elem.cast self.dtype)                    -- line 34
  pyAssert (|order.val| ≤ degree.val)                            -- line 36
  pyAssert (data.length = self.dflt.length)                      -- line 37
  let degree := degree.toInt                                     -- line 39
  let order := order.toInt                                       -- line 40
  modify fun s => { s with dict := dictSet s.dict (degree, order) data }     -- line 42
  modify fun s => { s with degreeMax := max s.degreeMax degree }             -- line 43
  modify fun s => { s with orderMin := min s.orderMin order }                -- line 44

/-- `Coefficients.append` (coefficients.py:25-29). -/
def append (degree order : Idx) (data : List α) : Meth (Coefs α) Unit := do
  let self ← get
  if self.keyIn degree order then throw Err.index
  set degree order data

end

/-- `Coefficients.has` (coefficients.py:46-48). -/
def has (s : Coefs α) (degree order : Idx) : Bool := s.keyIn degree order

/-- `Coefficients.get` (coefficients.py:50-56). -/
def get (s : Coefs α) (degree order : Idx) : Res (List α) :=
  if degree.isPlainInt = true then
    if order.isPlainInt = true then
      .ok ((dictGet s.dict (degree.toInt, order.toInt)).getD s.dflt)
    else .error .assertion
  else .error .assertion

/-- `get` at a pair of python ints, which cannot raise (abbreviation used inside the package, where every
call passes python ints) (coefficients.py:50-56). -/
def getI (s : Coefs α) (k : Key) : List α := (dictGet s.dict k).getD s.dflt

/-- `Coefficients.size` (coefficients.py:68-71). -/
def size (s : Coefs α) : ℕ := s.dict.length

/-- `self.coefficients.keys()` (coefficients.py:48, 71, 86). -/
def keys (s : Coefs α) : List Key := s.dict.map Prod.fst

/-- `Coefficients.contents` (coefficients.py:85-89). -/
def contents (s : Coefs α) : List (Key × List α) :=
  (sortKeys s.keys).map fun k => (k, s.getI k)

/-- The list of requested pairs built in `as_arrays` (coefficients.py:103-120). -/
def requested (s : Coefs α) (lMin lMax mMin mMax : Option ℤ) : List Key :=
  let lMin := lMin.getD 0
  let lMax := lMax.getD s.degreeMax
  let mMin := mMin.getD (-lMax)
  let mMax := mMax.getD lMax
  (pyRange lMin (lMax + 1)).flatMap fun l =>
    (pyRange (max mMin (-l)) (min mMax l + 1)).map fun m => (l, m)

/-- `Coefficients.as_arrays` (coefficients.py:91-136): degrees, orders, data. `np.stack` of no arrays raises
ValueError (line 123). The two asserts on lines 124-125 are consequences of `np.stack` and omitted. -/
def asArrays (s : Coefs α) (includeUnset : Bool := true)
    (lMin lMax mMin mMax : Option ℤ := none) : Res (List ℤ × List ℤ × List (List α)) :=
  let full := s.requested lMin lMax mMin mMax
  if full = [] then .error .value
  else
    let ret := full.filter fun k => includeUnset || s.has (.int k.1) (.int k.2)
    .ok (ret.map Prod.fst, ret.map Prod.snd, ret.map s.getI)

section
variable [Elem α]

/-- A loop `for (degree, order), data in rows: output.append(degree, order, data)` on a local object; an
exception abandons the local object (coefficients.py:256-257, 268-269, 293-295). -/
def appendAll (init : Coefs α) : List (Idx × Idx × List α) → Res (Coefs α)
  | [] => .ok init
  | (l, m, data) :: rest =>
    match append l m data init with
    | .ok () s => appendAll s rest
    | .error e _ => .error e

/-- Row with python int indices (coefficients.py:256-257, 268-269). -/
def intRow (k : Key) (data : List α) : Idx × Idx × List α := (.int k.1, .int k.2, data)

/-- `empty_like` (coefficients.py:244-248). -/
def emptyLike (s : Coefs α) : Coefs α := new s.dflt s.dtype

/-- `zeros_like` (coefficients.py:251-258). -/
def zerosLike (s : Coefs α) : Res (Coefs α) :=
  appendAll s.emptyLike (s.contents.map fun kv => intRow kv.1 s.dflt)

/-- `copy` (coefficients.py:138, 261-270). -/
def copy (s : Coefs α) : Res (Coefs α) :=
  appendAll s.emptyLike (s.contents.map fun kv => intRow kv.1 kv.2)

/-- `truncated` (coefficients.py:159, 285-297). -/
def truncated (s : Coefs α) (degreeMax : ℤ) : Res (Coefs α) :=
  appendAll s.emptyLike ((s.contents.filter fun kv => decide (kv.1.1 ≤ degreeMax)).map
    fun kv => intRow kv.1 kv.2)

/-- `from_arrays` (coefficients.py:164-191) on 1-D index arrays and a rectangular 2-D value array with dtype
`dt` (a 1-D value array has been given its second axis, lines 181-182). `coeffs_lm[0]` of an empty array
raises IndexError. -/
def fromArrays [Zero α] [Mul α] (dt : DType) (degrees orders : List Idx) (rows : List (List α)) :
    Res (Coefs α) :=
  if degrees.length ≠ rows.length then .error .index
  else match rows with
    | [] => .error .index
    | r0 :: _ => appendAll (new (r0.map fun x => 0 * x) dt) (degrees.zip (orders.zip rows))

/-- Evaluate one broadcast operation per key of `ks` and append the result (the loop body of `add` and of the
two-object branch of `multiply`) (coefficients.py:312-317, 341-344). -/
def combineLoop (f : α → α → α) (a b : Coefs α) (acc : Coefs α) : List Key → Res (Coefs α)
  | [] => .ok acc
  | k :: ks => do
    let v ← bcast f (a.getI k) (b.getI k)
    match append (.int k.1) (.int k.2) v acc with
    | .ok () s => combineLoop f a b s ks
    | .error e _ => .error e

/-- `add` (coefficients.py:142, 300-319). `ks` is the order in which the key set of line 312 is iterated. -/
def add [Add α] (ks : List Key) (a b : Coefs α) : Res (Coefs α) :=
  if a.dflt.length = b.dflt.length then combineLoop (· + ·) a b a.emptyLike ks
  else .error .assertion

/-- `multiply` of a set with a scalar or 1-D array (coefficients.py:146-148, 329-335). A scalar `x` behaves as `[x]`. -/
def mulArray [Mul α] (s : Coefs α) (value : List α) : Res (Coefs α) :=
  let rec go (acc : Coefs α) : List (Key × List α) → Res (Coefs α)
    | [] => .ok acc
    | (k, c) :: rest => do
      let v ← bcast (· * ·) c value
      match append (.int k.1) (.int k.2) v acc with
      | .ok () t => go t rest
      | .error e _ => .error e
  go s.emptyLike s.contents

/-- `multiply` of a set with a scalar (coefficients.py:144, 157). -/
def mulScalar [Mul α] (s : Coefs α) (x : α) : Res (Coefs α) := mulArray s [x]

/-- `multiply` of two sets (coefficients.py:146-148, 337-346). -/
def mulCoefs [Mul α] (ks : List Key) (a b : Coefs α) : Res (Coefs α) :=
  if a.dflt.length = b.dflt.length then combineLoop (· * ·) a b a.emptyLike ks
  else .error .assertion

/-- `__sub__` (coefficients.py:144): `add(self, multiply(other, -1))`. -/
def sub [Add α] [Mul α] [Neg α] [One α] (ks : List Key) (a b : Coefs α) : Res (Coefs α) := do
  let nb ← mulScalar b (-1)
  add ks a nb

/-- `__pow__` (coefficients.py:150-155) with an integer exponent over a field (numpy gives inf/nan for
`0 ** -1`; exact `0⁻¹ = 0` is not used in any claim). -/
def pow [DivisionRing α] (s : Coefs α) (p : ℤ) : Res (Coefs α) :=
  appendAll s.emptyLike (s.contents.map fun kv => intRow kv.1 (kv.2.map (· ^ p)))

/-- `__truediv__` by a python number (coefficients.py:157): `0 ** -1` raises ZeroDivisionError. -/
def divScalar [DivisionRing α] [DecidableEq α] (s : Coefs α) (x : α) : Res (Coefs α) :=
  if x = 0 then .error .zeroDiv else mulScalar s x⁻¹

/-- `__truediv__` by another set (coefficients.py:157). -/
def divCoefs [DivisionRing α] (ks : List Key) (a b : Coefs α) : Res (Coefs α) := do
  let ib ← pow b (-1)
  mulCoefs ks a ib

/-- In-place `output.coefficients[k] *= factor` (coefficients.py:280); KeyError if absent. -/
def imulAt [Mul α] (s : Coefs α) (k : Key) (x : α) : Res (Coefs α) :=
  match dictGet s.dict k with
  | none => .error .key
  | some v => .ok { s with dict := dictSet s.dict k (v.map fun c => Elem.cast s.dtype (c * x)) }

/-- `scale` (coefficients.py:140, 273-282). `fdt` is the dtype of the factors; numpy refuses an in-place product
whose dtype cannot be cast back (`same_kind`). -/
def scale [DivisionRing α] (s : Coefs α) (f : ℤ → ℤ → α) (p : ℤ) (fdt : DType := .real) : Res (Coefs α) := do
  let out ← copy s
  s.keys.foldlM (fun o k =>
    if (fdt.promote s.dtype) = s.dtype then imulAt o k (f k.1 k.2 ^ p) else .error .type) out

/-- `hstack` (coefficients.py:350-370). `np.hstack([])` raises ValueError. -/
def hstack (ks : List Key) (shcs : List (Coefs α)) : Res (Coefs α) :=
  match shcs with
  | [] => .error .value
  | s0 :: rest =>
    let dt := rest.foldl (fun d s => d.promote s.dtype) s0.dtype
    let dflt := (shcs.flatMap fun s => s.dflt).map (Elem.cast dt)
    appendAll (new dflt dt) (ks.map fun k => intRow k (shcs.flatMap fun s => s.getI k))

/-- `np.hsplit(xs, n)` for an integer number of sections: ValueError unless it divides evenly (coefficients.py:388);
numpy finds that out with `len(xs) % n`, which raises ZeroDivisionError for 0. -/
def npSplit (xs : List α) (n : ℕ) : Res (List (List α)) :=
  if n = 0 then .error .zeroDiv
  else if xs.length % n = 0 then
    .ok ((List.range n).map fun i => (xs.drop (i * (xs.length / n))).take (xs.length / n))
  else .error .value

/-- One pass of the inner loop of `hsplit` (coefficients.py:390-391). -/
def hsplitRow (k : Key) : List (Coefs α) → List (List α) → Res (List (Coefs α))
  | s :: ss, v :: vs =>
    match append (.int k.1) (.int k.2) v s with
    | .ok () s' => do let r ← hsplitRow k ss vs; pure (s' :: r)
    | .error e _ => .error e
  | ss, _ => .ok ss

/-- `hsplit` (coefficients.py:161, 373-393) with `None` or an integer number of sections. -/
def hsplit (s : Coefs α) (sections : Option ℕ := none) : Res (List (Coefs α)) := do
  let n := sections.getD s.dflt.length
  let ds ← npSplit s.dflt n
  s.contents.foldlM (fun shcs kv => do
    let vs ← npSplit kv.2 n
    hsplitRow kv.1 shcs vs) (ds.map fun d => new d s.dtype)

/-- Where a slice of an array of length `n` begins or ends: negative positions count from the end, positions outside are
moved to the nearest end (numpy cuts the pieces of `hsplit` with slices, coefficients.py:388). -/
def slicePos (n : ℕ) (i : ℤ) : ℕ := if i < 0 then (i + n).toNat else min i.toNat n

/-- The slice `xs[a:b]` (coefficients.py:388). -/
def pySlice (xs : List α) (a b : ℤ) : List α := (xs.take (slicePos xs.length b)).drop (slicePos xs.length a)

/-- `np.hsplit(xs, indices)` with a list of indices: the pieces between consecutive positions of `[0, *indices, len(xs)]`
(coefficients.py:388). -/
def npSplitAt (xs : List α) (idx : List ℤ) : List (List α) :=
  List.zipWith (pySlice xs) (0 :: idx) (idx ++ [(xs.length : ℤ)])

/-- `hsplit` (coefficients.py:161, 373-393) with a list of indices. -/
def hsplitAt (s : Coefs α) (idx : List ℤ) : Res (List (Coefs α)) :=
  s.contents.foldlM (fun shcs kv => hsplitRow kv.1 shcs (npSplitAt kv.2 idx))
    ((npSplitAt s.dflt idx).map fun d => new d s.dtype)

end

/-- `isclose` (coefficients.py:228-241) with an arbitrary element comparison `close x y`
(`np.isclose(x, y, **kwargs)`). `ks` is the iteration order of the key set, `junk` the uninitialised default
created on line 238. `np.vstack` of no arrays raises ValueError. -/
def isclose [Elem Bool] (close : α → α → Bool) (ks : List Key) (junk : List Bool) (a b : Coefs α) :
    Res (Coefs Bool) :=
  if ks = [] then .error .value
  else do
    let rows ← ks.mapM fun k => do
      let v ← bcast close (a.getI k) (b.getI k)
      pure (intRow k v)
    appendAll (new junk .bool) rows

/-- `allclose` (coefficients.py:208-225). -/
def allclose [Elem Bool] (close : α → α → Bool) (ks : List Key) (junk : List Bool) (a b : Coefs α) :
    Res Bool :=
  if a.dflt.length ≠ b.dflt.length then .ok false
  else do
    let c ← isclose close ks junk a b
    pure (c.contents.all fun kv => kv.2.all id)

end Coefs

/-- Boolean arrays are only ever stored with dtype bool (coefficients.py:228-241). -/
instance : Elem Bool where
  cast _ x := x
  cast_idem _ _ := rfl
  cast_mono _ _ _ _ _ := rfl

end Verif
