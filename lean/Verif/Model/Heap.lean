import Verif.Model.Coefficients

/-!
# Storage-level model of `coefficients.py`

The same functions as in `Verif.Model.Coefficients`, but arrays are numpy arrays in a heap of buffers: a reference
is a view (buffer, offset, length). Every numpy operation that allocates, copies, returns a view or writes in
place does so here. Failing operations keep the heap they leave behind.
-/

namespace Verif
namespace Store

/-- A one-dimensional contiguous numpy array: a view into a buffer (coefficients.py:16, 33-34, 42, 388). -/
structure Ref where
  buf : ℕ
  off : ℕ
  len : ℕ
  deriving DecidableEq

/-- All buffers allocated so far (coefficients.py:16, 33-34, 42, 388). -/
abbrev Heap (α : Type) := List (List α)

/-- Computations that may raise; the heap survives the exception (coefficients.py:25-44). -/
def H (α β : Type) := Heap α → Res β × Heap α

variable {α β γ : Type}

/-- See coefficients.py:25-44. -/
def H.pure (b : β) : H α β := fun h => (.ok b, h)

/-- See coefficients.py:25-44. -/
def H.bind (m : H α β) (f : β → H α γ) : H α γ := fun h =>
  match m h with
  | (.ok b, h') => f b h'
  | (.error e, h') => (.error e, h')

/-- See coefficients.py:25-44. -/
instance : Monad (H α) where
  pure := H.pure
  bind := H.bind

/-- See coefficients.py:25-44. -/
def raise (e : Err) : H α β := fun h => (.error e, h)

/-- The elements of a view (coefficients.py:23, 34). -/
def readRef (h : Heap α) (r : Ref) : List α := ((h.getD r.buf []).drop r.off).take r.len

/-- A view lies inside an existing buffer (coefficients.py:23, 34). -/
def Ref.Valid (h : Heap α) (r : Ref) : Prop := ∃ b, h[r.buf]? = some b ∧ r.off + r.len ≤ b.length

/-- Read an array (coefficients.py:23, 34). -/
def hread (r : Ref) : H α (List α) := fun h => (.ok (readRef h r), h)

/-- Create a new array (coefficients.py:23, 34). -/
def alloc (xs : List α) : H α Ref := fun h => (.ok ⟨h.length, 0, xs.length⟩, h ++ [xs])

/-- Replace `xs.length` elements of a buffer from position `off` (coefficients.py:280). -/
def splice (b : List α) (off : ℕ) (xs : List α) : List α := b.take off ++ xs ++ b.drop (off + xs.length)

/-- In-place `array[:] = xs` (used for `*=` and for item assignment by a caller) (coefficients.py:280). -/
def hwrite (r : Ref) (xs : List α) : H α Unit := fun h =>
  (.ok (), h.set r.buf (splice (h.getD r.buf []) r.off xs))

/-- `Coefficients` object (coefficients.py:13-18): references to arrays. -/
structure HObj where
  dflt : Ref
  dtype : DType
  dict : List (Key × Ref)
  degreeMax : ℤ
  orderMin : ℤ

/-- `Coefficients(array)`: `np.atleast_1d` of an array is that array, no copy (coefficients.py:16). -/
def hnew (r : Ref) (dt : DType) : HObj := ⟨r, dt, [], 0, 0⟩

/-- `default_coefficients`: a copy (coefficients.py:20-23). -/
def hdefault (o : HObj) : H α Ref := do
  let xs ← hread o.dflt
  alloc xs

/-- `get` with int arguments: the live array, or the live default (coefficients.py:50-56). -/
def hget (o : HObj) (k : Key) : Ref := (dictGet o.dict k).getD o.dflt

/-- Membership test `(degree, order) in self.coefficients` (coefficients.py:25-29). -/
def HObj.keyIn (o : HObj) (l m : Idx) : Bool :=
  o.dict.any fun kv => decide ((kv.1.1 : ℚ) = l.val) && decide ((kv.1.2 : ℚ) = m.val)

/-- The keys in insertion order (coefficients.py:85-89, 273-282). -/
def HObj.keys (o : HObj) : List Key := o.dict.map Prod.fst

/-- `set` (coefficients.py:31-44): `astype` always copies; the new object state is returned. -/
def hset [Elem α] (o : HObj) (l m : Idx) (data : Ref) : H α HObj := do
  let _ ← hdefault o
  let xs ← hread data
  let copy ← alloc (xs.map (Elem.cast o.dtype))
  if |m.val| ≤ l.val then
    if copy.len = o.dflt.len then
      pure { o with dict := dictSet o.dict (l.toInt, m.toInt) copy, degreeMax := max o.degreeMax l.toInt,
                    orderMin := min o.orderMin m.toInt }
    else raise .assertion
  else raise .assertion

/-- `append` (coefficients.py:25-29). -/
def happend [Elem α] (o : HObj) (l m : Idx) (data : Ref) : H α HObj :=
  if o.keyIn l m = true then raise .index else hset o l m data

/-- A `for` loop that computes an array and appends it to the local object `o` (coefficients.py:256-257, 268-269,
293-295). -/
def hloop [Elem α] (o : HObj) : List (Idx × Idx × H α Ref) → H α HObj
  | [] => pure o
  | (l, m, compute) :: rest => do
    let r ← compute
    let o' ← happend o l m r
    hloop o' rest

/-- `empty_like` (coefficients.py:244-248). -/
def hemptyLike (o : HObj) : H α HObj := do
  let r ← hdefault o
  pure (hnew r o.dtype)

/-- `contents` (coefficients.py:85-89): live arrays in key order. -/
def hcontents (o : HObj) : List (Key × Ref) := (sortKeys o.keys).map fun k => (k, hget o k)

section
variable [Elem α]

/-- `zeros_like` (coefficients.py:251-258). -/
def hzerosLike (o : HObj) : H α HObj := do
  let out ← hemptyLike o
  hloop out ((hcontents o).map fun kv => (.int kv.1.1, .int kv.1.2, hdefault o))

/-- `copy` (coefficients.py:261-270). -/
def hcopy (o : HObj) : H α HObj := do
  let out ← hemptyLike o
  hloop out ((hcontents o).map fun kv => (.int kv.1.1, .int kv.1.2, pure kv.2))

/-- `truncated` (coefficients.py:285-297). -/
def htruncated (o : HObj) (n : ℤ) : H α HObj := do
  let out ← hemptyLike o
  hloop out (((hcontents o).filter fun kv => decide (kv.1.1 ≤ n)).map fun kv =>
    (.int kv.1.1, .int kv.1.2, pure kv.2))

/-- An elementwise unary numpy expression: a new array (coefficients.py:154, 333). -/
def hmapArr (f : α → α) (r : Ref) : H α Ref := do
  let xs ← hread r
  alloc (xs.map f)

/-- An elementwise binary numpy expression: a new array, or ValueError (coefficients.py:316, 343). -/
def hzipArr (f : α → α → α) (r s : Ref) : H α Ref := do
  let xs ← hread r
  let ys ← hread s
  match bcast f xs ys with
  | .ok zs => alloc zs
  | .error e => raise e

/-- In-place products of `scale` (coefficients.py:278-280). -/
def hscaleLoop [DivisionRing α] (out : HObj) (ok : Prop) [Decidable ok] (f : ℤ → ℤ → α) (p : ℤ) :
    List Key → H α HObj
  | [] => pure out
  | k :: ks => do
    if ok then
      match dictGet out.dict k with
      | none => raise .key
      | some r => do
        let xs ← hread r
        hwrite r (xs.map fun c => Elem.cast out.dtype (c * f k.1 k.2 ^ p))
        hscaleLoop out ok f p ks
    else raise .type

/-- `scale` (coefficients.py:273-282). -/
def hscale [DivisionRing α] (o : HObj) (f : ℤ → ℤ → α) (p : ℤ) (fdt : DType) : H α HObj := do
  let out ← hcopy o
  hscaleLoop out (fdt.promote o.dtype = o.dtype) f p o.keys

/-- `add` and the two-object branch of `multiply` (coefficients.py:300-319, 337-346). -/
def hcombine (f : α → α → α) (ks : List Key) (a b : HObj) : H α HObj := do
  if a.dflt.len = b.dflt.len then
    let out ← hemptyLike a
    hloop out (ks.map fun k => (.int k.1, .int k.2, hzipArr f (hget a k) (hget b k)))
  else raise .assertion

/-- `multiply` by a number (coefficients.py:329-335). -/
def hmulScalar [Mul α] (o : HObj) (x : α) : H α HObj := do
  let out ← hemptyLike o
  hloop out ((hcontents o).map fun kv => (.int kv.1.1, .int kv.1.2, hmapArr (· * x) kv.2))

/-- `__pow__` (coefficients.py:150-155). -/
def hpow [DivisionRing α] (o : HObj) (p : ℤ) : H α HObj := do
  let out ← hemptyLike o
  hloop out ((hcontents o).map fun kv => (.int kv.1.1, .int kv.1.2, hmapArr (· ^ p) kv.2))

/-- Read several arrays (coefficients.py:358, 366-368). -/
def hreadAll (rs : List Ref) : H α (List α) := fun h => (.ok (rs.flatMap (readRef h)), h)

/-- `np.hstack` of arrays: a new array. Promotion to the common dtype is left to the `astype` that follows
(coefficients.py:358, 366-368). -/
def hhstackArr (rs : List Ref) : H α Ref := do
  let xs ← hreadAll rs
  alloc xs

/-- Copies of the defaults of several sets (coefficients.py:358). -/
def hdefaults : List HObj → H α (List Ref)
  | [] => pure []
  | o :: os => do
    let r ← hdefault o
    let rs ← hdefaults os
    pure (r :: rs)

/-- `hstack` (coefficients.py:350-370). -/
def hhstack (ks : List Key) (os : List HObj) : H α HObj :=
  match os with
  | [] => raise .value
  | o0 :: rest => do
    let dt := rest.foldl (fun d s => d.promote s.dtype) o0.dtype
    let ds ← hdefaults (o0 :: rest)
    let xs ← hreadAll ds
    let d ← alloc (xs.map (Elem.cast dt))
    hloop (hnew d dt) (ks.map fun k => (.int k.1, .int k.2, hhstackArr ((o0 :: rest).map (hget · k))))

/-- `np.hsplit(array, n)`: views into the same buffer, or an exception (coefficients.py:388). -/
def hsplitArr (r : Ref) (n : ℕ) : H α (List Ref) :=
  if n = 0 then raise .zeroDiv
  else if r.len % n = 0 then
    pure ((List.range n).map fun i => ⟨r.buf, r.off + i * (r.len / n), r.len / n⟩)
  else raise .value

/-- Inner loop of `hsplit` (coefficients.py:390-391). -/
def hsplitRowH (k : Key) : List HObj → List Ref → H α (List HObj)
  | o :: os, r :: rs => do
    let o' ← happend o (.int k.1) (.int k.2) r
    let os' ← hsplitRowH k os rs
    pure (o' :: os')
  | os, _ => pure os

/-- Outer loop of `hsplit` (coefficients.py:387-391). -/
def hsplitLoop (n : ℕ) (outs : List HObj) : List (Key × Ref) → H α (List HObj)
  | [] => pure outs
  | (k, r) :: rest => do
    let vs ← hsplitArr r n
    let outs' ← hsplitRowH k outs vs
    hsplitLoop n outs' rest

/-- `hsplit` (coefficients.py:373-393). The defaults of the pieces are views into one fresh copy. -/
def hhsplit (o : HObj) (sections : Option ℕ) : H α (List HObj) := do
  let n := sections.getD o.dflt.len
  let d ← hdefault o
  let ds ← hsplitArr d n
  hsplitLoop n (ds.map fun r => hnew r o.dtype) (hcontents o)

/-- The view `array[a:b]` (coefficients.py:388). -/
def Ref.slice (r : Ref) (a b : ℤ) : Ref :=
  ⟨r.buf, r.off + Coefs.slicePos r.len a, Coefs.slicePos r.len b - Coefs.slicePos r.len a⟩

/-- `np.hsplit(array, indices)` with a list of indices: views into the same buffer (coefficients.py:388). -/
def hsplitArrAt (r : Ref) (idx : List ℤ) : List Ref := List.zipWith r.slice (0 :: idx) (idx ++ [(r.len : ℤ)])

/-- Outer loop of `hsplit` with a list of indices (coefficients.py:387-391). -/
def hsplitLoopAt (idx : List ℤ) (outs : List HObj) : List (Key × Ref) → H α (List HObj)
  | [] => pure outs
  | (k, r) :: rest => do
    let outs' ← hsplitRowH k outs (hsplitArrAt r idx)
    hsplitLoopAt idx outs' rest

/-- `hsplit` (coefficients.py:373-393) with a list of indices. -/
def hhsplitAt (o : HObj) (idx : List ℤ) : H α (List HObj) := do
  let d ← hdefault o
  hsplitLoopAt idx ((hsplitArrAt d idx).map fun r => hnew r o.dtype) (hcontents o)

end

/-! ### Programs -/

/-- The caller's view of memory: buffers, `Coefficients` variables, array variables. The second component of an
array variable says which object (if any) the caller shares it with: bookkeeping of the specification (the functions are
those of coefficients.py:13-393). -/
structure World (α : Type) where
  heap : Heap α
  objs : List HObj
  arrs : List (Ref × Option ℕ)

/-- What a program can do. Object and array variables are numbered in creation order (the functions are those of
coefficients.py:13-393). -/
inductive Op (α : Type)
  /-- `v = np.array(xs)` -/
  | newArray (xs : List α)
  /-- `v[:] = xs` in place (any in-place change of the array) -/
  | writeArray (v : ℕ) (xs : List α)
  /-- `Coefficients(v)` -/
  | construct (v : ℕ) (dt : DType)
  /-- `Coefficients(x)` with a python number -/
  | constructScalar (x : α) (dt : DType)
  | set (o : ℕ) (l m : Idx) (v : ℕ)
  | append (o : ℕ) (l m : Idx) (v : ℕ)
  /-- `v = o.get(l, m)` or an array yielded by `contents` -/
  | get (o : ℕ) (l m : ℤ)
  /-- `v = o.default_coefficients` -/
  | getDefault (o : ℕ)
  | emptyLike (o : ℕ)
  | zerosLike (o : ℕ)
  | copy (o : ℕ)
  | truncated (o : ℕ) (n : ℤ)
  | scale (o : ℕ) (f : ℤ → ℤ → α) (p : ℤ) (fdt : DType)
  | add (ks : List Key) (o p : ℕ)
  | mulCoefs (ks : List Key) (o p : ℕ)
  | mulScalar (o : ℕ) (x : α)
  | pow (o : ℕ) (p : ℤ)
  | hstack (ks : List Key) (os : List ℕ)
  | hsplit (o : ℕ) (n : Option ℕ)
  /-- `hsplit` with a list of indices -/
  | hsplitAt (o : ℕ) (idx : List ℤ)

/-- Run a computation that produces new objects; an exception produces none (the functions are those of
coefficients.py:13-393). -/
def World.create (w : World α) (m : H α (List HObj)) : World α :=
  match m w.heap with
  | (.ok os, h) => { w with heap := h, objs := w.objs ++ os }
  | (.error _, h) => { w with heap := h }

/-- Run a computation that updates object `i`; an exception leaves the object alone (the functions are those of
coefficients.py:13-393). -/
def World.update (w : World α) (i : ℕ) (m : H α HObj) : World α :=
  match m w.heap with
  | (.ok o, h) => { w with heap := h, objs := w.objs.set i o }
  | (.error _, h) => { w with heap := h }

/-- `[m]` as a list-valued computation (the functions are those of coefficients.py:13-393). -/
def single (m : H α HObj) : H α (List HObj) := do
  let o ← m
  pure [o]

/-- One program step. Steps naming variables that do not exist do nothing (the functions are those of
coefficients.py:13-393). -/
def World.step [DivisionRing α] [Elem α] (w : World α) : Op α → World α
  | .newArray xs => { w with heap := w.heap ++ [xs], arrs := w.arrs ++ [(⟨w.heap.length, 0, xs.length⟩, none)] }
  | .writeArray v xs =>
    match w.arrs[v]? with
    | some (r, _) => if xs.length = r.len then { w with heap := (hwrite r xs w.heap).2 } else w
    | none => w
  | .construct v dt =>
    match w.arrs[v]? with
    | some (r, _) =>
      { w with objs := w.objs ++ [hnew r dt], arrs := w.arrs.set v (r, some w.objs.length) }
    | none => w
  | .constructScalar x dt => w.create (single (do let r ← alloc [x]; pure (hnew r dt)))
  | .set i l m v =>
    match w.objs[i]?, w.arrs[v]? with
    | some o, some (r, _) => w.update i (hset o l m r)
    | _, _ => w
  | .append i l m v =>
    match w.objs[i]?, w.arrs[v]? with
    | some o, some (r, _) => w.update i (happend o l m r)
    | _, _ => w
  | .get i l m =>
    match w.objs[i]? with
    | some o => { w with arrs := w.arrs ++ [(hget o (l, m), some i)] }
    | none => w
  | .getDefault i =>
    match w.objs[i]? with
    | some o =>
      match hdefault o w.heap with
      | (.ok r, h) => { w with heap := h, arrs := w.arrs ++ [(r, none)] }
      | (.error _, h) => { w with heap := h }
    | none => w
  | .emptyLike i =>
    match w.objs[i]? with
    | some o => w.create (single (hemptyLike o))
    | none => w
  | .zerosLike i =>
    match w.objs[i]? with
    | some o => w.create (single (hzerosLike o))
    | none => w
  | .copy i =>
    match w.objs[i]? with
    | some o => w.create (single (hcopy o))
    | none => w
  | .truncated i n =>
    match w.objs[i]? with
    | some o => w.create (single (htruncated o n))
    | none => w
  | .scale i f p fdt =>
    match w.objs[i]? with
    | some o => w.create (single (hscale o f p fdt))
    | none => w
  | .add ks i j =>
    match w.objs[i]?, w.objs[j]? with
    | some a, some b => w.create (single (hcombine (· + ·) ks a b))
    | _, _ => w
  | .mulCoefs ks i j =>
    match w.objs[i]?, w.objs[j]? with
    | some a, some b => w.create (single (hcombine (· * ·) ks a b))
    | _, _ => w
  | .mulScalar i x =>
    match w.objs[i]? with
    | some o => w.create (single (hmulScalar o x))
    | none => w
  | .pow i p =>
    match w.objs[i]? with
    | some o => w.create (single (hpow o p))
    | none => w
  | .hstack ks is => w.create (single (hhstack ks (is.filterMap (w.objs[·]?))))
  | .hsplit i n =>
    match w.objs[i]? with
    | some o => w.create (hhsplit o n)
    | none => w
  | .hsplitAt i idx =>
    match w.objs[i]? with
    | some o => w.create (hhsplitAt o idx)
    | none => w

end Store
end Verif
