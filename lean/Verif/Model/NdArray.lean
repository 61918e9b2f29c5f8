import Verif.Model.Coefficients

/-!
# numpy arrays of any number of dimensions

The parts of numpy that the field functions use on arrays of points: broadcasting, elementwise expressions, in-place
operators, `atleast_1d`, `flatten` and `reshape`. Shapes and indices are written last axis first, the order in which
numpy aligns them.
-/

namespace Verif

/-- An array. Only the values at indices inside the shape mean anything (pfss_magnetogram.py:206-223,
zdi_magnetogram.py:91-97). -/
structure Nd (α : Type) where
  shape : List ℕ
  val : List ℕ → α

namespace Nd
variable {α β γ : Type}

/-- The common shape of two arrays in an elementwise expression; `none`: "operands could not be broadcast together"
(pfss_magnetogram.py:206-223, zdi_magnetogram.py:91-97). -/
def bshape : List ℕ → List ℕ → Option (List ℕ)
  | [], t => some t
  | s, [] => some s
  | a :: s, b :: t =>
    if a = b then (bshape s t).map (a :: ·)
    else if a = 1 then (bshape s t).map (b :: ·)
    else if b = 1 then (bshape s t).map (a :: ·)
    else none

/-- The index into an array of shape `s` that broadcasting uses at an index of the common shape: axes of length one are
repeated, missing axes ignored (pfss_magnetogram.py:206-223, zdi_magnetogram.py:91-97). -/
def proj (s i : List ℕ) : List ℕ := List.zipWith (fun d k => if d = 1 then 0 else k) s i

/-- The entry that broadcasting uses at an index of the common shape (pfss_magnetogram.py:206-223,
zdi_magnetogram.py:91-97). -/
def entry (x : Nd α) (i : List ℕ) : α := x.val (proj x.shape i)

/-- A function of one array (pfss_magnetogram.py:206-223, zdi_magnetogram.py:91-97). -/
def map (f : α → β) (x : Nd α) : Nd β := ⟨x.shape, fun i => f (x.val i)⟩

/-- An elementwise expression of two arrays; ValueError if the shapes do not fit (pfss_magnetogram.py:206-223,
zdi_magnetogram.py:91-97). -/
def zip (f : α → β → γ) (x : Nd α) (y : Nd β) : Res (Nd γ) :=
  match bshape x.shape y.shape with
  | some s => .ok ⟨s, fun i => f (x.entry i) (y.entry i)⟩
  | none => .error .value

/-- An operator that writes into its first argument, such as `x -= y`: ValueError if the result would not fit
("non-broadcastable output operand") (pfss_magnetogram.py:206-223, zdi_magnetogram.py:91-97). -/
def inplace (f : α → β → α) (x : Nd α) (y : Nd β) : Res (Nd α) := do
  let z ← zip f x y
  if z.shape = x.shape then pure z else throw .value

/-- `np.zeros_like`, `np.ones_like` (pfss_magnetogram.py:190-198, zdi_magnetogram.py:89). -/
def fillLike (a : β) (x : Nd α) : Nd β := ⟨x.shape, fun _ => a⟩

/-- `np.atleast_1d` (pfss_magnetogram.py:147-235, 238-301). -/
def atleast1 (x : Nd α) : Nd α :=
  match x.shape with
  | [] => ⟨[1], fun _ => x.val []⟩
  | _ :: _ => x

/-- The indices of a shape in the order of `np.ndindex` and `flatten`: the last axis runs fastest
(associated_legendre.py:17, zdi_magnetogram.py:602). -/
def indices : List ℕ → List (List ℕ)
  | [] => [[]]
  | d :: s => (indices s).flatMap fun i => (List.range d).map (· :: i)

/-- `x.flatten()` (zdi_magnetogram.py:602-609, pfss_magnetogram.py:285-300). -/
def flatten (x : Nd α) : List α := (indices x.shape).map x.val

/-- The position of an index in the flattened array (zdi_magnetogram.py:602-609, pfss_magnetogram.py:285-300). -/
def flatIndex : List ℕ → List ℕ → ℕ
  | d :: s, k :: i => flatIndex s i * d + k
  | _, _ => 0

/-- `np.reshape` of a flat array (of the right length) (zdi_magnetogram.py:602-609, pfss_magnetogram.py:285-300). -/
def reshape (dflt : α) (s : List ℕ) (xs : List α) : Nd α := ⟨s, fun i => xs.getD (flatIndex s i) dflt⟩

/-- A loop over all points that can raise: the first exception, or the array of results (associated_legendre.py:17-25). -/
def mapRes (dflt : β) (f : α → Res β) (x : Nd α) : Res (Nd β) := do
  let _ ← (indices x.shape).mapM fun i => f (x.val i)
  pure ⟨x.shape, fun i => match f (x.val i) with
    | .ok b => b
    | .error _ => dflt⟩

end Nd
end Verif
