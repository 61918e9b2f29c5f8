import Verif.Model.Heap
import Verif.Spec.Cuts

/-!
# Specification vocabulary for sharing of storage

What a program can observe of its variables, which variable a step is allowed to change, and which programs are
covered: those that give an array to at most one constructor, do not construct from an array read back from
another set and split sets at increasing positions.
-/

namespace Verif
namespace Store

variable {α : Type}

/-- The value of an object in a heap: what `has`, `get`, `size`, `degree_max`, `order_min` and the default show. -/
def absObj (h : Heap α) (o : HObj) : Coefs α :=
  ⟨readRef h o.dflt, o.dtype, o.dict.map fun kv => (kv.1, readRef h kv.2), o.degreeMax, o.orderMin⟩

/-- The value of coefficient variable `i`. -/
def World.obj (w : World α) (i : ℕ) : Option (Coefs α) := (w.objs[i]?).map (absObj w.heap)

/-- The value of array variable `v`. -/
def World.arr (w : World α) (v : ℕ) : Option (List α) := (w.arrs[v]?).map fun a => readRef w.heap a.1

/-- No variables. -/
def World.empty : World α := ⟨[], [], []⟩

/-- The one coefficient variable that a step may change: the receiver of `set`/`append`, or the set whose live
array (obtained from `get`/`contents`, or handed to its constructor) is written. -/
def target (w : World α) : Op α → Option ℕ
  | .set i _ _ _ => some i
  | .append i _ _ _ => some i
  | .writeArray v _ => (w.arrs[v]?).bind Prod.snd
  | _ => none

/-- A constructor gets an array that no other set uses; sets are split at increasing positions. -/
def Disciplined (w : World α) : Op α → Prop
  | .construct v _ => ∀ r own, w.arrs[v]? = some (r, own) → own = none
  | .hsplitAt i idx => ∀ s, w.obj i = some s → Spec.IncreasingCuts s.dflt.length idx
  | _ => True

variable [DivisionRing α] [Elem α]

/-- Run a program. -/
def World.run (w : World α) : List (Op α) → World α
  | [] => w
  | op :: ops => (w.step op).run ops

/-- Every step of a program is disciplined. -/
def DisciplinedRun (w : World α) : List (Op α) → Prop
  | [] => True
  | op :: ops => Disciplined w op ∧ DisciplinedRun (w.step op) ops

/-- No step of a program targets coefficient variable `i`. -/
def Untargeted (i : ℕ) (w : World α) : List (Op α) → Prop
  | [] => True
  | op :: ops => target w op ≠ some i ∧ Untargeted i (w.step op) ops

/-- The value-level result of a step that creates sets: the values of the new variables, or the exception. -/
def created (w : World α) : Op α → Option (Res (List (Coefs α)))
  | .emptyLike i => (w.obj i).map fun s => .ok [s.emptyLike]
  | .zerosLike i => (w.obj i).map fun s => s.zerosLike.map ([·])
  | .copy i => (w.obj i).map fun s => s.copy.map ([·])
  | .truncated i n => (w.obj i).map fun s => (s.truncated n).map ([·])
  | .scale i f p fdt => (w.obj i).map fun s => (s.scale f p fdt).map ([·])
  | .add ks i j => (w.obj i).bind fun a => (w.obj j).map fun b => (Coefs.add ks a b).map ([·])
  | .mulCoefs ks i j => (w.obj i).bind fun a => (w.obj j).map fun b => (Coefs.mulCoefs ks a b).map ([·])
  | .mulScalar i x => (w.obj i).map fun s => (s.mulScalar x).map ([·])
  | .pow i p => (w.obj i).map fun s => (s.pow p).map ([·])
  | .hstack ks is => some ((Coefs.hstack ks (is.filterMap w.obj)).map ([·]))
  | .hsplit i n => (w.obj i).map fun s => s.hsplit n
  | .hsplitAt i idx => (w.obj i).map fun s => s.hsplitAt idx
  | _ => none

end Store
end Verif
