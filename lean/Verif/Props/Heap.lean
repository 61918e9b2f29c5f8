import Verif.Lemmas.HeapWorld
import Verif.Model.Elements

/-!
# Property C15: value semantics of coefficient sets

A program is any sequence of array creations, in-place array writes, constructions, stores, reads and derivations.
It is disciplined if it never hands an array to a second constructor, nor an array obtained from one set to the
constructor of another, and splits sets only at increasing positions. For every disciplined program, a step changes at most the set it targets.
-/

namespace Verif
open Store

variable {α : Type} [DivisionRing α] [Elem α]

/-- **C15.** After any disciplined program, any further disciplined program that never targets set `i` (no store
into it, no in-place write to one of its live arrays) leaves everything observable about `i` unchanged: copies,
sums, splits, ... made from it, arrays stored into it or elsewhere, defaults read from it may all be changed
freely. -/
theorem C15_isolation (p q : List (Op α)) (hd : DisciplinedRun World.empty (p ++ q)) (i : ℕ)
    (hi : i < (World.empty.run p : World α).objs.length) (ht : Untargeted i (World.empty.run p) q) :
    (World.empty.run (p ++ q)).obj i = (World.empty.run p).obj i := by
  have split : ∀ (w : World α), DisciplinedRun w (p ++ q) →
      DisciplinedRun w p ∧ DisciplinedRun (w.run p) q ∧ w.run (p ++ q) = (w.run p).run q := by
    clear ht hi hd
    induction p with
    | nil => exact fun w hd => ⟨trivial, hd, rfl⟩
    | cons op p ih =>
      intro w hd
      obtain ⟨h1, h2, h3⟩ := ih (w.step op) hd.2
      exact ⟨⟨hd.1, h1⟩, h2, h3⟩
  obtain ⟨h1, h2, h3⟩ := split World.empty hd
  rw [h3]
  exact run_untargeted (inv_run inv_empty p h1) q h2 hi ht

/-- **C15.** Array variables only ever change through an in-place write by the caller: no operation of the package
modifies an array given to it. -/
theorem C15_arguments_untouched (p : List (Op α)) (hd : DisciplinedRun World.empty p) (op : Op α)
    (ho : Disciplined (World.empty.run p) op) (hw : ∀ v xs, op ≠ .writeArray v xs) (v : ℕ)
    (hv : v < (World.empty.run p : World α).arrs.length) :
    ((World.empty.run p).step op).arr v = (World.empty.run p).arr v :=
  (step_spec (inv_run inv_empty p hd) op ho).arr hw v hv

/-- **C15.** `set` stores the current elements of the array (a copy), exactly as the value-level `set` does. -/
theorem C15_set (p : List (Op α)) (hd : DisciplinedRun World.empty p) (i v : ℕ) (l m : Idx) (s : Coefs α)
    (xs : List α) (hs : (World.empty.run p).obj i = some s) (hx : (World.empty.run p).arr v = some xs) :
    ((World.empty.run p).step (.set i l m v)).obj i =
      match Coefs.set l m xs s with | .ok _ s' => some s' | .error _ _ => some s := by
  have hi := inv_run inv_empty p hd
  set w := (World.empty.run p : World α)
  obtain ⟨o, ho, rfl⟩ := Option.map_eq_some_iff.1 hs
  obtain ⟨⟨r, own⟩, ha, rfl⟩ := Option.map_eq_some_iff.1 hx
  rw [← hs]
  simp only [World.step, ho, ha]
  exact update_result ho hi (hset_spec o l m r w.heap (hi.objs i o ho) (hi.arrs v r own ha))

/-- **C15.** `append` likewise. -/
theorem C15_append (p : List (Op α)) (hd : DisciplinedRun World.empty p) (i v : ℕ) (l m : Idx) (s : Coefs α)
    (xs : List α) (hs : (World.empty.run p).obj i = some s) (hx : (World.empty.run p).arr v = some xs) :
    ((World.empty.run p).step (.append i l m v)).obj i =
      match Coefs.append l m xs s with | .ok _ s' => some s' | .error _ _ => some s := by
  have hi := inv_run inv_empty p hd
  set w := (World.empty.run p : World α)
  obtain ⟨o, ho, rfl⟩ := Option.map_eq_some_iff.1 hs
  obtain ⟨⟨r, own⟩, ha, rfl⟩ := Option.map_eq_some_iff.1 hx
  rw [← hs]
  simp only [World.step, ho, ha]
  exact update_result ho hi (happend_spec o l m r w.heap (hi.objs i o ho) (hi.arrs v r own ha))

/-- **C15.** Every derivation (empty_like, zeros_like, copy, truncated, scale, sum, product, power, hstack, hsplit)
creates new variables that hold exactly the values of the value-level operation, or raises and creates none. -/
theorem C15_derived (p : List (Op α)) (hd : DisciplinedRun World.empty p) (op : Op α)
    (ho : Disciplined (World.empty.run p) op) (r : Res (List (Coefs α)))
    (hc : created (World.empty.run p) op = some r) :
    match (generalizing := false) r with
    | .ok cs => ((World.empty.run p).step op).objs.length = (World.empty.run p : World α).objs.length + cs.length ∧
        ∀ k, ((World.empty.run p).step op).obj ((World.empty.run p : World α).objs.length + k) = cs[k]?
    | .error _ => ((World.empty.run p).step op).objs = (World.empty.run p : World α).objs := by
  obtain ⟨m, e, hdl⟩ := step_creates (inv_run inv_empty p hd) op ho hc
  rw [e]
  exact hdl.result

/-- **C15.** `default_coefficients` is a copy: no set shares it, and it reads as the default. -/
theorem C15_default_is_copy (p : List (Op α)) (hd : DisciplinedRun World.empty p) (i : ℕ) (s : Coefs α)
    (hs : (World.empty.run p).obj i = some s) :
    ((World.empty.run p).step (.getDefault i)).arr (World.empty.run p : World α).arrs.length = some s.dflt ∧
    ∀ xs, target ((World.empty.run p).step (.getDefault i))
      (.writeArray (World.empty.run p : World α).arrs.length xs) = none := by
  set w := (World.empty.run p : World α)
  obtain ⟨o, ho, rfl⟩ := Option.map_eq_some_iff.1 hs
  have e : w.step (.getDefault i) = { w with
      heap := w.heap ++ [readRef w.heap o.dflt],
      arrs := w.arrs ++ [(⟨w.heap.length, 0, (readRef w.heap o.dflt).length⟩, none)] } := by
    simp only [World.step, ho]; rfl
  rw [e]
  refine ⟨?_, fun xs => ?_⟩
  · simp only [World.arr, List.getElem?_concat_length, Option.map_some, readRef_new]
    rfl
  · simp only [target, List.getElem?_concat_length, Option.bind_some]

/-! ### Non-vacuity, and the leaks that the discipline excludes -/

/-- `a = np.array([0]); s = Coefficients(a); x = np.array([5]); s.set(1, 0, x); t = s.copy()`. -/
def c15Demo : List (Op ℚ) :=
  [.newArray [0], .construct 0 .real, .newArray [5], .set 0 (.int 1) (.int 0) 1, .copy 0]

example : DisciplinedRun World.empty c15Demo ∧ (World.empty.run c15Demo).objs.length = 2 := by
  refine ⟨⟨trivial, ?_, trivial, trivial, trivial, trivial⟩, by decide +kernel⟩
  intro r own h
  simp [World.empty, World.step] at h
  exact h.2.symm

/-- Writing the stored array, and storing into the copy, leaves the first set alone; the copy changes. -/
example : let w := World.empty.run (c15Demo ++ [.writeArray 1 [7], .newArray [9], .set 1 (.int 1) (.int 0) 2])
    (w.obj 0).map (·.getI (1, 0)) = some [5] ∧ (w.obj 1).map (·.getI (1, 0)) = some [9] := by decide +kernel

/-- Leak: `get` hands out the live array, so writing the result changes the set. -/
theorem C15_get_is_live : ∃ (p : List (Op ℚ)) (i : ℕ), DisciplinedRun World.empty p ∧
    (World.empty.run p).obj 0 ≠ none ∧
    ((World.empty.run p).obj 0).map (·.getI (1, 0)) ≠ ((World.empty.run (p ++ [.writeArray i [7]])).obj 0).map (·.getI (1, 0)) := by
  refine ⟨[.newArray [0], .construct 0 .real, .newArray [5], .set 0 (.int 1) (.int 0) 1, .copy 0, .get 0 1 0], 2,
    ⟨trivial, ?_, trivial, trivial, trivial, trivial, trivial⟩, ?_, by decide +kernel⟩
  · intro r own h
    simp [World.empty, World.step] at h
    exact h.2.symm
  · intro h
    have h' := congrArg (Option.map fun s : Coefs ℚ => s.getI (1, 0)) h
    rw [Option.map_none] at h'
    revert h'
    decide +kernel

/-- Leak: the constructor keeps the array itself, so writing that array changes every default value read. -/
theorem C15_constructor_aliases : ∃ p : List (Op ℚ), DisciplinedRun World.empty p ∧
    ((World.empty.run p).obj 0).map (·.getI (3, 0)) ≠
      ((World.empty.run (p ++ [.writeArray 0 [7]])).obj 0).map (·.getI (3, 0)) := by
  refine ⟨c15Demo, ⟨trivial, ?_, trivial, trivial, trivial, trivial⟩, by decide +kernel⟩
  intro r own h
  simp [World.empty, World.step] at h
  exact h.2.symm

/-- The discipline is needed: one array given to two constructors makes two sets share their default. -/
theorem C15_shared_constructor : ∃ p : List (Op ℚ), ¬ DisciplinedRun World.empty p ∧
    (∀ i, target (World.empty.run p) (.writeArray 0 [7]) = some i → i = 1) ∧
    ((World.empty.run p).obj 0).map (·.getI (3, 0)) ≠
      ((World.empty.run (p ++ [.writeArray 0 [7]])).obj 0).map (·.getI (3, 0)) := by
  refine ⟨[.newArray [0], .construct 0 .real, .construct 0 .real], ?_, ?_, by decide +kernel⟩
  · rintro ⟨_, _, h, _⟩
    have := h ⟨0, 0, 1⟩ (some 0) rfl
    cases this
  · intro i h
    have : target (World.empty.run [Op.newArray [(0 : ℚ)], .construct 0 .real, .construct 0 .real])
      (.writeArray 0 [7]) = some 1 := by decide +kernel
    rw [this] at h
    exact (Option.some.inj h).symm

/-- `a = np.array([0, 1, 2]); s = Coefficients(a); t = s.hsplit([1, 2])`. -/
def c15Split (idx : List ℤ) : List (Op ℚ) := [.newArray [0, 1, 2], .construct 0 .real, .hsplitAt 0 idx]

example : DisciplinedRun World.empty (c15Split [1, -1]) ∧ (World.empty.run (c15Split [1, -1])).objs.length = 4 := by
  refine ⟨⟨trivial, ?_, ?_, trivial⟩, by decide +kernel⟩
  · intro r own h
    simp [World.empty, World.step] at h
    exact h.2.symm
  · intro s h
    have e : World.obj ((World.empty.step (.newArray [(0 : ℚ), 1, 2])).step (.construct 0 .real)) 0 =
      some (Coefs.new [0, 1, 2] .real) := rfl
    rw [e] at h
    cases h
    decide

/-- Leak: pieces cut at positions that do not increase share their defaults. After `t = s.hsplit([2, 1])` the live
default of `t[1]` is empty, but a write to the default of `t[0]`, read with `get`, shows in `t[2]`. -/
theorem C15_split_overlap : ∃ p : List (Op ℚ), ¬ DisciplinedRun World.empty p ∧
    (∀ xs, target (World.empty.run p) (.writeArray 1 xs) = some 1) ∧
    ((World.empty.run p).obj 3).map (·.getI (1, 0)) = some [1, 2] ∧
    ((World.empty.run (p ++ [.writeArray 1 [7, 8]])).obj 3).map (·.getI (1, 0)) = some [8, 2] := by
  refine ⟨c15Split [2, 1] ++ [.get 1 1 0], ?_, fun xs => ?_, by decide +kernel, by decide +kernel⟩
  swap
  · have h : target (World.empty.run (c15Split [2, 1] ++ [.get 1 1 0])) (.writeArray 1 []) = some 1 := by
      decide +kernel
    exact h
  rintro ⟨_, _, h, _⟩
  exact absurd (h (Coefs.new [0, 1, 2] .real) rfl) (by decide)

end Verif
