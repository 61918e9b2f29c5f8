import Verif.Model.NdArray
import Mathlib.Tactic.Ring
import Mathlib.Data.List.Forall2

/-!
# numpy arrays: broadcasting to a shape, flattening
-/

namespace Verif

namespace Spec

/-- An index inside a shape (last axis first). -/
def Inside (s i : List ℕ) : Prop := List.Forall₂ (fun d k => k < d) s i

/-- numpy can stretch an array of shape `s` to shape `t` (last axis first): `t` has at least as many axes, and every axis
of `s` has length one or that of `t`. -/
def StretchesTo (s t : List ℕ) : Prop :=
  s.length ≤ t.length ∧ ∀ k (h : k < s.length) (h' : k < t.length), s[k] = t[k] ∨ s[k] = 1

end Spec

namespace Nd
open Spec
variable {α β γ : Type}

theorem bshape_self (s : List ℕ) : bshape s s = some s := by
  induction s with
  | nil => rfl
  | cons a s ih => simp [bshape, ih]

theorem proj_self {s i : List ℕ} (h : Inside s i) : proj s i = i := by
  induction h with
  | nil => rfl
  | @cons d k s i hk hi ih =>
    simp only [proj, List.zipWith_cons_cons, List.cons.injEq] at ih ⊢
    refine ⟨?_, ih⟩
    split_ifs with h1 <;> omega

theorem entry_self (x : Nd α) {i : List ℕ} (h : Inside x.shape i) : x.entry i = x.val i := by
  rw [entry, proj_self h]

theorem bshape_right_iff (s t : List ℕ) : bshape s t = some t ↔ StretchesTo s t := by
  induction s generalizing t with
  | nil => simp [bshape, StretchesTo]
  | cons a s ih =>
    cases t with
    | nil => simp [bshape, StretchesTo]
    | cons b t =>
      have hst : StretchesTo (a :: s) (b :: t) ↔ (a = b ∨ a = 1) ∧ StretchesTo s t := by
        constructor
        · rintro ⟨h1, h2⟩
          refine ⟨h2 0 (by simp) (by simp), by simpa using h1, fun k h h' => ?_⟩
          exact h2 (k + 1) (by simpa using h) (by simpa using h')
        · rintro ⟨h0, h1, h2⟩
          refine ⟨by simpa using h1, fun k h h' => ?_⟩
          cases k with
          | zero => exact h0
          | succ k => exact h2 k (by simpa using h) (by simpa using h')
      rw [hst, ← ih t, bshape]
      split_ifs with e1 e2 e3
      · subst e1; simp
      · subst e2; simp
      · subst e3
        simp only [Option.map_eq_some_iff, List.cons.injEq, e1, e2, false_or, false_and, iff_false]
        simp
      · simp [e1, e2]

theorem bshape_comm (s t : List ℕ) : bshape s t = bshape t s := by
  induction s generalizing t with
  | nil => cases t <;> rfl
  | cons a s ih =>
    cases t with
    | nil => rfl
    | cons b t =>
      rw [bshape, bshape, ih t]
      by_cases h1 : a = b
      · subst h1; simp
      · have h1' : b ≠ a := fun h => h1 h.symm
        rw [if_neg h1, if_neg h1']
        by_cases h2 : a = 1
        · by_cases h3 : b = 1
          · omega
          · rw [if_pos h2, if_neg h3, if_pos h2]
        · by_cases h3 : b = 1
          · rw [if_neg h2, if_pos h3, if_pos h3]
          · rw [if_neg h2, if_neg h3, if_neg h3, if_neg h2]

theorem zip_ok (f : α → β → γ) {x : Nd α} {y : Nd β} {s : List ℕ} (h : bshape x.shape y.shape = some s) :
    zip f x y = .ok ⟨s, fun i => f (x.entry i) (y.entry i)⟩ := by
  rw [zip, h]

theorem zip_none (f : α → β → γ) {x : Nd α} {y : Nd β} (h : bshape x.shape y.shape = none) :
    zip f x y = .error .value := by
  rw [zip, h]

theorem inplace_ok (f : α → β → α) {x : Nd α} {y : Nd β} (h : bshape x.shape y.shape = some x.shape) :
    inplace f x y = .ok ⟨x.shape, fun i => f (x.entry i) (y.entry i)⟩ := by
  rw [inplace, zip_ok f h]
  simp [bind, Except.bind, pure, Except.pure]

theorem inplace_error (f : α → β → α) {x : Nd α} {y : Nd β} (h : bshape x.shape y.shape ≠ some x.shape) :
    inplace f x y = .error .value := by
  rcases e : bshape x.shape y.shape with _ | s
  · rw [inplace, zip_none f e]; rfl
  · rw [inplace, zip_ok f e]
    have : s ≠ x.shape := fun h' => h (by rw [e, h'])
    simp [bind, Except.bind, this]
    rfl

theorem atleast1_shape (x : Nd α) : x.atleast1.shape = if x.shape = [] then [1] else x.shape := by
  unfold atleast1
  rcases h : x.shape with _ | ⟨d, s⟩
  · rfl
  · simp [h]

theorem atleast1_of_ne {x : Nd α} (h : x.shape ≠ []) : x.atleast1 = x := by
  unfold atleast1
  rcases e : x.shape with _ | ⟨d, s⟩
  · exact absurd e h
  · rfl

theorem mem_indices (s i : List ℕ) : i ∈ indices s ↔ Inside s i := by
  induction s generalizing i with
  | nil => simp [indices, Inside]
  | cons d s ih =>
    simp only [indices, List.mem_flatMap, List.mem_map, List.mem_range]
    constructor
    · rintro ⟨j, hj, k, hk, rfl⟩
      exact List.Forall₂.cons hk ((ih j).1 hj)
    · intro h
      cases h with
      | @cons _ k _ j hk hj => exact ⟨j, (ih j).2 hj, k, hk, rfl⟩

theorem length_indices (s : List ℕ) : (indices s).length = s.prod := by
  induction s with
  | nil => rfl
  | cons d s ih => simp [indices, List.length_flatMap, ih, mul_comm]

private theorem getElem?_blocks {δ : Type} (g : List ℕ → List δ) (d : ℕ) (xs : List (List ℕ)) (hg : ∀ x ∈ xs, (g x).length = d)
    (q k : ℕ) (hk : k < d) : (xs.flatMap g)[q * d + k]? = xs[q]?.bind fun x => (g x)[k]? := by
  induction xs generalizing q with
  | nil => simp
  | cons x xs ih =>
    have hx := hg x (by simp)
    cases q with
    | zero =>
      rw [List.flatMap_cons, Nat.zero_mul, Nat.zero_add, List.getElem?_append_left (by omega)]
      simp
    | succ q =>
      rw [List.flatMap_cons, List.getElem?_append_right (by rw [hx, Nat.succ_mul]; omega), hx,
        show (q + 1) * d + k - d = q * d + k by rw [Nat.succ_mul]; omega, ih (fun y hy => hg y (by simp [hy]))]
      simp

theorem indices_flatIndex {s i : List ℕ} (h : Inside s i) : (indices s)[flatIndex s i]? = some i := by
  induction h with
  | nil => rfl
  | @cons d k s i hk hi ih =>
    rw [indices, flatIndex, getElem?_blocks _ d _ (by simp) _ _ hk, ih]
    simp [hk]

theorem mapRes_ok {dflt : β} {f : α → Res β} {x : Nd α} {g : α → β} (h : ∀ i, Inside x.shape i → f (x.val i) = .ok (g (x.val i))) :
    ∃ y, mapRes dflt f x = .ok y ∧ y.shape = x.shape ∧ ∀ i, Inside x.shape i → y.val i = g (x.val i) := by
  have h1 : ((indices x.shape).mapM fun i => f (x.val i)) = .ok ((indices x.shape).map fun i => g (x.val i)) := by
    have hh : ∀ i ∈ indices x.shape, f (x.val i) = .ok (g (x.val i)) := fun i hi => h i ((mem_indices _ _).1 hi)
    generalize indices x.shape = is at hh
    induction is with
    | nil => rfl
    | cons i is ih =>
      rw [List.mapM_cons, hh i (by simp), ih fun j hj => hh j (by simp [hj])]
      rfl
  refine ⟨_, by rw [mapRes, h1]; rfl, rfl, fun i hi => ?_⟩
  simp only [h i hi]

end Nd
end Verif
