import Verif.Lemmas.Heap

/-!
# The separation invariant of disciplined programs
-/

set_option linter.unusedSectionVars false

namespace Verif
namespace Store

variable {α : Type}

theorem ObjDisj.symm {o p : HObj} (h : ObjDisj o p) : ObjDisj p o := fun r hr s hs => (h s hs r hr).symm

/-- Separation: sets share nothing with each other, nor with array variables that are not known to alias them. -/
structure Sep (w : World α) : Prop where
  objs : ∀ (i : ℕ) (o : HObj), w.objs[i]? = some o → o.Valid w.heap
  arrs : ∀ (v : ℕ) (r : Ref) (own : Option ℕ), w.arrs[v]? = some (r, own) → r.Valid w.heap
  objObj : ∀ (i j : ℕ) (o p : HObj), i ≠ j → w.objs[i]? = some o → w.objs[j]? = some p → ObjDisj o p
  arrObj : ∀ (v : ℕ) (r : Ref) (own : Option ℕ) (j : ℕ) (o : HObj), w.arrs[v]? = some (r, own) →
    w.objs[j]? = some o → own ≠ some j → ∀ s ∈ o.refs, Disj r s
  arrArr : ∀ (v : ℕ) (r : Ref) (u : ℕ) (r' : Ref) (own : Option ℕ), w.arrs[v]? = some (r, none) → u ≠ v →
    w.arrs[u]? = some (r', own) → Disj r r'

theorem inv_empty : Sep (World.empty : World α) := by
  constructor <;> simp [World.empty]

/-- A computation that allocates and returns new, separated objects. -/
def Creates (h : Heap α) (m : H α (List HObj)) : Prop :=
  ∃ h' res, h <+: h' ∧ m h = (res, h') ∧ ∀ os, res = .ok os →
    (∀ o ∈ os, o.Valid h') ∧ (∀ o ∈ os, ∀ q ∈ o.refs, h.length ≤ q.buf) ∧ os.Pairwise ObjDisj

theorem pairwise_index {os : List HObj} (h : os.Pairwise ObjDisj) (i j : ℕ) (o p : HObj) (hij : i ≠ j)
    (hi : os[i]? = some o) (hj : os[j]? = some p) : ObjDisj o p := by
  rw [List.pairwise_iff_getElem] at h
  obtain ⟨hi', ei⟩ := List.getElem?_eq_some_iff.1 hi
  obtain ⟨hj', ej⟩ := List.getElem?_eq_some_iff.1 hj
  rcases lt_or_gt_of_ne hij with h' | h'
  · rw [← ei, ← ej]; exact h i j hi' hj' h'
  · rw [← ei, ← ej]; exact (h j i hj' hi' h').symm

theorem getElem?_append_cases {β : Type} {xs ys : List β} {i : ℕ} {b : β} (h : (xs ++ ys)[i]? = some b) :
    (i < xs.length ∧ xs[i]? = some b) ∨ (xs.length ≤ i ∧ ys[i - xs.length]? = some b) := by
  rcases lt_or_ge i xs.length with h' | h'
  · left; rw [List.getElem?_append_left h'] at h; exact ⟨h', h⟩
  · right; rw [List.getElem?_append_right h'] at h; exact ⟨h', h⟩

theorem mem_of_getElem?' {β : Type} {xs : List β} {i : ℕ} {b : β} (h : xs[i]? = some b) : b ∈ xs :=
  List.mem_of_getElem? h

/-- The heap grows and nothing else changes. -/
theorem Sep.grow {w : World α} (hi : Sep w) {h' : Heap α} (hp : w.heap <+: h') : Sep { w with heap := h' } :=
  ⟨fun i o h => (hi.objs i o h).mono hp, fun v r own h => (hi.arrs v r own h).mono hp, hi.objObj, hi.arrObj,
    hi.arrArr⟩

theorem Sep.create {w : World α} (hi : Sep w) {m : H α (List HObj)} (hc : Creates w.heap m) :
    Sep (w.create m) := by
  obtain ⟨h', res, hp, e, hos⟩ := hc
  unfold World.create
  rw [e]
  cases res with
  | error _ => exact hi.grow hp
  | ok os =>
    obtain ⟨hv, hf, hpw⟩ := hos os rfl
    refine ⟨fun i o h => ?_, fun v r own h => (hi.arrs v r own h).mono hp, fun i j o p hij h1 h2 => ?_,
      fun v r own j o h1 h2 hne s hs => ?_, hi.arrArr⟩
    · rcases getElem?_append_cases h with ⟨_, h⟩ | ⟨_, h⟩
      · exact (hi.objs i o h).mono hp
      · exact hv o (mem_of_getElem?' h)
    · rcases getElem?_append_cases h1 with ⟨l1, h1⟩ | ⟨l1, h1⟩ <;>
        rcases getElem?_append_cases h2 with ⟨l2, h2⟩ | ⟨l2, h2⟩
      · exact hi.objObj i j o p hij h1 h2
      · exact fun r hr s hs => disj_of_lt_le (hi.objs i o h1 r hr).lt (hf p (mem_of_getElem?' h2) s hs)
      · exact fun r hr s hs => (disj_of_lt_le (hi.objs j p h2 s hs).lt (hf o (mem_of_getElem?' h1) r hr)).symm
      · exact pairwise_index hpw _ _ o p (by omega) h1 h2
    · rcases getElem?_append_cases h2 with ⟨_, h2⟩ | ⟨_, h2⟩
      · exact hi.arrObj v r own j o h1 h2 hne s hs
      · exact disj_of_lt_le (hi.arrs v r own h1).lt (hf o (mem_of_getElem?' h2) s hs)

/-- Objects that exist keep their value while the heap only grows. -/
theorem Sep.obj_grow {w : World α} (hi : Sep w) {h' : Heap α} (hp : w.heap <+: h') {i : ℕ} {o : HObj}
    (h : w.objs[i]? = some o) : absObj h' o = absObj w.heap o := absObj_mono (hi.objs i o h) hp

theorem Sep.create_obj {w : World α} (hi : Sep w) {m : H α (List HObj)} (hc : Creates w.heap m) {i : ℕ}
    (h : i < w.objs.length) : (w.create m).obj i = w.obj i := by
  obtain ⟨h', res, hp, e, _⟩ := hc
  have ho : w.objs[i]? = some w.objs[i] := List.getElem?_eq_getElem h
  unfold World.create World.obj
  rw [e]
  cases res with
  | error _ => simp only [ho, Option.map_some, hi.obj_grow hp ho]
  | ok os => simp only [List.getElem?_append_left h, ho, Option.map_some, hi.obj_grow hp ho]

theorem Sep.create_arr {w : World α} (hi : Sep w) {m : H α (List HObj)} (hc : Creates w.heap m) (v : ℕ) :
    (w.create m).arr v = w.arr v := by
  obtain ⟨h', res, hp, e, _⟩ := hc
  unfold World.create World.arr
  rw [e]
  cases res <;>
  · cases hv : w.arrs[v]? with
    | none => rfl
    | some a => simp only [Option.map_some, readRef_mono (hi.arrs v a.1 a.2 hv) hp]

/-- A computation that replaces one object, adding fresh arrays only. -/
def Updates (h : Heap α) (o : HObj) (m : H α HObj) : Prop :=
  ∃ h' res, h <+: h' ∧ m h = (res, h') ∧ ∀ o', res = .ok o' →
    o'.Valid h' ∧ ∀ q ∈ o'.refs, q ∈ o.refs ∨ h.length ≤ q.buf

theorem getElem?_set_cases {β : Type} {xs : List β} {i j : ℕ} {a b : β} (h : (xs.set i a)[j]? = some b) :
    (i = j ∧ b = a) ∨ (i ≠ j ∧ xs[j]? = some b) := by
  by_cases e : i = j
  · subst e
    left
    have hl : i < xs.length := by
      have := (List.getElem?_eq_some_iff.1 h).1
      simpa using this
    rw [List.getElem?_set_self hl] at h
    exact ⟨rfl, (Option.some.inj h).symm⟩
  · right
    rw [List.getElem?_set_ne e] at h
    exact ⟨e, h⟩

theorem Sep.update {w : World α} (hi : Sep w) {i : ℕ} {o : HObj} (ho : w.objs[i]? = some o) {m : H α HObj}
    (hc : Updates w.heap o m) : Sep (w.update i m) := by
  obtain ⟨h', res, hp, e, hres⟩ := hc
  unfold World.update
  rw [e]
  cases res with
  | error _ => exact hi.grow hp
  | ok o' =>
    obtain ⟨hv, hrf⟩ := hres o' rfl
    refine ⟨fun j p h => ?_, fun v r own h => (hi.arrs v r own h).mono hp, fun a b p q hab h1 h2 => ?_,
      fun v r own j p h1 h2 hne s hs => ?_, hi.arrArr⟩
    · rcases getElem?_set_cases h with ⟨_, rfl⟩ | ⟨_, h⟩
      · exact hv
      · exact (hi.objs j p h).mono hp
    · rcases getElem?_set_cases h1 with ⟨e1, ep⟩ | ⟨e1, h1'⟩ <;>
        rcases getElem?_set_cases h2 with ⟨e2, eq⟩ | ⟨e2, h2'⟩
      · exact absurd (e1.symm.trans e2) hab
      · intro r hr s hs
        rw [ep] at hr
        rcases hrf r hr with hro | hrn
        · exact hi.objObj i b o q e2 ho h2' r hro s hs
        · exact (disj_of_lt_le (hi.objs b q h2' s hs).lt hrn).symm
      · intro r hr s hs
        rw [eq] at hs
        rcases hrf s hs with hso | hsn
        · exact hi.objObj a i p o (Ne.symm e1) h1' ho r hr s hso
        · exact disj_of_lt_le (hi.objs a p h1' r hr).lt hsn
      · exact hi.objObj a b p q hab h1' h2'
    · rcases getElem?_set_cases h2 with ⟨e2, rfl⟩ | ⟨e2, h2⟩
      · rcases hrf s hs with hso | hsn
        · exact hi.arrObj v r own i o h1 ho (e2 ▸ hne) s hso
        · exact disj_of_lt_le (hi.arrs v r own h1).lt hsn
      · exact hi.arrObj v r own j p h1 h2 hne s hs

theorem Sep.update_obj {w : World α} (hi : Sep w) {i : ℕ} {o : HObj} {m : H α HObj}
    (hc : Updates w.heap o m) {j : ℕ} (hj : i ≠ j) : (w.update i m).obj j = w.obj j := by
  obtain ⟨h', res, hp, e, _⟩ := hc
  unfold World.update World.obj
  rw [e]
  cases res with
  | error _ =>
    cases hv : w.objs[j]? with
    | none => rfl
    | some a => simp only [Option.map_some, hi.obj_grow hp hv]
  | ok o' =>
    simp only [List.getElem?_set_ne hj]
    cases hv : w.objs[j]? with
    | none => rfl
    | some a => simp only [Option.map_some, hi.obj_grow hp hv]

theorem Sep.update_arr {w : World α} (hi : Sep w) {i : ℕ} {o : HObj} {m : H α HObj}
    (hc : Updates w.heap o m) (v : ℕ) : (w.update i m).arr v = w.arr v := by
  obtain ⟨h', res, hp, e, _⟩ := hc
  unfold World.update World.arr
  rw [e]
  cases res <;>
  · cases hv : w.arrs[v]? with
    | none => rfl
    | some a => simp only [Option.map_some, readRef_mono (hi.arrs v a.1 a.2 hv) hp]

/-! ### Writing an array -/

theorem Sep.write {w : World α} (hi : Sep w) {r : Ref} (hr : r.Valid w.heap) {xs : List α}
    (hx : xs.length = r.len) : Sep { w with heap := writeHeap w.heap r xs } :=
  ⟨fun i o h s hs => (hi.objs i o h s hs).write hr hx, fun v s own h => (hi.arrs v s own h).write hr hx,
    hi.objObj, hi.arrObj, hi.arrArr⟩

theorem Sep.write_obj {w : World α} (hi : Sep w) {v : ℕ} {r : Ref} {own : Option ℕ} {xs : List α}
    (ha : w.arrs[v]? = some (r, own)) (hx : xs.length = r.len) {j : ℕ} (hj : own ≠ some j) :
    World.obj { w with heap := writeHeap w.heap r xs } j = w.obj j := by
  unfold World.obj
  cases hv : w.objs[j]? with
  | none => rfl
  | some o =>
    simp only [Option.map_some]
    rw [absObj_congr fun s hs => readRef_write_disj (hi.arrs v r own ha) hx (hi.arrObj v r own j o ha hv hj s hs)]

/-! ### Adding array variables, constructing -/

theorem Sep.addArr {w : World α} (hi : Sep w) {h' : Heap α} (hp : w.heap <+: h') {r : Ref} {own : Option ℕ}
    (hv : r.Valid h') (ho : ∀ (j : ℕ) (o : HObj), w.objs[j]? = some o → own ≠ some j → ∀ s ∈ o.refs, Disj r s)
    (ha : ∀ (v : ℕ) (s : Ref), w.arrs[v]? = some (s, none) → Disj s r)
    (hn : own = none → ∀ (v : ℕ) (s : Ref) (own' : Option ℕ), w.arrs[v]? = some (s, own') → Disj r s) :
    Sep { w with heap := h', arrs := w.arrs ++ [(r, own)] } := by
  have single : ∀ {i : ℕ} {b : Ref × Option ℕ}, [(r, own)][i]? = some b → b = (r, own) := by
    intro i b h
    rcases i with _ | i
    · exact (Option.some.inj h).symm
    · simp at h
  refine ⟨fun i o h => (hi.objs i o h).mono hp, fun v s own' h => ?_, hi.objObj,
    fun v s own' j o h1 h2 hne => ?_, fun v s u s' own' h1 hne h2 => ?_⟩
  · rcases getElem?_append_cases h with ⟨_, h⟩ | ⟨_, h⟩
    · exact (hi.arrs v s own' h).mono hp
    · cases single h; exact hv
  · rcases getElem?_append_cases h1 with ⟨_, h1⟩ | ⟨_, h1⟩
    · exact hi.arrObj v s own' j o h1 h2 hne
    · cases single h1; exact ho j o h2 hne
  · rcases getElem?_append_cases h1 with ⟨l1, h1'⟩ | ⟨l1, h1'⟩ <;>
      rcases getElem?_append_cases h2 with ⟨l2, h2'⟩ | ⟨l2, h2'⟩
    · exact hi.arrArr v s u s' own' h1' hne h2'
    · cases single h2'; exact ha v s h1'
    · have := single h1'
      rw [Prod.mk.injEq] at this
      rw [this.1]
      exact hn this.2.symm u s' own' h2'
    · have h1 := h1'
      have h2 := h2'
      have e1 : v - w.arrs.length = 0 := by
        by_contra hh
        rw [List.getElem?_eq_none (by simp only [List.length_singleton]; omega)] at h1
        cases h1
      have e2 : u - w.arrs.length = 0 := by
        by_contra hh
        rw [List.getElem?_eq_none (by simp only [List.length_singleton]; omega)] at h2
        cases h2
      omega

theorem Sep.construct {w : World α} (hi : Sep w) {v : ℕ} {r : Ref} (ha : w.arrs[v]? = some (r, none)) (dt : DType) :
    Sep { w with objs := w.objs ++ [hnew r dt], arrs := w.arrs.set v (r, some w.objs.length) } := by
  have hr := hi.arrs v r none ha
  have single : ∀ {i : ℕ} {b : HObj}, [hnew r dt][i]? = some b → b = hnew r dt := by
    intro i b h
    rcases i with _ | i
    · exact (Option.some.inj h).symm
    · simp at h
  have hrefs : (hnew r dt).refs = [r] := rfl
  have hnew_arr : ∀ (u : ℕ) (s : Ref) (own : Option ℕ), u ≠ v → w.arrs[u]? = some (s, own) → Disj s r := fun u s own hne h =>
    (hi.arrArr v r u s own ha hne h).symm
  refine ⟨fun i o h => ?_, fun u s own h => ?_, fun i j o p hij h1 h2 => ?_, fun u s own j o h1 h2 hne q hq => ?_,
    fun u s t s' own h1 hne h2 => ?_⟩
  · rcases getElem?_append_cases h with ⟨_, h⟩ | ⟨_, h⟩
    · exact hi.objs i o h
    · rw [single h]
      intro q hq
      rw [hrefs, List.mem_singleton] at hq
      exact hq ▸ hr
  · rcases getElem?_set_cases h with ⟨_, e⟩ | ⟨_, h⟩
    · cases e; exact hr
    · exact hi.arrs u s own h
  · rcases getElem?_append_cases h1 with ⟨l1, h1⟩ | ⟨l1, h1⟩ <;>
      rcases getElem?_append_cases h2 with ⟨l2, h2⟩ | ⟨l2, h2⟩
    · exact hi.objObj i j o p hij h1 h2
    · rw [single h2]
      intro a ha' b hb
      rw [hrefs, List.mem_singleton] at hb
      rw [hb]
      exact (hi.arrObj v r none i o ha h1 (by simp) a ha').symm
    · rw [single h1]
      intro a ha' b hb
      rw [hrefs, List.mem_singleton] at ha'
      rw [ha']
      exact hi.arrObj v r none j p ha h2 (by simp) b hb
    · exfalso
      have e1 : i - w.objs.length = 0 := by
        by_contra hh
        rw [List.getElem?_eq_none (by simp only [List.length_singleton]; omega)] at h1
        cases h1
      have e2 : j - w.objs.length = 0 := by
        by_contra hh
        rw [List.getElem?_eq_none (by simp only [List.length_singleton]; omega)] at h2
        cases h2
      omega
  · rcases getElem?_append_cases h2 with ⟨l2, h2⟩ | ⟨l2, h2⟩
    · rcases getElem?_set_cases h1 with ⟨_, e⟩ | ⟨_, h1⟩
      · cases e; exact hi.arrObj v r none j o ha h2 (by simp) q hq
      · exact hi.arrObj u s own j o h1 h2 hne q hq
    · have e0 : j - w.objs.length = 0 := by
        by_contra hh
        rw [List.getElem?_eq_none (by simp only [List.length_singleton]; omega)] at h2
        cases h2
      have ej : j = w.objs.length := by omega
      rw [single h2, hrefs, List.mem_singleton] at hq
      rw [hq]
      rcases getElem?_set_cases h1 with ⟨_, e⟩ | ⟨huv, h1⟩
      · cases e; exact absurd (by rw [ej]) hne
      · exact hnew_arr u s own (Ne.symm huv) h1
  · rcases getElem?_set_cases h1 with ⟨_, e⟩ | ⟨hu, h1⟩
    · cases e
    · rcases getElem?_set_cases h2 with ⟨et, e⟩ | ⟨_, h2⟩
      · cases e
        exact hnew_arr u s none (Ne.symm hu) h1
      · exact hi.arrArr u s t s' own h1 hne h2

/-! ### Operations -/

section
variable [Elem α]

/-- The objects and values a creating computation delivers. -/
def Delivers (h : Heap α) (m : H α (List HObj)) (p : Res (List (Coefs α))) : Prop :=
  ∃ h', h <+: h' ∧ match p with
    | .ok cs => ∃ os, m h = (.ok os, h') ∧ os.map (absObj h') = cs ∧
        (∀ o ∈ os, o.Valid h') ∧ (∀ o ∈ os, ∀ q ∈ o.refs, h.length ≤ q.buf) ∧ os.Pairwise ObjDisj
    | .error e => m h = (.error e, h')

theorem Delivers.creates {h : Heap α} {m : H α (List HObj)} {p : Res (List (Coefs α))} (hd : Delivers h m p) :
    Creates h m := by
  obtain ⟨h', hp, hm⟩ := hd
  cases p with
  | error e => exact ⟨h', .error e, hp, hm, fun os h => by cases h⟩
  | ok cs =>
    obtain ⟨os, e, _, h1, h2, h3⟩ := hm
    exact ⟨h', .ok os, hp, e, fun os' h => by cases h; exact ⟨h1, h2, h3⟩⟩

theorem Refines.delivers {h : Heap α} {m : H α HObj} {p : Res (Coefs α)} (hr : Refines h.length h m p) :
    Delivers h (single m) (p.map ([·])) := by
  obtain ⟨h', hp, hm⟩ := hr
  refine ⟨h', hp, ?_⟩
  cases p with
  | error e => exact bind_error hm
  | ok c =>
    obtain ⟨o, e, hv, hg⟩ := hm
    refine ⟨[o], bind_ok e, by rw [List.map_singleton, hv], ?_, ?_, List.pairwise_singleton _ _⟩
    · intro x hx; rw [List.mem_singleton] at hx; exact hx ▸ hg.valid
    · intro x hx; rw [List.mem_singleton] at hx; exact hx ▸ hg.fresh

/-- After a delivering step: either the new variables have the computed values, or nothing was created. -/
theorem Delivers.result {w : World α} {m : H α (List HObj)} {p : Res (List (Coefs α))} (hd : Delivers w.heap m p) :
    match (generalizing := false) p with
    | .ok cs => (w.create m).objs.length = w.objs.length + cs.length ∧
        ∀ k, (w.create m).obj (w.objs.length + k) = cs[k]?
    | .error _ => (w.create m).objs = w.objs := by
  obtain ⟨h', hp, hm⟩ := hd
  unfold World.create World.obj
  cases p with
  | error e => rw [hm]
  | ok cs =>
    obtain ⟨os, e, hv, _⟩ := hm
    rw [e, ← hv]
    refine ⟨by simp, fun k => ?_⟩
    simp only
    rw [List.getElem?_append_right (by omega), Nat.add_sub_cancel_left, List.getElem?_map]

theorem updates_of_stored {h : Heap α} {o : HObj} {m : H α HObj} {p : EStateM.Result Err (Coefs α) Unit}
    (hs : ∃ h', h <+: h' ∧ match p with
      | .ok _ c => ∃ o', m h = (.ok o', h') ∧ ∀ n, Stored h h' o n o' c
      | .error e _ => m h = (.error e, h')) : Updates h o m := by
  obtain ⟨h', hp, hm⟩ := hs
  cases p with
  | ok _ c =>
    obtain ⟨o', e, hst⟩ := hm
    exact ⟨h', .ok o', hp, e, fun x hx => by cases hx; exact ⟨(hst 0).valid, (hst 0).refs⟩⟩
  | error e _ => exact ⟨h', .error e, hp, hm, fun x hx => by cases hx⟩

theorem update_result {w : World α} {i : ℕ} {o : HObj} (ho : w.objs[i]? = some o) (hi : Sep w) {m : H α HObj}
    {p : EStateM.Result Err (Coefs α) Unit}
    (hs : ∃ h', w.heap <+: h' ∧ match p with
      | .ok _ c => ∃ o', m w.heap = (.ok o', h') ∧ ∀ n, Stored w.heap h' o n o' c
      | .error e _ => m w.heap = (.error e, h')) :
    (w.update i m).obj i = match (generalizing := false) p with | .ok _ c => some c | .error _ _ => w.obj i := by
  obtain ⟨h', hp, hm⟩ := hs
  have hl : i < w.objs.length := (List.getElem?_eq_some_iff.1 ho).1
  unfold World.update World.obj
  cases p with
  | ok _ c =>
    obtain ⟨o', e, hst⟩ := hm
    rw [e]
    simp only [List.getElem?_set_self hl, Option.map_some, (hst 0).value]
  | error e _ =>
    rw [hm]
    simp only [ho, Option.map_some, hi.obj_grow hp ho]

variable [DivisionRing α]

theorem obj_some {w : World α} {i : ℕ} {o : HObj} (h : w.objs[i]? = some o) : w.obj i = some (absObj w.heap o) := by
  simp [World.obj, h]

theorem obj_none {w : World α} {i : ℕ} (h : w.objs[i]? = none) : w.obj i = none := by simp [World.obj, h]

theorem filterMap_obj (w : World α) (is : List ℕ) :
    is.filterMap w.obj = (is.filterMap (w.objs[·]?)).map (absObj w.heap) := by
  rw [List.map_filterMap]
  rfl

/-- Every creating step delivers its value-level result. -/
theorem step_creates {w : World α} (hi : Sep w) (op : Op α) (hd : Disciplined w op) {p : Res (List (Coefs α))}
    (hc : created w op = some p) :
    ∃ m, w.step op = w.create m ∧ Delivers w.heap m p := by
  cases op with
  | emptyLike i =>
    cases ho : w.objs[i]? with
    | none => simp [created, obj_none ho] at hc
    | some o =>
      simp only [created, obj_some ho, Option.map_some, Option.some.injEq] at hc
      subst hc
      exact ⟨_, by simp only [World.step, ho], (hemptyLike_spec o w.heap).delivers⟩
  | zerosLike i =>
    cases ho : w.objs[i]? with
    | none => simp [created, obj_none ho] at hc
    | some o =>
      simp only [created, obj_some ho, Option.map_some, Option.some.injEq] at hc
      subst hc
      exact ⟨_, by simp only [World.step, ho], (hzerosLike_spec (hi.objs i o ho)).delivers⟩
  | copy i =>
    cases ho : w.objs[i]? with
    | none => simp [created, obj_none ho] at hc
    | some o =>
      simp only [created, obj_some ho, Option.map_some, Option.some.injEq] at hc
      subst hc
      exact ⟨_, by simp only [World.step, ho], (hcopy_spec (hi.objs i o ho)).delivers⟩
  | truncated i n =>
    cases ho : w.objs[i]? with
    | none => simp [created, obj_none ho] at hc
    | some o =>
      simp only [created, obj_some ho, Option.map_some, Option.some.injEq] at hc
      subst hc
      exact ⟨_, by simp only [World.step, ho], (htruncated_spec (hi.objs i o ho) n).delivers⟩
  | scale i f p fdt =>
    cases ho : w.objs[i]? with
    | none => simp [created, obj_none ho] at hc
    | some o =>
      simp only [created, obj_some ho, Option.map_some, Option.some.injEq] at hc
      subst hc
      exact ⟨_, by simp only [World.step, ho], (hscale_spec (hi.objs i o ho) f p fdt).delivers⟩
  | add ks i j =>
    cases ho : w.objs[i]? with
    | none => simp [created, obj_none ho] at hc
    | some a =>
      cases hq : w.objs[j]? with
      | none => simp [created, obj_none hq] at hc
      | some b =>
        simp only [created, obj_some ho, obj_some hq, Option.map_some, Option.bind_some, Option.some.injEq] at hc
        subst hc
        exact ⟨_, by simp only [World.step, ho, hq],
          (hcombine_spec (hi.objs i a ho) (hi.objs j b hq) (· + ·) ks).delivers⟩
  | mulCoefs ks i j =>
    cases ho : w.objs[i]? with
    | none => simp [created, obj_none ho] at hc
    | some a =>
      cases hq : w.objs[j]? with
      | none => simp [created, obj_none hq] at hc
      | some b =>
        simp only [created, obj_some ho, obj_some hq, Option.map_some, Option.bind_some, Option.some.injEq] at hc
        subst hc
        exact ⟨_, by simp only [World.step, ho, hq],
          (hcombine_spec (hi.objs i a ho) (hi.objs j b hq) (· * ·) ks).delivers⟩
  | mulScalar i x =>
    cases ho : w.objs[i]? with
    | none => simp [created, obj_none ho] at hc
    | some o =>
      simp only [created, obj_some ho, Option.map_some, Option.some.injEq] at hc
      subst hc
      exact ⟨_, by simp only [World.step, ho], (hmulScalar_spec (hi.objs i o ho) x).delivers⟩
  | pow i n =>
    cases ho : w.objs[i]? with
    | none => simp [created, obj_none ho] at hc
    | some o =>
      simp only [created, obj_some ho, Option.map_some, Option.some.injEq] at hc
      subst hc
      exact ⟨_, by simp only [World.step, ho], (hpow_spec (hi.objs i o ho) n).delivers⟩
  | hstack ks is =>
    simp only [created, Option.some.injEq] at hc
    subst hc
    rw [filterMap_obj]
    refine ⟨_, rfl, (hhstack_spec (fun o ho => ?_) ks).delivers⟩
    obtain ⟨i, _, hio⟩ := List.mem_filterMap.1 ho
    exact hi.objs i o hio
  | hsplit i n =>
    cases ho : w.objs[i]? with
    | none => simp [created, obj_none ho] at hc
    | some o =>
      simp only [created, obj_some ho, Option.map_some, Option.some.injEq] at hc
      subst hc
      exact ⟨_, by simp only [World.step, ho], hhsplit_spec (hi.objs i o ho) n⟩
  | hsplitAt i idx =>
    cases ho : w.objs[i]? with
    | none => simp [created, obj_none ho] at hc
    | some o =>
      simp only [created, obj_some ho, Option.map_some, Option.some.injEq] at hc
      subst hc
      exact ⟨_, by simp only [World.step, ho], hhsplitAt_spec (hi.objs i o ho) idx (hd _ (obj_some ho))⟩
  | _ => simp [created] at hc

/-- What a step may do: keep the invariant, keep all objects but the target, keep all arrays unless it writes one. -/
structure Step (w w' : World α) (op : Op α) : Prop where
  inv : Sep w'
  obj : ∀ i < w.objs.length, target w op ≠ some i → w'.obj i = w.obj i
  arr : (∀ v xs, op ≠ .writeArray v xs) → ∀ v < w.arrs.length, w'.arr v = w.arr v
  objs_le : w.objs.length ≤ w'.objs.length
  arrs_le : w.arrs.length ≤ w'.arrs.length

theorem Step.refl {w : World α} (hi : Sep w) (op : Op α) : Step w w op :=
  ⟨hi, fun _ _ _ => rfl, fun _ _ _ => rfl, le_refl _, le_refl _⟩

theorem step_of_create {w : World α} (hi : Sep w) (op : Op α) {m : H α (List HObj)} (hc : Creates w.heap m) :
    Step w (w.create m) op := by
  refine ⟨hi.create hc, fun i h _ => hi.create_obj hc h, fun _ v _ => hi.create_arr hc v, ?_, ?_⟩ <;>
  · unfold World.create
    rcases m w.heap with ⟨e | os, h⟩ <;> simp

theorem step_of_update {w : World α} (hi : Sep w) (op : Op α) {i : ℕ} {o : HObj} (ho : w.objs[i]? = some o)
    {m : H α HObj} (hc : Updates w.heap o m) (ht : target w op = some i) : Step w (w.update i m) op := by
  refine ⟨hi.update ho hc, fun j _ h => hi.update_obj hc (fun e => h (by rw [ht, e])),
    fun _ v _ => hi.update_arr hc v, ?_, ?_⟩ <;>
  · unfold World.update
    rcases m w.heap with ⟨e | os, h⟩ <;> simp

theorem arr_append {w : World α} (hi : Sep w) {h' : Heap α} (hp : w.heap <+: h') (x : Ref × Option ℕ) {v : ℕ}
    (hv : v < w.arrs.length) : World.arr { w with heap := h', arrs := w.arrs ++ [x] } v = w.arr v := by
  unfold World.arr
  simp only [List.getElem?_append_left hv, List.getElem?_eq_getElem hv, Option.map_some]
  rw [readRef_mono (hi.arrs v w.arrs[v].1 w.arrs[v].2 (List.getElem?_eq_getElem hv)) hp]

theorem obj_grow' {w : World α} (hi : Sep w) {h' : Heap α} (hp : w.heap <+: h') (arrs : List (Ref × Option ℕ))
    (i : ℕ) : World.obj { w with heap := h', arrs := arrs } i = w.obj i := by
  unfold World.obj
  cases hv : w.objs[i]? with
  | none => rfl
  | some a => simp only [Option.map_some, hi.obj_grow hp hv]

theorem step_spec {w : World α} (hi : Sep w) (op : Op α) (hd : Disciplined w op) : Step w (w.step op) op := by
  cases hcr : created w op with
  | some p =>
    obtain ⟨m, e, hdl⟩ := step_creates hi op hd hcr
    rw [e]
    exact step_of_create hi op hdl.creates
  | none =>
    cases op with
    | newArray xs =>
      have hp : w.heap <+: w.heap ++ [xs] := List.prefix_append _ _
      refine ⟨hi.addArr hp (valid_new _ _) ?_ ?_ ?_, fun i _ _ => obj_grow' hi hp _ i, fun _ v hv =>
        arr_append hi hp _ hv, le_refl _, by simp [World.step]⟩
      · exact fun j o ho _ s hs => (disj_of_lt_le (hi.objs j o ho s hs).lt (le_refl _)).symm
      · exact fun v s hv => disj_of_lt_le (hi.arrs v s _ hv).lt (le_refl _)
      · exact fun _ v s own hv => (disj_of_lt_le (hi.arrs v s _ hv).lt (le_refl _)).symm
    | writeArray v xs =>
      cases ha : w.arrs[v]? with
      | none => simp only [World.step, ha]; exact Step.refl hi _
      | some a =>
        obtain ⟨r, own⟩ := a
        simp only [World.step, ha]
        by_cases hx : xs.length = r.len
        · rw [if_pos hx]
          refine ⟨hi.write (hi.arrs v r own ha) hx, fun i _ h => ?_, fun h => absurd rfl (h v xs), le_refl _, le_refl _⟩
          have ht : own ≠ some i := by simpa [target, ha] using h
          exact hi.write_obj ha hx ht
        · rw [if_neg hx]; exact Step.refl hi _
    | construct v dt =>
      cases ha : w.arrs[v]? with
      | none => simp only [World.step, ha]; exact Step.refl hi _
      | some a =>
        obtain ⟨r, own⟩ := a
        have ho : own = none := hd r own ha
        subst ho
        simp only [World.step, ha]
        refine ⟨hi.construct ha dt, fun i hil _ => ?_, fun _ u hu => ?_, by simp, by simp⟩
        · unfold World.obj; simp only [List.getElem?_append_left hil]
        · unfold World.arr
          by_cases e : v = u
          · subst e
            simp only [List.getElem?_set_self hu, ha, Option.map_some]
          · simp only [List.getElem?_set_ne e]
    | constructScalar x dt =>
      refine step_of_create (m := single (do let r ← alloc [x]; pure (hnew r dt))) hi (.constructScalar x dt) ?_
      have hg := good_hnew w.heap [x] dt
      refine ⟨w.heap ++ [[x]], .ok [hnew ⟨w.heap.length, 0, 1⟩ dt], List.prefix_append _ _, rfl, ?_⟩
      intro os e
      cases e
      refine ⟨?_, ?_, List.pairwise_singleton _ _⟩
      · intro o ho; rw [List.mem_singleton] at ho; exact ho ▸ hg.valid
      · intro o ho; rw [List.mem_singleton] at ho; exact ho ▸ hg.fresh
    | set i l m v =>
      cases ho : w.objs[i]? with
      | none => simp only [World.step, ho]; exact Step.refl hi _
      | some o =>
        cases ha : w.arrs[v]? with
        | none => simp only [World.step, ho, ha]; exact Step.refl hi _
        | some a =>
          simp only [World.step, ho, ha]
          exact step_of_update hi _ ho
            (updates_of_stored (hset_spec o l m a.1 w.heap (hi.objs i o ho) (hi.arrs v a.1 a.2 ha))) rfl
    | append i l m v =>
      cases ho : w.objs[i]? with
      | none => simp only [World.step, ho]; exact Step.refl hi _
      | some o =>
        cases ha : w.arrs[v]? with
        | none => simp only [World.step, ho, ha]; exact Step.refl hi _
        | some a =>
          simp only [World.step, ho, ha]
          exact step_of_update hi _ ho
            (updates_of_stored (happend_spec o l m a.1 w.heap (hi.objs i o ho) (hi.arrs v a.1 a.2 ha))) rfl
    | get i l m =>
      cases ho : w.objs[i]? with
      | none => simp only [World.step, ho]; exact Step.refl hi _
      | some o =>
        simp only [World.step, ho]
        have hp : w.heap <+: w.heap := List.prefix_refl _
        refine ⟨hi.addArr hp (hi.objs i o ho _ (hget_mem o _)) ?_ ?_ (fun h => by cases h), fun j _ _ =>
          obj_grow' hi hp _ j, fun _ v hv => arr_append hi hp _ hv, le_refl _, by simp⟩
        · intro j p hj hne s hs
          exact hi.objObj i j o p (fun e => hne (by rw [e])) ho hj _ (hget_mem o _) s hs
        · intro v s hv
          exact hi.arrObj v s none i o hv ho (by simp) _ (hget_mem o _)
    | getDefault i =>
      cases ho : w.objs[i]? with
      | none => simp only [World.step, ho]; exact Step.refl hi _
      | some o =>
        simp only [World.step, ho]
        rw [hdefault_run]
        have hp : w.heap <+: w.heap ++ [readRef w.heap o.dflt] := List.prefix_append _ _
        refine ⟨hi.addArr hp (valid_new _ _) ?_ ?_ ?_, fun i _ _ => obj_grow' hi hp _ i, fun _ v hv =>
          arr_append hi hp _ hv, le_refl _, by simp⟩
        · exact fun j o ho _ s hs => (disj_of_lt_le (hi.objs j o ho s hs).lt (le_refl _)).symm
        · exact fun v s hv => disj_of_lt_le (hi.arrs v s _ hv).lt (le_refl _)
        · exact fun _ v s own hv => (disj_of_lt_le (hi.arrs v s _ hv).lt (le_refl _)).symm
    | emptyLike i =>
      cases ho : w.objs[i]? with
      | none => simp only [World.step, ho]; exact Step.refl hi _
      | some o => simp [created, obj_some ho] at hcr
    | zerosLike i =>
      cases ho : w.objs[i]? with
      | none => simp only [World.step, ho]; exact Step.refl hi _
      | some o => simp [created, obj_some ho] at hcr
    | copy i =>
      cases ho : w.objs[i]? with
      | none => simp only [World.step, ho]; exact Step.refl hi _
      | some o => simp [created, obj_some ho] at hcr
    | truncated i n =>
      cases ho : w.objs[i]? with
      | none => simp only [World.step, ho]; exact Step.refl hi _
      | some o => simp [created, obj_some ho] at hcr
    | scale i f p fdt =>
      cases ho : w.objs[i]? with
      | none => simp only [World.step, ho]; exact Step.refl hi _
      | some o => simp [created, obj_some ho] at hcr
    | add ks i j =>
      cases ho : w.objs[i]? with
      | none => simp only [World.step, ho]; exact Step.refl hi _
      | some a =>
        cases hq : w.objs[j]? with
        | none => simp only [World.step, ho, hq]; exact Step.refl hi _
        | some b => simp [created, obj_some ho, obj_some hq] at hcr
    | mulCoefs ks i j =>
      cases ho : w.objs[i]? with
      | none => simp only [World.step, ho]; exact Step.refl hi _
      | some a =>
        cases hq : w.objs[j]? with
        | none => simp only [World.step, ho, hq]; exact Step.refl hi _
        | some b => simp [created, obj_some ho, obj_some hq] at hcr
    | mulScalar i x =>
      cases ho : w.objs[i]? with
      | none => simp only [World.step, ho]; exact Step.refl hi _
      | some o => simp [created, obj_some ho] at hcr
    | pow i p =>
      cases ho : w.objs[i]? with
      | none => simp only [World.step, ho]; exact Step.refl hi _
      | some o => simp [created, obj_some ho] at hcr
    | hstack ks is => simp [created] at hcr
    | hsplit i n =>
      cases ho : w.objs[i]? with
      | none => simp only [World.step, ho]; exact Step.refl hi _
      | some o => simp [created, obj_some ho] at hcr
    | hsplitAt i idx =>
      cases ho : w.objs[i]? with
      | none => simp only [World.step, ho]; exact Step.refl hi _
      | some o => simp [created, obj_some ho] at hcr

theorem inv_run {w : World α} (hi : Sep w) (ops : List (Op α)) (hd : DisciplinedRun w ops) : Sep (w.run ops) := by
  induction ops generalizing w with
  | nil => exact hi
  | cons op ops ih => exact ih (step_spec hi op hd.1).inv hd.2

theorem run_untargeted {w : World α} (hi : Sep w) (ops : List (Op α)) (hd : DisciplinedRun w ops) {i : ℕ}
    (hl : i < w.objs.length) (ht : Untargeted i w ops) : (w.run ops).obj i = w.obj i := by
  induction ops generalizing w with
  | nil => rfl
  | cons op ops ih =>
    have hs := step_spec hi op hd.1
    rw [World.run, ih hs.inv hd.2 (lt_of_lt_of_le hl hs.objs_le) ht.2, hs.obj i hl ht.1]

end

end Store
end Verif
