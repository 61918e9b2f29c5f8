import Verif.Props.Lsd

/-!
# C78: stacks of LSD profiles
-/

namespace Verif
open Lsd Spec

namespace Lsd

/-- What `stackOne` does to an axes. -/
def stacked (rows : List (List PyFloat)) (legend : Option Text) (ax : Ax) : Ax :=
  { ax with
    curves := ax.curves ++ [⟨rows.map fun r => r.getD 0 .nan, rows.map fun r => r.getD 3 .nan,
      rows.map fun r => r.getD 4 .nan⟩]
    legend := legend
    ylabel := some "$V/V_\\mathrm{c}$".toList }

theorem hasV {refuses : Bool} {rows : List (List PyFloat)} : HasParam refuses rows 'V' ↔
    ∀ r ∈ rows, ∃ e, r[4]? = some e ∧ (refuses = true → negative e = false) := by
  constructor
  · rintro ⟨k, hk, h⟩
    match k with
    | 0 => exact absurd hk (by decide)
    | 1 => exact h
    | 2 => exact absurd hk (by decide)
    | k + 3 => simp [stokes] at hk
  · exact fun h => ⟨1, rfl, h⟩

theorem stackOne_ok {refuses : Bool} {names : Option (List Text)} {rows : List (List PyFloat)}
    (hr : HasParam refuses rows 'V') {fig : Fig} {i : ℕ} (hi : i < fig.length) {g : Option Text}
    (hg : legendAt names i fig[i].legend = .ok g) :
    stackOne refuses names fig i (.matrix rows) = .ok (fig.set i (stacked rows g fig[i])) := by
  have hr := hasV.1 hr
  have hl : ∀ r ∈ rows, 4 < r.length := fun r h => by
    obtain ⟨e, he, -⟩ := hr r h
    exact (List.getElem?_eq_some_iff.1 he).1
  rw [stackOne, List.getElem?_eq_getElem hi]
  simp only [Option.elim_some, bind, Except.bind]
  rw [column_ok fun r h => by have := hl r h; omega]
  simp only
  rw [column_ok fun r h => by have := hl r h; omega]
  simp only
  rw [column_ok fun r h => by have := hl r h; omega]
  simp only
  rw [errorbar_iff.2 ⟨fun h v hv => ?_, rfl⟩]
  · simp only
    rw [hg]
    rfl
  · obtain ⟨r, hr', rfl⟩ := List.mem_map.1 hv
    obtain ⟨e, he, hn⟩ := hr r hr'
    rw [List.getD_eq_getElem?_getD, he]
    exact hn h

theorem stackOne_inv {refuses : Bool} {names : Option (List Text)} {data : Data} {fig fig' : Fig} {i : ℕ}
    (h : stackOne refuses names fig i data = .ok fig') :
    ∃ hi : i < fig.length, (∃ rows, data = .matrix rows ∧ HasParam refuses rows 'V') ∧
      ∃ g, legendAt names i fig[i].legend = .ok g := by
  rw [stackOne] at h
  by_cases hi : i < fig.length
  swap
  · rw [List.getElem?_eq_none (by omega)] at h; cases h
  refine ⟨hi, ?_⟩
  rw [List.getElem?_eq_getElem hi] at h
  simp only [Option.elim_some, bind, Except.bind] at h
  rcases hx : column data 0 with e | x
  · rw [hx] at h; cases h
  rw [hx] at h
  simp only at h
  rcases hy : column data 3 with e | y
  · rw [hy] at h; cases h
  rw [hy] at h
  simp only at h
  rcases he : column data 4 with e | z
  · rw [he] at h; cases h
  rw [he] at h
  simp only at h
  obtain ⟨rows, rfl, hl⟩ := column_inv he
  rw [column_ok hl] at he
  cases he
  rcases hb : errorbar refuses fig[i] x y (rows.map fun r => r.getD 4 .nan) with e | b
  · rw [hb] at h; cases h
  rw [hb] at h
  simp only at h
  obtain ⟨hb1, rfl⟩ := errorbar_iff.1 hb
  refine ⟨⟨rows, rfl, hasV.2 fun r hr => ⟨_, List.getElem?_eq_getElem (hl r hr), fun hh => ?_⟩⟩, ?_⟩
  · have := hb1 hh _ (List.mem_map_of_mem hr)
    rwa [List.getD_eq_getElem _ _ (hl r hr)] at this
  · rcases hg : legendAt names i fig[i].legend with e | g
    · rw [hg] at h; cases h
    · exact ⟨g, rfl⟩

/-- The legend of axes `i`. -/
theorem legend_ok {names : Option (List Text)} {i : ℕ} {old : Option Text} (h : ∀ ns, names = some ns → i < ns.length) :
    legendAt names i old = .ok ((names.elim old fun ns => ns[i]?)) := by
  cases names with
  | none => rfl
  | some ns =>
    have := h ns rfl
    rw [legendAt, List.getElem?_eq_getElem this]
    simp [this]

theorem legend_inv {names : Option (List Text)} {i : ℕ} {old g : Option Text} (h : legendAt names i old = .ok g) :
    ∀ ns, names = some ns → i < ns.length := by
  rintro ns rfl
  rw [legendAt] at h
  by_contra hn
  rw [List.getElem?_eq_none (by omega)] at h
  cases h

theorem stackAll_ok {refuses : Bool} {names : Option (List Text)} (stack : List Data) {fig : Fig} {i : ℕ}
    (hp : ∀ d ∈ stack, ∃ rows, d = .matrix rows ∧ HasParam refuses rows 'V') (hl : i + stack.length ≤ fig.length)
    (hn : ∀ ns, names = some ns → i + stack.length ≤ ns.length) :
    ∃ fig', stackAll refuses names fig i stack = .ok fig' ∧ fig'.length = fig.length ∧
      (∀ j, (j < i ∨ i + stack.length ≤ j) → fig'[j]? = fig[j]?) ∧
      ∀ j rows, stack[j]? = some (.matrix rows) → ∃ ax, fig[i + j]? = some ax ∧
        fig'[i + j]? = some (stacked rows (names.elim ax.legend fun ns => ns[i + j]?) ax) := by
  induction stack generalizing fig i with
  | nil => exact ⟨fig, rfl, rfl, fun _ _ => rfl, fun j c h => by simp at h⟩
  | cons d ds ih =>
    rw [List.length_cons] at hl hn
    obtain ⟨rows, rfl, hr⟩ := hp d (by simp)
    have hi : i < fig.length := by omega
    have hg := legend_ok (names := names) (i := i) (old := fig[i].legend) fun ns e => by have := hn ns e; omega
    obtain ⟨fig', h1, h2, h3, h4⟩ := ih (fig := fig.set i (stacked rows (names.elim fig[i].legend fun ns => ns[i]?) fig[i]))
      (i := i + 1) (fun c h => hp c (by simp [h])) (by rw [List.length_set]; omega)
      (fun ns e => by have := hn ns e; omega)
    refine ⟨fig', ?_, by rw [h2, List.length_set], fun j hj => ?_, fun j rows' hc' => ?_⟩
    · rw [stackAll, stackOne_ok hr hi hg]
      exact h1
    · rw [List.length_cons] at hj
      rw [h3 j (by omega), List.getElem?_set_ne (by omega)]
    · cases j with
      | zero =>
        cases hc'
        refine ⟨fig[i], List.getElem?_eq_getElem hi, ?_⟩
        rw [show i + 0 = i from rfl, h3 i (by omega), List.getElem?_set_self hi]
      | succ j =>
        obtain ⟨ax, e2, e3⟩ := h4 j rows' (by simpa using hc')
        rw [List.getElem?_set_ne (by omega)] at e2
        refine ⟨ax, ?_, ?_⟩
        · rw [show i + (j + 1) = i + 1 + j by omega]; exact e2
        · rw [show i + (j + 1) = i + 1 + j by omega]; exact e3

theorem stackAll_inv {refuses : Bool} {names : Option (List Text)} (stack : List Data) {fig fig' : Fig} {i : ℕ}
    (h : stackAll refuses names fig i stack = .ok fig') :
    (∀ d ∈ stack, ∃ rows, d = .matrix rows ∧ HasParam refuses rows 'V') ∧
      (stack ≠ [] → ∀ ns, names = some ns → i + stack.length ≤ ns.length) := by
  induction stack generalizing fig i with
  | nil => simp
  | cons d ds ih =>
    rw [stackAll] at h
    rcases h1 : stackOne refuses names fig i d with e | f
    · rw [h1] at h; cases h
    rw [h1] at h
    obtain ⟨hi, hd, g, hg⟩ := stackOne_inv h1
    obtain ⟨i1, i2⟩ := ih h
    refine ⟨fun d' hd' => ?_, fun _ ns e => ?_⟩
    · rcases List.mem_cons.1 hd' with rfl | hd'
      · exact hd
      · exact i1 d' hd'
    · have := legend_inv hg ns e
      rw [List.length_cons]
      by_cases hn : ds = []
      · subst hn; simp; omega
      · have := i2 hn ns e
        omega

theorem setLims_ok (auto : List Curve → ℚ × ℚ) (fig : Fig) (hne : fig ≠ []) (y : YLim) :
    ∃ l : Option (ℚ × ℚ), setLims auto fig y = .ok (fig.map fun ax => { ax with lim := l.orElse fun _ => ax.lim }) := by
  cases y with
  | unset => exact ⟨none, by simp [setLims]⟩
  | given lo hi => exact ⟨some (lo, hi), rfl⟩
  | same =>
    match fig, hne with
    | a :: fig, _ => exact ⟨some _, rfl⟩

theorem same_fold (auto : List Curve → ℚ × ℚ) (fig : Fig) (l : ℚ × ℚ) :
    (fig.foldl (fun l a => (min l.1 (getYlim auto a).1, max l.2 (getYlim auto a).2)) l).1
      = (fig.map fun a => (getYlim auto a).1).foldl min l.1 ∧
    (fig.foldl (fun l a => (min l.1 (getYlim auto a).1, max l.2 (getYlim auto a).2)) l).2
      = (fig.map fun a => (getYlim auto a).2).foldl max l.2 := by
  induction fig generalizing l with
  | nil => exact ⟨rfl, rfl⟩
  | cons a fig ih =>
    rw [List.foldl_cons]
    exact ih _

theorem foldl_min_spec (xs : List ℚ) (a : ℚ) : (xs.foldl min a = a ∨ xs.foldl min a ∈ xs) ∧ xs.foldl min a ≤ a ∧
    ∀ x ∈ xs, xs.foldl min a ≤ x := by
  induction xs generalizing a with
  | nil => simp
  | cons x xs ih =>
    rw [List.foldl_cons]
    obtain ⟨h1, h2, h3⟩ := ih (min a x)
    refine ⟨?_, h2.trans (min_le_left _ _), fun y hy => ?_⟩
    · rcases h1 with h1 | h1
      · rw [h1]
        rcases min_choice a x with h | h
        · exact .inl h
        · exact .inr (by rw [h]; simp)
      · exact .inr (List.mem_cons_of_mem _ h1)
    · rcases List.mem_cons.1 hy with rfl | hy
      · exact h2.trans (min_le_right _ _)
      · exact h3 y hy

theorem foldl_max_spec (xs : List ℚ) (a : ℚ) : (xs.foldl max a = a ∨ xs.foldl max a ∈ xs) ∧ a ≤ xs.foldl max a ∧
    ∀ x ∈ xs, x ≤ xs.foldl max a := by
  induction xs generalizing a with
  | nil => simp
  | cons x xs ih =>
    rw [List.foldl_cons]
    obtain ⟨h1, h2, h3⟩ := ih (max a x)
    refine ⟨?_, (le_max_left _ _).trans h2, fun y hy => ?_⟩
    · rcases h1 with h1 | h1
      · rw [h1]
        rcases max_choice a x with h | h
        · exact .inl h
        · exact .inr (by rw [h]; simp)
      · exact .inr (List.mem_cons_of_mem _ h1)
    · rcases List.mem_cons.1 hy with rfl | hy
      · exact (le_max_right _ _).trans h2
      · exact h3 y hy

theorem stackAxes_eq (n : ℕ) (hn : n ≠ 0) (fig : Fig) :
    stackAxes n fig = .ok (if fig.length = n then (true, fig) else (decide (n ≠ 1), List.replicate n {})) := by
  rw [stackAxes]
  split_ifs with h
  · rfl
  · rw [subplots, if_neg hn]; rfl

end Lsd

/-- The axes of the stack: those of the figure if there are as many as profiles, or new ones. -/
def Spec.stackBase (n : ℕ) (fig : Fig) : Fig := if fig.length = n then fig else List.replicate n {}

namespace Lsd

theorem base_length (n : ℕ) (fig : Fig) : (stackBase n fig).length = n := by
  rw [stackBase]; split_ifs with h
  · exact h
  · simp

theorem plotStack_run (refuses : Bool) (auto : List Curve → ℚ × ℚ) (stack : List Data) (hne : stack ≠ [])
    (names : Option (List Text)) (ylim : YLim) (fig : Fig) :
    plotStack refuses auto stack names ylim fig =
      if stack.length = 1 ∧ fig.length ≠ 1 then .error .type
      else (stackAll refuses names (stackBase stack.length fig) 0 stack).bind fun f =>
        (setLims auto f ylim).bind fun f => .ok (f.modify (stack.length - 1) fun ax => { ax with xlabel := some "[km/s]".toList }) := by
  have h0 := List.length_pos_of_ne_nil hne
  rw [plotStack.eq_def, stackAxes_eq _ (by omega)]
  simp only [bind, Except.bind, if_neg hne]
  by_cases h : fig.length = stack.length
  · rw [if_pos h, if_neg (show ¬ (stack.length = 1 ∧ fig.length ≠ 1) by omega), stackBase, if_pos h]
    simp only [Bool.true_eq_false, if_false]
    rcases stackAll refuses names fig 0 stack with e | f
    · rfl
    · simp only
      rcases setLims auto f ylim with e | g <;> rfl
  · rw [if_neg h, stackBase, if_neg h]
    by_cases h1 : stack.length = 1
    · rw [if_pos (by simp [h1]), if_pos ⟨h1, by omega⟩]
    · rw [if_neg (by simp [h1]), if_neg (show ¬ (stack.length = 1 ∧ fig.length ≠ 1) by omega)]
      rcases stackAll refuses names (List.replicate stack.length {}) 0 stack with e | f
      · rfl
      · simp only
        rcases setLims auto f ylim with e | g <;> rfl

end Lsd

/-! ## C78 -/

/-- **C78.** When a stack is drawn: each profile has the circular polarisation and its error, there are enough names, and
there are two profiles or more, or one and a figure with one axes. -/
theorem C78_stack_iff (refuses : Bool) (auto : List Curve → ℚ × ℚ) (stack : List Data) (hne : stack ≠ [])
    (names : Option (List Text)) (ylim : YLim) (fig : Fig) :
    (∃ fig', plotStack refuses auto stack names ylim fig = .ok fig') ↔
      (stack.length = 1 → fig.length = 1) ∧ (∀ d ∈ stack, ∃ rows, d = .matrix rows ∧ HasParam refuses rows 'V') ∧
        ∀ ns, names = some ns → stack.length ≤ ns.length := by
  have h0 := List.length_pos_of_ne_nil hne
  rw [plotStack_run _ _ _ hne]
  by_cases h : stack.length = 1 ∧ fig.length ≠ 1
  · rw [if_pos h]
    constructor
    · rintro ⟨f, h'⟩; cases h'
    · rintro ⟨h', -⟩; exact absurd (h' h.1) h.2
  rw [if_neg h]
  constructor
  · rintro ⟨f', h'⟩
    rcases hs : stackAll refuses names (stackBase stack.length fig) 0 stack with e | f
    · rw [hs] at h'; cases h'
    obtain ⟨i1, i2⟩ := stackAll_inv stack hs
    exact ⟨fun e => by_contra fun h' => h ⟨e, h'⟩, i1, fun ns e => by have := i2 hne ns e; omega⟩
  · rintro ⟨-, h1, h2⟩
    obtain ⟨f, hf, hl, -⟩ := stackAll_ok (names := names) stack (fig := stackBase stack.length fig) (i := 0) h1
      (by rw [base_length]; omega) (fun ns e => by have := h2 ns e; omega)
    rw [base_length] at hl
    obtain ⟨l, hl'⟩ := setLims_ok auto f (by rintro rfl; simp at hl; omega) ylim
    rw [hf]
    simp only [Except.bind, hl']
    exact ⟨_, rfl⟩

/-- **C78.** What is drawn: axes number `j` shows the circular polarisation of profile number `j` with its error against
the velocity, under its name if there are names. -/
theorem C78_stack (refuses : Bool) (auto : List Curve → ℚ × ℚ) (stack : List Data) (hne : stack ≠ [])
    (names : Option (List Text)) (ylim : YLim) (fig fig' : Fig) (h : plotStack refuses auto stack names ylim fig = .ok fig') :
    fig'.length = stack.length ∧ ∀ (j : ℕ) (d : Data), stack[j]? = some d → ∃ rows old ax, d = .matrix rows ∧
      (stackBase stack.length fig)[j]? = some old ∧ fig'[j]? = some ax ∧ ax.curves.dropLast = old.curves ∧
      ShowsColumn ax rows 3 ∧ ax.ylabel = some "$V/V_\\mathrm{c}$".toList ∧
      (∀ ns, names = some ns → ax.legend = ns[j]? ∧ ax.legend ≠ none) ∧
      (j + 1 = stack.length → ax.xlabel = some "[km/s]".toList) := by
  obtain ⟨h1, h2, h3⟩ := (C78_stack_iff refuses auto stack hne names ylim fig).1 ⟨_, h⟩
  have h0 := List.length_pos_of_ne_nil hne
  obtain ⟨f, hf, hl, -, hd⟩ := stackAll_ok (names := names) stack (fig := stackBase stack.length fig) (i := 0) h2
    (by rw [base_length]; omega) (fun ns e => by have := h3 ns e; omega)
  rw [base_length] at hl
  obtain ⟨l, hl'⟩ := setLims_ok auto f (by rintro rfl; simp at hl; omega) ylim
  rw [plotStack_run _ _ _ hne, if_neg (by rintro ⟨a, b⟩; exact b (h1 a)), hf] at h
  simp only [Except.bind, hl'] at h
  cases h
  refine ⟨by rw [List.length_modify, List.length_map, hl], fun j d hj => ?_⟩
  obtain ⟨rows, rfl, hr⟩ := h2 d (List.mem_of_getElem? hj)
  have hjl := (List.getElem?_eq_some_iff.1 hj).1
  obtain ⟨old, e1, e2⟩ := hd j rows hj
  rw [Nat.zero_add] at e1 e2
  have hs : ShowsColumn (stacked rows (names.elim old.legend fun ns => ns[j]?) old) rows 3 :=
    drawn_shows (k := 3) (c := 'V') (ax := old) fun r hr' => by
      obtain ⟨e, he, -⟩ := hasV.1 hr r hr'
      exact (List.getElem?_eq_some_iff.1 he).1
  have hleg : ∀ ns, names = some ns → (stacked rows (names.elim old.legend fun ns => ns[j]?) old).legend = ns[j]? ∧
      (stacked rows (names.elim old.legend fun ns => ns[j]?) old).legend ≠ none := by
    rintro ns rfl
    refine ⟨rfl, ?_⟩
    have := h3 ns rfl
    simp only [stacked, Option.elim_some]
    rw [List.getElem?_eq_getElem (by omega)]
    simp
  by_cases hlast : stack.length - 1 = j
  · refine ⟨rows, old, { stacked rows (names.elim old.legend fun ns => ns[j]?) old with
        lim := l.orElse fun _ => old.lim, xlabel := some "[km/s]".toList }, rfl, e1, by rw [hlast, modify_at, List.getElem?_map, e2]; rfl, ?_, hs, rfl, hleg, fun _ => rfl⟩
    simp [stacked]
  · refine ⟨rows, old, { stacked rows (names.elim old.legend fun ns => ns[j]?) old with
        lim := l.orElse fun _ => old.lim }, rfl, e1, by rw [modify_ne _ _ hlast, List.getElem?_map, e2]; rfl, ?_, hs, rfl, hleg, fun h => by omega⟩
    simp [stacked]

/-- **C78.** The limits do not decide whether a stack is drawn nor what is drawn: with two settings the figures differ in
their limits only. With limits given, all axes have them. -/
theorem C78_limits (refuses : Bool) (auto : List Curve → ℚ × ℚ) (stack : List Data) (hne : stack ≠ [])
    (names : Option (List Text)) (fig fig' : Fig) (h : plotStack refuses auto stack names .unset fig = .ok fig') (lo hi : ℚ) :
    plotStack refuses auto stack names (.given lo hi) fig = .ok (fig'.map fun ax => { ax with lim := some (lo, hi) }) := by
  have h1 := ((C78_stack_iff refuses auto stack hne names .unset fig).1 ⟨_, h⟩).1
  rw [plotStack_run _ _ _ hne, if_neg (by rintro ⟨a, b⟩; exact b (h1 a))] at h ⊢
  rcases hs : stackAll refuses names (stackBase stack.length fig) 0 stack with e | f
  · rw [hs] at h; cases h
  rw [hs] at h
  simp only [Except.bind, setLims] at h ⊢
  cases h
  congr 1
  apply List.ext_getElem?
  intro j
  by_cases hj : stack.length - 1 = j
  · rw [hj, modify_at, List.getElem?_map, List.getElem?_map, modify_at]
    rcases f[j]? with _ | a <;> rfl
  · rw [modify_ne _ _ hj, List.getElem?_map, List.getElem?_map, modify_ne _ _ hj]

/-- **C78.** With `y_lim='same'` all axes have the same limits: the least of the lower and the greatest of the upper
limits they have without it. So no axes loses anything of what it would show. -/
theorem C78_same (refuses : Bool) (auto : List Curve → ℚ × ℚ) (stack : List Data) (hne : stack ≠ [])
    (names : Option (List Text)) (fig fig' : Fig) (h : plotStack refuses auto stack names .unset fig = .ok fig') :
    ∃ lo hi : ℚ, plotStack refuses auto stack names .same fig = .ok (fig'.map fun ax => { ax with lim := some (lo, hi) }) ∧
      IsLeast {y | ∃ ax ∈ fig', y = (getYlim auto ax).1} lo ∧ IsGreatest {y | ∃ ax ∈ fig', y = (getYlim auto ax).2} hi := by
  have h1 := ((C78_stack_iff refuses auto stack hne names .unset fig).1 ⟨_, h⟩).1
  have hlen := (C78_stack _ _ _ hne _ _ _ _ h).1
  have h0 := List.length_pos_of_ne_nil hne
  have hg : ∀ lo hi : ℚ, _ := fun lo hi => C78_limits refuses auto stack hne names fig fig' h lo hi
  rw [plotStack_run _ _ _ hne, if_neg (by rintro ⟨a, b⟩; exact b (h1 a))] at h ⊢
  simp only [plotStack_run _ _ _ hne, if_neg (show ¬ (stack.length = 1 ∧ fig.length ≠ 1) by rintro ⟨a, b⟩; exact b (h1 a))] at hg
  rcases hs : stackAll refuses names (stackBase stack.length fig) 0 stack with e | f
  · rw [hs] at h; cases h
  rw [hs] at h
  simp only [hs, Except.bind, setLims] at h hg ⊢
  cases h
  rw [List.length_modify] at hlen
  have hset : ∀ P : ℚ × ℚ → ℚ, {y | ∃ ax ∈ f.modify (stack.length - 1) fun ax => { ax with xlabel := some "[km/s]".toList },
      y = P (getYlim auto ax)} = {y | y ∈ f.map fun a => P (getYlim auto a)} := by
    intro P
    have hm : (f.modify (stack.length - 1) fun ax => { ax with xlabel := some "[km/s]".toList }).map (fun a => P (getYlim auto a))
        = f.map fun a => P (getYlim auto a) := by
      apply List.ext_getElem?
      intro j
      by_cases hj : stack.length - 1 = j
      · rw [hj, List.getElem?_map, modify_at, List.getElem?_map]
        rcases f[j]? with _ | a <;> rfl
      · rw [List.getElem?_map, modify_ne _ _ hj, List.getElem?_map]
    rw [← hm]
    ext y
    simp only [Set.mem_setOf_eq, List.mem_map, eq_comm]
  rw [hset Prod.fst, hset Prod.snd]
  match f, hlen with
  | [], hl => simp at hl; omega
  | a :: f, _ =>
    obtain ⟨f1, f2⟩ := same_fold auto (a :: f) (getYlim auto a)
    obtain ⟨m1, m2, m3⟩ := foldl_min_spec ((a :: f).map fun a => (getYlim auto a).1) (getYlim auto a).1
    obtain ⟨n1, n2, n3⟩ := foldl_max_spec ((a :: f).map fun a => (getYlim auto a).2) (getYlim auto a).2
    refine ⟨((a :: f).map fun a => (getYlim auto a).1).foldl min (getYlim auto a).1,
      ((a :: f).map fun a => (getYlim auto a).2).foldl max (getYlim auto a).2, Eq.trans ?_ (hg _ _),
      ⟨?_, fun y hy => m3 y hy⟩, ⟨?_, fun y hy => n3 y hy⟩⟩
    · simp only [sameLim, List.head?_cons, Option.elim_some, bind, Except.bind, pure, Except.pure]
      rw [← f1, ← f2]
    · rcases m1 with m1 | m1
      · rw [m1]; simp
      · exact m1
    · rcases n1 with n1 | n1
      · rw [n1]; simp
      · exact n1

/-- **C78 is violated.** A stack of one profile raises TypeError unless the current figure has exactly one axes. -/
theorem C78_single (refuses : Bool) (auto : List Curve → ℚ × ℚ) (d : Data) (names : Option (List Text)) (ylim : YLim)
    (fig : Fig) (h : fig.length ≠ 1) : plotStack refuses auto [d] names ylim fig = .error .type := by
  rw [plotStack_run _ _ _ (by simp), if_pos ⟨rfl, h⟩]

/-- **C78.** An empty stack on a figure with axes, or without limits given, raises. -/
theorem C78_empty (refuses : Bool) (auto : List Curve → ℚ × ℚ) (names : Option (List Text)) (ylim : YLim) (fig : Fig) :
    (∃ fig', plotStack refuses auto [] names ylim fig = .ok fig') ↔ fig = [] ∧ ∃ lo hi, ylim = .given lo hi := by
  rw [plotStack.eq_def]
  cases fig with
  | nil => cases ylim <;> simp [stackAxes, bind, Except.bind]
  | cons a fig => simp [stackAxes, bind, Except.bind, subplots]

/-! ### Cases meeting the hypotheses -/

private def stackRows (a : ℚ) : List (List PyFloat) :=
  [[.fin true a, .fin false 1, .fin false (1/100), .fin false (2/1000), .fin false (1/1000)],
   [.fin false a, .fin false (9/10), .fin false (1/100), .fin true (2/1000), .fin false (1/1000)]]

private theorem stack_has (a : ℚ) : HasParam true (stackRows a) 'V' :=
  hasV.2 (by
    intro r hr
    simp only [stackRows, List.mem_cons, List.not_mem_nil, or_false] at hr
    rcases hr with rfl | rfl <;> exact ⟨_, rfl, fun _ => rfl⟩)

example (auto : List Curve → ℚ × ℚ) (ylim : YLim) : ∃ fig,
    plotStack true auto [.matrix (stackRows 1), .matrix (stackRows 2)] (some ["a".toList, "b".toList]) ylim [] = .ok fig :=
  (C78_stack_iff _ _ _ (by simp) _ _ _).2 ⟨by simp, by
    intro d hd
    simp only [List.mem_cons, List.not_mem_nil, or_false] at hd
    rcases hd with rfl | rfl
    · exact ⟨_, rfl, stack_has 1⟩
    · exact ⟨_, rfl, stack_has 2⟩, by rintro ns ⟨⟩; simp⟩

/-- The limits chosen for two curves differ; `'same'` gives their hull. -/
example : (plotStack true (fun cs => (-(cs.length : ℚ), cs.length)) [.matrix (stackRows 1), .matrix (stackRows 2)] none .same
    [{ lim := some (-3, 1/2) }, {}]).toOption.map (fun f => f.map Ax.lim) = some [some (-3, 1), some (-3, 1)] := by
  decide +kernel

end Verif
