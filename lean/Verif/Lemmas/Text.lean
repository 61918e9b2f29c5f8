import Verif.Py.Text
import Verif.Lemmas.Float
import Mathlib.Data.List.TakeWhile

/-!
# Lemmas about python text
-/

namespace Verif

/-! ### split and strip -/

/-- All characters are white space. -/
def AllSpace (t : Text) : Prop := ∀ c ∈ t, isSpace c = true

/-- No character is white space. -/
def NoSpace (t : Text) : Prop := ∀ c ∈ t, isSpace c = false

theorem AllSpace.append {s t : Text} (hs : AllSpace s) (ht : AllSpace t) : AllSpace (s ++ t) := by
  intro c hc; rcases List.mem_append.1 hc with h | h
  · exact hs c h
  · exact ht c h

theorem NoSpace.append {s t : Text} (hs : NoSpace s) (ht : NoSpace t) : NoSpace (s ++ t) := by
  intro c hc; rcases List.mem_append.1 hc with h | h
  · exact hs c h
  · exact ht c h

theorem splitGo_noSpace (t : Text) (ht : NoSpace t) (cur rest : Text) :
    splitGo cur (t ++ rest) = splitGo (cur ++ t) rest := by
  induction t generalizing cur with
  | nil => simp
  | cons c t ih =>
    have hc := ht c List.mem_cons_self
    rw [List.cons_append, splitGo, if_neg (by simp [hc]), ih (fun c h => ht c (List.mem_cons_of_mem _ h))]
    simp

theorem splitGo_nil_space (w : Text) (hw : AllSpace w) (rest : Text) :
    splitGo [] (w ++ rest) = splitGo [] rest := by
  induction w with
  | nil => simp
  | cons c w ih =>
    have hc := hw c List.mem_cons_self
    rw [List.cons_append, splitGo, if_pos hc, if_pos rfl, ih (fun c h => hw c (List.mem_cons_of_mem _ h))]

theorem splitGo_cur_space {cur : Text} (hcur : cur ≠ []) (w : Text) (hw : AllSpace w) (hne : w ≠ []) (rest : Text) :
    splitGo cur (w ++ rest) = cur :: splitGo [] rest := by
  match w, hne with
  | c :: w, _ =>
    have hc := hw c List.mem_cons_self
    rw [List.cons_append, splitGo, if_pos hc, if_neg hcur,
      splitGo_nil_space w (fun c h => hw c (List.mem_cons_of_mem _ h))]

theorem splitGo_space_right (t w : Text) (hw : AllSpace w) (cur : Text) :
    splitGo cur (t ++ w) = splitGo cur t := by
  induction t generalizing cur with
  | nil =>
    by_cases h : cur = []
    · subst h
      have := splitGo_nil_space w hw []
      simpa using this
    · by_cases hne : w = []
      · subst hne; simp
      · have := splitGo_cur_space h w hw hne []
        rw [List.append_nil] at this
        rw [List.nil_append, this, splitGo, splitGo, if_neg h, if_pos rfl]
  | cons c t ih =>
    rw [List.cons_append, splitGo, splitGo]
    split_ifs <;> simp [ih]

theorem dropWhile_append_takeWhile (t : Text) : t = t.takeWhile isSpace ++ t.dropWhile isSpace :=
  List.takeWhile_append_dropWhile.symm

theorem takeWhile_allSpace (t : Text) : AllSpace (t.takeWhile isSpace) := fun _ hc =>
  List.mem_takeWhile_imp hc

/-- `strip` removes white space at both ends only. -/
theorem strip_decomp (t : Text) : ∃ a b, AllSpace a ∧ AllSpace b ∧ t = a ++ strip t ++ b := by
  refine ⟨t.takeWhile isSpace, (((t.dropWhile isSpace).reverse).takeWhile isSpace).reverse,
    takeWhile_allSpace t, fun c hc => takeWhile_allSpace _ c (List.mem_reverse.1 hc), ?_⟩
  conv_lhs => rw [dropWhile_append_takeWhile t]
  rw [List.append_assoc]
  congr 1
  rw [strip, ← List.reverse_append, List.takeWhile_append_dropWhile, List.reverse_reverse]

theorem pySplit_strip (t : Text) : pySplit (strip t) = pySplit t := by
  obtain ⟨a, b, ha, hb, h⟩ := strip_decomp t
  conv_rhs => rw [h]
  rw [pySplit, pySplit, splitGo_space_right _ _ hb, splitGo_nil_space _ ha]

/-- Split a text that starts with optional white space and a token. -/
theorem pySplit_token (w t rest : Text) (hw : AllSpace w) (ht : NoSpace t) (hne : t ≠ [])
    (hrest : rest = [] ∨ ∃ c r, rest = c :: r ∧ isSpace c = true) :
    pySplit (w ++ (t ++ rest)) = t :: pySplit rest := by
  rw [pySplit, splitGo_nil_space w hw, splitGo_noSpace t ht, List.nil_append]
  rcases hrest with rfl | ⟨c, r, rfl, hc⟩
  · rw [splitGo, if_neg hne]; rfl
  · rw [splitGo, if_pos hc, if_neg hne, pySplit, splitGo, if_pos hc, if_pos rfl]

theorem pySplit_allSpace (w : Text) (hw : AllSpace w) : pySplit w = [] := by
  have := splitGo_nil_space w hw []
  rw [List.append_nil] at this
  rw [pySplit, this]; rfl

/-- Every text is white space, or white space, a token and a rest. -/
theorem text_cases (t : Text) : AllSpace t ∨ ∃ w tok rest, AllSpace w ∧ NoSpace tok ∧ tok ≠ [] ∧
    (rest = [] ∨ ∃ c r, rest = c :: r ∧ isSpace c = true) ∧ t = w ++ (tok ++ rest) := by
  by_cases h : AllSpace t
  · exact Or.inl h
  · right
    refine ⟨t.takeWhile isSpace, (t.dropWhile isSpace).takeWhile (fun c => !isSpace c),
      (t.dropWhile isSpace).dropWhile (fun c => !isSpace c), takeWhile_allSpace t, ?_, ?_, ?_, ?_⟩
    · intro c hc
      have := List.mem_takeWhile_imp hc
      simpa using this
    · have hne : t.dropWhile isSpace ≠ [] := by
        intro hnil
        apply h
        intro c hc
        exact List.dropWhile_eq_nil_iff.1 hnil c hc
      intro hnil
      obtain ⟨c, r, hcr⟩ := List.exists_cons_of_ne_nil hne
      have hc : isSpace c = false := by
        have := List.head_dropWhile_not isSpace (l := t) (by rw [hcr]; simp)
        simpa [hcr] using this
      rw [hcr, List.takeWhile_cons, if_pos (by simp [hc])] at hnil
      cases hnil
    · by_cases hnil : (t.dropWhile isSpace).dropWhile (fun c => !isSpace c) = []
      · exact Or.inl hnil
      · right
        obtain ⟨c, r, hcr⟩ := List.exists_cons_of_ne_nil hnil
        refine ⟨c, r, hcr, ?_⟩
        have := List.head_dropWhile_not (fun c => !isSpace c) (l := t.dropWhile isSpace) (by rw [hcr]; simp)
        simpa [hcr] using this
    · rw [List.takeWhile_append_dropWhile, List.takeWhile_append_dropWhile]

theorem pySplit_length_lt {w tok rest : Text} (hne : tok ≠ []) : rest.length < (w ++ (tok ++ rest)).length := by
  have : 0 < tok.length := List.length_pos_iff.2 hne
  simp; omega

/-! ### Lines -/

/-- Split at every carriage return and every line feed, dropping them. -/
def chunks : Text → List Text
  | [] => [[]]
  | c :: t =>
    if c = '\n' ∨ c = '\r' then [] :: chunks t
    else match chunks t with
      | [] => [[c]]
      | l :: ls => (c :: l) :: ls

theorem chunks_ne_nil (t : Text) : chunks t ≠ [] := by
  cases t with
  | nil => simp [chunks]
  | cons c t =>
    rw [chunks]
    split_ifs
    · simp
    · split <;> simp

theorem chunks_break {c : Char} (h : c = '\n' ∨ c = '\r') (t : Text) : chunks (c :: t) = [] :: chunks t := by
  rw [chunks, if_pos h]

theorem chunks_char {c : Char} (h1 : c ≠ '\n') (h2 : c ≠ '\r') {t l : Text} {ls : List Text}
    (h : chunks t = l :: ls) : chunks (c :: t) = (c :: l) :: ls := by
  rw [chunks, if_neg (by rintro (h | h); exacts [h1 h, h2 h]), h]

theorem univ_lf (t : Text) : univNewlines ('\n' :: t) = '\n' :: univNewlines t := by
  rw [univNewlines] <;> intros <;> simp_all

theorem univ_crlf (t : Text) : univNewlines ('\r' :: '\n' :: t) = '\n' :: univNewlines t := by
  rw [univNewlines]

theorem univ_cr (t : Text) (h : ∀ u, t ≠ '\n' :: u) : univNewlines ('\r' :: t) = '\n' :: univNewlines t := by
  rw [univNewlines]
  intro u hu; exact h u hu

theorem univ_char {c : Char} (h : c ≠ '\r') (t : Text) : univNewlines (c :: t) = c :: univNewlines t := by
  rw [univNewlines] <;> intros <;> simp_all

/-- A text without carriage returns: lines and chunks agree for a function that ignores a trailing `\n` and
the empty line. -/
theorem lines_filterMap_lf {β : Type} (f : Text → Option β) (hf : ∀ l, f (l ++ ['\n']) = f l)
    (h0 : f [] = none) (t : Text) (ht : ∀ c ∈ t, c ≠ '\r') :
    (lines t).filterMap f = (chunks t).filterMap f := by
  suffices H : ∀ p : Text,
      (match lines t with | [] => (if p = [] then [] else [p]) | l :: ls => (p ++ l) :: ls).filterMap f
        = (match chunks t with | [] => [p] | l :: ls => (p ++ l) :: ls).filterMap f by
    have := H []
    obtain ⟨a', b', h2⟩ := List.exists_cons_of_ne_nil (chunks_ne_nil t)
    revert this
    rw [h2]
    rcases h1 : lines t with _ | ⟨a, b⟩ <;> simp
  induction t with
  | nil =>
    intro p
    by_cases hp : p = []
    · simp [lines, chunks, hp, h0]
    · simp [lines, chunks, hp]
  | cons c t ih =>
    intro p
    have ht' : ∀ c ∈ t, c ≠ '\r' := fun c h => ht c (List.mem_cons_of_mem _ h)
    obtain ⟨a', b', h2⟩ := List.exists_cons_of_ne_nil (chunks_ne_nil t)
    by_cases hn : c = '\n'
    · subst hn
      have e1 : (lines t).filterMap f = (chunks t).filterMap f := by
        have := ih ht' []
        revert this
        rw [h2]
        rcases h1 : lines t with _ | ⟨a, b⟩ <;> simp
      rw [lines, if_pos rfl, chunks_break (Or.inl rfl)]
      simp only [List.append_nil, List.filterMap_cons, hf, e1]
    · have hih := ih ht' (p ++ [c])
      rw [lines, if_neg hn, chunks_char hn (ht c List.mem_cons_self) h2]
      rw [h2] at hih
      revert hih
      rcases h1 : lines t with _ | ⟨a, b⟩ <;> simp

theorem univ_noCR (t : Text) : ∀ c ∈ univNewlines t, c ≠ '\r' := by
  fun_induction univNewlines t with
  | case1 => simp
  | case2 t ih => intro c hc; rcases List.mem_cons.1 hc with rfl | h; decide; exact ih c h
  | case3 t _ ih => intro c hc; rcases List.mem_cons.1 hc with rfl | h; decide; exact ih c h
  | case4 c t h1 h2 ih =>
    intro c' hc
    rcases List.mem_cons.1 hc with rfl | h
    · intro hcr; exact h2 hcr
    · exact ih c' h

theorem chunks_univ_filterMap {β : Type} (f : Text → Option β) (h0 : f [] = none) (t : Text) :
    ∀ p : Text, (match chunks (univNewlines t) with | [] => [p] | l :: ls => (p ++ l) :: ls).filterMap f
      = (match chunks t with | [] => [p] | l :: ls => (p ++ l) :: ls).filterMap f := by
  have strip0 : ∀ u : Text, (∀ p : Text,
      (match chunks (univNewlines u) with | [] => [p] | l :: ls => (p ++ l) :: ls).filterMap f
      = (match chunks u with | [] => [p] | l :: ls => (p ++ l) :: ls).filterMap f) →
      (chunks (univNewlines u)).filterMap f = (chunks u).filterMap f := by
    intro u hu
    have := hu []
    obtain ⟨a, b, h1⟩ := List.exists_cons_of_ne_nil (chunks_ne_nil (univNewlines u))
    obtain ⟨a', b', h2⟩ := List.exists_cons_of_ne_nil (chunks_ne_nil u)
    rw [h1, h2] at this ⊢
    simpa using this
  fun_induction univNewlines t with
  | case1 => simp
  | case2 t ih =>
    intro p
    rw [chunks_break (Or.inl rfl), chunks_break (Or.inr rfl), chunks_break (Or.inl rfl)]
    simp [List.filterMap_cons, h0, strip0 t ih]
  | case3 t _ ih =>
    intro p
    rw [chunks_break (Or.inl rfl), chunks_break (Or.inr rfl)]
    simp [List.filterMap_cons, strip0 t ih]
  | case4 c t h1 h2 ih =>
    intro p
    by_cases hn : c = '\n'
    · subst hn
      rw [chunks_break (Or.inl rfl), chunks_break (Or.inl rfl)]
      simp [List.filterMap_cons, strip0 t ih]
    · obtain ⟨a, b, e1⟩ := List.exists_cons_of_ne_nil (chunks_ne_nil (univNewlines t))
      obtain ⟨a', b', e2⟩ := List.exists_cons_of_ne_nil (chunks_ne_nil t)
      have hr : c ≠ '\r' := fun h => h2 h
      rw [chunks_char hn hr e1, chunks_char hn hr e2]
      have := ih (p ++ [c])
      rw [e1, e2] at this
      simpa using this

/-- What a line-wise reader that ignores blank lines sees depends only on splitting at every `\r` and `\n`. -/
theorem lines_filterMap {β : Type} (f : Text → Option β) (hf : ∀ l, f (l ++ ['\n']) = f l) (h0 : f [] = none)
    (t : Text) : (lines (univNewlines t)).filterMap f = (chunks t).filterMap f := by
  rw [lines_filterMap_lf f hf h0 _ (univ_noCR t)]
  have := chunks_univ_filterMap f h0 t []
  obtain ⟨a, b, e1⟩ := List.exists_cons_of_ne_nil (chunks_ne_nil (univNewlines t))
  obtain ⟨a', b', e2⟩ := List.exists_cons_of_ne_nil (chunks_ne_nil t)
  rw [e1, e2] at this ⊢
  simpa using this

theorem chunks_append_break (a b : Text) (ha : ∀ c ∈ a, c ≠ '\n' ∧ c ≠ '\r') (c : Char) (hc : c = '\n' ∨ c = '\r') :
    chunks (a ++ c :: b) = a :: chunks b := by
  induction a with
  | nil => rw [List.nil_append, chunks, if_pos hc]
  | cons x a ih =>
    have hx := ha x List.mem_cons_self
    rw [List.cons_append, chunks, if_neg (by rintro (h | h); exacts [hx.1 h, hx.2 h]),
      ih (fun c h => ha c (List.mem_cons_of_mem _ h))]

theorem chunks_noBreak (a : Text) (ha : ∀ c ∈ a, c ≠ '\n' ∧ c ≠ '\r') : chunks a = [a] := by
  induction a with
  | nil => rfl
  | cons x a ih =>
    have hx := ha x List.mem_cons_self
    rw [chunks, if_neg (by rintro (h | h); exacts [hx.1 h, hx.2 h]),
      ih (fun c h => ha c (List.mem_cons_of_mem _ h))]

end Verif
