import Verif.Model.Printed
import Verif.Lemmas.Coefficients
import Verif.Lemmas.NumText

/-!
# C95: what the printed forms show
-/

namespace Verif
namespace Spec

variable {α : Type}

/-- The way numpy breaks the text of a long array: every line but the first begins with a space. -/
def Continued (arr : List α → Text) : Prop := ∀ v a b, arr v = a ++ '\n' :: b → b.head? = some ' '

/-- `array(...)`: a closing parenthesis at the end and nowhere else. -/
def Closed (rep : List α → Text) : Prop := ∀ v, ∃ b, rep v = b ++ [')'] ∧ ')' ∉ b

/-- Numbers are printed without commas and line breaks. -/
def Plain (num : α → Text) : Prop := ∀ x, ',' ∉ num x ∧ '\n' ∉ num x

/-- The two sets hold the same keys, and at each of them what is printed in the same way. -/
def SameShown (arr : List α → Text) (s t : Coefs α) : Prop :=
  (∀ l m : ℤ, s.has (.int l) (.int m) = t.has (.int l) (.int m)) ∧
    ∀ (l m : ℤ) v w, s.has (.int l) (.int m) = true → s.get (.int l) (.int m) = .ok v → t.get (.int l) (.int m) = .ok w → arr v = arr w

end Spec

namespace Printed
open Spec
variable {α : Type}

/-! ### Cutting texts -/

theorem cut {c : Char} {x y r r' : Text} (hx : c ∉ x) (hy : c ∉ y) (h : x ++ c :: r = y ++ c :: r') : x = y ∧ r = r' := by
  induction x generalizing y with
  | nil =>
    cases y with
    | nil => simpa using h
    | cons d y => simp at h; simp [h.1] at hy
  | cons b x ih =>
    cases y with
    | nil => simp at h; simp [h.1] at hx
    | cons d y =>
      simp only [List.cons_append, List.cons.injEq] at h
      simp only [List.mem_cons, not_or] at hx hy
      obtain ⟨rfl, h⟩ := h
      obtain ⟨h1, h2⟩ := ih hx.2 hy.2 h
      exact ⟨by rw [h1], h2⟩

theorem cut_continued {x y r r' : Text} (hx : ∀ a b, x = a ++ '\n' :: b → b.head? = some ' ')
    (hy : ∀ a b, y = a ++ '\n' :: b → b.head? = some ' ') (hr : r.head? ≠ some ' ') (hr' : r'.head? ≠ some ' ')
    (h : x ++ '\n' :: r = y ++ '\n' :: r') : x = y ∧ r = r' := by
  have key : ∀ {x y r r' : Text}, (∀ a b, y = a ++ '\n' :: b → b.head? = some ' ') → r.head? ≠ some ' ' →
      ∀ z, y = x ++ z → '\n' :: r = z ++ '\n' :: r' → x = y ∧ r = r' := by
    rintro x y r r' hy hr z rfl h
    cases z with
    | nil => simpa using h
    | cons c z =>
      simp only [List.cons_append, List.cons.injEq] at h
      obtain ⟨rfl, rfl⟩ := h
      have := hy x z rfl
      cases z with
      | nil => simp at this
      | cons d z => exact absurd (by simpa using this) hr
  rcases List.append_eq_append_iff.1 h with ⟨z, h1, h2⟩ | ⟨z, h1, h2⟩
  · exact key hy hr z h1 h2
  · have := key hx hr' z h1 h2
    exact ⟨this.1.symm, this.2.symm⟩

theorem digit_comma : ∀ d < 10, digitChar d ≠ ',' ∧ digitChar d ≠ ':' ∧ digitChar d ≠ ')' ∧ digitChar d ≠ ' ' := by decide

theorem natText_chars (n : ℕ) : ∀ c ∈ natText n, c ≠ ',' ∧ c ≠ ':' ∧ c ≠ ')' ∧ c ≠ ' ' := by
  obtain ⟨ds, h, -, h2, -⟩ := natText_spec n
  rw [h]
  intro c hc
  obtain ⟨d, hd, rfl⟩ := List.mem_map.1 hc
  exact digit_comma d (h2 d hd)

theorem intText_chars (z : ℤ) : ∀ c ∈ intText z, c ≠ ',' ∧ c ≠ ':' ∧ c ≠ ')' ∧ c ≠ ' ' := by
  unfold intText
  split_ifs
  · intro c hc
    rcases List.mem_cons.1 hc with rfl | hc
    · decide
    · exact natText_chars _ c hc
  · exact natText_chars _

theorem intText_inj {a b : ℤ} (h : intText a = intText b) : a = b := by
  have h1 := parseInt_intText Digits.asciiOnly a
  rw [h, parseInt_intText] at h1
  simpa using h1.symm

theorem intText_head (z : ℤ) (t : Text) : (intText z ++ t).head? ≠ some ' ' := by
  have h1 := intText_ne_nil z
  have h2 := intText_chars z
  cases h : intText z with
  | nil => exact absurd h h1
  | cons c u =>
    rw [h] at h2
    have := (h2 c (by simp)).2.2.2
    simpa using this

/-- One line of `str`. -/
def line (k : Key) (x : Text) : Text :=
  intText k.1 ++ ", ".toList ++ intText k.2 ++ ", ".toList ++ x ++ "\n".toList

theorem line_eq (k : Key) (x r : Text) :
    line k x ++ r = intText k.1 ++ ',' :: ' ' :: (intText k.2 ++ ',' :: ' ' :: (x ++ '\n' :: r)) := by
  simp [line, List.append_assoc]

theorem line_head (k : Key) (x r : Text) : (line k x ++ r).head? ≠ some ' ' := by
  rw [line_eq]; exact intText_head _ _

theorem line_cut {k k' : Key} {x x' r r' : Text} (hx : ∀ a b, x = a ++ '\n' :: b → b.head? = some ' ')
    (hx' : ∀ a b, x' = a ++ '\n' :: b → b.head? = some ' ') (hr : r.head? ≠ some ' ') (hr' : r'.head? ≠ some ' ')
    (h : line k x ++ r = line k' x' ++ r') : k = k' ∧ x = x' ∧ r = r' := by
  rw [line_eq, line_eq] at h
  have hc : ∀ z : ℤ, ',' ∉ intText z := fun z hz => (intText_chars z _ hz).1 rfl
  obtain ⟨h1, h⟩ := cut (hc _) (hc _) h
  simp only [List.cons.injEq, true_and] at h
  obtain ⟨h2, h⟩ := cut (hc _) (hc _) h
  simp only [List.cons.injEq, true_and] at h
  obtain ⟨h3, h4⟩ := cut_continued hx hx' hr hr' h
  exact ⟨Prod.ext (intText_inj h1) (intText_inj h2), h3, h4⟩

theorem lines_head (l : List (Key × Text)) : (l.flatMap fun x => line x.1 x.2).head? ≠ some ' ' := by
  cases l with
  | nil => simp
  | cons x l => rw [List.flatMap_cons]; exact line_head _ _ _

theorem lines_inj {l l' : List (Key × Text)} (h : ∀ x ∈ l, ∀ a b, x.2 = a ++ '\n' :: b → b.head? = some ' ')
    (h' : ∀ x ∈ l', ∀ a b, x.2 = a ++ '\n' :: b → b.head? = some ' ')
    (he : (l.flatMap fun x => line x.1 x.2) = l'.flatMap fun x => line x.1 x.2) : l = l' := by
  induction l generalizing l' with
  | nil =>
    cases l' with
    | nil => rfl
    | cons x l' =>
      simp only [List.flatMap_nil, List.flatMap_cons] at he
      have := congrArg List.length he
      simp [line] at this
  | cons x l ih =>
    cases l' with
    | nil =>
      simp only [List.flatMap_nil, List.flatMap_cons] at he
      have := congrArg List.length he
      simp [line] at this
    | cons y l' =>
      simp only [List.flatMap_cons] at he
      obtain ⟨h1, h2, h3⟩ := line_cut (h x (by simp)) (h' y (by simp)) (lines_head l) (lines_head l') he
      rw [ih (fun z hz => h z (List.mem_cons_of_mem _ hz)) (fun z hz => h' z (List.mem_cons_of_mem _ hz)) h3,
        Prod.ext h1 h2]

theorem foldl_flatMap {β : Type} (f : β → Text) (l : List β) (t : Text) :
    l.foldl (fun t k => t ++ f k) t = t ++ l.flatMap f := by
  induction l generalizing t with
  | nil => simp
  | cons k l ih => rw [List.foldl_cons, ih, List.flatMap_cons, List.append_assoc]

/-- What is shown of a set. -/
def shown (arr : List α → Text) (s : Coefs α) : List (Key × Text) := (sortKeys s.keys).map fun k => (k, arr (s.getI k))

theorem str_nonempty (arr : List α → Text) {s : Coefs α} (h : s.dict ≠ []) : strText arr s =
    "Spherical harmonics coefficients:\n".toList ++ (shown arr s).flatMap fun x => line x.1 x.2 := by
  unfold strText shown
  rw [if_neg (by simpa using h), foldl_flatMap, List.flatMap_map]
  rfl

theorem str_empty (arr : List α → Text) {s : Coefs α} (h : s.dict = []) : strText arr s =
    "Empty spherical harmonics coefficients with element like ".toList ++ (arr s.dflt ++ ['.']) := by
  unfold strText
  rw [if_pos (by simp [h]), List.append_assoc]; rfl

theorem shown_iff (arr : List α → Text) {s t : Coefs α} (hs : s.keys.Nodup) (ht : t.keys.Nodup) :
    shown arr s = shown arr t ↔ SameShown arr s t := by
  have hfst : ∀ u : Coefs α, (shown arr u).map Prod.fst = sortKeys u.keys := fun u => by simp [shown, Function.comp_def]
  constructor
  · intro h
    have hk : sortKeys s.keys = sortKeys t.keys := by rw [← hfst, h, hfst]
    have hm : ∀ k, k ∈ s.keys ↔ k ∈ t.keys := fun k => by rw [← mem_sortKeys, hk, mem_sortKeys]
    refine ⟨fun l m => Bool.eq_iff_iff.2 (by rw [Coefs.has_int, Coefs.has_int]; exact hm _), fun l m v w hl hv hw => ?_⟩
    rw [Coefs.get_int, Except.ok.injEq] at hv hw
    subst hv hw
    unfold shown at h
    rw [← hk] at h
    exact (Prod.mk.injEq _ _ _ _).mp ((List.map_inj_left.1 h) (l, m) (by rw [mem_sortKeys]; exact (Coefs.has_int s l m).1 hl)) |>.2
  · rintro ⟨h1, h2⟩
    have hm : ∀ k, k ∈ s.keys ↔ k ∈ t.keys := fun k => by
      rw [← Coefs.has_int s k.1 k.2, ← Coefs.has_int t k.1 k.2, h1]
    have hp : s.keys.Perm t.keys := perm_of_nodup_mem_iff hs ht hm
    unfold shown
    rw [← sortKeys_congr hp]
    refine List.map_congr_left fun k hk => ?_
    rw [mem_sortKeys] at hk
    rw [h2 k.1 k.2 _ _ ((Coefs.has_int s k.1 k.2).2 hk) (Coefs.get_int s k.1 k.2) (Coefs.get_int t k.1 k.2)]

/-! ### `repr` -/

theorem entry_eq (k : Key) (b r : Text) :
    "(".toList ++ intText k.1 ++ ", ".toList ++ intText k.2 ++ "): ".toList ++ (b ++ [')']) ++ r =
      '(' :: (intText k.1 ++ ',' :: ' ' :: (intText k.2 ++ ')' :: ':' :: ' ' :: (b ++ ')' :: r))) := by
  simp [List.append_assoc]

theorem entry_cut {k k' : Key} {b b' r r' : Text} (hb : ')' ∉ b) (hb' : ')' ∉ b')
    (h : "(".toList ++ intText k.1 ++ ", ".toList ++ intText k.2 ++ "): ".toList ++ (b ++ [')']) ++ r =
      "(".toList ++ intText k'.1 ++ ", ".toList ++ intText k'.2 ++ "): ".toList ++ (b' ++ [')']) ++ r') :
    k = k' ∧ b = b' ∧ r = r' := by
  rw [entry_eq, entry_eq] at h
  simp only [List.cons.injEq, true_and] at h
  have hc : ∀ z : ℤ, ',' ∉ intText z := fun z hz => (intText_chars z _ hz).1 rfl
  have hp : ∀ z : ℤ, ')' ∉ intText z := fun z hz => (intText_chars z _ hz).2.2.1 rfl
  obtain ⟨h1, h⟩ := cut (hc _) (hc _) h
  simp only [List.cons.injEq, true_and] at h
  obtain ⟨h2, h⟩ := cut (hp _) (hp _) h
  simp only [List.cons.injEq, true_and] at h
  obtain ⟨h3, h4⟩ := cut hb hb' h
  exact ⟨Prod.ext (intText_inj h1) (intText_inj h2), h3, h4⟩

/-- The text of the first entry and what follows. -/
theorem entries_cons (rep : List α → Text) (k : Key) (v : List α) (d : List (Key × List α)) (e : Text) : entries rep ((k, v) :: d) ++ e =
    "(".toList ++ intText k.1 ++ ", ".toList ++ intText k.2 ++ "): ".toList ++ rep v ++
      (match d with | [] => e | _ :: _ => ',' :: ' ' :: (entries rep d ++ e)) := by
  cases d with
  | nil => simp [entries]
  | cons x d => simp [entries, List.append_assoc]

theorem entries_inj {rep : List α → Text} (hrep : Closed rep) {d d' : List (Key × List α)}
    (h : entries rep d ++ ['}'] = entries rep d' ++ ['}']) :
    d.map (fun x => (x.1, rep x.2)) = d'.map fun x => (x.1, rep x.2) := by
  induction d generalizing d' with
  | nil =>
    cases d' with
    | nil => rfl
    | cons y d' =>
      obtain ⟨k, v⟩ := y
      rw [entries_cons] at h
      simp [entries] at h
  | cons x d ih =>
    obtain ⟨k, v⟩ := x
    cases d' with
    | nil =>
      rw [entries_cons] at h
      simp [entries] at h
    | cons y d' =>
      obtain ⟨k', v'⟩ := y
      rw [entries_cons, entries_cons] at h
      obtain ⟨b, hb, hb0⟩ := hrep v
      obtain ⟨b', hb', hb0'⟩ := hrep v'
      rw [hb, hb'] at h
      obtain ⟨rfl, rfl, h3⟩ := entry_cut hb0 hb0' h
      clear h
      have h := h3
      simp only [List.map_cons, List.cons.injEq]
      refine ⟨by rw [hb, hb'], ?_⟩
      cases d with
      | nil => cases d' with
        | nil => rfl
        | cons y d' => simp at h
      | cons x d => cases d' with
        | nil => simp at h
        | cons y d' =>
          have h' : ',' :: ' ' :: (entries rep (x :: d) ++ ['}']) = ',' :: ' ' :: (entries rep (y :: d') ++ ['}']) := h
          simp only [List.cons.injEq, true_and] at h'
          exact ih h'

/-! ### The ZDI magnetogram -/

/-- One line of a ZDI magnetogram. -/
def zline (l m : ℤ) (a b g : Text) : Text :=
  intText l ++ ", ".toList ++ intText m ++ ": ".toList ++ a ++ ", ".toList ++ b ++ ", ".toList ++ g ++ "\n".toList

theorem zline_eq (l m : ℤ) (a b g r : Text) : zline l m a b g ++ r =
    intText l ++ ',' :: ' ' :: (intText m ++ ':' :: ' ' :: (a ++ ',' :: ' ' :: (b ++ ',' :: ' ' :: (g ++ '\n' :: r)))) := by
  simp [zline, List.append_assoc]

/-- The numbers in the rows that are printed. -/
def zrows (num : α → Text) (rows : List ((ℤ × ℤ) × α × α × α)) : List (ℤ × ℤ × Text × Text × Text) :=
  rows.map fun r => (r.1.1, r.1.2, num r.2.1, num r.2.2.1, num r.2.2.2)

theorem zlines_inj {num : α → Text} (hn : Plain num) {l l' : List ((ℤ × ℤ) × α × α × α)}
    (h : (l.flatMap fun r => zline r.1.1 r.1.2 (num r.2.1) (num r.2.2.1) (num r.2.2.2)) =
      l'.flatMap fun r => zline r.1.1 r.1.2 (num r.2.1) (num r.2.2.1) (num r.2.2.2)) : zrows num l = zrows num l' := by
  induction l generalizing l' with
  | nil =>
    cases l' with
    | nil => rfl
    | cons x l' =>
      simp only [List.flatMap_nil, List.flatMap_cons] at h
      have := congrArg List.length h
      simp [zline] at this
  | cons x l ih =>
    cases l' with
    | nil =>
      simp only [List.flatMap_nil, List.flatMap_cons] at h
      have := congrArg List.length h
      simp [zline] at this
    | cons y l' =>
      simp only [List.flatMap_cons] at h
      rw [zline_eq, zline_eq] at h
      have hc : ∀ z : ℤ, ',' ∉ intText z := fun z hz => (intText_chars z _ hz).1 rfl
      have hd : ∀ z : ℤ, ':' ∉ intText z := fun z hz => (intText_chars z _ hz).2.1 rfl
      obtain ⟨h1, h⟩ := cut (hc _) (hc _) h
      simp only [List.cons.injEq, true_and] at h
      obtain ⟨h2, h⟩ := cut (hd _) (hd _) h
      simp only [List.cons.injEq, true_and] at h
      obtain ⟨h3, h⟩ := cut (hn _).1 (hn _).1 h
      simp only [List.cons.injEq, true_and] at h
      obtain ⟨h4, h⟩ := cut (hn _).1 (hn _).1 h
      simp only [List.cons.injEq, true_and] at h
      obtain ⟨h5, h⟩ := cut (hn _).2 (hn _).2 h
      have h6 := ih h
      unfold zrows at h6 ⊢
      simp only [List.map_cons, List.cons.injEq]
      exact ⟨by rw [intText_inj h1, intText_inj h2, h3, h4, h5], h6⟩

theorem zdi_eq (num : α → Text) (degrees orders : List ℤ) (alpha beta gamma : List α) :
    zdi num degrees orders alpha beta gamma = "ZDI magnetogram\n".toList ++
      ((degrees.zip orders).zip (alpha.zip (beta.zip gamma))).flatMap
        fun r => zline r.1.1 r.1.2 (num r.2.1) (num r.2.2.1) (num r.2.2.2) := by
  unfold zdi
  rw [foldl_flatMap (fun r : (ℤ × ℤ) × α × α × α => intText r.1.1 ++ ", ".toList ++ intText r.1.2 ++ ": ".toList ++ num r.2.1 ++ ", ".toList ++ num r.2.2.1
      ++ ", ".toList ++ num r.2.2.2 ++ "\n".toList)]
  rfl

end Printed

open Spec Printed
variable {α : Type}

/-- **C95.** What `str` of a set of coefficients shows, exactly. Two sets have the same text if and only if both are empty and
their defaults are printed alike, or neither is and they hold the same pairs with values that are printed alike. So the text
shows every pair and is independent of the order in which they were added, also when numpy breaks long arrays over lines. -/
theorem C95_str (arr : List α → Text) (harr : Continued arr) (s t : Coefs α) (hs : s.keys.Nodup) (ht : t.keys.Nodup) :
    strText arr s = strText arr t ↔ (s.size = 0 ∧ t.size = 0 ∧ arr s.dflt = arr t.dflt) ∨
      (s.size ≠ 0 ∧ t.size ≠ 0 ∧ SameShown arr s t) := by
  have hsize : ∀ u : Coefs α, u.size = 0 ↔ u.dict = [] := fun u => by simp [Coefs.size]
  rw [hsize, hsize, ne_eq, ne_eq, hsize, hsize]
  by_cases h1 : s.dict = [] <;> by_cases h2 : t.dict = []
  · rw [str_empty arr h1, str_empty arr h2]
    simp [h1, h2]
  · rw [str_empty arr h1, str_nonempty arr h2]
    simp [h1, h2]
  · rw [str_nonempty arr h1, str_empty arr h2]
    simp [h1, h2]
  · rw [str_nonempty arr h1, str_nonempty arr h2, List.append_cancel_left_eq]
    simp only [h1, h2, false_and, and_false, not_false_eq_true, true_and, false_or]
    rw [← shown_iff arr hs ht]
    refine ⟨fun h => lines_inj ?_ ?_ h, fun h => by rw [h]⟩
    · intro x hx a b hab
      obtain ⟨k, -, rfl⟩ := List.mem_map.1 hx
      exact harr _ a b hab
    · intro x hx a b hab
      obtain ⟨k, -, rfl⟩ := List.mem_map.1 hx
      exact harr _ a b hab

/-- **C95.** The text has a headline and then one line for each pair, by degree and order, when arrays fit on a line. -/
theorem C95_lines (arr : List α → Text) (harr : ∀ v, '\n' ∉ arr v) (s : Coefs α) (hs : s.size ≠ 0) :
    ∃ ls : List Text, lines (strText arr s) = "Spherical harmonics coefficients:\n".toList :: ls ∧ ls.length = s.size ∧
      ∀ (i : ℕ) (k : Key), (sortKeys s.keys)[i]? = some k → ∃ x : List α, s.get (.int k.1) (.int k.2) = .ok x ∧
        ls[i]? = some (intText k.1 ++ ", ".toList ++ intText k.2 ++ ", ".toList ++ arr x ++ "\n".toList) := by
  have hne : s.dict ≠ [] := by simpa [Coefs.size] using hs
  have lines_one : ∀ (x r : Text), '\n' ∉ x → lines (x ++ '\n' :: r) = (x ++ ['\n']) :: lines r := by
    intro x r hx
    induction x with
    | nil => simp [lines]
    | cons c x ih =>
      simp only [List.mem_cons, not_or] at hx
      rw [List.cons_append, lines, if_neg (fun h => hx.1 h.symm), ih hx.2]
      rfl
  refine ⟨(sortKeys s.keys).map fun k => line k (arr (s.getI k)), ?_, ?_, ?_⟩
  · rw [str_nonempty arr hne]
    have hhead : "Spherical harmonics coefficients:\n".toList = "Spherical harmonics coefficients:".toList ++ ['\n'] := by decide
    rw [hhead, List.append_assoc, List.cons_append, List.nil_append, lines_one _ _ (by decide)]
    congr 1
    unfold shown
    induction sortKeys s.keys with
    | nil => rfl
    | cons k l ih =>
      rw [List.map_cons, List.flatMap_cons, List.map_cons, ← ih]
      have hl : line k (arr (s.getI k)) = (intText k.1 ++ ", ".toList ++ intText k.2 ++ ", ".toList ++ arr (s.getI k)) ++ ['\n'] := rfl
      simp only
      rw [hl, List.append_assoc _ ['\n'], List.cons_append, List.nil_append, lines_one]
      have hi : ∀ z : ℤ, '\n' ∉ intText z := fun z hz => (noSpace_noBreak (noSpace_intText z) _ hz).1 rfl
      simp [hi, harr]
  · rw [List.length_map, (sortKeys_perm s.keys).length_eq]
    simp [Coefs.keys, Coefs.size]
  · intro i k hk
    refine ⟨_, Coefs.get_int s k.1 k.2, ?_⟩
    rw [List.getElem?_map, hk]
    rfl

/-- **C95.** The text is faithful exactly as far as numpy's is: with a printer that gives two different arrays the same text
there are different sets with the same text, and otherwise the text of a set that is not empty determines what it holds. -/
theorem C95_faithful (arr : List α → Text) (harr : Continued arr) :
    (∀ s t : Coefs α, s.keys.Nodup → t.keys.Nodup → s.size ≠ 0 → strText arr s = strText arr t →
      ∀ l m : ℤ, s.has (.int l) (.int m) = true → s.get (.int l) (.int m) = t.get (.int l) (.int m)) ↔ Function.Injective arr := by
  constructor
  · intro h v w hvw
    have := h ⟨[], .cplx, [((0, 0), v)], 0, 0⟩ ⟨[], .cplx, [((0, 0), w)], 0, 0⟩ (by simp [Coefs.keys]) (by simp [Coefs.keys])
      (by simp [Coefs.size]) ?_ 0 0 rfl
    · simpa [Coefs.get_int, Coefs.getI, dictGet] using this
    · rw [str_nonempty arr (by simp), str_nonempty arr (by simp)]
      simp [shown, Coefs.keys, sortKeys, Coefs.getI, dictGet, hvw]
  · intro hinj s t hs ht h0 h l m hm
    rcases (C95_str arr harr s t hs ht).1 h with h | ⟨-, -, h⟩
    · exact absurd h.1 h0
    · rw [Coefs.get_int, Coefs.get_int]
      rw [hinj (h.2 l m _ _ hm (Coefs.get_int s l m) (Coefs.get_int t l m))]

/-- **C95.** What `repr` shows, exactly: the pairs and the values as they are printed, in the order of the dict. -/
theorem C95_repr (rep : List α → Text) (hrep : Closed rep) (s t : Coefs α) :
    reprText rep s = reprText rep t ↔ s.dict.map (fun x => (x.1, rep x.2)) = t.dict.map fun x => (x.1, rep x.2) := by
  have e : ∀ u : Coefs α, reprText rep u = '{' :: (entries rep u.dict ++ ['}']) := fun u => by simp [reprText]
  rw [e, e, List.cons.injEq]
  constructor
  · exact fun h => entries_inj hrep h.2
  · intro h
    have key : ∀ d d' : List (Key × List α), d.map (fun x => (x.1, rep x.2)) = d'.map (fun x => (x.1, rep x.2)) →
        entries rep d = entries rep d' := by
      intro d
      induction d with
      | nil => intro d' h; cases d' with | nil => rfl | cons y d' => simp at h
      | cons x d ih =>
        intro d' h
        cases d' with
        | nil => simp at h
        | cons y d' =>
          obtain ⟨k, v⟩ := x
          obtain ⟨k', v'⟩ := y
          simp only [List.map_cons, List.cons.injEq, Prod.mk.injEq] at h
          obtain ⟨⟨rfl, hv⟩, h⟩ := h
          have h0 := ih d' h
          have e1 := entries_cons rep k v d []
          have e2 := entries_cons rep k v' d' []
          simp only [List.append_nil] at e1 e2
          rw [e1, e2, hv]
          cases d with
          | nil => cases d' with | nil => rfl | cons y d' => simp at h
          | cons x d => cases d' with | nil => simp at h | cons y d' => simp only [h0]
    exact ⟨rfl, by rw [key _ _ h]⟩

/-- **C95.** (Violated: sets that hold the same have the same `repr`.) Whenever a set holds two pairs or more there is one that
holds the same, has the same `str`, and has another `repr`. -/
theorem C95_repr_order (arr rep : List α → Text) (harr : Continued arr) (hrep : Closed rep) (s : Coefs α) (hs : s.keys.Nodup)
    (h2 : 2 ≤ s.size) : ∃ t : Coefs α, t.keys.Nodup ∧ (∀ l m : ℤ, t.has (.int l) (.int m) = s.has (.int l) (.int m)) ∧
      (∀ l m : ℤ, t.get (.int l) (.int m) = s.get (.int l) (.int m)) ∧ strText arr t = strText arr s ∧ reprText rep t ≠ reprText rep s := by
  have hk : ∀ t : Coefs α, t.dict = s.dict.reverse → t.dflt = s.dflt → (∀ k, k ∈ t.keys ↔ k ∈ s.keys) ∧ ∀ k, t.getI k = s.getI k := by
    intro t h1 h3
    have hm : ∀ k, k ∈ t.keys ↔ k ∈ s.keys := fun k => by simp [Coefs.keys, h1]
    refine ⟨hm, fun k => ?_⟩
    by_cases h : k ∈ s.keys
    · have h4 := Coefs.getI_of_mem s k h
      have h5 : (k, s.getI k) ∈ t.dict := by rw [h1]; simpa using h4
      have hn : t.keys.Nodup := by simpa [Coefs.keys, h1] using hs
      have h6 := dictGet_of_mem t.dict hn _ h5
      simp only at h6
      rw [Coefs.getI, h6]; rfl
    · rw [Coefs.getI_of_not_mem s k h, Coefs.getI_of_not_mem t k (fun h' => h ((hm k).1 h')), h3]
  obtain ⟨hm, hg⟩ := hk { s with dict := s.dict.reverse } rfl rfl
  have hn : ({ s with dict := s.dict.reverse } : Coefs α).keys.Nodup := by simpa [Coefs.keys] using hs
  have hh : ∀ l m : ℤ, ({ s with dict := s.dict.reverse } : Coefs α).has (.int l) (.int m) = s.has (.int l) (.int m) :=
    fun l m => Bool.eq_iff_iff.2 (by rw [Coefs.has_int, Coefs.has_int]; exact hm _)
  refine ⟨{ s with dict := s.dict.reverse }, hn, hh, fun l m => ?_, ?_, ?_⟩
  · rw [Coefs.get_int, Coefs.get_int, hg]
  · refine (C95_str arr harr _ _ hn hs).2 (.inr ⟨?_, by omega, hh, fun l m v w _ hv hw => ?_⟩)
    · simp only [Coefs.size, List.length_reverse] at h2 ⊢; omega
    · rw [Coefs.get_int, Except.ok.injEq] at hv hw
      rw [← hv, ← hw, hg]
  · rw [Ne, C95_repr rep hrep]
    intro h
    have h3 := congrArg (List.map Prod.fst) h
    simp only [List.map_map, Function.comp_def, List.map_reverse] at h3
    have h4 : s.keys.reverse = s.keys := h3
    cases hd : s.keys with
    | nil => simp [Coefs.size, Coefs.keys] at hd h2; simp [hd] at h2
    | cons a l =>
      rw [hd] at h4 hs
      rw [List.reverse_cons] at h4
      have hl : l ≠ [] := by
        rintro rfl
        have : s.keys.length = 1 := by rw [hd]; rfl
        simp [Coefs.keys, Coefs.size] at this h2; omega
      have h5 : (l.reverse ++ [a]).getLast? = (a :: l).getLast? := by rw [h4]
      rw [List.getLast?_concat, List.getLast?_cons] at h5
      have h6 : l.getLast?.getD a ∈ l := by
        rw [List.getLast?_eq_some_getLast hl]; exact List.getLast_mem hl
      simp only [Option.some.injEq] at h5
      rw [← h5] at h6
      exact (List.nodup_cons.1 hs).1 h6

/-- **C95.** What `str` of a ZDI magnetogram shows, exactly: the rows, with the numbers as they are printed, in the order of the
arrays, as far as all five arrays reach. -/
theorem C95_zdi (num : α → Text) (hn : Plain num) (d o d' o' : List ℤ) (a b g a' b' g' : List α) :
    zdi num d o a b g = zdi num d' o' a' b' g' ↔
      (let n := min (min d.length o.length) (min a.length (min b.length g.length))
       let n' := min (min d'.length o'.length) (min a'.length (min b'.length g'.length))
       n = n' ∧ d.take n = d'.take n ∧ o.take n = o'.take n ∧ (a.take n).map num = (a'.take n).map num ∧
         (b.take n).map num = (b'.take n).map num ∧ (g.take n).map num = (g'.take n).map num) := by
  have rows : ∀ {d o d' o' : List ℤ} {a b g a' b' g' : List α},
      zrows num ((d.zip o).zip (a.zip (b.zip g))) = zrows num ((d'.zip o').zip (a'.zip (b'.zip g'))) ↔
      (let n := min (min d.length o.length) (min a.length (min b.length g.length))
       let n' := min (min d'.length o'.length) (min a'.length (min b'.length g'.length))
       n = n' ∧ d.take n = d'.take n ∧ o.take n = o'.take n ∧ (a.take n).map num = (a'.take n).map num ∧
         (b.take n).map num = (b'.take n).map num ∧ (g.take n).map num = (g'.take n).map num) := by
    have bad : ∀ {d o : List ℤ} {a b g : List α}, (d = [] ∨ o = [] ∨ a = [] ∨ b = [] ∨ g = []) →
        zrows num ((d.zip o).zip (a.zip (b.zip g))) = [] ∧
          min (min d.length o.length) (min a.length (min b.length g.length)) = 0 := by
      intro d o a b g h
      rcases h with rfl | rfl | rfl | rfl | rfl <;> simp [zrows]
    have both : ∀ (d o : List ℤ) (a b g : List α), (d = [] ∨ o = [] ∨ a = [] ∨ b = [] ∨ g = []) ∨
        ∃ x d1 y o1 u a1 v b1 w g1, d = x :: d1 ∧ o = y :: o1 ∧ a = u :: a1 ∧ b = v :: b1 ∧ g = w :: g1 := by
      intro d o a b g
      cases d <;> cases o <;> cases a <;> cases b <;> cases g <;> simp
    intro d
    induction d with
    | nil =>
      intro o d' o' a b g a' b' g'
      obtain ⟨e1, e2⟩ := bad (d := []) (o := o) (a := a) (b := b) (g := g) (.inl rfl)
      rw [e1]
      simp only [e2]
      rcases both d' o' a' b' g' with h | ⟨x, d1, y, o1, u, a1, v, b1, w, g1, rfl, rfl, rfl, rfl, rfl⟩
      · obtain ⟨e3, e4⟩ := bad h
        rw [e3, e4]; simp
      · simp [zrows]
    | cons x d ih =>
      intro o d' o' a b g a' b' g'
      rcases both (x :: d) o a b g with h | ⟨x, d1, y, o1, u, a1, v, b1, w, g1, h, rfl, rfl, rfl, rfl⟩
      · obtain ⟨e1, e2⟩ := bad h
        rw [e1]
        simp only [e2]
        rcases both d' o' a' b' g' with h | ⟨x, d1, y, o1, u, a1, v, b1, w, g1, rfl, rfl, rfl, rfl, rfl⟩
        · obtain ⟨e3, e4⟩ := bad h
          rw [e3, e4]; simp
        · simp [zrows]
      · cases h
        rcases both d' o' a' b' g' with h | ⟨x', d1', y', o1', u', a1', v', b1', w', g1', rfl, rfl, rfl, rfl, rfl⟩
        · obtain ⟨e3, e4⟩ := bad h
          rw [e3]
          simp only [e4]
          simp [zrows]
        · have h0 := ih (o := o1) (d' := d1') (o' := o1') (a := a1) (b := b1) (g := g1) (a' := a1') (b' := b1') (g' := g1')
          simp only [zrows, List.zip_cons_cons, List.map_cons, List.cons.injEq, Prod.mk.injEq] at h0 ⊢
          rw [h0]
          simp only [List.length_cons, Nat.add_min_add_right, List.take_succ_cons, List.map_cons, List.cons.injEq, Nat.add_right_cancel_iff]
          tauto
  rw [← rows, zdi_eq, zdi_eq, List.append_cancel_left_eq]
  refine ⟨zlines_inj hn, fun h => ?_⟩
  have e : ∀ l : List ((ℤ × ℤ) × α × α × α), (l.flatMap fun r => zline r.1.1 r.1.2 (num r.2.1) (num r.2.2.1) (num r.2.2.2)) =
      (zrows num l).flatMap fun r => zline r.1 r.2.1 r.2.2.1 r.2.2.2.1 r.2.2.2.2 := fun l => by
    unfold zrows; rw [List.flatMap_map]
  rw [e, e, h]

/-! ### Cases that meet the hypotheses -/

/-- A printer of integers that breaks every line after a number, as numpy does for long arrays. -/
private def exArr (v : List ℤ) : Text := '[' :: (v.flatMap fun z => intText z ++ ['\n', ' ']) ++ [']']

/-- Every line break is followed by a space. -/
private def exOk : Text → Prop
  | [] => True
  | c :: t => (c = '\n' → t.head? = some ' ') ∧ exOk t

private theorem exOk_continued (t : Text) (h : exOk t) : ∀ a b, t = a ++ '\n' :: b → b.head? = some ' ' := by
  induction t with
  | nil => intro a b e; simp at e
  | cons c t ih =>
    intro a b e
    cases a with
    | nil =>
      simp only [List.nil_append, List.cons.injEq] at e
      rw [← e.2]; exact h.1 e.1
    | cons x a =>
      simp only [List.cons_append, List.cons.injEq] at e
      exact ih h.2 a b e.2

private theorem exOk_append (x r : Text) (hx : '\n' ∉ x) (hr : exOk r) : exOk (x ++ r) := by
  induction x with
  | nil => exact hr
  | cons c x ih =>
    simp only [List.mem_cons, not_or] at hx
    exact ⟨fun h => absurd h.symm hx.1, ih hx.2⟩

private theorem exArr_continued : Continued exArr := by
  intro v
  refine exOk_continued _ (show exOk (['['] ++ ((v.flatMap fun z => intText z ++ ['\n', ' ']) ++ [']'])) from ?_)
  refine exOk_append ['['] _ (by decide) ?_
  induction v with
  | nil => exact exOk_append [']'] [] (by decide) trivial
  | cons z v ih =>
    rw [List.flatMap_cons, List.append_assoc, List.append_assoc]
    have hi : '\n' ∉ intText z := fun hz => (noSpace_noBreak (noSpace_intText z) _ hz).1 rfl
    exact exOk_append _ _ hi ⟨fun _ => rfl, fun h => absurd h (by decide), ih⟩

/-- `repr` of an array of integers. -/
private def exRep (v : List ℤ) : Text :=
  ['a', 'r', 'r', 'a', 'y', '(', '['] ++ (v.flatMap fun z => intText z ++ [',', ' ']) ++ [']', ')']

private theorem exRep_closed : Closed exRep := by
  intro v
  refine ⟨['a', 'r', 'r', 'a', 'y', '(', '['] ++ (v.flatMap fun z => intText z ++ [',', ' ']) ++ [']'], ?_, ?_⟩
  · rw [exRep, List.append_assoc _ [']'] [')']]
    rw [show ([']'] : Text) ++ [')'] = [']', ')'] from rfl]
  have : ')' ∉ v.flatMap fun z => intText z ++ [',', ' '] := by
    intro h
    obtain ⟨z, -, hz⟩ := List.mem_flatMap.1 h
    rcases List.mem_append.1 hz with hz | hz
    · exact (intText_chars z _ hz).2.2.1 rfl
    · simp at hz
  simp [this]

private def exSet1 : Coefs ℤ := ⟨[0, 0], .int, [((2, -1), [5, 6]), ((1, 0), [7, 8])], 2, -1⟩
private def exSet2 : Coefs ℤ := ⟨[0, 0], .int, [((1, 0), [7, 8]), ((2, -1), [5, 6])], 2, -1⟩

/-- The same contents, added in another order: the same text, another `repr`. -/
example : exSet1.keys.Nodup ∧ exSet2.keys.Nodup ∧ exSet1.size = 2 ∧ strText exArr exSet1 = strText exArr exSet2 ∧
    reprText exRep exSet1 ≠ reprText exRep exSet2 := by
  have h1 : exSet1.keys.Nodup := by decide +kernel
  have h2 : exSet2.keys.Nodup := by decide +kernel
  refine ⟨h1, h2, rfl, (C95_str exArr exArr_continued _ _ h1 h2).2 (.inr ⟨by decide, by decide, ?_⟩), ?_⟩
  · refine (shown_iff exArr h1 h2).1 ?_
    have : sortKeys exSet1.keys = sortKeys exSet2.keys := sortKeys_congr (by decide +kernel)
    unfold shown
    rw [this]
    refine List.map_congr_left fun k hk => ?_
    rw [mem_sortKeys] at hk
    have hk' : k = (1, 0) ∨ k = (2, -1) := by simpa [exSet2, Coefs.keys] using hk
    rcases hk' with rfl | rfl <;> rfl
  · rw [Ne, C95_repr exRep exRep_closed]
    simp [exSet1, exSet2]

example : Plain (intText : ℤ → Text) := fun z =>
  ⟨fun h => (intText_chars z _ h).1 rfl, fun h => (noSpace_noBreak (noSpace_intText z) _ h).1 rfl⟩

/-- The text of a ZDI magnetogram with arrays of different lengths. -/
example : zdi intText [1, 1, 2] [0, 1] [5, 6, 7] [0, 0, 0] [0, 0, 9] = "ZDI magnetogram\n1, 0: 5, 0, 0\n1, 1: 6, 0, 0\n".toList := by
  decide +kernel

end Verif
