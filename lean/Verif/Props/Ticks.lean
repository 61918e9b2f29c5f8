import Verif.Model.Ticks
import Verif.Lemmas.NumText
import Verif.Lemmas.Text
import Mathlib.Tactic.Linarith
import Mathlib.Algebra.Order.Floor.Ring

/-!
# C60 and C61: tick marks and their labels
-/

namespace Verif
open Ticks

namespace Spec

/-- What a label of a symmetric logarithmic scale stands for. -/
inductive Denotes : ℚ → Text → Prop
  | zero : Denotes 0 "0".toList
  | pos (e : ℤ) : Denotes (10 ^ e) ("$10^{".toList ++ intText e ++ "}$".toList)
  | neg (e : ℤ) : Denotes (-10 ^ e) ("$-10^{".toList ++ intText e ++ "}$".toList)

/-- Strictly increasing. -/
def TicksIncreasing (xs : List ℚ) : Prop := xs.Pairwise (· < ·)

/-- Symmetric about zero: read backwards, the list is its negative. -/
def SymmetricList (xs : List ℚ) : Prop := xs.reverse = xs.map fun x => -x

end Spec

open Spec

namespace Ticks

private theorem mem_pyRange (a b x : ℤ) : x ∈ pyRange a b ↔ a ≤ x ∧ x < b := by
  rw [pyRange, List.mem_map]
  constructor
  · rintro ⟨i, hi, rfl⟩
    have := List.mem_range.1 hi
    omega
  · rintro ⟨h1, h2⟩
    exact ⟨(x - a).toNat, List.mem_range.2 (by omega), by omega⟩

theorem mem_arange {a b s e : ℤ} (hs : 0 < s) : e ∈ arange a b s ↔ a ≤ e ∧ e < b ∧ s ∣ e - a := by
  rw [arange, List.mem_map]
  constructor
  · rintro ⟨i, hi, rfl⟩
    have hi' := List.mem_range.1 hi
    have h1 : (i : ℤ) < (b - a + s - 1) / s := by omega
    have h2 : ((i : ℤ) + 1) * s ≤ b - a + s - 1 := (Int.le_ediv_iff_mul_le hs).1 (by omega)
    rw [add_mul, one_mul] at h2
    refine ⟨by have : 0 ≤ (i : ℤ) * s := by positivity
               omega, by omega, ⟨i, by ring⟩⟩
  · rintro ⟨h1, h2, k, hk⟩
    have hk0 : 0 ≤ k := by
      by_contra h
      have : s * k < 0 := by rw [not_le] at h; exact mul_neg_of_pos_of_neg hs h
      omega
    refine ⟨k.toNat, List.mem_range.2 ?_, ?_⟩
    · have : k + 1 ≤ (b - a + s - 1) / s := by
        rw [Int.le_ediv_iff_mul_le hs, add_mul, one_mul, mul_comm]
        omega
      omega
    · rw [Int.toNat_of_nonneg hk0, mul_comm]; omega

theorem arange_increasing {a b s : ℤ} (hs : 0 < s) : (arange a b s).Pairwise (· < ·) := by
  rw [arange, List.pairwise_map]
  refine List.Pairwise.imp ?_ List.pairwise_lt_range
  intro i j h
  have : (i : ℤ) * s < j * s := mul_lt_mul_of_pos_right (by exact_mod_cast h) hs
  omega

theorem arange_shift (a b s k : ℤ) : arange (a + k) (b + k) s = (arange a b s).map (· + k) := by
  rw [arange, arange, List.map_map, show b + k - (a + k) = b - a by ring]
  refine List.map_congr_left fun i _ => ?_
  simp only [Function.comp]; ring

theorem forall₂_of_map {α β γ : Type} {R : β → γ → Prop} (f : α → β) (g : α → γ) (h : ∀ a, R (f a) (g a)) (l : List α) :
    List.Forall₂ R (l.map f) (l.map g) := by
  induction l with
  | nil => exact .nil
  | cons a l ih => exact .cons (h a) ih

theorem pow_pos10 (e : ℤ) : (0 : ℚ) < 10 ^ e := zpow_pos (by norm_num) e

theorem mem_npUniqueSort (xs : List ℚ) (x : ℚ) : x ∈ npUniqueSort xs ↔ x ∈ xs := by
  rw [npUniqueSort, List.mem_dedup, List.mem_mergeSort]

theorem npUniqueSort_increasing (xs : List ℚ) : TicksIncreasing (npUniqueSort xs) := by
  have h1 : (xs.mergeSort fun a b => decide (a ≤ b)).Pairwise fun a b => decide (a ≤ b) = true :=
    List.pairwise_mergeSort (fun a b c h1 h2 => by simp only [decide_eq_true_eq] at *; exact le_trans h1 h2)
      (fun a b => by simp only [Bool.or_eq_true, decide_eq_true_eq]; exact le_total a b) xs
  have h2 := List.Pairwise.sublist (List.dedup_sublist _) h1
  have h3 := List.nodup_dedup (xs.mergeSort fun a b => decide (a ≤ b))
  refine List.Pairwise.imp ?_ (List.Pairwise.and h2 h3)
  rintro a b ⟨h, h'⟩
  exact lt_of_le_of_ne (by simpa using h) h'

theorem increasing_ext {xs ys : List ℚ} (hx : TicksIncreasing xs) (hy : TicksIncreasing ys) (h : ∀ v, v ∈ xs ↔ v ∈ ys) : xs = ys := by
  have hp : xs.Perm ys := (List.perm_ext_iff_of_nodup (hx.imp fun h => ne_of_lt h) (hy.imp fun h => ne_of_lt h)).2 h
  exact hp.eq_of_pairwise (fun a b _ _ h1 h2 => absurd h1 (not_lt.2 h2.le)) hx hy

theorem symmetric_of_mem {xs : List ℚ} (hx : TicksIncreasing xs) (h : ∀ v, v ∈ xs ↔ -v ∈ xs) : SymmetricList xs := by
  have e : xs = (xs.map fun x => -x).reverse := by
    refine increasing_ext hx ?_ fun v => ?_
    · rw [TicksIncreasing, List.pairwise_reverse, List.pairwise_map]
      exact hx.imp fun h => neg_lt_neg h
    · rw [List.mem_reverse, List.mem_map]
      constructor
      · intro hv; exact ⟨-v, (h v).1 hv, by ring⟩
      · rintro ⟨w, hw, rfl⟩; exact (h (-w)).2 (by rwa [neg_neg])
  rw [SymmetricList]
  conv_lhs => rw [e, List.reverse_reverse]

end Ticks

/-! ## C60 -/

/-- **C60.** The major tick values: zero and plus and minus ten to the exponents `lo`, `lo + step`, ... up to `hi`. -/
theorem C60_major_values (lo hi step : ℤ) (hs : 0 < step) (v : ℚ) : v ∈ (generateMajor lo hi step).1 ↔
    v = 0 ∨ ∃ e : ℤ, lo ≤ e ∧ e ≤ hi ∧ step ∣ e - lo ∧ (v = 10 ^ e ∨ v = -10 ^ e) := by
  simp only [generateMajor, List.mem_append, List.mem_reverse, List.mem_map, mem_arange hs, List.mem_singleton]
  constructor
  · rintro ((⟨e, ⟨h1, h2, h3⟩, rfl⟩ | h) | ⟨e, ⟨h1, h2, h3⟩, rfl⟩)
    · exact Or.inr ⟨e, h1, by omega, h3, Or.inr rfl⟩
    · exact Or.inl h
    · exact Or.inr ⟨e, h1, by omega, h3, Or.inl rfl⟩
  · rintro (h | ⟨e, h1, h2, h3, rfl | rfl⟩)
    · exact Or.inl (Or.inr h)
    · exact Or.inr ⟨e, ⟨h1, by omega, h3⟩, rfl⟩
    · exact Or.inl (Or.inl ⟨e, ⟨h1, by omega, h3⟩, rfl⟩)

/-- **C60.** The major ticks are strictly increasing and symmetric about zero. -/
theorem C60_major_order (lo hi step : ℤ) (hs : 0 < step) :
    TicksIncreasing (generateMajor lo hi step).1 ∧ SymmetricList (generateMajor lo hi step).1 := by
  have h10 : ∀ {a b : ℤ}, a < b → (10 : ℚ) ^ a < 10 ^ b := fun h => zpow_lt_zpow_right₀ (by norm_num) h
  constructor
  · simp only [TicksIncreasing, generateMajor, List.pairwise_append, List.pairwise_reverse, List.pairwise_map, List.mem_append,
      List.mem_reverse, List.mem_map, List.mem_singleton, List.pairwise_singleton]
    refine ⟨⟨(arange_increasing hs).imp fun h => neg_lt_neg (h10 h), trivial, ?_⟩, (arange_increasing hs).imp fun h => h10 h, ?_⟩
    · rintro _ ⟨e, _, rfl⟩ _ rfl
      exact neg_lt_zero.2 (pow_pos10 e)
    · rintro _ (⟨e, _, rfl⟩ | rfl) _ ⟨e', _, rfl⟩
      · have := pow_pos10 e; have := pow_pos10 e'; linarith
      · exact pow_pos10 e'
  · simp [SymmetricList, generateMajor, Function.comp_def]

/-- **C60.** There is one label per value, at the same place, and it denotes that value. -/
theorem C60_major_labels (lo hi step : ℤ) :
    List.Forall₂ Denotes (generateMajor lo hi step).1 (generateMajor lo hi step).2 := by
  simp only [generateMajor]
  refine List.rel_append (List.rel_append ?_ (.cons .zero .nil)) (forall₂_of_map _ _ Denotes.pos _)
  rw [← List.map_reverse]
  exact forall₂_of_map _ _ Denotes.neg _

private theorem intText_inj {a b : ℤ} (h : intText a = intText b) : a = b := by
  have := congrArg (parseInt Digits.asciiOnly) h
  rw [parseInt_intText, parseInt_intText] at this
  exact Option.some.inj this

private theorem denotes_iff {v : ℚ} {t : Text} : Denotes v t ↔ (v = 0 ∧ t = ['0']) ∨ (∃ e : ℤ, v = 10 ^ e ∧ t = posLabel e) ∨
    ∃ e : ℤ, v = -10 ^ e ∧ t = negLabel e := by
  constructor
  · rintro (_ | e | e)
    · exact Or.inl ⟨rfl, rfl⟩
    · exact Or.inr (Or.inl ⟨e, rfl, rfl⟩)
    · exact Or.inr (Or.inr ⟨e, rfl, rfl⟩)
  · rintro (⟨rfl, rfl⟩ | ⟨e, rfl, rfl⟩ | ⟨e, rfl, rfl⟩)
    exacts [.zero, .pos e, .neg e]

/-- **C60.** A label denotes one value only, so the labels tell the ticks apart. -/
theorem C60_label_unique {v w : ℚ} {t : Text} (h : Denotes v t) (h' : Denotes w t) : v = w := by
  rw [denotes_iff] at h h'
  rcases h with ⟨rfl, rfl⟩ | ⟨e, rfl, rfl⟩ | ⟨e, rfl, rfl⟩ <;>
    rcases h' with ⟨rfl, ht⟩ | ⟨e', rfl, ht⟩ | ⟨e', rfl, ht⟩ <;>
    simp [posLabel, negLabel] at ht ⊢
  · rw [intText_inj ht]
  · rw [intText_inj ht]

private theorem mem_minor (lo hi step : ℤ) (v : ℚ) : v ∈ generateMinor lo hi step ↔
    ∃ (e : ℤ) (d : ℕ), lo - 1 ≤ e ∧ e ≤ hi ∧ d ≤ 9 ∧ (v = d * 10 ^ e ∨ v = -(d * 10 ^ e)) := by
  rw [generateMinor, mem_npUniqueSort, List.mem_flatMap]
  constructor
  · rintro ⟨e, he, hv⟩
    rw [mem_pyRange] at he
    rcases List.mem_append.1 hv with h | h <;> obtain ⟨d, hd, rfl⟩ := List.mem_map.1 h <;> have := List.mem_range.1 hd
    · exact ⟨e - 1, d, by omega, by omega, by omega, Or.inl rfl⟩
    · exact ⟨e - 1, d, by omega, by omega, by omega, Or.inr (by ring)⟩
  · rintro ⟨e, d, h1, h2, h3, h⟩
    refine ⟨e + 1, (mem_pyRange _ _ _).2 ⟨by omega, by omega⟩, ?_⟩
    rw [show e + 1 - 1 = e by ring]
    rcases h with rfl | rfl
    · exact List.mem_append_left _ (List.mem_map.2 ⟨d, List.mem_range.2 (by omega), rfl⟩)
    · exact List.mem_append_right _ (List.mem_map.2 ⟨d, List.mem_range.2 (by omega), by ring⟩)

/-- **C60.** The minor tick values: plus and minus zero to nine times ten to the exponents from `lo - 1` to `hi`. -/
theorem C60_minor_values (lo hi step : ℤ) (v : ℚ) : v ∈ generateMinor lo hi step ↔
    ∃ (e : ℤ) (d : ℕ), lo - 1 ≤ e ∧ e ≤ hi ∧ d ≤ 9 ∧ |v| = d * 10 ^ e := by
  rw [mem_minor]
  refine exists_congr fun e => exists_congr fun d => and_congr_right fun _ => and_congr_right fun _ => and_congr_right fun _ => ?_
  have : (0 : ℚ) ≤ d * 10 ^ e := mul_nonneg (by positivity) (pow_pos10 e).le
  rw [abs_eq this]

/-- **C60.** The minor ticks are strictly increasing and symmetric about zero. -/
theorem C60_minor_order (lo hi step : ℤ) :
    TicksIncreasing (generateMinor lo hi step) ∧ SymmetricList (generateMinor lo hi step) := by
  have h1 : TicksIncreasing (generateMinor lo hi step) := npUniqueSort_increasing _
  refine ⟨h1, symmetric_of_mem h1 fun v => ?_⟩
  rw [C60_minor_values, C60_minor_values, abs_neg]

/-- **C60.** Every major tick is a minor tick, unless the range is empty by more than one. -/
theorem C60_minor_contains_major (lo hi step : ℤ) (hs : 0 < step) (h : lo ≤ hi + 1) (v : ℚ)
    (hv : v ∈ (generateMajor lo hi step).1) : v ∈ generateMinor lo hi step := by
  rw [C60_minor_values]
  rcases (C60_major_values lo hi step hs v).1 hv with rfl | ⟨e, h1, h2, _, rfl | rfl⟩
  · exact ⟨hi, 0, by omega, le_refl _, by norm_num, by simp⟩
  · exact ⟨e, 1, by omega, h2, by norm_num, by rw [abs_of_pos (pow_pos10 e)]; simp⟩
  · exact ⟨e, 1, by omega, h2, by norm_num, by rw [abs_neg, abs_of_pos (pow_pos10 e)]; simp⟩

/-- **C60** (disagreement). For an empty range the major ticks are just zero, but there are no minor ticks at all when the
upper end is more than one below the lower end. -/
theorem C60_empty_range (lo hi step : ℤ) (hs : 0 < step) (h : hi + 1 < lo) :
    (generateMajor lo hi step).1 = [0] ∧ (generateMajor lo hi step).2 = [['0']] ∧ generateMinor lo hi step = [] := by
  have he : arange lo (hi + 1) step = [] := by
    rw [List.eq_nil_iff_forall_not_mem]
    intro e he
    have := (mem_arange hs).1 he
    omega
  refine ⟨by simp [generateMajor, he], by simp [generateMajor, he], ?_⟩
  rw [List.eq_nil_iff_forall_not_mem]
  intro v hv
  obtain ⟨e, _, h1, h2, _⟩ := (C60_minor_values lo hi step v).1 hv
  omega

example : generateMajor (-1) 3 2 = ([-1000, -10, -1 / 10, 0, 1 / 10, 10, 1000],
    ["$-10^{3}$".toList, "$-10^{1}$".toList, "$-10^{-1}$".toList, "0".toList, "$10^{-1}$".toList, "$10^{1}$".toList,
      "$10^{3}$".toList]) := by decide +kernel
example : (30 : ℚ) ∈ generateMinor 1 1 1 := by
  rw [C60_minor_values]; exact ⟨1, 3, by norm_num, by norm_num, by norm_num, by norm_num⟩

/-! ## C61 -/

namespace Ticks

theorem find_not_mem {c : Char} {t : Text} (h : c ∉ t) : find c t = -1 := by rw [find, if_neg h]

theorem find_append {c : Char} {a b : Text} (h : c ∉ a) : find c (a ++ c :: b) = a.length := by
  rw [find, if_pos (by simp), List.idxOf_append_of_notMem h]; simp

theorem strip_noSpace {t : Text} (h : NoSpace t) : strip t = t := by
  have d : ∀ {u : Text}, NoSpace u → u.dropWhile isSpace = u := by
    intro u hu
    cases u with
    | nil => rfl
    | cons c u => rw [List.dropWhile_cons_of_neg]; rw [hu c (by simp)]; simp
  rw [strip, d h, d (by intro c hc; exact h c (List.mem_reverse.1 hc)), List.reverse_reverse]

theorem intOf_intText (U : Digits) (k : ℤ) : intOf U (intText k) = .ok k := by
  rw [intOf, strip_noSpace (noSpace_intText k), parseInt_intText]; rfl

theorem split_at {c : Char} {t : Text} (h : c ∈ t) : ∃ a b, t = a ++ c :: b ∧ c ∉ a := by
  induction t with
  | nil => cases h
  | cons x t ih =>
    by_cases hx : x = c
    · exact ⟨[], t, by rw [hx]; rfl, by simp⟩
    · obtain ⟨a, b, rfl, ha⟩ := ih ((List.mem_cons.1 h).resolve_left (Ne.symm hx))
      exact ⟨x :: a, b, rfl, by simp [Ne.symm hx, ha]⟩

theorem noBrace_intText (k : ℤ) : '{' ∉ intText k ∧ '}' ∉ intText k := by
  have h1 : ∀ n : ℕ, ∀ c ∈ natText n, c ≠ '{' ∧ c ≠ '}' := by
    intro n c hc
    obtain ⟨ds, e, _, h, _⟩ := natText_spec n
    rw [e] at hc
    obtain ⟨d, hd, rfl⟩ := List.mem_map.1 hc
    have := h d hd
    interval_cases d <;> decide
  have h2 : ∀ c ∈ intText k, c ≠ '{' ∧ c ≠ '}' := by
    intro c hc
    unfold intText at hc
    split_ifs at hc
    · rcases List.mem_cons.1 hc with rfl | hc
      · decide
      · exact h1 _ c hc
    · exact h1 _ c hc
  exact ⟨fun h => (h2 _ h).1 rfl, fun h => (h2 _ h).2 rfl⟩

/-- The part of the string between the braces, when both are there in this order. -/
theorem tg_braces (U : Digits) {a mid b : Text} (ha : '{' ∉ a) (ha' : '}' ∉ a) (hm : '}' ∉ mid) (shift : ℤ) :
    teslaToGauss U (a ++ '{' :: (mid ++ '}' :: b)) shift
      = (intOf U mid).map fun k => a ++ '{' :: (intText (k + shift) ++ '}' :: b) := by
  have f0 : find '{' (a ++ '{' :: (mid ++ '}' :: b)) = a.length := find_append ha
  have f1 : find '}' (a ++ '{' :: (mid ++ '}' :: b)) = a.length + 1 + mid.length := by
    have := find_append (c := '}') (a := a ++ '{' :: mid) (b := b) (by
      simp only [List.mem_append, List.mem_cons, not_or]; exact ⟨ha', by decide, hm⟩)
    rw [List.append_assoc, List.cons_append] at this
    rw [this]; push_cast [List.length_append, List.length_cons]; ring
  rw [teslaToGauss]
  simp only [f0, f1]
  rw [if_neg (by omega)]
  have e1 : ((a.length : ℤ) + 1 + mid.length).toNat = a.length + 1 + mid.length := by omega
  have e0 : ((a.length : ℤ) + 1).toNat = a.length + 1 := by omega
  rw [e0, e1]
  have s0 : (a ++ '{' :: (mid ++ '}' :: b)).take (a.length + 1) = a ++ ['{'] := by
    rw [show a ++ '{' :: (mid ++ '}' :: b) = (a ++ ['{']) ++ (mid ++ '}' :: b) by simp]
    exact List.take_left' (by simp)
  have s1 : (a ++ '{' :: (mid ++ '}' :: b)).drop (a.length + 1 + mid.length) = '}' :: b := by
    rw [show a ++ '{' :: (mid ++ '}' :: b) = (a ++ '{' :: mid) ++ ('}' :: b) by simp]
    exact List.drop_left' (by simp; omega)
  have s2 : ((a ++ '{' :: (mid ++ '}' :: b)).take (a.length + 1 + mid.length)).drop (a.length + 1) = mid := by
    rw [show a ++ '{' :: (mid ++ '}' :: b) = (a ++ '{' :: mid) ++ ('}' :: b) by simp]
    rw [List.take_left' (by simp; omega), show a ++ '{' :: mid = (a ++ ['{']) ++ mid by simp]
    exact List.drop_left' (by simp)
  rw [s0, s1, s2]
  rcases intOf U mid with e | k
  · rfl
  · show Except.ok _ = Except.ok _
    simp

/-- Only a closing brace: the text before it is taken for the exponent. -/
theorem tg_closing (U : Digits) {mid b : Text} (h0 : '{' ∉ mid ++ '}' :: b) (hm : '}' ∉ mid) (shift : ℤ) :
    teslaToGauss U (mid ++ '}' :: b) shift = (intOf U mid).map fun k => intText (k + shift) ++ '}' :: b := by
  rw [teslaToGauss]
  simp only [find_not_mem h0, find_append hm]
  rw [if_neg (by omega)]
  simp only [Int.toNat_natCast, neg_add_cancel, Int.toNat_zero, List.take_zero, List.drop_zero, List.nil_append]
  rw [List.take_left' rfl, List.drop_left' rfl]
  rcases intOf U mid with e | k
  · rfl
  · rfl

end Ticks

/-- **C61.** An integer between the first pair of braces is shifted and nothing else is changed. -/
theorem C61_shift (U : Digits) (a mid b : Text) (k shift : ℤ) (ha : '{' ∉ a) (ha' : '}' ∉ a) (hm : '}' ∉ mid)
    (hk : intOf U mid = .ok k) :
    teslaToGauss U (a ++ '{' :: (mid ++ '}' :: b)) shift = .ok (a ++ '{' :: (intText (k + shift) ++ '}' :: b)) := by
  rw [tg_braces U ha ha' hm, hk]; rfl

/-- **C61.** If there is no integer between the braces, ValueError is raised. -/
theorem C61_not_an_integer (U : Digits) (a mid b : Text) (shift : ℤ) (ha : '{' ∉ a) (ha' : '}' ∉ a) (hm : '}' ∉ mid)
    (hk : ∀ k, intOf U mid ≠ .ok k) : teslaToGauss U (a ++ '{' :: (mid ++ '}' :: b)) shift = .error .value := by
  rw [tg_braces U ha ha' hm]
  unfold intOf at hk ⊢
  rcases h : parseInt U (strip mid) with _ | k
  · rfl
  · exact absurd (by rw [h]; rfl) (hk k)

/-- **C61.** Without a closing brace, in particular without braces, the label is returned unchanged. -/
theorem C61_no_braces (U : Digits) (t : Text) (shift : ℤ) (h : '}' ∉ t) : teslaToGauss U t shift = .ok t := by
  rw [teslaToGauss]
  simp only [find_not_mem h]
  rw [if_pos]
  unfold find; split_ifs <;> omega

/-- **C61.** If the first closing brace comes before the first opening brace, the label is returned unchanged. -/
theorem C61_reversed_braces (U : Digits) (a b : Text) (shift : ℤ) (h0 : '{' ∉ a) (h1 : '}' ∉ a) (hb : '{' ∈ b) :
    teslaToGauss U (a ++ '}' :: b) shift = .ok (a ++ '}' :: b) := by
  obtain ⟨u, v, rfl, hu⟩ := split_at hb
  rw [teslaToGauss]
  have f0 : find '{' (a ++ '}' :: (u ++ '{' :: v)) = a.length + 1 + u.length := by
    have := find_append (c := '{') (a := a ++ '}' :: u) (b := v) (by
      simp only [List.mem_append, List.mem_cons, not_or]; exact ⟨h0, by decide, hu⟩)
    rw [List.append_assoc, List.cons_append] at this
    rw [this]; push_cast [List.length_append, List.length_cons]; ring
  simp only [f0, find_append h1]
  rw [if_pos (by omega)]

/-- **C61** (disagreement). A closing brace without an opening brace is not recognised as a label without braces: the text
before it is taken for the exponent, or ValueError is raised. -/
theorem C61_closing_only (U : Digits) (mid b : Text) (shift : ℤ) (h0 : '{' ∉ mid ++ '}' :: b) (hm : '}' ∉ mid) :
    teslaToGauss U (mid ++ '}' :: b) shift = (intOf U mid).map fun k => intText (k + shift) ++ '}' :: b :=
  tg_closing U h0 hm shift

/-- **C61.** For every string, shifting by `x` and then by `y` is shifting by `x + y` (also as to what is raised). -/
theorem C61_compose (U : Digits) (t : Text) (x y : ℤ) :
    (teslaToGauss U t x >>= fun t' => teslaToGauss U t' y) = teslaToGauss U t (x + y) := by
  by_cases h1 : '}' ∈ t
  · obtain ⟨p, b, rfl, hp⟩ := split_at h1
    by_cases h0 : '{' ∈ p
    · obtain ⟨a, mid, rfl, ha⟩ := split_at h0
      have ha' : '}' ∉ a := fun h => hp (by simp [h])
      have hm : '}' ∉ mid := fun h => hp (by simp [h])
      rw [List.append_assoc, List.cons_append, tg_braces U ha ha' hm, tg_braces U ha ha' hm]
      rcases intOf U mid with e | k
      · rfl
      · show teslaToGauss U (a ++ '{' :: (intText (k + x) ++ '}' :: b)) y = .ok _
        rw [tg_braces U ha ha' (noBrace_intText _).2, intOf_intText]
        show Except.ok (a ++ '{' :: (intText (k + x + y) ++ '}' :: b)) = Except.ok (a ++ '{' :: (intText (k + (x + y)) ++ '}' :: b))
        rw [add_assoc]
    · by_cases hb : '{' ∈ b
      · rw [C61_reversed_braces U p b x h0 hp hb, C61_reversed_braces U p b _ h0 hp hb]
        exact C61_reversed_braces U p b y h0 hp hb
      · have hn : ∀ q : Text, '{' ∉ q → '{' ∉ q ++ '}' :: b := by
          intro q hq
          simp only [List.mem_append, List.mem_cons, not_or]
          exact ⟨hq, by decide, hb⟩
        rw [tg_closing U (hn p h0) hp, tg_closing U (hn p h0) hp]
        rcases intOf U p with e | k
        · rfl
        · show teslaToGauss U (intText (k + x) ++ '}' :: b) y = .ok _
          rw [tg_closing U (hn _ (noBrace_intText _).1) (noBrace_intText _).2, intOf_intText]
          show Except.ok (intText (k + x + y) ++ '}' :: b) = Except.ok (intText (k + (x + y)) ++ '}' :: b)
          rw [add_assoc]
  · rw [C61_no_braces U t x h1, C61_no_braces U t _ h1]
    exact C61_no_braces U t y h1

/-- **C61.** On tick labels the shift is a change of unit: a label of `v` becomes a label of `v` times ten to the shift. -/
theorem C61_unit (U : Digits) (v : ℚ) (t : Text) (shift : ℤ) (h : Denotes v t) :
    ∃ t', teslaToGauss U t shift = .ok t' ∧ Denotes (v * 10 ^ shift) t' := by
  have h10 : ∀ e : ℤ, (10 : ℚ) ^ e * 10 ^ shift = 10 ^ (e + shift) := fun e => (zpow_add₀ (by norm_num) _ _).symm
  rcases h with _ | e | e
  · exact ⟨_, C61_no_braces U _ shift (by decide), by rw [zero_mul]; exact .zero⟩
  · refine ⟨posLabel (e + shift), ?_, by rw [h10]; exact .pos _⟩
    exact (C61_shift U ['$', '1', '0', '^'] (intText e) ['$'] e shift (by decide) (by decide) (noBrace_intText e).2 (intOf_intText U e))
  · refine ⟨negLabel (e + shift), ?_, by rw [neg_mul, h10]; exact .neg _⟩
    exact (C61_shift U ['$', '-', '1', '0', '^'] (intText e) ['$'] e shift (by decide) (by decide) (noBrace_intText e).2
      (intOf_intText U e))

/-- **C61.** Shifting all major labels gives the major labels of the shifted range. -/
theorem C61_major_labels (U : Digits) (lo hi step shift : ℤ) :
    (generateMajor lo hi step).2.mapM (fun t => teslaToGauss U t shift) = .ok (generateMajor (lo + shift) (hi + shift) step).2 := by
  have hp : ∀ e, teslaToGauss U (posLabel e) shift = .ok (posLabel (e + shift)) := fun e =>
    C61_shift U ['$', '1', '0', '^'] (intText e) ['$'] e shift (by decide) (by decide) (noBrace_intText e).2 (intOf_intText U e)
  have hn : ∀ e, teslaToGauss U (negLabel e) shift = .ok (negLabel (e + shift)) := fun e =>
    C61_shift U ['$', '-', '1', '0', '^'] (intText e) ['$'] e shift (by decide) (by decide) (noBrace_intText e).2 (intOf_intText U e)
  have h0 : teslaToGauss U ['0'] shift = .ok ['0'] := C61_no_braces U _ shift (by decide)
  have hm : ∀ (f : Text → Text) (l : List Text), (∀ t ∈ l, teslaToGauss U t shift = .ok (f t)) →
      l.mapM (fun t => teslaToGauss U t shift) = .ok (l.map f) := by
    intro f l h
    induction l with
    | nil => rfl
    | cons t l ih =>
      rw [List.mapM_cons, h t (by simp), ih fun t ht => h t (by simp [ht])]; rfl
  have key : ∀ l : List ℤ, l.mapM (m := Res) (fun e => teslaToGauss U (negLabel e) shift) = .ok (l.map fun e => negLabel (e + shift)) := by
    intro l
    induction l with
    | nil => rfl
    | cons t l ih => rw [List.mapM_cons, hn, ih]; rfl
  have key' : ∀ l : List ℤ, l.mapM (m := Res) (fun e => teslaToGauss U (posLabel e) shift) = .ok (l.map fun e => posLabel (e + shift)) := by
    intro l
    induction l with
    | nil => rfl
    | cons t l ih => rw [List.mapM_cons, hp, ih]; rfl
  simp only [generateMajor]
  rw [show hi + shift + 1 = hi + 1 + shift by ring, arange_shift, List.mapM_append, List.mapM_append, List.mapM_map, List.mapM_map,
    ← List.map_reverse]
  simp only [Function.comp_def, key, key', List.mapM_cons, List.mapM_nil, h0, List.map_map]
  rfl

example : teslaToGauss .asciiOnly "$-10^{-3}$".toList = .ok "$-10^{1}$".toList := by decide +kernel
example : teslaToGauss .asciiOnly "12}".toList = .ok "16}".toList := by decide +kernel
example : teslaToGauss .asciiOnly "{}".toList = .error .value := by decide +kernel

end Verif
