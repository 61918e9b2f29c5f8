import Verif.Model.Label
import Verif.Lemmas.Float
import Verif.Lemmas.NumText

/-!
# C74: numbers in the legends
-/

namespace Verif
open Label

/-- The LaTeX text before the exponent. -/
def Spec.timesTen : Text := [' ', '\\', 't', 'i', 'm', 'e', 's', ' ', '1', '0', '^', '{']

/-- The exponent at the end of a label, 0 if there is none. -/
def Spec.readPower (r : Text) : Option ℤ :=
  if r = [] then some 0
  else if r = timesTen ++ (r.drop 12).dropLast ++ ['}'] then parseInt .asciiOnly (r.drop 12).dropLast else none

/-- Read a label as a number: a sign, decimal digits with at most one point and, if there is more, a power of ten. The
result is whether the sign is minus, and the magnitude. -/
def Spec.readLabel : Text → Option (Bool × ℚ)
  | [] => none
  | s :: t => do
    if s ≠ '+' ∧ s ≠ '-' then none
    let (ds, n) ← parseMantissa .asciiOnly (t.takeWhile fun c => c ≠ ' ')
    let e ← readPower (t.dropWhile fun c => c ≠ ' ')
    pure (s = '-', (natOfDigits ds : ℚ) * 10 ^ (e - n))

/-- Non-negative decimals with at most three significant digits. -/
def Spec.IsDec3 (d : ℚ) : Prop := ∃ (n : ℕ) (k : ℤ), n < 10 ^ 3 ∧ d = n * 10 ^ k

open Spec

namespace Label

/-! ### Rounding to three digits -/

/-- The value of a pair produced by `dec3`. -/
def val (mk : ℤ × ℤ) : ℚ := mk.1 * 10 ^ (mk.2 - 2)

theorem dec3_zero : dec3 0 = (0, 0) := by
  unfold dec3
  simp only [zero_div, show rhe 0 = 0 by simpa using rhe_intCast 0, Int.log_zero_right]; norm_num

theorem dec3_core {x : ℚ} (hx : 0 < x) :
    (10 : ℚ) ^ 2 ≤ x / 10 ^ (Int.log 10 x - 2) ∧ x / 10 ^ (Int.log 10 x - 2) < 10 ^ 3 ∧
    10 ^ 2 ≤ rhe (x / 10 ^ (Int.log 10 x - 2)) ∧ rhe (x / 10 ^ (Int.log 10 x - 2)) ≤ 10 ^ 3 := by
  have hU : (0 : ℚ) < 10 ^ (Int.log 10 x - 2) := by positivity
  have h1 : (10 : ℚ) ^ 2 ≤ x / 10 ^ (Int.log 10 x - 2) := by
    rw [le_div_iff₀ hU, ← zpow_natCast, ← zpow_add₀ (by norm_num)]
    have := log_le (b := 10) (by norm_num) hx
    norm_num at this ⊢
    exact this
  have h2 : x / 10 ^ (Int.log 10 x - 2) < 10 ^ 3 := by
    rw [div_lt_iff₀ hU, ← zpow_natCast, ← zpow_add₀ (by norm_num)]
    have := lt_log (b := 10) (by norm_num) x
    norm_num at this ⊢
    rwa [show (3 : ℤ) + (Int.log 10 x - 2) = Int.log 10 x + 1 by ring]
  refine ⟨h1, h2, ?_, ?_⟩
  · have := rhe_mono (show ((10 ^ 2 : ℤ) : ℚ) ≤ x / 10 ^ (Int.log 10 x - 2) by exact_mod_cast h1)
    rwa [rhe_intCast] at this
  · have := rhe_mono (show x / 10 ^ (Int.log 10 x - 2) ≤ ((10 ^ 3 : ℤ) : ℚ) by exact_mod_cast h2.le)
    rwa [rhe_intCast] at this

theorem val_dec3 (x : ℚ) : val (dec3 x) = rhe (x / 10 ^ (Int.log 10 x - 2)) * 10 ^ (Int.log 10 x - 2) := by
  unfold dec3 val
  simp only
  split_ifs with h
  · rw [h, show Int.log 10 x + 1 - 2 = (Int.log 10 x - 2) + 1 by ring, zpow_add₀ (by norm_num)]
    norm_num; ring
  · rfl

theorem dec3_range {x : ℚ} (hx : 0 < x) : 10 ^ 2 ≤ (dec3 x).1 ∧ (dec3 x).1 < 10 ^ 3 := by
  obtain ⟨_, _, h3, h4⟩ := dec3_core hx
  unfold dec3
  simp only
  split_ifs with h
  · norm_num
  · exact ⟨h3, lt_of_le_of_ne h4 h⟩

theorem dec3_range' {x : ℚ} (hx : 0 ≤ x) : 0 ≤ (dec3 x).1 ∧ (dec3 x).1 < 10 ^ 3 := by
  rcases hx.eq_or_lt with rfl | hx
  · rw [dec3_zero]; norm_num
  · have := dec3_range hx; omega

theorem val_isDec3 {x : ℚ} (hx : 0 ≤ x) : IsDec3 (val (dec3 x)) := by
  obtain ⟨h1, h2⟩ := dec3_range' hx
  obtain ⟨n, hn⟩ := Int.eq_ofNat_of_zero_le h1
  exact ⟨n, (dec3 x).2 - 2, by omega, by unfold val; rw [hn]; simp⟩

/-- No decimal with three digits is nearer to `x`. -/
theorem dec3_nearest {x d : ℚ} (hx : 0 ≤ x) (hd : IsDec3 d) : |val (dec3 x) - x| ≤ |d - x| := by
  rcases hx.eq_or_lt with rfl | hx
  · rw [dec3_zero]; simp [val]
  obtain ⟨n, k, hn, rfl⟩ := hd
  rw [val_dec3]
  have := grid_nearest (b := 10) (by norm_num) hx (p := 3) (e := Int.log 10 x - 2) (e' := k) (n := n) hn
    (by by_cases h : Int.log 10 x - 2 ≤ k
        · exact Or.inl h
        · exact Or.inr ⟨by omega, by norm_num⟩) (by norm_num)
  exact_mod_cast this

theorem dec3_rel {x : ℚ} (hx : 0 ≤ x) : |val (dec3 x) - x| ≤ 1 / 200 * x := by
  rcases hx.eq_or_lt with rfl | hx
  · rw [dec3_zero]; simp [val]
  have h : |val (dec3 x) - x| ≤ 10 ^ (Int.log 10 x - 2) / 2 := by
    rw [val_dec3]
    exact_mod_cast grid_abs_le (b := 10) (by norm_num) x (Int.log 10 x - 2)
  refine h.trans ?_
  obtain ⟨h1, _, _, _⟩ := dec3_core hx
  have hU : (0 : ℚ) < 10 ^ (Int.log 10 x - 2) := by positivity
  rw [le_div_iff₀ hU] at h1
  linarith

theorem val_bounds {x : ℚ} (hx : 0 < x) : (10 : ℚ) ^ Int.log 10 x ≤ val (dec3 x) ∧
    val (dec3 x) ≤ 10 ^ (Int.log 10 x + 1) := by
  obtain ⟨_, _, h3, h4⟩ := dec3_core hx
  have hU : (0 : ℚ) < 10 ^ (Int.log 10 x - 2) := by positivity
  rw [val_dec3]
  have h3' : (10 : ℚ) ^ 2 ≤ rhe (x / 10 ^ (Int.log 10 x - 2)) := by exact_mod_cast h3
  have h4' : (rhe (x / 10 ^ (Int.log 10 x - 2)) : ℚ) ≤ 10 ^ 3 := by exact_mod_cast h4
  have e1 : (10 : ℚ) ^ Int.log 10 x = 10 ^ 2 * 10 ^ (Int.log 10 x - 2) := by
    rw [← zpow_natCast, ← zpow_add₀ (by norm_num)]; congr 1; push_cast; ring
  have e2 : (10 : ℚ) ^ (Int.log 10 x + 1) = 10 ^ 3 * 10 ^ (Int.log 10 x - 2) := by
    rw [← zpow_natCast, ← zpow_add₀ (by norm_num)]; congr 1; push_cast; ring
  rw [e1, e2]
  exact ⟨mul_le_mul_of_nonneg_right h3' hU.le, mul_le_mul_of_nonneg_right h4' hU.le⟩

theorem val_mono {x y : ℚ} (hx : 0 ≤ x) (h : x ≤ y) : val (dec3 x) ≤ val (dec3 y) := by
  rcases hx.eq_or_lt with rfl | hx
  · rw [dec3_zero, val, val]
    have := (dec3_range' h).1
    have : (0 : ℚ) ≤ (dec3 y).1 := by exact_mod_cast this
    simp only [Int.cast_zero, zero_mul]; positivity
  have hy := lt_of_lt_of_le hx h
  have hlog : Int.log 10 x ≤ Int.log 10 y := Int.log_mono_right hx h
  rcases hlog.eq_or_lt with e | e
  · rw [val_dec3, val_dec3, e]
    have hU : (0 : ℚ) < 10 ^ (Int.log 10 y - 2) := by positivity
    exact mul_le_mul_of_nonneg_right (by exact_mod_cast rhe_mono (div_le_div_of_nonneg_right h hU.le)) hU.le
  · refine (val_bounds hx).2.trans (le_trans ?_ (val_bounds hy).1)
    exact zpow_le_zpow_right₀ (by norm_num) (by omega)

/-! ### Text -/

theorem stripZeros_append (t : Text) : ∃ z, t = stripZeros t ++ List.replicate z '0' := by
  refine ⟨(t.reverse.takeWhile fun c => c = '0').length, ?_⟩
  have h := List.takeWhile_append_dropWhile (p := fun c : Char => decide (c = '0')) (l := t.reverse)
  have h2 := congrArg List.reverse h
  rw [List.reverse_append, List.reverse_reverse] at h2
  rw [stripZeros]
  conv_lhs => rw [← h2]
  congr 1
  rw [List.eq_replicate_iff]
  refine ⟨by simp, fun c hc => ?_⟩
  have := List.mem_takeWhile_imp (List.mem_reverse.1 hc)
  simpa using this

theorem digitChar_inj : ∀ a < 10, digitChar a = '0' → a = 0 := by decide

/-- The digits that remain and what they are worth. -/
theorem stripZeros_digits (ds : List ℕ) (h : ∀ d ∈ ds, d < 10) : ∃ fs z, stripZeros (ds.map digitChar) = fs.map digitChar ∧
    (∀ d ∈ fs, d < 10) ∧ ds.length = fs.length + z ∧ natOfDigits ds = natOfDigits fs * 10 ^ z := by
  obtain ⟨z, hz⟩ := stripZeros_append (ds.map digitChar)
  obtain ⟨fs, gs, rfl, h1, h2⟩ := List.map_eq_append_iff.1 hz
  refine ⟨fs, z, h1.symm, fun d hd => h d (by simp [hd]), ?_, ?_⟩
  · have := congrArg List.length h2
    simp at this
    simp [this]
  · have hg : gs = List.replicate z 0 := by
      have hl := congrArg List.length h2
      simp at hl
      rw [List.eq_replicate_iff]
      refine ⟨hl, fun d hd => digitChar_inj d (h d (by simp [hd])) ?_⟩
      exact (List.eq_replicate_iff.1 h2).2 _ (List.mem_map_of_mem hd)
    have h0 : ∀ z, natOfDigits (List.replicate z 0) = 0 := by
      intro z
      induction z with
      | zero => rfl
      | succ z ih => rw [List.replicate_succ, natOfDigits, List.foldl_cons]; exact ih
    rw [natOfDigits_append, hg, h0, List.length_replicate, add_zero]

/-- What `natText i` with the digits `f` after the point reads as, and the characters of that text. -/
theorem mantissa (U : Digits) (i w f : ℕ) (hf : f < 10 ^ w) : ∃ ds n,
    parseMantissa U (natText i ++ frac (fixedDigits w f)) = some (ds, n) ∧
    ((natOfDigits ds : ℚ) = (i * 10 ^ w + f) / 10 ^ w * 10 ^ n) ∧
    ∀ c ∈ natText i ++ frac (fixedDigits w f), c = '.' ∨ ∃ d < 10, c = digitChar d := by
  obtain ⟨is, ei, ni, di, vi⟩ := natText_spec i
  obtain ⟨gs, eg, lg, dg, vg⟩ := fixedDigits_spec w f
  obtain ⟨fs, z, e, df, l, v⟩ := stripZeros_digits gs dg
  rw [Nat.mod_eq_of_lt hf] at vg
  have hdot : ∀ c ∈ is.map digitChar, (fun c => decide (c ≠ '.')) c = true := by
    intro c hc
    obtain ⟨d, hd, rfl⟩ := List.mem_map.1 hc
    simp [(digitChar_ne d (di d hd)).2.2.2.1]
  have hfrac : frac (fixedDigits w f) = if fs = [] then [] else '.' :: fs.map digitChar := by
    rw [frac, eg, e]; simp
  rw [hfrac, ei]
  split_ifs with hfs
  · subst hfs
    refine ⟨is, 0, ?_, ?_, ?_⟩
    · rw [List.append_nil, parseMantissa, List.takeWhile_eq_self_iff.2 hdot, List.dropWhile_eq_nil_iff.2 hdot,
        digitRun_map U is ni di]
      rfl
    · have : f = 0 := by rw [← vg, v]; simp [natOfDigits]
      rw [this, vi]; field_simp; push_cast; ring
    · intro c hc
      rw [List.append_nil] at hc
      obtain ⟨d, hd, rfl⟩ := List.mem_map.1 hc
      exact .inr ⟨d, di d hd, rfl⟩
  · refine ⟨is ++ fs, fs.length, ?_, ?_, ?_⟩
    · have t1 : (is.map digitChar ++ '.' :: fs.map digitChar).takeWhile (fun c => c ≠ '.') = is.map digitChar := by
        rw [List.takeWhile_append_of_pos hdot]; simp
      have t2 : (is.map digitChar ++ '.' :: fs.map digitChar).dropWhile (fun c => c ≠ '.') = '.' :: fs.map digitChar := by
        rw [List.dropWhile_append_of_pos hdot]; simp
      obtain ⟨f0, fr, rfl⟩ := List.exists_cons_of_ne_nil hfs
      have h1 := digitRun_map U _ hfs df
      have h2 := digitRun_map U _ ni di
      have h3 : is.map digitChar ≠ [] := by simpa using ni
      rw [List.map_cons] at h1 t1 t2
      rw [parseMantissa, List.map_cons, t1, t2]
      simp only [h1, h2, h3, if_false, Option.bind_eq_bind, Option.bind_some]
      rfl
    · have hw : w = fs.length + z := by omega
      rw [natOfDigits_append, vi]
      have hv : (f : ℚ) = natOfDigits fs * 10 ^ z := by rw [← vg, v]; push_cast; rfl
      rw [hv, hw, pow_add]; push_cast; field_simp
    · intro c hc
      rcases List.mem_append.1 hc with hc | hc
      · obtain ⟨d, hd, rfl⟩ := List.mem_map.1 hc
        exact .inr ⟨d, di d hd, rfl⟩
      · rcases List.mem_cons.1 hc with rfl | hc
        · exact .inl rfl
        · obtain ⟨d, hd, rfl⟩ := List.mem_map.1 hc
          exact .inr ⟨d, df d hd, rfl⟩

theorem digit_chars : ∀ d < 10, digitChar d ≠ 'e' ∧ digitChar d ≠ ' ' ∧ digitChar d ≠ '\\' := by decide

theorem expText_chars (k : ℤ) : 'e' ∉ expText k := by
  obtain ⟨ds, e, -, h, -⟩ := natText_spec k.natAbs
  have hn : 'e' ∉ natText k.natAbs := by
    rw [e]
    intro hc
    obtain ⟨d, hd, hc⟩ := List.mem_map.1 hc
    exact (digit_chars d (h d hd)).1 hc
  unfold expText
  split_ifs <;> simp [hn]

theorem splitSep_no {c : Char} {t : Text} (h : c ∉ t) : splitSep c t = [t] := by
  induction t with
  | nil => rfl
  | cons x t ih =>
    rw [List.mem_cons, not_or] at h
    rw [splitSep, if_neg (Ne.symm h.1), ih h.2]

theorem splitSep_one {c : Char} {a b : Text} (ha : c ∉ a) (hb : c ∉ b) : splitSep c (a ++ c :: b) = [a, b] := by
  induction a with
  | nil => rw [List.nil_append, splitSep, if_pos rfl, splitSep_no hb]
  | cons x a ih =>
    rw [List.mem_cons, not_or] at ha
    rw [List.cons_append, splitSep, if_neg (Ne.symm ha.1), ih ha.2]

/-- The text of a label: with the power of ten exactly if the exponent is below -4 or at least 3. -/
theorem latexFloat_fin (U : Digits) (neg : Bool) (q : ℚ) : latexFloat U (.fin neg q) = .ok
    (if -4 ≤ (dec3 q).2 ∧ (dec3 q).2 < 3 then
      sign neg :: (natText ((dec3 q).1.toNat / 10 ^ (2 - (dec3 q).2).toNat) ++
        frac (fixedDigits (2 - (dec3 q).2).toNat ((dec3 q).1.toNat % 10 ^ (2 - (dec3 q).2).toNat)))
    else sign neg :: (natText ((dec3 q).1.toNat / 10 ^ 2) ++ frac (fixedDigits 2 ((dec3 q).1.toNat % 10 ^ 2)) ++ timesTen ++
      intText (dec3 q).2 ++ ['}'])) := by
  obtain ⟨m, k, hmk⟩ : ∃ m k, dec3 q = (m, k) := ⟨_, _, rfl⟩
  have hno : ∀ i w f, f < 10 ^ w → 'e' ∉ sign neg :: (natText i ++ frac (fixedDigits w f)) := by
    intro i w f hf hc
    obtain ⟨-, -, -, -, h⟩ := mantissa .asciiOnly i w f hf
    rcases List.mem_cons.1 hc with hc | hc
    · cases neg <;> simp [sign] at hc
    · rcases h _ hc with h | ⟨d, hd, h⟩
      · cases h
      · exact (digit_chars d hd).1 h.symm
  rw [latexFloat]
  simp only [fmtG, hmk]
  split_ifs with h1 h2
  · exact absurd h2 (hno _ _ _ (Nat.mod_lt _ (by positivity)))
  · rfl
  · rename_i h3
    have := splitSep_one (hno (m.toNat / 10 ^ 2) 2 (m.toNat % 10 ^ 2) (Nat.mod_lt _ (by positivity))) (expText_chars k)
    rw [List.cons_append] at this
    rw [this]
    simp only [parseInt_expText, timesTen, List.cons_append, List.append_assoc]
  · rename_i h3
    exact absurd (by simp) h3

theorem intText_chars (k : ℤ) : ∀ c ∈ intText k, c ≠ '}' := by
  obtain ⟨ds, e, -, h, -⟩ := natText_spec k.natAbs
  have hd : ∀ d < 10, digitChar d ≠ '}' := by decide
  intro c hc
  have : c = '-' ∨ c ∈ natText k.natAbs := by
    unfold intText at hc
    split_ifs at hc
    · simpa using hc
    · exact .inr hc
  rcases this with rfl | hc
  · decide
  · rw [e] at hc
    obtain ⟨d, hd', rfl⟩ := List.mem_map.1 hc
    exact hd d (h d hd')

theorem readLabel_aux (neg : Bool) (i w f : ℕ) (hf : f < 10 ^ w) (rest : Text) (e : ℤ)
    (hr : rest = [] ∧ e = 0 ∨ rest = timesTen ++ intText e ++ ['}']) :
    readLabel (sign neg :: (natText i ++ frac (fixedDigits w f) ++ rest)) =
      some (neg, ((i : ℚ) * 10 ^ w + f) / 10 ^ w * 10 ^ e) := by
  obtain ⟨ds, n, h1, h2, h3⟩ := mantissa .asciiOnly i w f hf
  have hsp : ∀ c ∈ natText i ++ frac (fixedDigits w f), (fun c => decide (c ≠ ' ')) c = true := by
    intro c hc
    rcases h3 c hc with rfl | ⟨d, hd, rfl⟩
    · decide
    · simp [(digit_chars d hd).2.1]
  have t1 : (natText i ++ frac (fixedDigits w f) ++ rest).takeWhile (fun c => c ≠ ' ') =
      natText i ++ frac (fixedDigits w f) := by
    rw [List.takeWhile_append_of_pos hsp]
    rcases hr with ⟨rfl, -⟩ | rfl <;> simp [timesTen]
  have t2 : (natText i ++ frac (fixedDigits w f) ++ rest).dropWhile (fun c => c ≠ ' ') = rest := by
    rw [List.dropWhile_append_of_pos hsp]
    rcases hr with ⟨rfl, -⟩ | rfl <;> simp [timesTen]
  have hs : ¬ (sign neg ≠ '+' ∧ sign neg ≠ '-') := by cases neg <;> simp [sign]
  have hs2 : decide (sign neg = '-') = neg := by cases neg <;> simp [sign]
  have hx : readPower rest = some e := by
    rw [readPower]
    rcases hr with ⟨rfl, rfl⟩ | rfl
    · rfl
    · have hd : ((timesTen ++ intText e ++ ['}']).drop 12).dropLast = intText e := by simp [timesTen]
      rw [hd, if_neg (by simp [timesTen]), if_pos rfl, parseInt_intText]
  have hv : (natOfDigits ds : ℚ) * 10 ^ (e - n) = ((i : ℚ) * 10 ^ w + f) / 10 ^ w * 10 ^ e := by
    have : (10 : ℚ) ^ n ≠ 0 := by positivity
    rw [h2, zpow_sub₀ (by norm_num), zpow_natCast]
    field_simp
  rw [readLabel, if_neg hs, t1, t2, h1]
  show (some (ds, n)).bind _ = _
  rw [Option.bind_some, hx]
  show some _ = _
  rw [hv, hs2]

/-- What a label reads as. -/
theorem read_label (neg : Bool) (q : ℚ) (hq : 0 ≤ q) (t : Text) (U : Digits) (ht : latexFloat U (.fin neg q) = .ok t) :
    readLabel t = some (neg, val (dec3 q)) := by
  obtain ⟨r1, r2⟩ := dec3_range' hq
  obtain ⟨m, k, hmk⟩ : ∃ m k, dec3 q = (m, k) := ⟨_, _, rfl⟩
  have hv : val (dec3 q) = m * 10 ^ (k - 2) := by rw [hmk, val]
  rw [latexFloat_fin] at ht
  obtain rfl := Except.ok.inj ht
  rw [hv]
  rw [hmk] at r1 r2 ⊢
  simp only at r1 r2 ⊢
  obtain ⟨n, rfl⟩ := Int.eq_ofNat_of_zero_le r1
  rw [Int.toNat_natCast]
  split_ifs with h
  · have hk : (2 - k).toNat = 2 - k := by omega
    have := readLabel_aux neg (n / 10 ^ (2 - k).toNat) (2 - k).toNat (n % 10 ^ (2 - k).toNat)
      (Nat.mod_lt _ (by positivity)) [] 0 (.inl ⟨rfl, rfl⟩)
    rw [List.append_nil] at this
    rw [this]
    have e : ((n / 10 ^ (2 - k).toNat : ℕ) : ℚ) * 10 ^ (2 - k).toNat + ((n % 10 ^ (2 - k).toNat : ℕ) : ℚ) = n := by
      have := Nat.div_add_mod' n (10 ^ (2 - k).toNat)
      exact_mod_cast this
    rw [e, zpow_zero, mul_one, show k - 2 = -((2 - k).toNat : ℤ) by omega, zpow_neg, zpow_natCast, div_eq_mul_inv,
      Int.cast_natCast]
  · have := readLabel_aux neg (n / 10 ^ 2) 2 (n % 10 ^ 2) (Nat.mod_lt _ (by positivity)) (timesTen ++ intText k ++ ['}']) k
      (.inr rfl)
    rw [← List.append_assoc, ← List.append_assoc] at this
    rw [this]
    have e : ((n / 10 ^ 2 : ℕ) : ℚ) * 10 ^ 2 + ((n % 10 ^ 2 : ℕ) : ℚ) = n := by
      have := Nat.div_add_mod' n (10 ^ 2)
      exact_mod_cast this
    rw [e, zpow_sub₀ (by norm_num), div_mul_eq_mul_div, mul_div_assoc, Int.cast_natCast]
    rfl

end Label

/-- **C74.** The label of every finite number can be made and read back: it shows the sign of the number, and of all
decimals with three significant digits one that is nearest to the number, so that it is off by half a percent at most.
A power of ten is shown exactly for labels below 0.0001 (and not zero) or of 1000 and above. -/
theorem C74_label (U : Digits) (neg : Bool) (q : ℚ) (hq : 0 ≤ q) : ∃ t v, latexFloat U (.fin neg q) = .ok t ∧
    readLabel t = some (neg, v) ∧ IsDec3 v ∧ (∀ d, IsDec3 d → |v - q| ≤ |d - q|) ∧ |v - q| ≤ 1 / 200 * q ∧
    ('^' ∈ t ↔ v ≠ 0 ∧ (v < 10 ^ (-4 : ℤ) ∨ 1000 ≤ v)) := by
  obtain ⟨r1, r2⟩ := dec3_range' hq
  obtain ⟨m, k, hmk⟩ : ∃ m k, dec3 q = (m, k) := ⟨_, _, rfl⟩
  have hv : val (dec3 q) = m * 10 ^ (k - 2) := by rw [hmk, val]
  refine ⟨_, val (dec3 q), latexFloat_fin U neg q, ?_, val_isDec3 hq, fun d hd => dec3_nearest hq hd, dec3_rel hq, ?_⟩
  · exact read_label neg q hq _ U (latexFloat_fin U neg q)
  · have hpow : (-4 ≤ k ∧ k < 3) ↔ ¬ (val (dec3 q) ≠ 0 ∧ (val (dec3 q) < 10 ^ (-4 : ℤ) ∨ 1000 ≤ val (dec3 q))) := by
      rcases hq.eq_or_lt with rfl | hq
      · rw [dec3_zero] at hmk ⊢
        obtain ⟨rfl, rfl⟩ := Prod.mk.inj hmk
        simp [val]
      have r := dec3_range hq
      rw [hmk] at r
      have b1 : (10 : ℚ) ^ k ≤ val (dec3 q) := by
        rw [hv, show k = 2 + (k - 2) by ring, zpow_add₀ (by norm_num), show 2 + (k - 2) - 2 = k - 2 by ring]
        exact mul_le_mul_of_nonneg_right (by exact_mod_cast r.1) (by positivity)
      have b2 : val (dec3 q) < (10 : ℚ) ^ (k + 1) := by
        rw [hv, show k + 1 = 3 + (k - 2) by ring, zpow_add₀ (by norm_num)]
        exact mul_lt_mul_of_pos_right (by exact_mod_cast r.2) (by positivity)
      have b0 : val (dec3 q) ≠ 0 := by
        have : (0 : ℚ) < 10 ^ k := by positivity
        linarith
      have h3 : (1000 : ℚ) = 10 ^ (3 : ℤ) := by norm_num
      rw [not_and, not_or, not_lt, not_le, h3]
      constructor
      · rintro ⟨h1, h2⟩ -
        exact ⟨(zpow_le_zpow_right₀ (by norm_num) h1).trans b1,
          lt_of_lt_of_le b2 (zpow_le_zpow_right₀ (by norm_num) (by omega))⟩
      · intro h
        obtain ⟨h1, h2⟩ := h b0
        have c1 := (zpow_lt_zpow_iff_right₀ (by norm_num : (1 : ℚ) < 10)).1 (lt_of_le_of_lt h1 b2)
        have c2 := (zpow_lt_zpow_iff_right₀ (by norm_num : (1 : ℚ) < 10)).1 (lt_of_le_of_lt b1 h2)
        omega
    rw [← not_iff_not, ← hpow, hmk]
    split_ifs with h
    · refine iff_of_true ?_ h
      obtain ⟨-, -, -, -, hc⟩ := mantissa .asciiOnly (m.toNat / 10 ^ (2 - k).toNat) (2 - k).toNat
        (m.toNat % 10 ^ (2 - k).toNat) (Nat.mod_lt _ (by positivity))
      have hd : ∀ d < 10, '^' ≠ digitChar d := by decide
      intro h
      rcases List.mem_cons.1 h with h | h
      · cases neg <;> simp [sign] at h
      · rcases hc _ h with h | ⟨d, hd', h⟩
        · cases h
        · exact hd d hd' h
    · exact iff_of_false (by simp [timesTen]) h

/-- **C74.** Labels keep the order of the numbers: a larger number never has a smaller label. -/
theorem C74_order (U : Digits) (b b' : Bool) (q q' : ℚ) (hq : 0 ≤ q) (hq' : 0 ≤ q')
    (h : (if b then -q else q) ≤ if b' then -q' else q') : ∃ t t' v v',
    latexFloat U (.fin b q) = .ok t ∧ latexFloat U (.fin b' q') = .ok t' ∧
    readLabel t = some (b, v) ∧ readLabel t' = some (b', v') ∧ (if b then -v else v) ≤ if b' then -v' else v' := by
  have e1 := latexFloat_fin U b q
  have e2 := latexFloat_fin U b' q'
  refine ⟨_, _, _, _, e1, e2, read_label b q hq _ U e1, read_label b' q' hq' _ U e2, ?_⟩
  have p1 : 0 ≤ val (dec3 q) := by simpa [dec3_zero, val] using val_mono le_rfl hq
  have p2 : 0 ≤ val (dec3 q') := by simpa [dec3_zero, val] using val_mono le_rfl hq'
  cases b <;> cases b' <;> simp only [Bool.false_eq_true, if_false, if_true] at h ⊢
  · exact val_mono hq h
  · have h0 : q = 0 := by linarith
    have h1 : q' = 0 := by linarith
    rw [h0, h1, dec3_zero]; simp [val]
  · linarith
  · exact neg_le_neg (val_mono hq' (by linarith))

/-- **C74.** Infinities and nan are shown as such. -/
theorem C74_special (U : Digits) : latexFloat U (.inf false) = .ok "+inf".toList ∧
    latexFloat U (.inf true) = .ok "-inf".toList ∧ latexFloat U .nan = .ok "+nan".toList := by
  refine ⟨?_, ?_, ?_⟩ <;> simp [latexFloat, fmtG, sign]

/-- Examples, among them a carry into the exponent. -/
example : latexFloat .asciiOnly (.fin false 1234) = .ok "+1.23 \\times 10^{3}".toList := by decide +kernel
example : latexFloat .asciiOnly (.fin true (13 / 100000)) = .ok "-0.00013".toList := by decide +kernel
example : latexFloat .asciiOnly (.fin false (9999 / 100)) = .ok "+100".toList := by decide +kernel
example : latexFloat .asciiOnly (.fin false (9999 / 10)) = .ok "+1 \\times 10^{3}".toList := by decide +kernel
example : latexFloat .asciiOnly (.fin false (1 / 100000)) = .ok "+1 \\times 10^{-5}".toList := by decide +kernel
example : latexFloat .asciiOnly (.fin true 0) = .ok "-0".toList := by decide +kernel
example : readLabel "-1.25 \\times 10^{-7}".toList = some (true, 125 / 10 ^ 9) := by decide +kernel

end Verif
