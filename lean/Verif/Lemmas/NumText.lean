import Verif.Lemmas.Text

/-!
# Numbers printed and parsed back
-/

namespace Verif

variable (U : Digits)

theorem digitChar_toNat : ∀ d < 10, (digitChar d).toNat = 48 + d := by decide

theorem digitChar_ne : ∀ d < 10, digitChar d ≠ '_' ∧ digitChar d ≠ '-' ∧ digitChar d ≠ '+' ∧ digitChar d ≠ '.'
    ∧ isE (digitChar d) = false ∧ isSpace (digitChar d) = false ∧ digitChar d ≠ '\n' ∧ digitChar d ≠ '\r' := by
  decide

theorem val_digitChar (d : ℕ) (h : d < 10) : U.val (digitChar d) = some d := by
  rw [U.ascii _ (by rw [digitChar_toNat d h]; omega), digitChar_toNat d h, if_pos (by omega)]
  congr 1; omega

theorem digitRun_map (ds : List ℕ) (hne : ds ≠ []) (h : ∀ d ∈ ds, d < 10) :
    digitRun U (ds.map digitChar) = some ds := by
  induction ds with
  | nil => exact absurd rfl hne
  | cons d ds ih =>
    have hd := h d List.mem_cons_self
    have hds : ∀ d ∈ ds, d < 10 := fun d hd => h d (List.mem_cons_of_mem _ hd)
    match ds, ih, hds with
    | [], _, _ => simp [digitRun, val_digitChar U d hd]
    | d' :: ds, ih, hds =>
      have ih := ih (by simp) hds
      have hd' := digitChar_ne d' (hds d' List.mem_cons_self)
      simp only [List.map_cons] at ih ⊢
      rw [digitRun]
      · rw [val_digitChar U d hd, ih]; rfl
      · intro h; cases h
      · intro t h; simp at h; exact hd'.1 h.1

theorem natOfDigits_append (a b : List ℕ) :
    natOfDigits (a ++ b) = natOfDigits a * 10 ^ b.length + natOfDigits b := by
  have key : ∀ (b : List ℕ) (n : ℕ),
      b.foldl (fun n d => 10 * n + d) n = n * 10 ^ b.length + b.foldl (fun n d => 10 * n + d) 0 := by
    intro b
    induction b with
    | nil => simp
    | cons d b ih =>
      intro n
      rw [List.foldl_cons, List.foldl_cons, ih, ih (10 * 0 + d), List.length_cons]
      ring
  rw [natOfDigits, List.foldl_append, key]; rfl

theorem natText_spec (n : ℕ) : ∃ ds : List ℕ, natText n = ds.map digitChar ∧ ds ≠ [] ∧ (∀ d ∈ ds, d < 10) ∧
    natOfDigits ds = n := by
  induction n using Nat.strong_induction_on with
  | _ n ih =>
    rw [natText]
    split_ifs with h
    · exact ⟨[n], rfl, by simp, by simpa using h, by simp [natOfDigits]⟩
    · obtain ⟨ds, e, h1, h2, h3⟩ := ih (n / 10) (by omega)
      refine ⟨ds ++ [n % 10], by simp [e], by simp, ?_, ?_⟩
      · intro d hd
        rcases List.mem_append.1 hd with hd | hd
        · exact h2 d hd
        · simp at hd; omega
      · rw [natOfDigits_append, h3]; simp [natOfDigits]; omega

theorem fixedDigits_spec (w n : ℕ) : ∃ ds : List ℕ, fixedDigits w n = ds.map digitChar ∧ ds.length = w ∧
    (∀ d ∈ ds, d < 10) ∧ natOfDigits ds = n % 10 ^ w := by
  induction w generalizing n with
  | zero => exact ⟨[], rfl, rfl, by simp, by simp [natOfDigits, Nat.mod_one]⟩
  | succ w ih =>
    obtain ⟨ds, e, h1, h2, h3⟩ := ih (n / 10)
    refine ⟨ds ++ [n % 10], by simp [fixedDigits, e], by simp [h1], ?_, ?_⟩
    · intro d hd
      rcases List.mem_append.1 hd with hd | hd
      · exact h2 d hd
      · simp at hd; omega
    · rw [natOfDigits_append, h3]
      simp only [natOfDigits, List.foldl_cons, List.foldl_nil, List.length_singleton]
      rw [pow_succ' 10 w, Nat.mod_mul]
      omega

theorem takeSign_digit (d : ℕ) (h : d < 10) (t : Text) : takeSign (digitChar d :: t) = (false, digitChar d :: t) := by
  have hd := digitChar_ne d h
  unfold takeSign
  split
  · rename_i heq; simp only [List.cons.injEq] at heq; exact absurd heq.1 hd.2.1
  · rename_i heq; simp only [List.cons.injEq] at heq; exact absurd heq.1 hd.2.2.1
  · rfl

theorem parseInt_natText (n : ℕ) : parseInt U (natText n) = some (n : ℤ) := by
  obtain ⟨ds, e, h1, h2, h3⟩ := natText_spec n
  obtain ⟨d, r, rfl⟩ := List.exists_cons_of_ne_nil h1
  have hs : takeSign (natText n) = (false, natText n) := by
    rw [e, List.map_cons]; exact takeSign_digit d (h2 d List.mem_cons_self) _
  simp only [parseInt, hs]
  rw [e, digitRun_map U _ h1 h2]
  simp [h3]

theorem parseInt_neg_natText (n : ℕ) : parseInt U ('-' :: natText n) = some (-(n : ℤ)) := by
  obtain ⟨ds, e, h1, h2, h3⟩ := natText_spec n
  simp only [parseInt, takeSign]
  rw [e, digitRun_map U _ h1 h2]
  simp [h3]

theorem parseInt_intText (z : ℤ) : parseInt U (intText z) = some z := by
  unfold intText
  split_ifs with h
  · rw [parseInt_neg_natText]; congr 1; omega
  · rw [parseInt_natText]; congr 1; omega

theorem parseInt_expText (k : ℤ) : parseInt U (expText k) = some k := by
  -- two-digit padding
  have hpad : ∃ ds : List ℕ, (if k.natAbs < 10 then '0' :: natText k.natAbs else natText k.natAbs)
      = ds.map digitChar ∧ ds ≠ [] ∧ (∀ d ∈ ds, d < 10) ∧ natOfDigits ds = k.natAbs := by
    obtain ⟨ds, e, h1, h2, h3⟩ := natText_spec k.natAbs
    split_ifs
    · refine ⟨0 :: ds, by simp [e, digitChar], by simp, ?_, ?_⟩
      · intro d hd; rcases List.mem_cons.1 hd with rfl | hd
        · norm_num
        · exact h2 d hd
      · have := natOfDigits_append [0] ds
        simpa [natOfDigits] using this.trans (by rw [h3]; simp [natOfDigits])
    · exact ⟨ds, e, h1, h2, h3⟩
  obtain ⟨ds, e, h1, h2, h3⟩ := hpad
  unfold expText
  rw [e]
  split_ifs with h
  · simp only [parseInt, takeSign, digitRun_map U _ h1 h2]
    simp [h3, abs_of_neg h]
  · simp only [parseInt, takeSign, digitRun_map U _ h1 h2]
    simp [h3]; omega

theorem ciEq_digit (d : ℕ) (h : d < 10) (t w : Text) (c : Char) (hc : 97 ≤ c.toNat) :
    ciEq (digitChar d :: t) (c :: w) = false := by
  have h1 : ∀ d < 10, (digitChar d).toLower = digitChar d := by decide
  have hd := digitChar_toNat d h
  simp only [ciEq, List.map_cons, decide_eq_false_iff_not, List.cons.injEq, not_and]
  intro hh
  rw [if_pos (by omega), h1 d h] at hh
  rw [← hh] at hc
  omega

theorem parseFloat_finite (neg : Bool) (q : ℚ) (hq : 0 ≤ q) :
    parseFloat U (fmtE (.fin neg q)) = some (.ofMag neg (decVal (dec7 q))) := by
  obtain ⟨r1, r2⟩ := dec7_range' hq
  obtain ⟨m, k, hmk⟩ : ∃ m k, dec7 q = (m, k) := ⟨_, _, rfl⟩
  rw [hmk] at r1 r2
  simp only at r1 r2
  obtain ⟨n, rfl⟩ := Int.eq_ofNat_of_zero_le r1
  have hn : n < 10 ^ 7 := by omega
  obtain ⟨as, ea, la, da, va⟩ := fixedDigits_spec 1 (n / 10 ^ 6)
  obtain ⟨fs, ef, lf, df, vf⟩ := fixedDigits_spec 6 (n % 10 ^ 6)
  obtain ⟨a, rfl⟩ := List.length_eq_one_iff.1 la
  have ha : a < 10 := da a List.mem_cons_self
  have e : fmtE (.fin neg q)
      = signText neg ++ (digitChar a :: ('.' :: (fs.map digitChar ++ 'e' :: expText k))) := by
    simp only [fmtE, hmk, Int.ofNat_eq_natCast, Int.toNat_natCast, ea, ef]
    simp
  have hs : takeSign (fmtE (.fin neg q))
      = (neg, digitChar a :: ('.' :: (fs.map digitChar ++ 'e' :: expText k))) := by
    rw [e]
    cases neg
    · exact takeSign_digit a ha _
    · rfl
  have hfs : fs ≠ [] := by intro h; rw [h] at lf; simp at lf
  have htw : ∀ t : Text, (digitChar a :: ('.' :: (fs.map digitChar ++ 'e' :: t))).takeWhile (fun c => !isE c)
      = digitChar a :: ('.' :: fs.map digitChar) := by
    intro t
    rw [← List.cons_append, ← List.cons_append, List.takeWhile_append_of_pos]
    · simp [isE]
    · intro c hc
      simp only [List.mem_cons, List.mem_map] at hc
      rcases hc with rfl | rfl | ⟨d, hd, rfl⟩
      · simp [(digitChar_ne a ha).2.2.2.2.1]
      · decide
      · simp [(digitChar_ne d (df d hd)).2.2.2.2.1]
  have hdw : ∀ t : Text, (digitChar a :: ('.' :: (fs.map digitChar ++ 'e' :: t))).dropWhile (fun c => !isE c)
      = 'e' :: t := by
    intro t
    rw [← List.cons_append, ← List.cons_append, List.dropWhile_append_of_pos]
    · simp [isE]
    · intro c hc
      simp only [List.mem_cons, List.mem_map] at hc
      rcases hc with rfl | rfl | ⟨d, hd, rfl⟩
      · simp [(digitChar_ne a ha).2.2.2.2.1]
      · decide
      · simp [(digitChar_ne d (df d hd)).2.2.2.2.1]
  have hmant : parseMantissa U (digitChar a :: ('.' :: fs.map digitChar)) = some ([a] ++ fs, 6) := by
    have ha4 := (digitChar_ne a ha).2.2.2.1
    obtain ⟨f, fr, rfl⟩ := List.exists_cons_of_ne_nil hfs
    have h1 := digitRun_map U _ hfs df
    have h2 : digitRun U [digitChar a] = some [a] := digitRun_map U [a] (by simp) da
    simp only [parseMantissa, List.takeWhile_cons, List.dropWhile_cons, ha4, ne_eq, not_false_eq_true,
      decide_true, if_true, not_true, decide_false, Bool.false_eq_true, if_false, List.map_cons] at h1 ⊢
    rw [h1, h2]
    simp [lf]
  have hval : natOfDigits ([a] ++ fs) = n := by
    rw [natOfDigits_append, va, vf, lf, Nat.mod_eq_of_lt (show n / 10 ^ 6 < 10 ^ 1 by omega),
      Nat.mod_eq_of_lt (show n % 10 ^ 6 < 10 ^ 6 by omega)]
    omega
  rw [parseFloat, hs]
  simp only [ciEq_digit a ha _ _ 'i' (by decide), ciEq_digit a ha _ _ 'n' (by decide), Bool.or_self,
    Bool.false_eq_true, if_false, htw, hdw, hmant, parseInt_expText, Option.bind_eq_bind,
    Option.bind_some, hval]
  rw [hmk]
  simp [decVal]

theorem parseFloat_inf (neg : Bool) : parseFloat U (fmtE (.inf neg)) = some (.inf neg) := by
  cases neg <;> rfl

theorem parseFloat_nan : parseFloat U (fmtE .nan) = some .nan := rfl

/-! ### Printed numbers contain neither white space nor line breaks -/

theorem noSpace_digits (ds : List ℕ) (h : ∀ d ∈ ds, d < 10) : NoSpace (ds.map digitChar) := by
  intro c hc
  obtain ⟨d, hd, rfl⟩ := List.mem_map.1 hc
  exact (digitChar_ne d (h d hd)).2.2.2.2.2.1

theorem noSpace_natText (n : ℕ) : NoSpace (natText n) := by
  obtain ⟨ds, e, _, h, _⟩ := natText_spec n
  rw [e]; exact noSpace_digits ds h

theorem natText_ne_nil (n : ℕ) : natText n ≠ [] := by
  obtain ⟨ds, e, h, _, _⟩ := natText_spec n
  rw [e]; simpa using h

theorem noSpace_cons {c : Char} {t : Text} (hc : isSpace c = false) (ht : NoSpace t) : NoSpace (c :: t) := by
  intro x hx; rcases List.mem_cons.1 hx with rfl | h
  · exact hc
  · exact ht x h

theorem noSpace_intText (z : ℤ) : NoSpace (intText z) := by
  unfold intText
  split_ifs
  · exact noSpace_cons (by decide) (noSpace_natText _)
  · exact noSpace_natText _

theorem intText_ne_nil (z : ℤ) : intText z ≠ [] := by
  unfold intText
  split_ifs
  · simp
  · exact natText_ne_nil _

theorem noSpace_signText (neg : Bool) : NoSpace (signText neg) := by
  cases neg <;> intro c hc <;> simp [signText] at hc
  subst hc; decide

theorem noSpace_fmtE (x : PyFloat) : NoSpace (fmtE x) := by
  cases x with
  | fin neg q =>
    obtain ⟨m, k, hmk⟩ : ∃ m k, dec7 q = (m, k) := ⟨_, _, rfl⟩
    simp only [fmtE, hmk]
    obtain ⟨as, ea, _, da, _⟩ := fixedDigits_spec 1 (m.toNat / 10 ^ 6)
    obtain ⟨fs, ef, _, df, _⟩ := fixedDigits_spec 6 (m.toNat % 10 ^ 6)
    rw [ea, ef]
    refine ((((noSpace_signText neg).append (noSpace_digits _ da)).append ?_).append
      (noSpace_digits _ df)).append ?_ |>.append ?_
    · intro c hc; simp at hc; subst hc; decide
    · intro c hc; simp at hc; subst hc; decide
    · unfold expText
      apply noSpace_cons
      · split_ifs <;> decide
      · split_ifs
        · exact noSpace_cons (by decide) (noSpace_natText _)
        · exact noSpace_natText _
  | inf neg =>
    refine (noSpace_signText neg).append ?_
    intro c hc; simp at hc; rcases hc with rfl | rfl | rfl <;> decide
  | nan => intro c hc; simp [fmtE] at hc; rcases hc with rfl | rfl | rfl <;> decide

theorem fmtE_ne_nil (x : PyFloat) : fmtE x ≠ [] := by
  cases x with
  | fin neg q =>
    obtain ⟨m, k, hmk⟩ : ∃ m k, dec7 q = (m, k) := ⟨_, _, rfl⟩
    simp [fmtE, hmk]
  | inf neg => simp [fmtE]
  | nan => simp [fmtE]

theorem noSpace_noBreak {t : Text} (h : NoSpace t) : ∀ c ∈ t, c ≠ '\n' ∧ c ≠ '\r' := by
  intro c hc
  have := h c hc
  constructor
  · rintro rfl; revert this; decide
  · rintro rfl; revert this; decide

theorem allSpace_replicate (n : ℕ) : AllSpace (List.replicate n ' ') := by
  intro c hc; rw [List.eq_of_mem_replicate hc]; decide

end Verif
