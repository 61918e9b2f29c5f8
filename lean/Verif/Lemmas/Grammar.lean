import Verif.Lemmas.NumText
import Verif.Spec.Files

/-!
# The number parsers accept exactly the specified syntax
-/

namespace Verif
open Spec

variable (U : Digits)

theorem natOfDigits_eq (ds : List ℕ) : natOfDigits ds = decimalValue ds := by
  induction ds with
  | nil => rfl
  | cons d ds ih =>
    have := natOfDigits_append [d] ds
    rw [List.singleton_append] at this
    rw [this, ih, decimalValue]; simp [natOfDigits]

variable {U}

/-- Facts about a character with a digit value. -/
theorem digit_ne {c : Char} {d : ℕ} (h : U.val c = some d) :
    c ≠ '_' ∧ c ≠ '-' ∧ c ≠ '+' ∧ c ≠ '.' ∧ isE c = false := by
  have key : ∀ x : Char, x.toNat < 128 → ¬ (48 ≤ x.toNat ∧ x.toNat ≤ 57) → c ≠ x := by
    rintro x hx hn rfl
    rw [U.ascii c hx, if_neg hn] at h
    cases h
  refine ⟨key _ (by decide) (by decide), key _ (by decide) (by decide), key _ (by decide) (by decide),
    key _ (by decide) (by decide), ?_⟩
  have h1 := key 'e' (by decide) (by decide)
  have h2 := key 'E' (by decide) (by decide)
  simp [isE, h1, h2]

theorem Spec.DigitPart.head {t : Text} {ds : List ℕ} (h : DigitPart U t ds) :
    ∃ c r d, t = c :: r ∧ U.val c = some d := by
  cases h with
  | one h => exact ⟨_, _, _, rfl, h⟩
  | cons h _ => exact ⟨_, _, _, rfl, h⟩
  | under h _ => exact ⟨_, _, _, rfl, h⟩

theorem digitRun_iff (t : Text) (ds : List ℕ) : digitRun U t = some ds ↔ DigitPart U t ds := by
  constructor
  · intro h
    fun_induction digitRun U t generalizing ds with
    | case1 => cases h
    | case2 c =>
      rcases hv : U.val c with _ | d
      · rw [hv] at h; cases h
      · rw [hv] at h; simp at h; subst h; exact .one hv
    | case3 c t ih =>
      rcases hv : U.val c with _ | d
      · rw [hv] at h; cases h
      · rcases hr : digitRun U t with _ | es
        · rw [hv, hr] at h; cases h
        · rw [hv, hr] at h; cases h; exact .under hv (ih es hr)
    | case4 c t h1 h2 ih =>
      rcases hv : U.val c with _ | d
      · rw [hv] at h; cases h
      · rcases hr : digitRun U t with _ | es
        · rw [hv, hr] at h; cases h
        · rw [hv, hr] at h; cases h; exact .cons hv (ih es hr)
  · intro h
    induction h with
    | one h => simp [digitRun, h]
    | @cons c d t ds h ht ih =>
      obtain ⟨c', r, d', rfl, hd'⟩ := ht.head
      rw [digitRun]
      · rw [h, ih]; rfl
      · intro hh; cases hh
      · intro t hh; simp only [List.cons.injEq] at hh; exact (digit_ne hd').1 hh.1
    | @under c d t ds h ht ih => rw [digitRun, h, ih]; rfl

theorem dropWhile_head {p : Char → Bool} {t r : Text} {c : Char} (h : t.dropWhile p = c :: r) : p c = false := by
  induction t with
  | nil => cases h
  | cons a t ih =>
    rw [List.dropWhile_cons] at h
    split_ifs at h with ha
    · exact ih h
    · cases h; simpa using ha

/-- What `takeSign` returns. -/
theorem takeSign_spec (t : Text) : ∃ s, Sign s (takeSign t).1 ∧ t = s ++ (takeSign t).2 := by
  unfold takeSign
  split
  · exact ⟨['-'], .minus, rfl⟩
  · exact ⟨['+'], .plus, rfl⟩
  · exact ⟨[], .none, rfl⟩

theorem takeSign_append {s : Text} {neg : Bool} (hs : Sign s neg) (b : Text)
    (hb : ∀ r, b ≠ '-' :: r ∧ b ≠ '+' :: r) : takeSign (s ++ b) = (neg, b) := by
  cases hs with
  | none =>
    rw [List.nil_append]
    unfold takeSign
    split
    · exact absurd rfl (hb _).1
    · exact absurd rfl (hb _).2
    · rfl
  | plus => rfl
  | minus => rfl

theorem parseInt_iff (t : Text) (z : ℤ) : parseInt U t = some z ↔ IntLit U t z := by
  constructor
  · intro h
    obtain ⟨s, hs, ht⟩ := takeSign_spec t
    rcases hp : takeSign t with ⟨neg, b⟩
    rw [hp] at hs ht
    simp only [parseInt, hp, Option.bind_eq_bind] at h
    rcases hr : digitRun U b with _ | ds
    · rw [hr] at h; cases h
    · rw [hr] at h
      simp only [Option.bind_some] at h
      cases h
      exact ⟨s, neg, b, ds, hs, (digitRun_iff b ds).1 hr, ht, by rw [natOfDigits_eq]⟩
  · rintro ⟨s, neg, b, ds, hs, hd, rfl, rfl⟩
    obtain ⟨c, r, d, rfl, hc⟩ := hd.head
    have hne := digit_ne hc
    have ht := takeSign_append hs (c :: r) (fun r => ⟨fun h => hne.2.1 (List.cons.inj h).1,
      fun h => hne.2.2.1 (List.cons.inj h).1⟩)
    simp only [parseInt, ht, (digitRun_iff _ ds).2 hd, Option.bind_eq_bind, Option.bind_some, natOfDigits_eq]
    rfl

theorem Spec.DigitPart.chars {t : Text} {ds : List ℕ} (h : DigitPart U t ds) :
    ∀ c ∈ t, c ≠ '.' ∧ isE c = false := by
  induction h with
  | one h => intro c hc; simp at hc; subst hc; exact (digit_ne h).2.2.2
  | cons h _ ih =>
    intro c hc
    rcases List.mem_cons.1 hc with rfl | hc
    · exact (digit_ne h).2.2.2
    · exact ih c hc
  | under h _ ih =>
    intro c hc
    rcases List.mem_cons.1 hc with rfl | hc
    · exact (digit_ne h).2.2.2
    · rcases List.mem_cons.1 hc with rfl | hc
      · exact ⟨by decide, by decide⟩
      · exact ih c hc

theorem Spec.DigitPart.ne_nil {t : Text} {ds : List ℕ} (h : DigitPart U t ds) : t ≠ [] := by
  obtain ⟨c, r, d, rfl, _⟩ := h.head; simp

theorem takeWhile_point {a : Text} (ha : ∀ c ∈ a, c ≠ '.' ∧ isE c = false) (b : Text) :
    (a ++ '.' :: b).takeWhile (fun c => decide (c ≠ '.')) = a ∧
    (a ++ '.' :: b).dropWhile (fun c => decide (c ≠ '.')) = '.' :: b := by
  constructor
  · rw [List.takeWhile_append_of_pos (by intro c hc; simpa using (ha c hc).1)]; simp
  · rw [List.dropWhile_append_of_pos (by intro c hc; simpa using (ha c hc).1)]; simp

theorem takeWhile_noPoint {a : Text} (ha : ∀ c ∈ a, c ≠ '.' ∧ isE c = false) :
    a.takeWhile (fun c => decide (c ≠ '.')) = a ∧ a.dropWhile (fun c => decide (c ≠ '.')) = [] :=
  ⟨List.takeWhile_eq_self_iff.2 (by intro c hc; simpa using (ha c hc).1),
   List.dropWhile_eq_nil_iff.2 (by intro c hc; simpa using (ha c hc).1)⟩

theorem parseMantissa_iff (t : Text) (ds : List ℕ) (nf : ℕ) :
    parseMantissa U t = some (ds, nf) ↔ Mantissa U t ds nf := by
  constructor
  · intro h
    unfold parseMantissa at h
    have hsplit : t = t.takeWhile (fun c => decide (c ≠ '.')) ++ t.dropWhile (fun c => decide (c ≠ '.')) :=
      List.takeWhile_append_dropWhile.symm
    have hhead : ∀ c r, t.dropWhile (fun c => decide (c ≠ '.')) = c :: r → c = '.' := by
      intro c r hcr
      have := dropWhile_head hcr
      simpa using this
    generalize ha : t.takeWhile (fun c => decide (c ≠ '.')) = a at *
    generalize hb : t.dropWhile (fun c => decide (c ≠ '.')) = b at *
    simp only at h
    match b, h with
    | [], h =>
      rcases hr : digitRun U a with _ | es
      · rw [hr] at h; cases h
      · rw [hr] at h
        cases h
        rw [hsplit, List.append_nil]
        exact .int ((digitRun_iff _ _).1 hr)
    | [c], h =>
      have := hhead c [] rfl
      subst this
      rcases hr : digitRun U a with _ | es
      · rw [hr] at h; cases h
      · rw [hr] at h
        cases h
        rw [hsplit]
        exact .point ((digitRun_iff _ _).1 hr)
    | c :: c' :: r, h =>
      have := hhead c _ rfl
      subst this
      simp only [Option.bind_eq_bind] at h
      rcases hf : digitRun U (c' :: r) with _ | fs
      · rw [hf] at h; cases h
      · rw [hf] at h
        simp only [Option.bind_some] at h
        split_ifs at h with hnil
        · cases h
          rw [hsplit, hnil, List.nil_append]
          exact .frac ((digitRun_iff _ _).1 hf)
        · rcases hr : digitRun U a with _ | es
          · rw [hr] at h; cases h
          · rw [hr] at h
            cases h
            rw [hsplit]
            exact .both ((digitRun_iff _ _).1 hr) ((digitRun_iff _ _).1 hf)
  · intro h
    cases h with
    | int h =>
      obtain ⟨h1, h2⟩ := takeWhile_noPoint h.chars
      simp only [parseMantissa, h1, h2, (digitRun_iff _ _).2 h]; rfl
    | point h =>
      obtain ⟨h1, h2⟩ := takeWhile_point h.chars []
      simp only [parseMantissa, h1, h2, (digitRun_iff _ _).2 h]; rfl
    | @frac b _ h =>
      obtain ⟨h1, h2⟩ := takeWhile_point (a := []) (by simp) b
      rw [List.nil_append] at h1 h2
      obtain ⟨c, r, rfl⟩ := List.exists_cons_of_ne_nil h.ne_nil
      simp only [parseMantissa, h1, h2, (digitRun_iff _ _).2 h]; rfl
    | @both a b es fs ha hb =>
      obtain ⟨h1, h2⟩ := takeWhile_point ha.chars b
      obtain ⟨c, r, rfl⟩ := List.exists_cons_of_ne_nil hb.ne_nil
      simp only [parseMantissa, h1, h2, (digitRun_iff _ _).2 hb, (digitRun_iff _ _).2 ha,
        Option.bind_eq_bind, Option.bind_some, if_neg ha.ne_nil]; rfl

theorem Spec.Mantissa.chars {t : Text} {ds : List ℕ} {nf : ℕ} (h : Mantissa U t ds nf) : ∀ c ∈ t, isE c = false := by
  have hp : isE '.' = false := by decide
  intro c hc
  cases h with
  | int h => exact (h.chars c hc).2
  | point h =>
    rcases List.mem_append.1 hc with hc | hc
    · exact (h.chars c hc).2
    · simp at hc; subst hc; exact hp
  | frac h =>
    rcases List.mem_cons.1 hc with rfl | hc
    · exact hp
    · exact (h.chars c hc).2
  | both ha hb =>
    rcases List.mem_append.1 hc with hc | hc
    · exact (ha.chars c hc).2
    · rcases List.mem_cons.1 hc with rfl | hc
      · exact hp
      · exact (hb.chars c hc).2

/-- The first character of a mantissa is a digit or a point. -/
theorem Spec.Mantissa.head {t : Text} {ds : List ℕ} {nf : ℕ} (h : Mantissa U t ds nf) :
    ∃ c r, t = c :: r ∧ (c = '.' ∨ ∃ d, U.val c = some d) := by
  cases h with
  | int h => obtain ⟨c, r, d, rfl, hd⟩ := h.head; exact ⟨c, r, rfl, Or.inr ⟨d, hd⟩⟩
  | point h => obtain ⟨c, r, d, rfl, hd⟩ := h.head; exact ⟨c, _, rfl, Or.inr ⟨d, hd⟩⟩
  | frac h => exact ⟨_, _, rfl, Or.inl rfl⟩
  | both ha hb => obtain ⟨c, r, d, rfl, hd⟩ := ha.head; exact ⟨c, _, rfl, Or.inr ⟨d, hd⟩⟩

/-- Characters of a lower-case word. -/
def LowerWord (w : Text) : Prop := ∀ x ∈ w, 97 ≤ x.toNat ∧ x.toNat ≤ 122

theorem toNat_inj {a b : Char} (h : a.toNat = b.toNat) : a = b := by
  have := congrArg Char.ofNat h
  simpa [Char.ofNat_toNat] using this

theorem lower_iff (c x : Char) (hx : 97 ≤ x.toNat ∧ x.toNat ≤ 122) :
    (if c.toNat < 128 then c.toLower else c) = x ↔
      (c = x ∨ (c.toNat + 32 = x.toNat ∧ 65 ≤ c.toNat ∧ c.toNat ≤ 90)) := by
  have key : ∀ n < 128, (Char.ofNat n).toLower.toNat = if 65 ≤ n ∧ n ≤ 90 then n + 32 else n := by decide
  by_cases hc : c.toNat < 128
  · rw [if_pos hc]
    have hk := key c.toNat hc
    rw [Char.ofNat_toNat] at hk
    constructor
    · intro h
      rw [h] at hk
      by_cases hu : 65 ≤ c.toNat ∧ c.toNat ≤ 90
      · rw [if_pos hu] at hk; right; exact ⟨hk.symm, hu.1, hu.2⟩
      · rw [if_neg hu] at hk; left; exact toNat_inj hk.symm
    · rintro (h | ⟨h1, h2, h3⟩)
      · subst h
        rw [if_neg (by omega)] at hk
        exact toNat_inj hk
      · rw [if_pos ⟨h2, h3⟩, h1] at hk
        exact toNat_inj hk
  · rw [if_neg hc]
    constructor
    · intro h; exact Or.inl h
    · rintro (h | ⟨h1, h2, h3⟩)
      · exact h
      · omega

theorem ciEq_iff (t w : Text) (hw : LowerWord w) : ciEq t w = true ↔ SameWord t w := by
  unfold ciEq SameWord
  rw [decide_eq_true_iff]
  induction t generalizing w with
  | nil => cases w <;> simp
  | cons c t ih =>
    cases w with
    | nil => simp
    | cons x w =>
      rw [List.map_cons, List.cons.injEq, List.forall₂_cons, ih w (fun y hy => hw y (List.mem_cons_of_mem _ hy)),
        lower_iff c x (hw x List.mem_cons_self)]

theorem lw_inf : LowerWord ['i', 'n', 'f'] := by unfold LowerWord; decide
theorem lw_infinity : LowerWord ['i', 'n', 'f', 'i', 'n', 'i', 't', 'y'] := by unfold LowerWord; decide
theorem lw_nan : LowerWord ['n', 'a', 'n'] := by unfold LowerWord; decide

/-- A word does not start with a sign, a digit or a point. -/
theorem Spec.SameWord.head {t w : Text} {x : Char} (hx : 97 ≤ x.toNat ∧ x.toNat ≤ 122) (h : SameWord t (x :: w)) :
    ∃ c r, t = c :: r ∧ c ≠ '-' ∧ c ≠ '+' ∧ c ≠ '.' ∧ U.val c = none := by
  cases h with
  | @cons c _ r _ hc _ =>
    refine ⟨c, r, rfl, ?_⟩
    have hrange : 65 ≤ c.toNat ∧ c.toNat < 128 := by
      rcases hc with rfl | ⟨h1, h2, h3⟩
      · omega
      · omega
    refine ⟨?_, ?_, ?_, ?_⟩
    · rintro rfl; revert hrange; decide
    · rintro rfl; revert hrange; decide
    · rintro rfl; revert hrange; decide
    · rw [U.ascii c hrange.2, if_neg (by omega)]

theorem Spec.SameWord.disjoint {t w w' : Text} (h : SameWord t w) (h' : SameWord t w') (hw : LowerWord w)
    (hw' : LowerWord w') : w = w' := by
  rw [← ciEq_iff t w hw, ciEq, decide_eq_true_iff] at h
  rw [← ciEq_iff t w' hw', ciEq, decide_eq_true_iff] at h'
  rw [← h, ← h']

theorem parseFloat_iff (t : Text) (x : PyFloat) : parseFloat U t = some x ↔ FloatLit U t x := by
  constructor
  · intro h
    obtain ⟨s, hs, ht⟩ := takeSign_spec t
    unfold parseFloat at h
    rcases hp : takeSign t with ⟨neg, b⟩
    rw [hp] at hs ht h
    simp only at h hs ht
    by_cases h1 : (ciEq b ['i', 'n', 'f'] || ciEq b ['i', 'n', 'f', 'i', 'n', 'i', 't', 'y']) = true
    · rw [if_pos h1] at h
      cases h
      rw [ht]
      refine .inf hs ?_
      rwa [Bool.or_eq_true, ciEq_iff _ _ lw_inf, ciEq_iff _ _ lw_infinity] at h1
    · rw [if_neg h1] at h
      by_cases h2 : ciEq b ['n', 'a', 'n'] = true
      · rw [if_pos h2] at h
        cases h
        rw [ht]
        exact .nan hs ((ciEq_iff _ _ lw_nan).1 h2)
      · rw [if_neg h2] at h
        simp only [Option.bind_eq_bind] at h
        have hb : b = b.takeWhile (fun c => !isE c) ++ b.dropWhile (fun c => !isE c) :=
          List.takeWhile_append_dropWhile.symm
        have hhead : ∀ c r, b.dropWhile (fun c => !isE c) = c :: r → c = 'e' ∨ c = 'E' := by
          intro c r hcr
          have := dropWhile_head hcr
          simpa [isE, or_iff_not_imp_left] using this
        generalize b.takeWhile (fun c => !isE c) = m at *
        generalize b.dropWhile (fun c => !isE c) = y at *
        rcases hm : parseMantissa U m with _ | ⟨ds, nf⟩
        · rw [hm] at h; cases h
        · rw [hm] at h
          simp only [Option.bind_some] at h
          have hm' := (parseMantissa_iff m ds nf).1 hm
          match y, h with
          | [], h =>
            simp only [Option.bind_some] at h
            cases h
            rw [ht, hb, ← List.append_assoc, natOfDigits_eq]
            exact .num hs hm' .none
          | c :: y, h =>
            simp only at h
            rcases he : parseInt U y with _ | e
            · rw [he] at h; cases h
            · rw [he] at h
              cases h
              rw [ht, hb, ← List.append_assoc, natOfDigits_eq]
              exact .num hs hm' (.some (hhead c y rfl) ((parseInt_iff y e).1 he))
  · intro h
    cases h with
    | @num s m y neg ds nf e hs hm he =>
      obtain ⟨c, r, rfl, hc⟩ := hm.head
      have hsig : c ≠ '-' ∧ c ≠ '+' := by
        rcases hc with rfl | ⟨d, hd⟩
        · decide
        · exact ⟨(digit_ne hd).2.1, (digit_ne hd).2.2.1⟩
      have hts := takeSign_append hs (c :: r ++ y) (fun q => ⟨fun h => hsig.1 (List.cons.inj h).1,
        fun h => hsig.2 (List.cons.inj h).1⟩)
      rw [List.append_assoc, parseFloat, hts]
      have hnot : ∀ w x, LowerWord (x :: w) → ciEq (c :: r ++ y) (x :: w) = false := by
        intro w x hw
        rw [Bool.eq_false_iff, ne_eq, ciEq_iff _ _ hw]
        intro hsame
        obtain ⟨c', r', e', _, _, h3, h4⟩ := SameWord.head (U := U) (hw x List.mem_cons_self) hsame
        simp only [List.cons_append, List.cons.injEq] at e'
        obtain ⟨rfl, _⟩ := e'
        rcases hc with hc | ⟨d, hd⟩
        · exact h3 hc
        · rw [h4] at hd; cases hd
      simp only [hnot _ _ lw_inf, hnot _ _ lw_infinity, hnot _ _ lw_nan, Bool.or_self, Bool.false_eq_true,
        if_false, Option.bind_eq_bind]
      have hm2 := (parseMantissa_iff _ ds nf).2 hm
      cases he with
      | none =>
        rw [List.append_nil, List.takeWhile_eq_self_iff.2 (by intro c hc; simp [hm.chars c hc]),
          List.dropWhile_eq_nil_iff.2 (by intro c hc; simp [hm.chars c hc]), hm2]
        simp only [Option.bind_some, natOfDigits_eq]; rfl
      | @some c' x e hc' hx =>
        have hE : isE c' = true := by rcases hc' with rfl | rfl <;> decide
        rw [List.takeWhile_append_of_pos (by intro c hc; simp [hm.chars c hc]),
          List.dropWhile_append_of_pos (by intro c hc; simp [hm.chars c hc]),
          List.takeWhile_cons, List.dropWhile_cons]
        simp only [hE, Bool.not_true, Bool.false_eq_true, if_false, List.append_nil, hm2, Option.bind_some,
          (parseInt_iff x e).2 hx, natOfDigits_eq]; rfl
    | @inf s w neg hs hw =>
      have hh : ∃ c r, w = c :: r ∧ c ≠ '-' ∧ c ≠ '+' ∧ c ≠ '.' ∧ U.val c = none := by
        rcases hw with hw | hw
        · exact SameWord.head (lw_inf _ List.mem_cons_self) hw
        · exact SameWord.head (lw_infinity _ List.mem_cons_self) hw
      obtain ⟨c, r, rfl, h1, h2, _, _⟩ := hh
      have hts := takeSign_append hs (c :: r) (fun q => ⟨fun h => h1 (List.cons.inj h).1,
        fun h => h2 (List.cons.inj h).1⟩)
      rw [parseFloat, hts]
      simp only
      rw [if_pos]
      rwa [Bool.or_eq_true, ciEq_iff _ _ lw_inf, ciEq_iff _ _ lw_infinity]
    | @nan s w neg hs hw =>
      obtain ⟨c, r, rfl, h1, h2, _, _⟩ := SameWord.head (U := U) (lw_nan _ List.mem_cons_self) hw
      have hts := takeSign_append hs (c :: r) (fun q => ⟨fun h => h1 (List.cons.inj h).1,
        fun h => h2 (List.cons.inj h).1⟩)
      rw [parseFloat, hts]
      simp only
      rw [if_neg, if_pos ((ciEq_iff _ _ lw_nan).2 hw)]
      rw [Bool.or_eq_true, ciEq_iff _ _ lw_inf, ciEq_iff _ _ lw_infinity]
      rintro (h | h)
      · have := SameWord.disjoint h hw lw_inf lw_nan; simp at this
      · have := SameWord.disjoint h hw lw_infinity lw_nan; simp at this

end Verif
