import Verif.Model.ParkerText
import Verif.Props.Label

/-!
# C107: the printed form of a Parker solution
-/

namespace Verif

/-- The power of ten at the end of a number, 0 if there is none. -/
def Spec.readE (t : Text) : Option ℤ := if t = [] then some 0 else parseInt .asciiOnly t.tail

/-- Read a number in the notation of `%G`: an optional minus, then `INF`, `NAN`, or decimal digits with at most one point and
possibly `E` with a power of ten. -/
def Spec.readG (t : Text) : Option PyFloat :=
  let neg := decide (t.head? = some '-')
  let u := if neg then t.tail else t
  if u = ['I', 'N', 'F'] then some (.inf neg)
  else if u = ['N', 'A', 'N'] then some .nan
  else do
    let (ds, n) ← parseMantissa .asciiOnly (u.takeWhile fun c => c ≠ 'E')
    let e ← readE (u.dropWhile fun c => c ≠ 'E')
    pure (.fin neg ((natOfDigits ds : ℚ) * 10 ^ (e - n)))

/-- The number behind an equality sign: after blanks, up to the next blank or comma. -/
def Spec.readField (t : Text) : Option PyFloat :=
  readG ((t.dropWhile fun c => c = ' ').takeWhile fun c => c ≠ ' ' ∧ c ≠ ',')

/-- All numbers behind equality signs. -/
def Spec.readFields (t : Text) : Option (List PyFloat) := ((Label.splitSep '=' t).tail).mapM readField

/-- Non-negative decimals with at most two significant digits. -/
def Spec.IsDec2 (d : ℚ) : Prop := ∃ (n : ℕ) (k : ℤ), n < 10 ^ 2 ∧ d = n * 10 ^ k

/-- The number `a` shows the number `x`: infinities and NaN as they are; of a finite number the sign and a nearest decimal with
two significant digits. -/
def Spec.ShowsTwo (a : PyFloat) : PyFloat → Prop
  | .fin neg q => ∃ v, a = .fin neg v ∧ IsDec2 v ∧ (∀ d, IsDec2 d → |v - q| ≤ |d - q|) ∧ |v - q| ≤ 1 / 20 * q
  | .inf neg => a = .inf neg
  | .nan => a = .nan

/-- The magnitude of a finite number is not negative. -/
def Spec.MagNonneg (x : PyFloat) : Prop := ∀ neg q, x = .fin neg q → 0 ≤ q

open Spec

namespace ParkerText

/-! ### Rounding to two digits -/

/-- The value of a pair produced by `dec2`. -/
def val (mk : ℤ × ℤ) : ℚ := mk.1 * 10 ^ (mk.2 - 1)

theorem dec2_zero : dec2 0 = (0, 0) := by
  unfold dec2
  simp only [zero_div, show rhe 0 = 0 by simpa using rhe_intCast 0, Int.log_zero_right]; norm_num

theorem dec2_core {x : ℚ} (hx : 0 < x) :
    (10 : ℚ) ^ 1 ≤ x / 10 ^ (Int.log 10 x - 1) ∧ x / 10 ^ (Int.log 10 x - 1) < 10 ^ 2 ∧
    10 ^ 1 ≤ rhe (x / 10 ^ (Int.log 10 x - 1)) ∧ rhe (x / 10 ^ (Int.log 10 x - 1)) ≤ 10 ^ 2 := by
  have hU : (0 : ℚ) < 10 ^ (Int.log 10 x - 1) := by positivity
  have h1 : (10 : ℚ) ^ 1 ≤ x / 10 ^ (Int.log 10 x - 1) := by
    rw [le_div_iff₀ hU, ← zpow_natCast, ← zpow_add₀ (by norm_num)]
    have := log_le (b := 10) (by norm_num) hx
    norm_num at this ⊢
    exact this
  have h2 : x / 10 ^ (Int.log 10 x - 1) < 10 ^ 2 := by
    rw [div_lt_iff₀ hU, ← zpow_natCast, ← zpow_add₀ (by norm_num)]
    have := lt_log (b := 10) (by norm_num) x
    norm_num at this ⊢
    rwa [show (2 : ℤ) + (Int.log 10 x - 1) = Int.log 10 x + 1 by ring]
  refine ⟨h1, h2, ?_, ?_⟩
  · have := rhe_mono (show ((10 ^ 1 : ℤ) : ℚ) ≤ x / 10 ^ (Int.log 10 x - 1) by exact_mod_cast h1)
    rwa [rhe_intCast] at this
  · have := rhe_mono (show x / 10 ^ (Int.log 10 x - 1) ≤ ((10 ^ 2 : ℤ) : ℚ) by exact_mod_cast h2.le)
    rwa [rhe_intCast] at this

theorem val_dec2 (x : ℚ) : val (dec2 x) = rhe (x / 10 ^ (Int.log 10 x - 1)) * 10 ^ (Int.log 10 x - 1) := by
  unfold dec2 val
  simp only
  split_ifs with h
  · rw [h, show Int.log 10 x + 1 - 1 = (Int.log 10 x - 1) + 1 by ring, zpow_add₀ (by norm_num)]
    norm_num; ring
  · rfl

theorem dec2_range {x : ℚ} (hx : 0 < x) : 10 ^ 1 ≤ (dec2 x).1 ∧ (dec2 x).1 < 10 ^ 2 := by
  obtain ⟨_, _, h3, h4⟩ := dec2_core hx
  unfold dec2
  simp only
  split_ifs with h
  · norm_num
  · exact ⟨h3, lt_of_le_of_ne h4 h⟩

theorem dec2_range' {x : ℚ} (hx : 0 ≤ x) : 0 ≤ (dec2 x).1 ∧ (dec2 x).1 < 10 ^ 2 := by
  rcases hx.eq_or_lt with rfl | hx
  · rw [dec2_zero]; norm_num
  · have := dec2_range hx; omega

theorem val_isDec2 {x : ℚ} (hx : 0 ≤ x) : IsDec2 (val (dec2 x)) := by
  obtain ⟨h1, h2⟩ := dec2_range' hx
  obtain ⟨n, hn⟩ := Int.eq_ofNat_of_zero_le h1
  exact ⟨n, (dec2 x).2 - 1, by omega, by unfold val; rw [hn]; simp⟩

theorem dec2_nearest {x d : ℚ} (hx : 0 ≤ x) (hd : IsDec2 d) : |val (dec2 x) - x| ≤ |d - x| := by
  rcases hx.eq_or_lt with rfl | hx
  · rw [dec2_zero]; simp [val]
  obtain ⟨n, k, hn, rfl⟩ := hd
  rw [val_dec2]
  have := grid_nearest (b := 10) (by norm_num) hx (p := 2) (e := Int.log 10 x - 1) (e' := k) (n := n) hn
    (by by_cases h : Int.log 10 x - 1 ≤ k
        · exact Or.inl h
        · exact Or.inr ⟨by omega, by norm_num⟩) (by norm_num)
  exact_mod_cast this

theorem dec2_rel {x : ℚ} (hx : 0 ≤ x) : |val (dec2 x) - x| ≤ 1 / 20 * x := by
  rcases hx.eq_or_lt with rfl | hx
  · rw [dec2_zero]; simp [val]
  have h : |val (dec2 x) - x| ≤ 10 ^ (Int.log 10 x - 1) / 2 := by
    rw [val_dec2]
    exact_mod_cast grid_abs_le (b := 10) (by norm_num) x (Int.log 10 x - 1)
  refine h.trans ?_
  obtain ⟨h1, _, _, _⟩ := dec2_core hx
  have hU : (0 : ℚ) < 10 ^ (Int.log 10 x - 1) := by positivity
  rw [le_div_iff₀ hU] at h1
  linarith

/-- The value determines the digits. -/
theorem dec2_eq_of_val {x y : ℚ} (hx : 0 ≤ x) (hy : 0 ≤ y) (h : val (dec2 x) = val (dec2 y)) : dec2 x = dec2 y := by
  have pos : ∀ {x : ℚ}, 0 < x → (10 : ℚ) ^ (dec2 x).2 ≤ val (dec2 x) ∧ val (dec2 x) < (10 : ℚ) ^ ((dec2 x).2 + 1) := by
    intro x hx
    have r := dec2_range hx
    have hU : (0 : ℚ) < 10 ^ ((dec2 x).2 - 1) := by positivity
    constructor
    · rw [val, show (10 : ℚ) ^ (dec2 x).2 = 10 ^ (1 : ℤ) * 10 ^ ((dec2 x).2 - 1) by
        rw [← zpow_add₀ (by norm_num)]; congr 1; ring]
      exact mul_le_mul_of_nonneg_right (by exact_mod_cast r.1) hU.le
    · rw [val, show (10 : ℚ) ^ ((dec2 x).2 + 1) = 10 ^ (2 : ℤ) * 10 ^ ((dec2 x).2 - 1) by
        rw [← zpow_add₀ (by norm_num)]; congr 1; ring]
      exact mul_lt_mul_of_pos_right (by exact_mod_cast r.2) hU
  have h0 : val (dec2 0) = 0 := by rw [dec2_zero]; simp [val]
  rcases hx.eq_or_lt with rfl | hx <;> rcases hy.eq_or_lt with rfl | hy
  · rfl
  · have := (pos hy).1; rw [← h, h0] at this
    exact absurd this (not_le.2 (by positivity))
  · have := (pos hx).1; rw [h, h0] at this
    exact absurd this (not_le.2 (by positivity))
  · have a := pos hx
    have b := pos hy
    rw [h] at a
    have c1 := (zpow_lt_zpow_iff_right₀ (by norm_num : (1 : ℚ) < 10)).1 (lt_of_le_of_lt a.1 b.2)
    have c2 := (zpow_lt_zpow_iff_right₀ (by norm_num : (1 : ℚ) < 10)).1 (lt_of_le_of_lt b.1 a.2)
    have e : (dec2 x).2 = (dec2 y).2 := by omega
    refine Prod.ext ?_ e
    rw [val, val, e] at h
    have : (0 : ℚ) < 10 ^ ((dec2 y).2 - 1) := by positivity
    exact_mod_cast mul_right_cancel₀ this.ne' h

/-! ### Reading numbers -/

/-- Characters that occur in a printed number. -/
def Ok (c : Char) : Prop := c ≠ ' ' ∧ c ≠ ',' ∧ c ≠ '='

theorem digit_ok : ∀ d < 10, Ok (digitChar d) ∧ digitChar d ≠ 'E' ∧ digitChar d ≠ 'I' ∧ digitChar d ≠ 'N' ∧
    digitChar d ≠ '-' := by
  unfold Ok; decide

theorem natText_ok (n : ℕ) : ∀ c ∈ natText n, Ok c := by
  obtain ⟨ds, e, -, h, -⟩ := natText_spec n
  intro c hc
  rw [e] at hc
  obtain ⟨d, hd, rfl⟩ := List.mem_map.1 hc
  exact (digit_ok d (h d hd)).1

theorem expText_ok (k : ℤ) : ∀ c ∈ expText k, Ok c := by
  intro c hc
  unfold expText at hc
  rcases List.mem_cons.1 hc with rfl | hc
  · split_ifs <;> (unfold Ok; decide)
  · split_ifs at hc
    · rcases List.mem_cons.1 hc with rfl | hc
      · unfold Ok; decide
      · exact natText_ok _ c hc
    · exact natText_ok _ c hc

theorem mantissa_ok (i w f : ℕ) (hf : f < 10 ^ w) : ∀ c ∈ natText i ++ Label.frac (fixedDigits w f),
    Ok c ∧ c ≠ 'E' ∧ c ≠ 'I' ∧ c ≠ 'N' ∧ c ≠ '-' := by
  obtain ⟨-, -, -, -, h⟩ := Label.mantissa .asciiOnly i w f hf
  intro c hc
  rcases h c hc with rfl | ⟨d, hd, rfl⟩
  · unfold Ok; decide
  · exact digit_ok d hd

theorem signText_ok (neg : Bool) : ∀ c ∈ signText neg, Ok c := by
  cases neg <;> intro c hc <;> simp [signText] at hc
  subst hc; unfold Ok; decide

theorem letters_ok : ∀ c ∈ ['I', 'N', 'F'] ++ ['N', 'A', 'N'], Ok c := by unfold Ok; decide

theorem fmtG_ok (x : PyFloat) : ∀ c ∈ fmtG x, Ok c := by
  intro c hc
  cases x with
  | fin neg q =>
    obtain ⟨m, k, hmk⟩ : ∃ m k, dec2 q = (m, k) := ⟨_, _, rfl⟩
    simp only [fmtG, hmk] at hc
    split_ifs at hc
    · rcases List.mem_append.1 hc with hc | hc
      · exact signText_ok _ c hc
      · exact (mantissa_ok _ _ _ (Nat.mod_lt _ (by positivity)) c hc).1
    · rcases List.mem_append.1 hc with hc | hc
      · exact signText_ok _ c hc
      · rcases List.mem_append.1 hc with hc | hc
        · exact (mantissa_ok _ _ _ (Nat.mod_lt _ (by positivity)) c hc).1
        · rcases List.mem_cons.1 hc with rfl | hc
          · unfold Ok; decide
          · exact expText_ok _ c hc
  | inf neg =>
    rcases List.mem_append.1 hc with hc | hc
    · exact signText_ok _ c hc
    · exact letters_ok c (List.mem_append_left _ hc)
  | nan => exact letters_ok c (List.mem_append_right _ hc)

/-- What is read from a number. -/
def shown : PyFloat → PyFloat
  | .fin neg q => .fin neg (val (dec2 q))
  | .inf neg => .inf neg
  | .nan => .nan

theorem natText_cons (i : ℕ) : ∃ d r, d < 10 ∧ natText i = digitChar d :: r := by
  obtain ⟨ds, e, h1, h2, -⟩ := natText_spec i
  obtain ⟨d, r, rfl⟩ := List.exists_cons_of_ne_nil h1
  exact ⟨d, r.map digitChar, h2 d (by simp), by rw [e, List.map_cons]⟩

theorem readG_aux (neg : Bool) (i w f : ℕ) (hf : f < 10 ^ w) (rest : Text) (e : ℤ)
    (hr : rest = [] ∧ e = 0 ∨ rest = 'E' :: expText e) :
    readG (signText neg ++ (natText i ++ Label.frac (fixedDigits w f) ++ rest)) =
      some (.fin neg (((i : ℚ) * 10 ^ w + f) / 10 ^ w * 10 ^ e)) := by
  obtain ⟨ds, n, h1, h2, -⟩ := Label.mantissa .asciiOnly i w f hf
  have h3 := mantissa_ok i w f hf
  obtain ⟨d0, r0, hd0, hi⟩ := natText_cons i
  set body := natText i ++ Label.frac (fixedDigits w f) ++ rest with hbody
  have hcons : body = digitChar d0 :: (r0 ++ Label.frac (fixedDigits w f) ++ rest) := by
    rw [hbody, hi]; simp
  have hneg : decide ((signText neg ++ body).head? = some '-') = neg := by
    cases neg
    · have := (digit_ok d0 hd0).2.2.2.2
      simp [signText, hcons, this]
    · simp [signText]
  have hu : (if neg then (signText neg ++ body).tail else signText neg ++ body) = body := by
    cases neg <;> simp [signText]
  have hE : ∀ c ∈ natText i ++ Label.frac (fixedDigits w f), (fun c => decide (c ≠ 'E')) c = true := by
    intro c hc
    simp [(h3 c hc).2.1]
  have t1 : body.takeWhile (fun c => c ≠ 'E') = natText i ++ Label.frac (fixedDigits w f) := by
    rw [hbody, List.takeWhile_append_of_pos hE]
    rcases hr with ⟨rfl, -⟩ | rfl <;> simp
  have t2 : body.dropWhile (fun c => c ≠ 'E') = rest := by
    rw [hbody, List.dropWhile_append_of_pos hE]
    rcases hr with ⟨rfl, -⟩ | rfl <;> simp
  have hx : readE rest = some e := by
    rw [readE]
    rcases hr with ⟨rfl, rfl⟩ | rfl
    · rfl
    · rw [if_neg (by simp), List.tail_cons, parseInt_expText]
  have hv : (natOfDigits ds : ℚ) * 10 ^ (e - n) = ((i : ℚ) * 10 ^ w + f) / 10 ^ w * 10 ^ e := by
    have : (10 : ℚ) ^ n ≠ 0 := by positivity
    rw [h2, zpow_sub₀ (by norm_num), zpow_natCast]
    field_simp
  have n1 : body ≠ ['I', 'N', 'F'] := by
    rw [hcons]; intro h; exact (digit_ok d0 hd0).2.2.1 (List.cons.inj h).1
  have n2 : body ≠ ['N', 'A', 'N'] := by
    rw [hcons]; intro h; exact (digit_ok d0 hd0).2.2.2.1 (List.cons.inj h).1
  unfold readG
  simp only [hneg, hu]
  rw [if_neg n1, if_neg n2, t1, t2, h1]
  show (some (ds, n)).bind _ = _
  rw [Option.bind_some, hx]
  show some _ = _
  rw [hv]

theorem readG_fmtG (x : PyFloat) (hx : MagNonneg x) : readG (fmtG x) = some (shown x) := by
  cases x with
  | inf neg => cases neg <;> rfl
  | nan => rfl
  | fin neg q =>
    obtain ⟨r1, r2⟩ := dec2_range' (hx neg q rfl)
    obtain ⟨m, k, hmk⟩ : ∃ m k, dec2 q = (m, k) := ⟨_, _, rfl⟩
    have hv : val (dec2 q) = m * 10 ^ (k - 1) := by rw [hmk, val]
    rw [shown, hv]
    rw [hmk] at r1 r2
    simp only [fmtG, hmk] at r1 r2 ⊢
    obtain ⟨n, rfl⟩ := Int.eq_ofNat_of_zero_le r1
    rw [Int.toNat_natCast]
    split_ifs with h
    · have := readG_aux neg (n / 10 ^ (1 - k).toNat) (1 - k).toNat (n % 10 ^ (1 - k).toNat)
        (Nat.mod_lt _ (by positivity)) [] 0 (.inl ⟨rfl, rfl⟩)
      rw [List.append_nil] at this
      rw [this]
      have e : ((n / 10 ^ (1 - k).toNat : ℕ) : ℚ) * 10 ^ (1 - k).toNat + ((n % 10 ^ (1 - k).toNat : ℕ) : ℚ) = n := by
        have := Nat.div_add_mod' n (10 ^ (1 - k).toNat)
        exact_mod_cast this
      rw [e, zpow_zero, mul_one, show k - 1 = -((1 - k).toNat : ℤ) by omega, zpow_neg, zpow_natCast, div_eq_mul_inv,
        Int.cast_natCast]
    · rw [readG_aux neg (n / 10 ^ 1) 1 (n % 10 ^ 1) (Nat.mod_lt _ (by positivity)) ('E' :: expText k) k (.inr rfl)]
      have e : ((n / 10 ^ 1 : ℕ) : ℚ) * 10 ^ 1 + ((n % 10 ^ 1 : ℕ) : ℚ) = n := by
        have := Nat.div_add_mod' n (10 ^ 1)
        exact_mod_cast this
      rw [e, zpow_sub₀ (by norm_num), div_mul_eq_mul_div, mul_div_assoc, Int.cast_natCast]
      rfl

/-! ### Reading the text -/

theorem readField_fmt (x : PyFloat) (hx : MagNonneg x) (c : Char) (hc : c = ' ' ∨ c = ',') (r : Text) :
    readField (fmt x ++ c :: r) = some (shown x) := by
  have hok := fmtG_ok x
  have hne : fmtG x ≠ [] := by
    intro h
    have := readG_fmtG x hx
    rw [h] at this
    cases this
  obtain ⟨a, t, ht⟩ := List.exists_cons_of_ne_nil hne
  have d1 : (fmt x ++ c :: r).dropWhile (fun c => c = ' ') = fmtG x ++ c :: r := by
    rw [fmt, padLeft, List.append_assoc, List.dropWhile_append_of_pos
      (by intro b hb; simp [List.eq_of_mem_replicate hb]), ht]
    have := (hok a (by rw [ht]; simp)).1
    simp [this]
  have t1 : (fmtG x ++ c :: r).takeWhile (fun c => c ≠ ' ' ∧ c ≠ ',') = fmtG x := by
    rw [List.takeWhile_append_of_pos (by intro b hb; have := hok b hb; simp [this.1, this.2.1])]
    rcases hc with rfl | rfl <;> simp
  rw [readField, d1, t1, readG_fmtG x hx]

theorem fmt_noEq (x : PyFloat) : '=' ∉ fmt x := by
  intro h
  rcases List.mem_append.1 h with h | h
  · have := List.eq_of_mem_replicate h; revert this; decide
  · exact (fmtG_ok x _ h).2.2 rfl

theorem splitSep_cons {c : Char} {a : Text} (ha : c ∉ a) (b : Text) :
    Label.splitSep c (a ++ c :: b) = a :: Label.splitSep c b := by
  induction a with
  | nil => rw [List.nil_append, Label.splitSep, if_pos rfl]
  | cons x a ih =>
    rw [List.mem_cons, not_or] at ha
    rw [List.cons_append, Label.splitSep, if_neg (Ne.symm ha.1), ih ha.2]

theorem split_text (p : Params) : Label.splitSep '=' (text p) =
    ["Parker solution T_c".toList, fmt p.temperature ++ " K, Rho_c".toList, fmt p.baseDensity ++ " kg/m3, R".toList,
      fmt p.radius ++ ", M".toList, fmt p.mass ++ [',']] := by
  have e : text p = "Parker solution T_c".toList ++ '=' :: ((fmt p.temperature ++ " K, Rho_c".toList) ++ '=' ::
      ((fmt p.baseDensity ++ " kg/m3, R".toList) ++ '=' :: ((fmt p.radius ++ ", M".toList) ++ '=' ::
        (fmt p.mass ++ [','])))) := by
    unfold text
    simp [List.append_assoc]
  rw [e, splitSep_cons (by decide), splitSep_cons (by
      rw [List.mem_append, not_or]; exact ⟨fmt_noEq _, by decide⟩), splitSep_cons (by
      rw [List.mem_append, not_or]; exact ⟨fmt_noEq _, by decide⟩), splitSep_cons (by
      rw [List.mem_append, not_or]; exact ⟨fmt_noEq _, by decide⟩), Label.splitSep_no (by
      rw [List.mem_append, not_or]; exact ⟨fmt_noEq _, by decide⟩)]

theorem read_text (p : Params) (h1 : MagNonneg p.temperature) (h2 : MagNonneg p.baseDensity) (h3 : MagNonneg p.radius)
    (h4 : MagNonneg p.mass) : readFields (text p) =
      some [shown p.temperature, shown p.baseDensity, shown p.radius, shown p.mass] := by
  have a1 : readField (fmt p.temperature ++ " K, Rho_c".toList) = _ := readField_fmt _ h1 ' ' (.inl rfl) "K, Rho_c".toList
  have a2 : readField (fmt p.baseDensity ++ " kg/m3, R".toList) = _ := readField_fmt _ h2 ' ' (.inl rfl) "kg/m3, R".toList
  have a3 : readField (fmt p.radius ++ ", M".toList) = _ := readField_fmt _ h3 ',' (.inr rfl) " M".toList
  have a4 : readField (fmt p.mass ++ [',']) = _ := readField_fmt _ h4 ',' (.inr rfl) []
  rw [readFields, split_text]
  simp only [List.tail_cons, List.mapM_cons, List.mapM_nil, a1, a2, a3, a4]
  rfl

theorem shown_spec (x : PyFloat) (hx : MagNonneg x) : ShowsTwo (shown x) x := by
  cases x with
  | fin neg q =>
    have hq := hx neg q rfl
    exact ⟨_, rfl, val_isDec2 hq, fun d hd => dec2_nearest hq hd, dec2_rel hq⟩
  | inf neg => rfl
  | nan => rfl

theorem fmt_eq_of_shown {x y : PyFloat} (hx : MagNonneg x) (hy : MagNonneg y) (h : shown x = shown y) : fmt x = fmt y := by
  cases x with
  | fin neg q =>
    cases y with
    | fin neg' q' =>
      rw [shown, shown, PyFloat.fin.injEq] at h
      have := dec2_eq_of_val (hx _ _ rfl) (hy _ _ rfl) h.2
      rw [fmt, fmt, fmtG, fmtG, this, h.1]
    | inf neg' => cases h
    | nan => cases h
  | inf neg =>
    cases y with
    | fin neg' q' => cases h
    | inf neg' => rw [shown, shown] at h; rw [h]
    | nan => cases h
  | nan =>
    cases y with
    | fin neg' q' => cases h
    | inf neg' => cases h
    | nan => rfl

theorem text_congr {p p' : Params} (h1 : fmt p.temperature = fmt p'.temperature)
    (h2 : fmt p.baseDensity = fmt p'.baseDensity) (h3 : fmt p.radius = fmt p'.radius) (h4 : fmt p.mass = fmt p'.mass) :
    text p = text p' := by
  unfold text
  rw [h1, h2, h3, h4]

end ParkerText

open ParkerText

/-- The four parameters have magnitudes that are not negative. -/
def Spec.GoodParams (p : ParkerText.Params) : Prop :=
  MagNonneg p.temperature ∧ MagNonneg p.baseDensity ∧ MagNonneg p.radius ∧ MagNonneg p.mass

/-- **C107.** The text of every Parker solution reads back as four numbers, in the order temperature, density, radius, mass;
each has the sign of the parameter and is, of all decimals with two significant digits, one nearest to it, so that it is off by
five percent at most. Infinite parameters and NaN are shown as such. -/
theorem C107_text (p : ParkerText.Params) (h : GoodParams p) : ∃ a b c d, readFields (text p) = some [a, b, c, d] ∧
    ShowsTwo a p.temperature ∧ ShowsTwo b p.baseDensity ∧ ShowsTwo c p.radius ∧ ShowsTwo d p.mass := by
  obtain ⟨h1, h2, h3, h4⟩ := h
  exact ⟨_, _, _, _, read_text p h1 h2 h3 h4, shown_spec _ h1, shown_spec _ h2, shown_spec _ h3, shown_spec _ h4⟩

/-- **C107.** Two Parker solutions print the same exactly if the numbers read from the texts are the same. -/
theorem C107_same (p p' : ParkerText.Params) (h : GoodParams p) (h' : GoodParams p') :
    text p = text p' ↔ readFields (text p) = readFields (text p') := by
  constructor
  · exact fun e => congrArg readFields e
  · obtain ⟨h1, h2, h3, h4⟩ := h
    obtain ⟨h1', h2', h3', h4'⟩ := h'
    intro e
    replace e := (read_text p h1 h2 h3 h4).symm.trans (e.trans (read_text p' h1' h2' h3' h4'))
    simp only [Option.some.injEq, List.cons.injEq, and_true] at e
    exact text_congr (fmt_eq_of_shown h1 h1' e.1) (fmt_eq_of_shown h2 h2' e.2.1) (fmt_eq_of_shown h3 h3' e.2.2.1)
      (fmt_eq_of_shown h4 h4' e.2.2.2)

/-- **C107.** Solutions with finite parameters that print the same have temperatures, densities, radii and masses that have the
same signs and differ by at most a twentieth of their sum. -/
theorem C107_close (p p' : ParkerText.Params) (h : GoodParams p) (h' : GoodParams p') (e : text p = text p') :
    ∀ f ∈ [Params.temperature, Params.baseDensity, Params.radius, Params.mass], ∀ neg q neg' q',
      f p = .fin neg q → f p' = .fin neg' q' → neg = neg' ∧ |q - q'| ≤ 1 / 20 * (q + q') := by
  obtain ⟨h1, h2, h3, h4⟩ := h
  obtain ⟨h1', h2', h3', h4'⟩ := h'
  have r := congrArg readFields e
  rw [read_text p h1 h2 h3 h4, read_text p' h1' h2' h3' h4'] at r
  simp only [Option.some.injEq, List.cons.injEq, and_true] at r
  have key : ∀ x x' : PyFloat, MagNonneg x → MagNonneg x' → shown x = shown x' → ∀ neg q neg' q',
      x = .fin neg q → x' = .fin neg' q' → neg = neg' ∧ |q - q'| ≤ 1 / 20 * (q + q') := by
    rintro _ _ hx hx' hs neg q neg' q' rfl rfl
    rw [shown, shown, PyFloat.fin.injEq] at hs
    refine ⟨hs.1, ?_⟩
    have a := abs_le.1 (dec2_rel (hx _ _ rfl))
    have b := abs_le.1 (dec2_rel (hx' _ _ rfl))
    rw [hs.2] at a
    rw [abs_le]
    constructor <;> linarith [a.1, a.2, b.1, b.2]
  intro f hf
  simp only [List.mem_cons, List.not_mem_nil, or_false] at hf
  rcases hf with rfl | rfl | rfl | rfl
  · exact key _ _ h1 h1' r.1
  · exact key _ _ h2 h2' r.2.1
  · exact key _ _ h3 h3' r.2.2.1
  · exact key _ _ h4 h4' r.2.2.2

/-- A solar wind of two million kelvin: the parameters, as doubles near enough. -/
private def exSolar (M : ℚ) : ParkerText.Params := ⟨.fin false 2000000, .fin false (1 / 10 ^ 11), .fin false 695700000, .fin false M⟩

private theorem exSolar_good (M : ℚ) (hM : 0 ≤ M) : GoodParams (exSolar M) := by
  refine ⟨?_, ?_, ?_, ?_⟩ <;> (rintro neg q e; cases e) <;> first | assumption | norm_num

example : ∃ a b c d, readFields (text (exSolar (1989 * 10 ^ 27))) = some [a, b, c, d] ∧
    ShowsTwo a (exSolar (1989 * 10 ^ 27)).temperature ∧ ShowsTwo b (exSolar (1989 * 10 ^ 27)).baseDensity ∧
    ShowsTwo c (exSolar (1989 * 10 ^ 27)).radius ∧ ShowsTwo d (exSolar (1989 * 10 ^ 27)).mass :=
  C107_text _ (exSolar_good _ (by norm_num))

example : String.ofList (text (exSolar (1989 * 10 ^ 27))) =
    "Parker solution T_c=2E+06 K, Rho_c=1E-11 kg/m3, R=7E+08, M=2E+30," := by decide +kernel

/-- Small numbers are padded to two characters; the notation changes at 100. -/
example : [0, 1, 3 / 2, 99, 995 / 10, 1 / 10 ^ 4, 1 / 10 ^ 5].map (fun q => String.ofList (fmt (.fin false q))) =
    [" 0", " 1", "1.5", "99", "1E+02", "0.0001", "1E-05"] := by decide +kernel

/-- **C107.** Different stars can print the same: the masses 1.989e30 and 2e30 do. -/
theorem C107_not_injective : ∃ p p' : ParkerText.Params, GoodParams p ∧ GoodParams p' ∧ p ≠ p' ∧ text p = text p' :=
  ⟨exSolar (1989 * 10 ^ 27), exSolar (2 * 10 ^ 30), exSolar_good _ (by norm_num), exSolar_good _ (by norm_num),
    by simp only [exSolar, ne_eq, Params.mk.injEq, PyFloat.fin.injEq]; norm_num, by decide +kernel⟩

example : text (exSolar (1989 * 10 ^ 27)) = text (exSolar (3 * 10 ^ 30)) ↔
    readFields (text (exSolar (1989 * 10 ^ 27))) = readFields (text (exSolar (3 * 10 ^ 30))) :=
  C107_same _ _ (exSolar_good _ (by norm_num)) (exSolar_good _ (by norm_num))

example : text (exSolar (1989 * 10 ^ 27)) ≠ text (exSolar (3 * 10 ^ 30)) := by decide +kernel

example : ∀ f ∈ [Params.temperature, Params.baseDensity, Params.radius, Params.mass], ∀ neg q neg' q',
      f (exSolar (1989 * 10 ^ 27)) = .fin neg q → f (exSolar (2 * 10 ^ 30)) = .fin neg' q' →
        neg = neg' ∧ |q - q'| ≤ 1 / 20 * (q + q') :=
  C107_close _ _ (exSolar_good _ (by norm_num)) (exSolar_good _ (by norm_num)) (by decide +kernel)

end Verif
