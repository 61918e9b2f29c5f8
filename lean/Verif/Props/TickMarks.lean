import Verif.Model.TickMarks
import Verif.Props.Ticks
import Mathlib.Tactic.FieldSimp

/-!
# C86: the tick marks of a colour bar
-/

namespace Verif
open Spec Ticks TickMarks

/-- The exponent of the decade of `x`. -/
def Spec.IsDecade (x : ℝ) (e : ℤ) : Prop := 10 ^ e ≤ x ∧ x < 10 ^ (e + 1)

/-- The values that get a major tick. -/
def Spec.MajorValue (linthresh vmax : ℝ) (step : ℤ) (v : ℚ) : Prop :=
  v = 0 ∨ ∃ e lo hi : ℤ, IsDecade linthresh lo ∧ IsDecade vmax hi ∧ lo ≤ e ∧ e ≤ hi ∧ step ∣ e - lo ∧ (v = 10 ^ e ∨ v = -10 ^ e)

/-- The values that get a minor tick if there is room: zero to nine times the powers from a tenth of the decade of `linthresh`
up to that of `vmax`. -/
def Spec.MinorValue (linthresh vmax : ℝ) (v : ℚ) : Prop :=
  ∃ (e lo hi : ℤ) (d : ℕ), IsDecade linthresh lo ∧ IsDecade vmax hi ∧ lo - 1 ≤ e ∧ e ≤ hi ∧ d ≤ 9 ∧ |v| = d * 10 ^ e

/-- Where a value is on an axis on which the norm is drawn to scale. -/
def Spec.onScale (lim : ℝ × ℝ) (norm : ℝ → ℝ) (v p : ℝ) : Prop := p - lim.1 = norm v * (lim.2 - lim.1)

namespace TickMarks

theorem decade_ok {x : ℝ} (h : 0 < x) : ∃ e, decade x = .ok e ∧ IsDecade x e := by
  refine ⟨_, if_pos h, ?_, ?_⟩
  · rw [← Real.rpow_intCast, ← Real.le_logb_iff_rpow_le (by norm_num) h]
    exact Int.floor_le _
  · rw [← Real.rpow_intCast, ← Real.logb_lt_iff_lt_rpow (by norm_num) h]
    push_cast
    exact Int.lt_floor_add_one _

theorem decade_unique {x : ℝ} {a b : ℤ} (ha : IsDecade x a) (hb : IsDecade x b) : a = b := by
  have h1 := (zpow_lt_zpow_iff_right₀ (by norm_num : (1 : ℝ) < 10)).1 (ha.1.trans_lt hb.2)
  have h2 := (zpow_lt_zpow_iff_right₀ (by norm_num : (1 : ℝ) < 10)).1 (hb.1.trans_lt ha.2)
  omega

/-- The marks. -/
noncomputable def marksOf (vertical : Bool) (b : Bar) (lo hi step : ℤ) : Marks := open Classical in {
  vertical := vertical
  major := ((generateMajor lo hi step).1.map (position b.xlim b.norm)).zip (generateMajor lo hi step).2
  minor := (((generateMinor lo hi step).map (position b.xlim b.norm)).filter fun t => decide (b.xlim.1 ≤ t)).filter
    fun t => decide (t ≤ b.xlim.2) }

theorem length_eq (lo hi step : ℤ) : (generateMajor lo hi step).1.length = (generateMajor lo hi step).2.length := by
  simp [generateMajor]

theorem auto_ok (b : Bar) (step : ℤ) (axis : AxisArg) (mk : Marks) : autoSymlog b step axis = .ok mk ↔
    ∃ lo hi vertical, IsDecade b.linthresh lo ∧ IsDecade b.vmax hi ∧ target axis = .ok vertical ∧
      mk = marksOf vertical b lo hi step := by
  rw [autoSymlog]
  by_cases h1 : 0 < b.linthresh
  swap
  · rw [decade, if_neg h1]
    constructor
    · intro h; cases h
    · rintro ⟨lo, -, -, h, -⟩
      exact absurd (lt_of_lt_of_le (by positivity) h.1) h1
  by_cases h2 : 0 < b.vmax
  swap
  · obtain ⟨lo, e1, -⟩ := decade_ok h1
    rw [e1]
    simp only [bind, Except.bind]
    rw [decade, if_neg h2]
    constructor
    · intro h; cases h
    · rintro ⟨-, hi, -, -, h, -⟩
      exact absurd (lt_of_lt_of_le (by positivity) h.1) h2
  obtain ⟨lo, e1, d1⟩ := decade_ok h1
  obtain ⟨hi, e2, d2⟩ := decade_ok h2
  rw [e1, e2]
  simp only [bind, Except.bind]
  rcases ht : target axis with e | vertical
  · constructor
    · intro h; cases h
    · rintro ⟨-, -, v, -, -, h, -⟩
      cases h
  · simp only
    rw [fullyManual, if_pos (length_eq lo hi step), Except.ok.injEq]
    constructor
    · rintro rfl
      exact ⟨lo, hi, vertical, d1, d2, rfl, rfl⟩
    · rintro ⟨lo', hi', v', d1', d2', h, rfl⟩
      cases h
      rw [decade_unique d1 d1', decade_unique d2 d2']
      rfl

theorem denotes_cases {v : ℚ} {t : Text} (h : Denotes v t) : (v = 0 ∧ t = "0".toList) ∨
    (∃ e : ℤ, v = 10 ^ e ∧ t = "$10^{".toList ++ intText e ++ "}$".toList) ∨
    ∃ e : ℤ, v = -10 ^ e ∧ t = "$-10^{".toList ++ intText e ++ "}$".toList := by
  rcases h with _ | e | e
  · exact Or.inl ⟨rfl, rfl⟩
  · exact Or.inr (Or.inl ⟨e, rfl, rfl⟩)
  · exact Or.inr (Or.inr ⟨e, rfl, rfl⟩)

/-- The label of a value. -/
theorem denotes_fun {v : ℚ} {t t' : Text} (h : Denotes v t) (h' : Denotes v t') : t = t' := by
  have inj : ∀ {a b : ℤ}, (10 : ℚ) ^ a = 10 ^ b → a = b := fun h => zpow_right_injective₀ (by norm_num) (by norm_num) h
  rcases denotes_cases h with ⟨e0, rfl⟩ | ⟨a, e0, rfl⟩ | ⟨a, e0, rfl⟩ <;>
    rcases denotes_cases h' with ⟨e1, rfl⟩ | ⟨b, e1, rfl⟩ | ⟨b, e1, rfl⟩ <;> rw [e0] at e1
  · exact absurd e1.symm (pow_pos10 b).ne'
  · exact absurd e1 (by have := pow_pos10 b; linarith)
  · exact absurd e1 (pow_pos10 a).ne'
  · rw [inj e1]
  · exact absurd e1 (by have := pow_pos10 b; have := pow_pos10 a; linarith)
  · exact absurd e1 (by have := pow_pos10 a; linarith)
  · exact absurd e1 (by have := pow_pos10 b; have := pow_pos10 a; linarith)
  · rw [inj (neg_injective e1)]

theorem mem_zip_map {f : ℚ → ℝ} {xs : List ℚ} {ts : List Text} (h : List.Forall₂ Denotes xs ts) (p : ℝ) (t : Text) :
    (p, t) ∈ (xs.map f).zip ts ↔ ∃ v ∈ xs, Denotes v t ∧ p = f v := by
  induction h with
  | nil => simp
  | @cons x t' xs ts h1 h2 ih =>
    rw [List.map_cons, List.zip_cons_cons, List.mem_cons, ih]
    constructor
    · rintro (e | ⟨v, hv, hd, rfl⟩)
      · cases e
        exact ⟨x, by simp, h1, rfl⟩
      · exact ⟨v, List.mem_cons_of_mem _ hv, hd, rfl⟩
    · rintro ⟨v, hv, hd, rfl⟩
      rcases List.mem_cons.1 hv with rfl | hv
      · left
        rw [denotes_fun hd h1]
      · exact Or.inr ⟨v, hv, hd, rfl⟩

theorem major_iff {b : Bar} {lo hi step : ℤ} (hs : 0 < step) (h1 : IsDecade b.linthresh lo) (h2 : IsDecade b.vmax hi) (v : ℚ) :
    v ∈ (generateMajor lo hi step).1 ↔ MajorValue b.linthresh b.vmax step v := by
  rw [C60_major_values lo hi step hs, MajorValue]
  refine or_congr Iff.rfl ⟨?_, ?_⟩
  · rintro ⟨e, h⟩
    exact ⟨e, lo, hi, h1, h2, h⟩
  · rintro ⟨e, lo', hi', h1', h2', h⟩
    rw [← decade_unique h1 h1', ← decade_unique h2 h2'] at h
    exact ⟨e, h⟩

theorem minor_iff {b : Bar} {lo hi : ℤ} (step : ℤ) (h1 : IsDecade b.linthresh lo) (h2 : IsDecade b.vmax hi) (v : ℚ) :
    v ∈ generateMinor lo hi step ↔ MinorValue b.linthresh b.vmax v := by
  rw [C60_minor_values lo hi step, MinorValue]
  constructor
  · rintro ⟨e, d, h⟩
    exact ⟨e, lo, hi, d, h1, h2, h⟩
  · rintro ⟨e, lo', hi', d, h1', h2', h⟩
    rw [← decade_unique h1 h1', ← decade_unique h2 h2'] at h
    exact ⟨e, d, h⟩

theorem position_iff (lim : ℝ × ℝ) (norm : ℝ → ℝ) (v : ℚ) (p : ℝ) : p = position lim norm v ↔ onScale lim norm v p := by
  rw [position, onScale]
  constructor
  · rintro rfl; ring
  · intro h; linarith

theorem position_lt {lim : ℝ × ℝ} {norm : ℝ → ℝ} (hl : lim.1 < lim.2) (hn : StrictMono norm) {v w : ℚ} (h : v < w) :
    position lim norm v < position lim norm w := by
  have := hn (Rat.cast_lt.2 h)
  rw [position, position]
  nlinarith

end TickMarks

/-- **C86.** Tick marks can be set exactly if `linthresh` and `vmax` are positive and the axis is "x" or "y". -/
theorem C86_defined (b : Bar) (step : ℤ) (axis : AxisArg) : (∃ mk, autoSymlog b step axis = .ok mk) ↔
    0 < b.linthresh ∧ 0 < b.vmax ∧ axis ≠ .other := by
  simp only [auto_ok]
  constructor
  · rintro ⟨mk, lo, hi, v, h1, h2, h3, -⟩
    refine ⟨lt_of_lt_of_le (by positivity) h1.1, lt_of_lt_of_le (by positivity) h2.1, ?_⟩
    rintro rfl
    cases h3
  · rintro ⟨h1, h2, h3⟩
    obtain ⟨lo, -, d1⟩ := decade_ok h1
    obtain ⟨hi, -, d2⟩ := decade_ok h2
    cases axis
    · exact ⟨_, lo, hi, false, d1, d2, rfl, rfl⟩
    · exact ⟨_, lo, hi, true, d1, d2, rfl, rfl⟩
    · exact absurd rfl h3

/-- **C86.** On the horizontal axis the major ticks are zero and plus and minus the powers of ten from the decade of `linthresh`
to that of `vmax`, each with its label and where the norm has it between the limits of the axis; the minor ticks are the
multiples of powers of ten that lie between the limits. -/
theorem C86_ticks (b : Bar) (step : ℤ) (hs : 0 < step) (mk : Marks) (h : autoSymlog b step .x = .ok mk) :
    mk.vertical = false ∧
    (∀ p t, (p, t) ∈ mk.major ↔ ∃ v, MajorValue b.linthresh b.vmax step v ∧ Denotes v t ∧ onScale b.xlim b.norm v p) ∧
    ∀ p, p ∈ mk.minor ↔ (∃ v : ℚ, MinorValue b.linthresh b.vmax v ∧ onScale b.xlim b.norm v p) ∧ b.xlim.1 ≤ p ∧ p ≤ b.xlim.2 := by
  obtain ⟨lo, hi, v, h1, h2, h3, rfl⟩ := (auto_ok b step .x mk).1 h
  cases h3
  refine ⟨rfl, fun p t => ?_, fun p => ?_⟩
  · simp only [marksOf]
    rw [mem_zip_map (C60_major_labels lo hi step)]
    simp only [major_iff hs h1 h2, position_iff]
  · simp only [marksOf, List.mem_filter, List.mem_map, decide_eq_true_eq, minor_iff step h1 h2]
    constructor
    · rintro ⟨⟨⟨v, hv, e⟩, h4⟩, h5⟩
      exact ⟨⟨v, hv, (position_iff _ _ _ _).1 e.symm⟩, h4, h5⟩
    · rintro ⟨⟨v, hv, e⟩, h4, h5⟩
      exact ⟨⟨⟨v, hv, ((position_iff _ _ _ _).2 e).symm⟩, h4⟩, h5⟩

/-- **C86.** If the norm increases, the major and the minor ticks are in increasing order without repetition. -/
theorem C86_order (b : Bar) (step : ℤ) (hs : 0 < step) (axis : AxisArg) (mk : Marks) (h : autoSymlog b step axis = .ok mk)
    (hn : StrictMono b.norm) (hl : b.xlim.1 < b.xlim.2) :
    (mk.major.map Prod.fst).Pairwise (· < ·) ∧ mk.minor.Pairwise (· < ·) := by
  obtain ⟨lo, hi, v, h1, h2, h3, rfl⟩ := (auto_ok b step axis mk).1 h
  constructor
  · simp only [marksOf]
    rw [List.map_fst_zip (by rw [List.length_map, length_eq]), List.pairwise_map]
    exact (C60_major_order lo hi step hs).1.imp fun h => position_lt hl hn h
  · simp only [marksOf]
    refine List.Pairwise.filter _ (List.Pairwise.filter _ ?_)
    rw [List.pairwise_map]
    exact (C60_minor_order lo hi step).1.imp fun h => position_lt hl hn h

/-- **C86 (violated).** The major ticks are not restricted to the limits of the axis: with an increasing norm that takes `vmin`
to 0 and `vmax` to 1 they all lie between the limits if and only if `vmin` is not above any of the negative powers. -/
theorem C86_inside (b : Bar) (step : ℤ) (hs : 0 < step) (mk : Marks) (h : autoSymlog b step .x = .ok mk)
    (hn : StrictMono b.norm) (hl : b.xlim.1 < b.xlim.2) (vmin : ℝ) (h0 : b.norm vmin = 0) (h1 : b.norm b.vmax = 1) :
    (∀ p t, (p, t) ∈ mk.major → b.xlim.1 ≤ p ∧ p ≤ b.xlim.2) ↔ ∀ v : ℚ, MajorValue b.linthresh b.vmax step v → v ≤ 0 → vmin ≤ v := by
  have hm := (C86_ticks b step hs mk h).2.1
  have hv : 0 < b.vmax := ((C86_defined b step .x).1 ⟨mk, h⟩).2.1
  have key : ∀ v p : ℝ, onScale b.xlim b.norm v p → (b.xlim.1 ≤ p ↔ vmin ≤ v) ∧ (p ≤ b.xlim.2 ↔ v ≤ b.vmax) := by
    intro v p e
    rw [onScale] at e
    have hd : 0 < b.xlim.2 - b.xlim.1 := by linarith
    constructor
    · rw [← hn.le_iff_le (a := vmin), h0, ← sub_nonneg, e]
      exact ⟨fun h => nonneg_of_mul_nonneg_left h hd, fun h => mul_nonneg h hd.le⟩
    · rw [← hn.le_iff_le (a := v), h1, ← sub_le_sub_iff_right b.xlim.1, e]
      exact mul_le_iff_le_one_left hd
  have big : ∀ v : ℚ, MajorValue b.linthresh b.vmax step v → (v : ℝ) ≤ b.vmax := by
    rintro v (rfl | ⟨e, lo, hi, -, d, -, h2, -, rfl | rfl⟩)
    · simpa using hv.le
    · push_cast
      exact (zpow_le_zpow_right₀ (by norm_num) h2).trans d.1
    · push_cast
      have : (0 : ℝ) < 10 ^ e := by positivity
      linarith
  constructor
  · intro hin v hmv _
    have hd : ∃ t, Denotes v t := by
      rcases hmv with rfl | ⟨e, -, -, -, -, -, -, -, rfl | rfl⟩
      · exact ⟨_, .zero⟩
      · exact ⟨_, .pos e⟩
      · exact ⟨_, .neg e⟩
    obtain ⟨t, ht⟩ := hd
    have hp : onScale b.xlim b.norm v (position b.xlim b.norm v) := (position_iff _ _ _ _).1 rfl
    exact ((key _ _ hp).1).1 (hin _ _ ((hm _ _).2 ⟨v, hmv, ht, hp⟩)).1
  · intro hall p t hpt
    obtain ⟨v, hmv, -, hp⟩ := (hm p t).1 hpt
    refine ⟨((key _ _ hp).1).2 ?_, ((key _ _ hp).2).2 (big v hmv)⟩
    rcases le_or_gt v 0 with hv0 | hv0
    · exact hall v hmv hv0
    · have : vmin ≤ ((0 : ℚ) : ℝ) := hall 0 (Or.inl rfl) le_rfl
      have h3 : (0 : ℝ) < v := by exact_mod_cast hv0
      rw [Rat.cast_zero] at this
      linarith

/-- **C86 (violated).** On the vertical axis the ticks are placed between the limits of the horizontal axis: if there is more
than the tick at zero they are where the norm has them on the vertical axis if and only if the two axes have equal limits. -/
theorem C86_vertical (b : Bar) (step : ℤ) (hs : 0 < step) (mk : Marks) (h : autoSymlog b step .y = .ok mk)
    (hn : StrictMono b.norm) (w : ℚ) (hw : MajorValue b.linthresh b.vmax step w) (hw0 : w ≠ 0) :
    mk.vertical = true ∧ autoSymlog b step .x = .ok { mk with vertical := false } ∧
    ((∀ p t, (p, t) ∈ mk.major → ∃ v : ℚ, Denotes v t ∧ onScale b.ylim b.norm v p) ↔ b.xlim = b.ylim) := by
  obtain ⟨lo, hi, v, h1, h2, h3, rfl⟩ := (auto_ok b step .y mk).1 h
  cases h3
  have hx : autoSymlog b step .x = .ok { marksOf true b lo hi step with vertical := false } :=
    (auto_ok b step .x _).2 ⟨lo, hi, false, h1, h2, rfl, rfl⟩
  have hm := (C86_ticks b step hs _ hx).2.1
  simp only at hm
  refine ⟨rfl, hx, ?_, ?_⟩
  · intro hall
    have at_ : ∀ v : ℚ, MajorValue b.linthresh b.vmax step v →
        position b.xlim b.norm v = position b.ylim b.norm v := by
      intro v hv
      have hd : ∃ t, Denotes v t := by
        rcases hv with rfl | ⟨e, -, -, -, -, -, -, -, rfl | rfl⟩
        · exact ⟨_, .zero⟩
        · exact ⟨_, .pos e⟩
        · exact ⟨_, .neg e⟩
      obtain ⟨t, ht⟩ := hd
      obtain ⟨v', hv', e⟩ := hall _ _ ((hm _ _).2 ⟨v, hv, ht, (position_iff _ _ _ _).1 rfl⟩)
      rw [C60_label_unique hv' ht] at e
      exact (position_iff _ _ _ _).2 e
    have e1 := at_ 0 (Or.inl rfl)
    have e2 := at_ w hw
    have hne : b.norm ((w : ℚ) : ℝ) - b.norm ((0 : ℚ) : ℝ) ≠ 0 := by
      rw [sub_ne_zero, hn.injective.ne_iff]
      exact_mod_cast hw0
    simp only [position] at e1 e2
    have e3 : (b.xlim.2 - b.xlim.1 - (b.ylim.2 - b.ylim.1)) * (b.norm ((w : ℚ) : ℝ) - b.norm ((0 : ℚ) : ℝ)) = 0 := by linarith
    have e4 : b.xlim.2 - b.xlim.1 = b.ylim.2 - b.ylim.1 := by
      rcases mul_eq_zero.1 e3 with h | h
      · linarith
      · exact absurd h hne
    rw [e4] at e1
    have e5 : b.xlim.1 = b.ylim.1 := by linarith
    exact Prod.ext e5 (by linarith)
  · intro e p t hpt
    obtain ⟨v, -, hv, hp⟩ := (hm p t).1 hpt
    exact ⟨v, hv, by rw [← e]; exact hp⟩

/-- **C86 (violated).** If the coordinate along the axis is the value itself, from `vmin` to `vmax`, the tick of a value is at
that value if and only if the norm is there what a linear norm is. -/
theorem C86_value_axis (b : Bar) (step : ℤ) (hs : 0 < step) (mk : Marks) (h : autoSymlog b step .x = .ok mk) (vmin : ℝ)
    (hv : vmin < b.vmax) (hl : b.xlim = (vmin, b.vmax)) (p : ℝ) (t : Text) (hp : (p, t) ∈ mk.major) (v : ℚ) (hd : Denotes v t) :
    p = v ↔ b.norm v = (v - vmin) / (b.vmax - vmin) := by
  obtain ⟨v', -, hd', e⟩ := ((C86_ticks b step hs mk h).2.1 p t).1 hp
  rw [C60_label_unique hd' hd, onScale, hl] at e
  simp only at e
  have : b.vmax - vmin ≠ 0 := by linarith
  rw [eq_div_iff this, ← e]
  constructor
  · rintro rfl; rfl
  · intro h; linarith

/-! ### A case meeting the hypotheses -/

/-- A colour bar with `linthresh` 1 and `vmax` 10, a linear norm from -10. -/
private noncomputable def exBar : Bar := ⟨1, 10, fun v => (v + 10) / 20, (0, 1), (-10, 10)⟩

private theorem exBar_mono : StrictMono exBar.norm := by
  intro a c h
  simp only [exBar]
  linarith

private theorem exBar_decades : IsDecade exBar.linthresh 0 ∧ IsDecade exBar.vmax 1 := by
  simp only [exBar, IsDecade]
  norm_num

private theorem exBar_ten : MajorValue exBar.linthresh exBar.vmax 1 10 :=
  Or.inr ⟨1, 0, 1, exBar_decades.1, exBar_decades.2, by norm_num, le_rfl, one_dvd _, Or.inl (by norm_num)⟩

/-- All is well on the horizontal axis; the vertical axis has its ticks in the wrong places. -/
example : ∃ mk mk', autoSymlog exBar = .ok mk ∧ autoSymlog exBar 1 .y = .ok mk' ∧
    (∀ p t, (p, t) ∈ mk.major → exBar.xlim.1 ≤ p ∧ p ≤ exBar.xlim.2) ∧
    (∃ t, (1, t) ∈ mk.major ∧ Denotes 10 t) ∧
    ¬∀ p t, (p, t) ∈ mk'.major → ∃ v : ℚ, Denotes v t ∧ onScale exBar.ylim exBar.norm v p := by
  have h0 : 0 < exBar.linthresh ∧ 0 < exBar.vmax := by simp only [exBar]; norm_num
  obtain ⟨mk, hx⟩ := (C86_defined exBar 1 .x).2 ⟨h0.1, h0.2, by decide⟩
  obtain ⟨mk', hy⟩ := (C86_defined exBar 1 .y).2 ⟨h0.1, h0.2, by decide⟩
  refine ⟨mk, mk', hx, hy, ?_, ?_, ?_⟩
  · rw [C86_inside exBar 1 one_pos mk hx exBar_mono (by simp [exBar]) (-10) (by simp [exBar]) (by simp only [exBar]; norm_num)]
    rintro v (rfl | ⟨e, lo, hi, d1, d2, h1, h2, -, rfl | rfl⟩) hv
    · norm_num
    · exact absurd hv (not_le.2 (by positivity))
    · rw [← decade_unique exBar_decades.2 d2] at h2
      have := zpow_le_zpow_right₀ (by norm_num : (1 : ℝ) ≤ 10) h2
      push_cast
      linarith
  · refine ⟨"$10^{".toList ++ intText 1 ++ "}$".toList,
      ((C86_ticks exBar 1 one_pos mk hx).2.1 1 _).2 ⟨10, exBar_ten, ?_, ?_⟩, ?_⟩
    · have := Denotes.pos 1
      rwa [zpow_one] at this
    · simp only [exBar, onScale]
      norm_num
    · have := Denotes.pos 1
      rwa [zpow_one] at this
  · rw [(C86_vertical exBar 1 one_pos mk' hy exBar_mono 10 exBar_ten (by norm_num)).2.2]
    simp [exBar]

end Verif
