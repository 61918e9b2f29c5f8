import Verif.Lemmas.FloatDescribe
import Verif.Props.FloatRoundTrip
import Verif.Props.FloatWind
import Verif.Props.Geometry

/-!
# Property C125: `numerical_description` in double precision
-/

set_option exponentiation.threshold 4000

namespace Verif
open Spec PyFloat FloatRange FloatSets FloatCoords FloatError FloatRound

/-- What is assumed of the functions: right to a few units in the last place where nothing over- or underflows. -/
structure Spec.GoodDesc (L : DescLib) : Prop where
  cos : ∀ x, FinD x → 0 ≤ x.num → x.num ≤ 4 → FinD (L.cos x) ∧ |((L.cos x).num : ℝ)| ≤ 1 ∧ |((L.cos x).num : ℝ) - Real.cos x.num| ≤ 1 / 2 ^ 50
  square : ∀ x, FinD x → |(x.num : ℝ)| ≤ 2 ^ 200 → FinD (L.square x) ∧ |((L.square x).num : ℝ) - (x.num : ℝ) ^ 2| ≤ (x.num : ℝ) ^ 2 / 2 ^ 50 + 1 / 2 ^ 1000
  root : ∀ x, FinD x → 0 ≤ x.num → FinD (L.root x) ∧ 0 ≤ (L.root x).num ∧ |((L.root x).num : ℝ) - Real.sqrt x.num| ≤ Real.sqrt x.num / 2 ^ 50
  sqrt : ∀ x, FinD x → 0 ≤ x.num → FinD (L.sqrt x) ∧ 0 ≤ (L.sqrt x).num ∧ |((L.sqrt x).num : ℝ) - Real.sqrt x.num| ≤ Real.sqrt x.num / 2 ^ 50

/-- A value of the field: finite, of at most `2^k` (Gauss). -/
def Spec.FieldValue (k : ℕ) (v : PyFloat) : Prop := FinD v ∧ |(v.num : ℝ)| ≤ 2 ^ k

/-- Areas of facets that cover the unit sphere to 8 parts in a million. -/
structure Spec.Covers (areas : List PyFloat) : Prop where
  nonempty : areas ≠ []
  count : areas.length ≤ 2 ^ 24
  each : ∀ a ∈ areas, FinD a ∧ 0 ≤ (a.num : ℝ) ∧ (a.num : ℝ) ≤ 16
  total : |(areas.map fun a => (a.num : ℝ)).sum / (4 * Real.pi) - 1| ≤ 1 / 2 ^ 17

/-- The mean over the sphere of a function of the values, in exact arithmetic. -/
noncomputable def Spec.facetMean (areas values : List PyFloat) (f : ℝ → ℝ) : ℝ :=
  ((values.zip areas).map fun x => f x.1.num * x.2.num).sum / (4 * Real.pi)

/-- What `describe` should find: the largest magnitude, the mean magnitude, the mean square, the mean square deviation. -/
structure Spec.Describes (areas values : List PyFloat) (s : FloatDescribe.FStats) : Prop where
  finite : FinD s.max ∧ FinD s.mean ∧ FinD s.rms ∧ FinD s.std
  nonneg : 0 ≤ s.mean.num ∧ 0 ≤ s.rms.num ∧ 0 ≤ s.std.num
  largest : (∃ v ∈ values, s.max.num = |v.num|) ∧ ∀ v ∈ values, |v.num| ≤ s.max.num
  mean : |(s.mean.num : ℝ) - facetMean areas values (fun v => |v|)| ≤ facetMean areas values (fun v => |v|) / 2 ^ 26 + 1 / 2 ^ 800
  rms : |(s.rms.num : ℝ) ^ 2 - facetMean areas values (fun v => v ^ 2)| ≤ facetMean areas values (fun v => v ^ 2) / 2 ^ 25 + 1 / 2 ^ 700
  std : |(s.std.num : ℝ) ^ 2 - facetMean areas values (fun v => (|v| - facetMean areas values fun u => |u|) ^ 2)| ≤
    (facetMean areas values (fun v => (|v| - facetMean areas values fun u => |u|) ^ 2) + 16 * facetMean areas values (fun v => |v|) ^ 2) / 2 ^ 25
      + 1 / 2 ^ 700

namespace FloatDescribe
open FloatEnergy

/-! ### The largest value -/

theorem lt_fin {x y : PyFloat} (hx : FinD x) (hy : FinD y) : FloatPfss.lt x y = true ↔ x.num < y.num := by
  obtain ⟨s, a, rfl, -⟩ := hx
  obtain ⟨t, b, rfl, -⟩ := hy
  simp [FloatPfss.lt]

theorem larger_fin {x y : PyFloat} (hx : FinD x) (hy : FinD y) :
    (larger x y = x ∧ y.num ≤ x.num) ∨ (larger x y = y ∧ x.num ≤ y.num) := by
  unfold larger
  rw [FloatClose.isNan_fin hx, FloatClose.isNan_fin hy]
  by_cases h : x.num < y.num
  · right; simp [(lt_fin hx hy).2 h, h.le]
  · left
    have h' : FloatPfss.lt x y = false := by
      rw [Bool.eq_false_iff]; exact fun e => h ((lt_fin hx hy).1 e)
    simp [h', not_lt.1 h]

theorem smaller_fin {x y : PyFloat} (hx : FinD x) (hy : FinD y) :
    (smaller x y = x ∧ x.num ≤ y.num) ∨ (smaller x y = y ∧ y.num ≤ x.num) := by
  unfold smaller
  rw [FloatClose.isNan_fin hx, FloatClose.isNan_fin hy]
  by_cases h : y.num < x.num
  · right; simp [(lt_fin hy hx).2 h, h.le]
  · left
    have h' : FloatPfss.lt y x = false := by
      rw [Bool.eq_false_iff]; exact fun e => h ((lt_fin hy hx).1 e)
    simp [h', not_lt.1 h]

theorem fold_larger (xs : List PyFloat) (h : ∀ x ∈ xs, FinD x) : ∀ x, FinD x →
    (xs.foldl larger x = x ∨ xs.foldl larger x ∈ xs) ∧ x.num ≤ (xs.foldl larger x).num ∧ ∀ y ∈ xs, y.num ≤ (xs.foldl larger x).num := by
  induction xs with
  | nil => intro x hx; exact ⟨.inl rfl, le_rfl, by simp⟩
  | cons y xs ih =>
    intro x hx
    have hy := h y (by simp)
    simp only [List.foldl_cons, List.mem_cons, forall_eq_or_imp]
    rcases larger_fin hx hy with ⟨e, hle⟩ | ⟨e, hle⟩
    · rw [e]
      obtain ⟨h1, h2, h3⟩ := ih (fun z hz => h z (by simp [hz])) x hx
      exact ⟨h1.imp id .inr, h2, hle.trans h2, h3⟩
    · rw [e]
      obtain ⟨h1, h2, h3⟩ := ih (fun z hz => h z (by simp [hz])) y hy
      exact ⟨.inr (h1.imp id id), hle.trans h2, h2, h3⟩

theorem fold_smaller (xs : List PyFloat) (h : ∀ x ∈ xs, FinD x) : ∀ x, FinD x →
    (xs.foldl smaller x = x ∨ xs.foldl smaller x ∈ xs) ∧ (xs.foldl smaller x).num ≤ x.num ∧ ∀ y ∈ xs, (xs.foldl smaller x).num ≤ y.num := by
  induction xs with
  | nil => intro x hx; exact ⟨.inl rfl, le_rfl, by simp⟩
  | cons y xs ih =>
    intro x hx
    have hy := h y (by simp)
    simp only [List.foldl_cons, List.mem_cons, forall_eq_or_imp]
    rcases smaller_fin hx hy with ⟨e, hle⟩ | ⟨e, hle⟩
    · rw [e]
      obtain ⟨h1, h2, h3⟩ := ih (fun z hz => h z (by simp [hz])) x hx
      exact ⟨h1.imp id .inr, h2, h2.trans hle, h3⟩
    · rw [e]
      obtain ⟨h1, h2, h3⟩ := ih (fun z hz => h z (by simp [hz])) y hy
      exact ⟨.inr (h1.imp id id), h2.trans hle, h2, h3⟩

theorem maximum_fin {xs : List PyFloat} (hne : xs ≠ []) (h : ∀ x ∈ xs, FinD x) :
    ∃ m, maximum xs = .ok m ∧ m ∈ xs ∧ ∀ y ∈ xs, y.num ≤ m.num := by
  cases xs with
  | nil => exact absurd rfl hne
  | cons x xs =>
    obtain ⟨h1, h2, h3⟩ := fold_larger xs (fun y hy => h y (by simp [hy])) x (h x (by simp))
    refine ⟨_, rfl, ?_, ?_⟩
    · rcases h1 with h1 | h1
      · rw [h1]; simp
      · exact List.mem_cons_of_mem _ h1
    · simpa using ⟨h2, h3⟩

theorem minimum_fin {xs : List PyFloat} (hne : xs ≠ []) (h : ∀ x ∈ xs, FinD x) :
    ∃ m, minimum xs = .ok m ∧ m ∈ xs ∧ ∀ y ∈ xs, m.num ≤ y.num := by
  cases xs with
  | nil => exact absurd rfl hne
  | cons x xs =>
    obtain ⟨h1, h2, h3⟩ := fold_smaller xs (fun y hy => h y (by simp [hy])) x (h x (by simp))
    refine ⟨_, rfl, ?_, ?_⟩
    · rcases h1 with h1 | h1
      · rw [h1]; simp
      · exact List.mem_cons_of_mem _ h1
    · simpa using ⟨h2, h3⟩

theorem maximum_abs {values : List PyFloat} (hne : values ≠ []) (h : ∀ x ∈ values, FinD x) :
    ∃ m, maximum (values.map FloatParker.fabs) = .ok m ∧ FinD m ∧ (∃ v ∈ values, m.num = |v.num|) ∧ ∀ v ∈ values, |v.num| ≤ m.num := by
  obtain ⟨m, e, hm, hall⟩ := maximum_fin (xs := values.map FloatParker.fabs) (by simpa using hne) (by
    intro x hx
    obtain ⟨v, hv, rfl⟩ := List.mem_map.1 hx
    exact (fabs_fd (h v hv)).1)
  obtain ⟨v, hv, rfl⟩ := List.mem_map.1 hm
  refine ⟨_, e, (fabs_fd (h v hv)).1, ⟨v, hv, (fabs_fd (h v hv)).2⟩, fun u hu => ?_⟩
  have := hall _ (List.mem_map_of_mem hu)
  rwa [(fabs_fd (h u hu)).2] at this

/-! ### The statistics -/

theorem sum_zip {values areas : List PyFloat} (hl : values.length = areas.length) (f : PyFloat → ℝ) :
    ((values.zip areas).map fun x => f x.2).sum = (areas.map f).sum := by
  have : (values.zip areas).map (fun x => f x.2) = ((values.zip areas).map Prod.snd).map f := by rw [List.map_map]; rfl
  rw [this, List.map_snd_zip (by omega)]

section
variable {areas values : List PyFloat} (hl : values.length = areas.length) (hv : ∀ v ∈ values, FieldValue 60 v) (hA : Covers areas)
include hl hv hA

theorem facet {x : PyFloat × PyFloat} (hx : x ∈ values.zip areas) :
    FinD x.1 ∧ |(x.1.num : ℝ)| ≤ 2 ^ 60 ∧ FinD x.2 ∧ 0 ≤ (x.2.num : ℝ) ∧ (x.2.num : ℝ) ≤ 16 := by
  obtain ⟨h1, h2⟩ := List.of_mem_zip (a := x.1) (b := x.2) hx
  exact ⟨(hv _ h1).1, (hv _ h1).2, hA.each _ h2⟩

theorem zip_length : (values.zip areas).length ≤ 2 ^ 24 := by
  rw [List.length_zip, hl, min_self]; exact hA.count

theorem sq_bound {x : PyFloat × PyFloat} (hx : x ∈ values.zip areas) {d : ℝ} (hd : |d| ≤ 2 ^ 63) : 0 ≤ d ^ 2 * x.2.num ∧ d ^ 2 * x.2.num ≤ 2 ^ 200 := by
  obtain ⟨-, -, -, a0, a1⟩ := facet hl hv hA hx
  refine ⟨mul_nonneg (sq_nonneg _) a0, ?_⟩
  rw [← sq_abs]
  calc |d| ^ 2 * x.2.num ≤ (2 ^ 63) ^ 2 * 16 := by gcongr
    _ ≤ 2 ^ 200 := by norm_num

theorem area_total : 0 ≤ (areas.map fun a => (a.num : ℝ)).sum / (4 * Real.pi) ∧ (areas.map fun a => (a.num : ℝ)).sum / (4 * Real.pi) ≤ 2 := by
  have := abs_le.1 hA.total
  norm_num at this
  constructor <;> linarith

theorem mean_bounds : 0 ≤ facetMean areas values (fun v => |v|) ∧ facetMean areas values (fun v => |v|) ≤ 2 ^ 61 := by
  have hp : 0 < 4 * Real.pi := by linarith [Real.pi_pos]
  constructor
  · refine div_nonneg (List.sum_nonneg ?_) hp.le
    intro y hy
    obtain ⟨x, hx, rfl⟩ := List.mem_map.1 hy
    exact mul_nonneg (abs_nonneg _) (facet hl hv hA hx).2.2.2.1
  · have h1 : ((values.zip areas).map fun x => |(x.1.num : ℝ)| * x.2.num).sum ≤ ((values.zip areas).map fun x => 2 ^ 60 * (x.2.num : ℝ)).sum := by
      refine List.sum_le_sum fun x hx => ?_
      obtain ⟨-, v1, -, a0, -⟩ := facet hl hv hA hx
      exact mul_le_mul_of_nonneg_right v1 a0
    rw [List.sum_map_mul_left, sum_zip hl fun a => (a.num : ℝ)] at h1
    have h2 := (area_total hl hv hA).2
    unfold facetMean
    calc _ ≤ 2 ^ 60 * (areas.map fun a => (a.num : ℝ)).sum / (4 * Real.pi) := by gcongr
      _ = 2 ^ 60 * ((areas.map fun a => (a.num : ℝ)).sum / (4 * Real.pi)) := by ring
      _ ≤ 2 ^ 60 * 2 := by gcongr
      _ = 2 ^ 61 := by norm_num

theorem dev_expand (c : ℝ) : facetMean areas values (fun v => (|v| - c) ^ 2) = facetMean areas values (fun v => v ^ 2)
    - 2 * c * facetMean areas values (fun v => |v|) + c ^ 2 * ((areas.map fun a => (a.num : ℝ)).sum / (4 * Real.pi)) := by
  unfold facetMean
  rw [← sum_zip hl fun a => (a.num : ℝ)]
  have e : ∀ xs : List (PyFloat × PyFloat), (xs.map fun x => (|(x.1.num : ℝ)| - c) ^ 2 * (x.2.num : ℝ)).sum =
      (xs.map fun x => (x.1.num : ℝ) ^ 2 * x.2.num).sum - 2 * c * (xs.map fun x => |(x.1.num : ℝ)| * x.2.num).sum
        + c ^ 2 * (xs.map fun x => (x.2.num : ℝ)).sum := by
    intro xs
    induction xs with
    | nil => simp
    | cons x xs ih =>
      simp only [List.map_cons, List.sum_cons, ih]
      rw [sub_sq, sq_abs]
      ring
  rw [e]
  ring

theorem mean_ok {S : List PyFloat → PyFloat} (hS : ∀ xs, IsNpSum xs (S xs)) :
    NonNeg (mean S areas values) ∧
      |((mean S areas values).num : ℝ) - facetMean areas values (fun v => |v|)| ≤ facetMean areas values (fun v => |v|) / 2 ^ 26 + 1 / 2 ^ 800 := by
  refine weighted (values.zip areas) (T := fun x => mul (FloatParker.fabs x.1) x.2) (t := fun x => |(x.1.num : ℝ)| * x.2.num)
    (zip_length hl hv hA) ?_ ?_ ?_ ?_ (hS _)
  · intro x hx
    obtain ⟨h1, h2, h3, h4, h5⟩ := facet hl hv hA hx
    exact (term_abs h1 h3 h2 h4 h5).1
  · intro x hx
    obtain ⟨h1, h2, h3, h4, h5⟩ := facet hl hv hA hx
    exact (term_abs h1 h3 h2 h4 h5).2
  · intro x hx
    exact mul_nonneg (abs_nonneg _) (facet hl hv hA hx).2.2.2.1
  · intro x hx
    obtain ⟨h1, h2, h3, h4, h5⟩ := facet hl hv hA hx
    calc |(x.1.num : ℝ)| * x.2.num ≤ 2 ^ 60 * 16 := by gcongr
      _ ≤ 2 ^ 200 := by norm_num

theorem square_ok {S : List PyFloat → PyFloat} (hS : ∀ xs, IsNpSum xs (S xs)) :
    NonNeg (div (S ((values.zip areas).map fun x => mul (mul x.1 x.1) x.2)) fourPi) ∧
      |((div (S ((values.zip areas).map fun x => mul (mul x.1 x.1) x.2)) fourPi).num : ℝ) - facetMean areas values (fun v => v ^ 2)| ≤
        facetMean areas values (fun v => v ^ 2) / 2 ^ 26 + 1 / 2 ^ 800 := by
  refine weighted (values.zip areas) (T := fun x => mul (mul x.1 x.1) x.2) (t := fun x => (x.1.num : ℝ) ^ 2 * x.2.num)
    (zip_length hl hv hA) ?_ ?_ ?_ ?_ (hS _)
  · intro x hx
    obtain ⟨h1, h2, h3, h4, h5⟩ := facet hl hv hA hx
    exact (term_square h1 h3 (h2.trans (by norm_num)) h4 h5).1
  · intro x hx
    obtain ⟨h1, h2, h3, h4, h5⟩ := facet hl hv hA hx
    refine (term_square h1 h3 (h2.trans (by norm_num)) h4 h5).2.trans ?_
    have := (sq_bound hl hv hA hx (h2.trans (by norm_num))).1
    gcongr <;> norm_num
  · intro x hx
    exact (sq_bound hl hv hA hx ((facet hl hv hA hx).2.1.trans (by norm_num))).1
  · intro x hx
    exact (sq_bound hl hv hA hx ((facet hl hv hA hx).2.1.trans (by norm_num))).2

theorem dev_ok {S : List PyFloat → PyFloat} (hS : ∀ xs, IsNpSum xs (S xs)) {m : PyFloat} (hm : FinD m) (m0 : 0 ≤ (m.num : ℝ))
    (m1 : (m.num : ℝ) ≤ 2 ^ 62) :
    NonNeg (div (S ((values.zip areas).map fun x => mul (mul (deviation m x.1) (deviation m x.1)) x.2)) fourPi) ∧
      |((div (S ((values.zip areas).map fun x => mul (mul (deviation m x.1) (deviation m x.1)) x.2)) fourPi).num : ℝ)
          - facetMean areas values (fun v => (|v| - m.num) ^ 2)| ≤
        facetMean areas values (fun v => (|v| - m.num) ^ 2) / 2 ^ 26 + 1 / 2 ^ 800 := by
  have hb : ∀ x ∈ values.zip areas, |(|(x.1.num : ℝ)| - m.num)| ≤ 2 ^ 63 := by
    intro x hx
    have h1 := (facet hl hv hA hx).2.1
    have h0 := abs_nonneg (x.1.num : ℝ)
    generalize |(x.1.num : ℝ)| = u at *
    generalize (m.num : ℝ) = k at *
    rw [abs_le]
    norm_num at *
    constructor <;> linarith
  refine weighted (values.zip areas) (T := fun x => mul (mul (deviation m x.1) (deviation m x.1)) x.2)
    (t := fun x => (|(x.1.num : ℝ)| - m.num) ^ 2 * x.2.num) (zip_length hl hv hA) ?_ ?_ ?_ ?_ (hS _)
  · intro x hx
    obtain ⟨h1, h2, h3, h4, h5⟩ := facet hl hv hA hx
    exact (term_dev h1 hm h3 h2 m0 m1 h4 h5).1
  · intro x hx
    obtain ⟨h1, h2, h3, h4, h5⟩ := facet hl hv hA hx
    exact (term_dev h1 hm h3 h2 m0 m1 h4 h5).2
  · intro x hx
    exact (sq_bound hl hv hA hx (hb x hx)).1
  · intro x hx
    exact (sq_bound hl hv hA hx (hb x hx)).2

theorem facetMean_nonneg {f : ℝ → ℝ} (hf : ∀ v, 0 ≤ f v) : 0 ≤ facetMean areas values f := by
  refine div_nonneg (List.sum_nonneg ?_) (by linarith [Real.pi_pos])
  intro y hy
  obtain ⟨x, hx, rfl⟩ := List.mem_map.1 hy
  exact mul_nonneg (hf _) (facet hl hv hA hx).2.2.2.1

end

/-- The mean square deviation from the rounded mean and from the mean. -/
theorem dev_mean {M m A V V' τ : ℝ} (M0 : 0 ≤ M) (m0 : 0 ≤ m) (m1 : m ≤ 2 ^ 61) (A0 : 0 ≤ A) (A2 : A ≤ 2) (hM : |M - m| ≤ m / 2 ^ 26 + τ)
    (τ0 : 0 ≤ τ) (τ1 : τ ≤ 1) (e : V - V' = -(2 * (M - m) * m) + (M ^ 2 - m ^ 2) * A) :
    |V - V'| ≤ m ^ 2 / 2 ^ 22 + τ * 2 ^ 70 := by
  rw [e]
  refine (abs_add_le _ _).trans ?_
  have e2 : M ^ 2 - m ^ 2 = (M - m) * (M - m) + 2 * m * (M - m) := by ring
  have h1 : |-(2 * (M - m) * m)| = 2 * m * |M - m| := by
    rw [abs_neg, abs_mul, abs_mul, abs_of_nonneg m0, abs_of_pos (by norm_num : (0 : ℝ) < 2)]
    ring
  have h2 : |(M ^ 2 - m ^ 2) * A| ≤ (|M - m| * |M - m| + 2 * m * |M - m|) * 2 := by
    rw [abs_mul, abs_of_nonneg A0]
    refine mul_le_mul ?_ A2 A0 (by positivity)
    rw [e2]
    refine (abs_add_le _ _).trans ?_
    rw [abs_mul, abs_mul (2 * m), abs_of_nonneg (by positivity : 0 ≤ 2 * m)]
  rw [h1]
  have hy := abs_nonneg (M - m)
  generalize |M - m| = y at *
  have h3 : m * y ≤ m * (m / 2 ^ 26 + τ) := mul_le_mul_of_nonneg_left hM m0
  have h4 : y * y ≤ (m / 2 ^ 26 + τ) * (m / 2 ^ 26 + τ) := mul_le_mul hM hM hy (by positivity)
  have h5 : m * τ ≤ 2 ^ 61 * τ := mul_le_mul_of_nonneg_right m1 τ0
  have h6 : τ * τ ≤ 1 * τ := mul_le_mul_of_nonneg_right τ1 τ0
  have e3 : m * (m / 2 ^ 26 + τ) = m ^ 2 / 2 ^ 26 + m * τ := by ring
  have e4 : (m / 2 ^ 26 + τ) * (m / 2 ^ 26 + τ) = m ^ 2 / 2 ^ 52 + 2 / 2 ^ 26 * (m * τ) + τ * τ := by ring
  rw [e3] at h3
  rw [e4] at h4
  have e5 : 2 * m * y = 2 * (m * y) := by ring
  rw [e5] at h2 ⊢
  have := sq_nonneg m
  generalize m ^ 2 = P at *
  generalize m * τ = B at *
  generalize m * y = C at *
  generalize y * y = D at *
  generalize τ * τ = E at *
  norm_num at *
  linarith

end FloatDescribe

open FloatDescribe FloatEnergy in
/-- **C125.** In double precision the statistical identity that `describe` asserts is never missed on facets that cover the sphere: whatever
the order of summation, the maximum is the largest magnitude of the values, and the mean, the mean square and the mean square deviation are
right to about 8 digits (relative to the mean square). -/
theorem C125_describe (L : DescLib) (hL : GoodDesc L) (S : List PyFloat → PyFloat) (hS : ∀ xs, IsNpSum xs (S xs)) (areas values : List PyFloat)
    (hl : values.length = areas.length) (hv : ∀ v ∈ values, FieldValue 60 v) (hA : Covers areas) :
    ∃ s, describe L S areas values = .ok s ∧ Describes areas values s := by
  have hne : values ≠ [] := by
    rintro rfl
    exact hA.nonempty (List.length_eq_zero_iff.1 hl.symm)
  obtain ⟨hi, e, f0, x1, x2⟩ := maximum_abs hne fun v h => (hv v h).1
  have c800 : (1 : ℝ) / 2 ^ 800 ≤ 1 / 2 ^ 200 := by gcongr <;> norm_num
  have c1000 : (1 : ℝ) / 2 ^ 1000 ≤ 1 / 2 ^ 200 := by gcongr <;> norm_num
  have d800 : (0 : ℝ) ≤ 1 / 2 ^ 800 := by positivity
  have d1000 : (0 : ℝ) ≤ 1 / 2 ^ 1000 := by positivity
  have e700 : (1 : ℝ) / 2 ^ 800 * 2 ^ 80 ≤ 1 / 2 ^ 700 := by
    rw [show (2 : ℝ) ^ 800 = 2 ^ 700 * 2 ^ 100 by rw [← pow_add], one_div_mul_eq_div, div_le_div_iff₀ (by positivity) (by positivity)]
    have : (0 : ℝ) < 2 ^ 700 := by positivity
    nlinarith
  have e700' : (1 : ℝ) / 2 ^ 800 ≤ 1 / 2 ^ 700 / 2 := by
    rw [show (2 : ℝ) ^ 800 = 2 ^ 700 * 2 ^ 100 by rw [← pow_add], div_div, div_le_div_iff₀ (by positivity) (by positivity)]
    have : (0 : ℝ) < 2 ^ 700 := by positivity
    nlinarith
  obtain ⟨nm, em⟩ := mean_ok hl hv hA hS
  have M0 : (0 : ℝ) ≤ (mean S areas values).num := by exact_mod_cast nm.num_nonneg
  obtain ⟨m0, m1⟩ := mean_bounds hl hv hA
  have M1 : ((mean S areas values).num : ℝ) ≤ 2 ^ 62 := by
    have := (abs_le.1 em).2
    generalize ((mean S areas values).num : ℝ) = a at *
    generalize facetMean areas values (fun v => |v|) = b at *
    generalize (1 : ℝ) / 2 ^ 800 = c at *
    norm_num at *
    linarith
  obtain ⟨nq, eq⟩ := square_ok hl hv hA hS
  obtain ⟨nw, ew⟩ := dev_ok hl hv hA hS (NonNeg.fd nm) M0 M1
  set M := mean S areas values with hM
  set q := div (S ((values.zip areas).map fun x => mul (mul x.1 x.1) x.2)) fourPi with hq
  set u := div (S ((values.zip areas).map fun x => mul (mul (deviation M x.1) (deviation M x.1)) x.2)) fourPi with hu
  have er : rms L S areas values = L.root q := rfl
  have es : std L S areas values M = L.root u := rfl
  obtain ⟨r1, r2, r3⟩ := hL.root q (NonNeg.fd nq) nq.num_nonneg
  obtain ⟨s1, s2, s3⟩ := hL.root u (NonNeg.fd nw) nw.num_nonneg
  have q0 : (0 : ℝ) ≤ q.num := by exact_mod_cast nq.num_nonneg
  have u0 : (0 : ℝ) ≤ u.num := by exact_mod_cast nw.num_nonneg
  have R0 := facetMean_nonneg hl hv hA (f := fun v => v ^ 2) fun v => sq_nonneg v
  have V0 := facetMean_nonneg hl hv hA (f := fun v => (|v| - M.num) ^ 2) fun v => sq_nonneg _
  have hV := dev_expand hl hv hA M.num
  obtain ⟨A0, A2⟩ := area_total hl hv hA
  -- sizes
  have RB : facetMean areas values (fun v => v ^ 2) ≤ 2 ^ 121 := by
    have h1 : ((values.zip areas).map fun x => (x.1.num : ℝ) ^ 2 * x.2.num).sum ≤ ((values.zip areas).map fun x => 2 ^ 120 * (x.2.num : ℝ)).sum := by
      refine List.sum_le_sum fun x hx => ?_
      obtain ⟨-, v1, -, a0, -⟩ := facet hl hv hA hx
      refine mul_le_mul_of_nonneg_right ?_ a0
      rw [← sq_abs]
      calc |(x.1.num : ℝ)| ^ 2 ≤ (2 ^ 60) ^ 2 := by gcongr
        _ = 2 ^ 120 := by norm_num
    rw [List.sum_map_mul_left, sum_zip hl fun a => (a.num : ℝ)] at h1
    unfold facetMean
    calc _ ≤ 2 ^ 120 * (areas.map fun a => (a.num : ℝ)).sum / (4 * Real.pi) := by gcongr
      _ = 2 ^ 120 * ((areas.map fun a => (a.num : ℝ)).sum / (4 * Real.pi)) := by ring
      _ ≤ 2 ^ 120 * 2 := by gcongr
      _ = 2 ^ 121 := by norm_num
  have VB : facetMean areas values (fun v => (|v| - M.num) ^ 2) ≤ 2 ^ 127 := by
    have h1 : (M.num : ℝ) ^ 2 * ((areas.map fun a => (a.num : ℝ)).sum / (4 * Real.pi)) ≤ (2 ^ 62) ^ 2 * 2 := by gcongr
    have h2 : 0 ≤ 2 * (M.num : ℝ) * facetMean areas values (fun v => |v|) := by positivity
    norm_num at *
    linarith
  have hr2 := root_sq q0 r3
  have hs2 := root_sq u0 s3
  have small : ∀ {x y z : ℝ}, 0 ≤ x → 0 ≤ y → y ≤ 2 ^ 127 → |x - y| ≤ y / 2 ^ 26 + 1 / 2 ^ 800 → |z ^ 2 - x| ≤ x / 2 ^ 48 → |z| ≤ 2 ^ 200 ∧ x ≤ 2 ^ 128 := by
    intro x y z hx hy hy2 h1 h2
    have h3 := (abs_le.1 h1).2
    have h4 := (abs_le.1 h2).2
    have hx2 : x ≤ 2 ^ 128 := by
      generalize (1 : ℝ) / 2 ^ 800 = c at *
      norm_num at *
      linarith
    refine ⟨?_, hx2⟩
    have h5 : z ^ 2 ≤ (2 ^ 200) ^ 2 := by
      generalize z ^ 2 = p at *
      norm_num at *
      linarith
    exact abs_le_of_sq_le_sq h5 (by positivity)
  obtain ⟨rB, qB⟩ := small q0 R0 (RB.trans (by norm_num)) eq hr2
  obtain ⟨sB, uB⟩ := small u0 V0 VB ew hs2
  obtain ⟨x3, x4⟩ := hL.square _ r1 rB
  obtain ⟨y3, y4⟩ := hL.square _ s1 sB
  obtain ⟨z3, z4⟩ := hL.square M (NonNeg.fd nm) (by rw [abs_of_nonneg M0]; exact M1.trans (by norm_num))
  have hX := square_root q0 r3 x4
  have hY := square_root u0 s3 y4
  have MB : (M.num : ℝ) ^ 2 ≤ 2 ^ 124 := by
    calc (M.num : ℝ) ^ 2 ≤ (2 ^ 62) ^ 2 := by gcongr
      _ = 2 ^ 124 := by norm_num
  have XB : |((L.square (L.root q)).num : ℝ)| ≤ 2 ^ 130 := by
    generalize ((L.square (L.root q)).num : ℝ) = a at *
    generalize (q.num : ℝ) = b at *
    generalize (1 : ℝ) / 2 ^ 1000 = c at *
    clear * - hX q0 qB c1000 d1000
    rw [abs_le] at *
    norm_num at *
    constructor <;> linarith
  have YB : |((L.square M).num : ℝ) + (L.square (L.root u)).num| ≤ 2 ^ 130 := by
    generalize ((L.square (L.root u)).num : ℝ) = a at *
    generalize ((L.square M).num : ℝ) = a' at *
    generalize (u.num : ℝ) = b at *
    have := sq_nonneg (M.num : ℝ)
    generalize (M.num : ℝ) ^ 2 = b' at *
    generalize (1 : ℝ) / 2 ^ 1000 = c at *
    clear * - hY z4 u0 uB MB c1000 d1000 this
    rw [abs_le] at *
    norm_num at *
    constructor <;> linarith
  obtain ⟨k1, k2⟩ := add_real z3 y3 YB (by norm_num)
  have KB : |((add (L.square M) (L.square (L.root u))).num : ℝ)| ≤ 2 ^ 200 := by
    generalize ((add (L.square M) (L.square (L.root u))).num : ℝ) = a at *
    generalize ((L.square M).num : ℝ) + (L.square (L.root u)).num = b at *
    generalize (1 : ℝ) / 2 ^ 1000 = c at *
    clear * - k2 YB c1000
    have h1 := le_abs_self b
    have h2 := neg_abs_le b
    rw [abs_le] at k2 ⊢
    norm_num at *
    constructor <;> linarith
  have hc : close (L.square (rms L S areas values)) (add (L.square M) (L.square (std L S areas values M))) = true := by
    rw [er, es]
    refine close_ok x3 k1 (XB.trans (by norm_num)) KB ?_
    exact identity M0 M1 m0 R0 V0 hV hA.total em eq ew hX z4 hY k2 d800 c800 d1000 c1000
  refine ⟨⟨hi, M, rms L S areas values, std L S areas values M⟩, ?_, ⟨f0, NonNeg.fd nm, r1, s1⟩, ⟨nm.num_nonneg, r2, s2⟩, ⟨x1, x2⟩, em, ?_, ?_⟩
  · rw [describe, e]
    simp only [bind, Except.bind, ← hM, hc, resAssert, if_true, pure, Except.pure]
  · rw [er]
    generalize ((L.root q).num : ℝ) ^ 2 = a at *
    generalize (q.num : ℝ) = b at *
    generalize facetMean areas values (fun v => v ^ 2) = c at *
    generalize (1 : ℝ) / 2 ^ 800 = t at *
    generalize (1 : ℝ) / 2 ^ 700 = t' at *
    clear * - hr2 eq e700' R0 d800
    rw [abs_le] at *
    norm_num at *
    constructor <;> linarith
  · rw [es]
    have hV' := dev_expand hl hv hA (facetMean areas values fun v => |v|)
    have V0' := facetMean_nonneg hl hv hA (f := fun v => (|v| - facetMean areas values fun u => |u|) ^ 2) fun v => sq_nonneg _
    have hd := dev_mean (V := facetMean areas values (fun v => (|v| - M.num) ^ 2))
      (V' := facetMean areas values (fun v => (|v| - facetMean areas values fun u => |u|) ^ 2)) M0 m0 m1 A0 A2 em d800
      (c800.trans (by norm_num)) (by rw [hV, hV']; ring)
    have p0 := sq_nonneg (facetMean areas values fun v => |v|)
    generalize (facetMean areas values fun v => |v|) ^ 2 = p at *
    generalize facetMean areas values (fun v => (|v| - M.num) ^ 2) = V at *
    generalize facetMean areas values (fun v => (|v| - facetMean areas values fun u => |u|) ^ 2) = V' at *
    generalize ((L.root u).num : ℝ) ^ 2 = a at *
    generalize (u.num : ℝ) = b at *
    generalize (1 : ℝ) / 2 ^ 800 = t at *
    generalize (1 : ℝ) / 2 ^ 700 = t' at *
    clear * - hs2 ew hd p0 V0 V0' e700 d800
    rw [abs_le] at *
    norm_num at *
    constructor <;> linarith

end Verif
