import Verif.Model.Coefficients
import Mathlib.Data.Complex.Basic
import Mathlib.Algebra.Order.Floor.Ring
import Mathlib.Algebra.Order.Archimedean.Real.Basic
import Mathlib.Tactic.NormNum
import Mathlib.Tactic.Ring
import Mathlib.Tactic.FieldSimp

/-!
# Element types of coefficient arrays

`ℂ` is the exact model of numpy's complex128 (and, restricted to the real axis or the integers, of float64
and int64 arrays). `ℚ` is used for executable instances. `astype` to a lower dtype drops the imaginary part,
truncates towards zero, or tests for being non-zero, as numpy does (coefficients.py:34).
-/

namespace Verif

/-- Truncation towards zero of a real number (coefficients.py:33-34). -/
noncomputable def truncR (x : ℝ) : ℤ := if 0 ≤ x then ⌊x⌋ else ⌈x⌉

theorem truncR_intCast (n : ℤ) : truncR (n : ℝ) = n := by
  unfold truncR; split_ifs <;> simp

/-- `astype` on complex numbers (coefficients.py:33-34). -/
noncomputable def castC : DType → ℂ → ℂ
  | .bool, z => open Classical in if z = 0 then 0 else 1
  | .int, z => (truncR z.re : ℂ)
  | .real, z => (z.re : ℂ)
  | .cplx, z => z

theorem castC_bool_iff (z : ℂ) : castC .bool z = z ↔ z = 0 ∨ z = 1 := by
  simp only [castC]
  split_ifs with h
  · simp [h]
  · simp [h, eq_comm]

theorem castC_int_iff (z : ℂ) : castC .int z = z ↔ ∃ n : ℤ, z = n := by
  constructor
  · intro h; exact ⟨_, h.symm⟩
  · rintro ⟨n, rfl⟩
    have : ((n : ℂ)).re = (n : ℝ) := Complex.intCast_re n
    simp only [castC, this, truncR_intCast]

theorem castC_real_iff (z : ℂ) : castC .real z = z ↔ ∃ x : ℝ, z = x := by
  constructor
  · intro h; exact ⟨_, h.symm⟩
  · rintro ⟨x, rfl⟩; simp [castC]

theorem castC_cplx (z : ℂ) : castC .cplx z = z := rfl

theorem castC_idem (d : DType) (z : ℂ) : castC d (castC d z) = castC d z := by
  cases d
  · rw [castC_bool_iff]; simp only [castC]; split_ifs <;> simp
  · rw [castC_int_iff]; exact ⟨_, rfl⟩
  · rw [castC_real_iff]; exact ⟨_, rfl⟩
  · rfl

theorem castC_up_bi (z : ℂ) (h : castC .bool z = z) : castC .int z = z := by
  rw [castC_bool_iff] at h; rw [castC_int_iff]
  rcases h with rfl | rfl
  · exact ⟨0, by simp⟩
  · exact ⟨1, by simp⟩

theorem castC_up_ir (z : ℂ) (h : castC .int z = z) : castC .real z = z := by
  rw [castC_int_iff] at h; rw [castC_real_iff]
  obtain ⟨n, rfl⟩ := h
  exact ⟨n, by simp⟩

/-- See coefficients.py:33-34. -/
noncomputable instance : ElemField ℂ where
  cast := castC
  cast_idem := castC_idem
  cast_mono d d' x hr h := by
    cases d <;> cases d' <;> simp only [DType.rank] at hr <;>
      first
        | exact h
        | rfl
        | (exfalso; omega)
        | exact castC_up_bi x h
        | exact castC_up_ir x h
        | exact castC_up_ir x (castC_up_bi x h)
  cast_zero d := by
    cases d
    · rw [castC_bool_iff]; simp
    · rw [castC_int_iff]; exact ⟨0, by simp⟩
    · rw [castC_real_iff]; exact ⟨0, by simp⟩
    · rfl
  cast_one d := by
    cases d
    · rw [castC_bool_iff]; simp
    · rw [castC_int_iff]; exact ⟨1, by simp⟩
    · rw [castC_real_iff]; exact ⟨1, by simp⟩
    · rfl
  cast_add d x y hd hx hy := by
    cases d
    · exact absurd rfl hd
    · rw [castC_int_iff] at *
      obtain ⟨a, rfl⟩ := hx; obtain ⟨b, rfl⟩ := hy
      exact ⟨a + b, by push_cast; ring⟩
    · rw [castC_real_iff] at *
      obtain ⟨a, rfl⟩ := hx; obtain ⟨b, rfl⟩ := hy
      exact ⟨a + b, by push_cast; ring⟩
    · rfl
  cast_mul d x y hx hy := by
    cases d
    · rw [castC_bool_iff] at *
      rcases hx with rfl | rfl <;> rcases hy with rfl | rfl <;> simp
    · rw [castC_int_iff] at *
      obtain ⟨a, rfl⟩ := hx; obtain ⟨b, rfl⟩ := hy
      exact ⟨a * b, by push_cast; ring⟩
    · rw [castC_real_iff] at *
      obtain ⟨a, rfl⟩ := hx; obtain ⟨b, rfl⟩ := hy
      exact ⟨a * b, by push_cast; ring⟩
    · rfl
  cast_neg d x hd hx := by
    cases d
    · exact absurd rfl hd
    · rw [castC_int_iff] at *
      obtain ⟨a, rfl⟩ := hx
      exact ⟨-a, by push_cast; ring⟩
    · rw [castC_real_iff] at *
      obtain ⟨a, rfl⟩ := hx
      exact ⟨-a, by push_cast; ring⟩
    · rfl
  cast_inv d x hd hx := by
    rcases hd with rfl | rfl
    · rw [castC_real_iff] at *
      obtain ⟨a, rfl⟩ := hx
      exact ⟨a⁻¹, by push_cast; ring⟩
    · rfl

@[simp] theorem cast_cplx_complex (z : ℂ) : Elem.cast DType.cplx z = z := rfl

theorem cast_real_complex (x : ℝ) : Elem.cast DType.real (x : ℂ) = x :=
  (castC_real_iff _).2 ⟨x, rfl⟩

/-- `astype` on rational numbers (executable) (coefficients.py:33-34). -/
def castQ : DType → ℚ → ℚ
  | .bool, z => if z = 0 then 0 else 1
  | .int, z => (z.num.tdiv z.den : ℤ)
  | _, z => z

theorem castQ_bool_iff (z : ℚ) : castQ .bool z = z ↔ z = 0 ∨ z = 1 := by
  simp only [castQ]
  split_ifs with h
  · simp [h]
  · simp [h, eq_comm]

theorem castQ_int_iff (z : ℚ) : castQ .int z = z ↔ ∃ n : ℤ, z = n := by
  constructor
  · intro h; exact ⟨_, h.symm⟩
  · rintro ⟨n, rfl⟩; simp [castQ]

/-- See coefficients.py:33-34. -/
instance : ElemField ℚ where
  cast := castQ
  cast_idem d z := by
    cases d
    · rw [castQ_bool_iff]; simp only [castQ]; split_ifs <;> simp
    · rw [castQ_int_iff]; exact ⟨_, rfl⟩
    · rfl
    · rfl
  cast_mono d d' x hr h := by
    have hbi : castQ .bool x = x → castQ .int x = x := by
      intro h
      rw [castQ_bool_iff] at h; rw [castQ_int_iff]
      rcases h with rfl | rfl
      · exact ⟨0, by simp⟩
      · exact ⟨1, by simp⟩
    cases d <;> cases d' <;> simp only [DType.rank] at hr <;>
      first
        | exact h
        | rfl
        | (exfalso; omega)
        | exact hbi h
  cast_zero d := by
    cases d
    · rw [castQ_bool_iff]; simp
    · rw [castQ_int_iff]; exact ⟨0, by simp⟩
    · rfl
    · rfl
  cast_one d := by
    cases d
    · rw [castQ_bool_iff]; simp
    · rw [castQ_int_iff]; exact ⟨1, by simp⟩
    · rfl
    · rfl
  cast_add d x y hd hx hy := by
    cases d
    · exact absurd rfl hd
    · rw [castQ_int_iff] at *
      obtain ⟨a, rfl⟩ := hx; obtain ⟨b, rfl⟩ := hy
      exact ⟨a + b, by push_cast; ring⟩
    · rfl
    · rfl
  cast_mul d x y hx hy := by
    cases d
    · rw [castQ_bool_iff] at *
      rcases hx with rfl | rfl <;> rcases hy with rfl | rfl <;> simp
    · rw [castQ_int_iff] at *
      obtain ⟨a, rfl⟩ := hx; obtain ⟨b, rfl⟩ := hy
      exact ⟨a * b, by push_cast; ring⟩
    · rfl
    · rfl
  cast_neg d x hd hx := by
    cases d
    · exact absurd rfl hd
    · rw [castQ_int_iff] at *
      obtain ⟨a, rfl⟩ := hx
      exact ⟨-a, by push_cast; ring⟩
    · rfl
    · rfl
  cast_inv d x hd _ := by
    rcases hd with rfl | rfl <;> rfl

end Verif
