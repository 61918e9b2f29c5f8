import Verif.Lemmas.Parseval
import Verif.Lemmas.Zdi
import Verif.Spec.Fields

/-!
# Sums of harmonics that vanish everywhere
-/

namespace Verif
namespace Identify
open Spec Zdi Legendre Parseval intervalIntegral

/-- A sum of harmonics over a finite set of (degree, order) pairs. -/
noncomputable def K (S : Finset (ℤ × ℤ)) (x : ℤ × ℤ → ℂ) (p : ℕ → ℕ → ℝ → ℝ) (θ φ : ℝ) : ℂ :=
  ∑ k ∈ S, x k * (p k.1.toNat k.2.toNat θ : ℝ) * expi k.2 φ

theorem K_congr {S : Finset (ℤ × ℤ)} {x y : ℤ × ℤ → ℂ} (h : ∀ k ∈ S, x k = y k) (p : ℕ → ℕ → ℝ → ℝ) (θ φ : ℝ) :
    K S x p θ φ = K S y p θ φ := Finset.sum_congr rfl fun k hk => by rw [h k hk]

theorem K_sub (S : Finset (ℤ × ℤ)) (x y : ℤ × ℤ → ℂ) (p : ℕ → ℕ → ℝ → ℝ) (θ φ : ℝ) :
    K S (fun k => x k - y k) p θ φ = K S x p θ φ - K S y p θ φ := by
  simp only [K, ← Finset.sum_sub_distrib]
  exact Finset.sum_congr rfl fun k _ => by ring

theorem K_re_Hs {S : Finset (ℤ × ℤ)} (hS : ∀ k ∈ S, 0 ≤ k.2) (x : ℤ × ℤ → ℂ) (p : ℕ → ℕ → ℝ → ℝ) (θ φ : ℝ) :
    (K S x p θ φ).re = Hs (fun k : S => k.1.2.toNat) (fun k => x k.1 * p k.1.1.toNat k.1.2.toNat θ) φ := by
  rw [K, Hs, ← Finset.sum_coe_sort]
  congr 1
  refine Finset.sum_congr rfl fun k _ => ?_
  rw [Int.toNat_of_nonneg (hS _ k.2)]

/-- The part of a coefficient that shows: the real part, and the imaginary part for non-zero orders. -/
def Dark (m : ℤ) (x : ℂ) : Prop := x.re = 0 ∧ (m = 0 ∨ x.im = 0)

theorem A_nonneg (m : ℤ) (x : ℂ) : 0 ≤ A m x x := by
  have hp := Real.pi_pos
  rw [A]
  simp only [Complex.mul_re, Complex.conj_re, Complex.conj_im]
  split_ifs
  · have : x.re * x.re - x.im * -x.im + (x.re * x.re - x.im * x.im) = 2 * x.re ^ 2 := by ring
    rw [this]; positivity
  · have : x.re * x.re - x.im * -x.im + 0 = x.re ^ 2 + x.im ^ 2 := by ring
    rw [this]; positivity

theorem A_eq_zero {m : ℤ} {x : ℂ} : A m x x = 0 ↔ Dark m x := by
  have hp := Real.pi_pos
  rw [A, Dark]
  simp only [Complex.mul_re, Complex.conj_re, Complex.conj_im, mul_eq_zero, hp.ne', false_or]
  by_cases hm : m = 0
  · simp only [hm, if_true, true_or, and_true]
    have : x.re * x.re - x.im * -x.im + (x.re * x.re - x.im * x.im) = 2 * x.re ^ 2 := by ring
    rw [this]
    simp
  · simp only [hm, if_false, false_or]
    have : x.re * x.re - x.im * -x.im + 0 = x.re ^ 2 + x.im ^ 2 := by ring
    rw [this]
    constructor
    · intro h
      have h1 := sq_nonneg x.re
      have h2 := sq_nonneg x.im
      exact ⟨by nlinarith, by nlinarith⟩
    · rintro ⟨h1, h2⟩
      rw [h1, h2]; norm_num

theorem Dark.mul_real {m : ℤ} {x : ℂ} (h : Dark m x) (a : ℝ) : Dark m (x * a) := by
  refine ⟨by simp [h.1], h.2.imp id fun h2 => by simp [h2]⟩

theorem dark_mul_iff {m : ℤ} {x : ℂ} {a : ℝ} (ha : a ≠ 0) : Dark m (x * a) ↔ Dark m x := by
  refine ⟨fun h => ?_, fun h => h.mul_real a⟩
  have := h.mul_real a⁻¹
  have e : x * (a : ℂ) * ((a⁻¹ : ℝ) : ℂ) = x := by
    have : (a : ℂ) ≠ 0 := by exact_mod_cast ha
    push_cast
    field_simp
  rwa [e] at this

theorem Dark.term {m : ℤ} {x : ℂ} (h : Dark m x) (p φ : ℝ) : (x * (p : ℂ) * expi m φ).re = 0 := by
  rcases h.2 with hm | hi
  · have : expi m φ = 1 := by simp [expi, hm]
    rw [this]
    simp [h.1]
  · have : x = 0 := Complex.ext h.1 hi
    simp [this]

theorem Dark.term_I {m : ℤ} {x : ℂ} (h : Dark m x) (p φ : ℝ) : (Complex.I * m * x * (p : ℂ) * expi m φ).re = 0 := by
  rcases h.2 with hm | hi
  · simp [hm]
  · have : x = 0 := Complex.ext h.1 hi
    simp [this]

theorem inj_pairs {S : Finset (ℤ × ℤ)} (hS : ∀ k ∈ S, 0 ≤ k.2 ∧ k.2 ≤ k.1) (i j : S)
    (e1 : i.1.2.toNat = j.1.2.toNat) (e2 : i.1.1.toNat = j.1.1.toNat) : i = j := by
  have h1 := hS _ i.2
  have h2 := hS _ j.2
  exact Subtype.ext (Prod.ext (by omega) (by omega))

theorem N_pos (l m : ℕ) : 0 < N l m := by unfold N; positivity

/-- The integral over the sphere of the square of a sum of harmonics. -/
theorem K_sq {S : Finset (ℤ × ℤ)} (hS : ∀ k ∈ S, 0 ≤ k.2 ∧ k.2 ≤ k.1) (x : ℤ × ℤ → ℂ) :
    ∫ θ in (0 : ℝ)..Real.pi, (∫ φ in (0 : ℝ)..2 * Real.pi, (K S x thP θ φ).re ^ 2) * Real.sin θ
      = ∑ k ∈ S, A k.2 (x k) (x k) * N k.1.toNat k.2.toNat := by
  have e := radial_int (fun k : S => k.1.2.toNat) (fun k : S => k.1.1.toNat) (inj_pairs hS)
    (fun k => by have := hS _ k.2; omega) (fun k => x k.1)
  have e1 : (∑ i : S, A ((i.1.2.toNat : ℕ) : ℤ) (x i.1) (x i.1) * N i.1.1.toNat i.1.2.toNat)
      = ∑ k ∈ S, A k.2 (x k) (x k) * N k.1.toNat k.2.toNat := by
    rw [← Finset.sum_coe_sort S]
    exact Finset.sum_congr rfl fun k _ => by rw [Int.toNat_of_nonneg (hS _ k.2).1]
  rw [← e1, ← e]
  congr 1
  ext θ
  congr 2
  ext φ
  rw [K_re_Hs fun k hk => (hS k hk).1, pow_two]

theorem radial_null {S : Finset (ℤ × ℤ)} (hS : ∀ k ∈ S, 0 ≤ k.2 ∧ k.2 ≤ k.1) (x : ℤ × ℤ → ℂ) :
    (∀ θ φ, OffAxis θ → (K S x thP θ φ).re = 0) ↔ ∀ k ∈ S, Dark k.2 (x k) := by
  constructor
  · intro h k hk
    have e := K_sq hS x
    have e0 : ∫ θ in (0 : ℝ)..Real.pi, (∫ φ in (0 : ℝ)..2 * Real.pi, (K S x thP θ φ).re ^ 2) * Real.sin θ
        = ∫ θ in (0 : ℝ)..Real.pi, (0 : ℝ) := by
      refine integral_congr_Ioo_of_le Real.pi_pos.le fun θ hθ => ?_
      simp [h θ _ hθ]
    rw [e0, integral_zero, eq_comm, Finset.sum_eq_zero_iff_of_nonneg
      (fun k _ => mul_nonneg (A_nonneg _ _) (N_pos _ _).le)] at e
    have := e k hk
    rw [mul_eq_zero, or_iff_left (N_pos _ _).ne'] at this
    exact A_eq_zero.1 this
  · intro h θ φ _
    rw [K, Complex.re_sum]
    exact Finset.sum_eq_zero fun k hk => (h k hk).term _ _

theorem thD_zero (θ : ℝ) : thD 0 0 θ = 0 := by simp [thD, rod, rodBase]

theorem tangential_null {S : Finset (ℤ × ℤ)} (hS : ∀ k ∈ S, 0 ≤ k.2 ∧ k.2 ≤ k.1) (u v : ℤ × ℤ → ℂ) :
    (∀ θ φ, OffAxis θ →
      -(K S u thD θ φ).re + (K S (fun k => Complex.I * k.2 * v k) thP θ φ).re / Real.sin θ = 0 ∧
      -((K S (fun k => Complex.I * k.2 * u k) thP θ φ).re / Real.sin θ) + -(K S v thD θ φ).re = 0) ↔
    ∀ k ∈ S, k.1 ≠ 0 → Dark k.2 (u k) ∧ Dark k.2 (v k) := by
  constructor
  · intro h k hk hk0
    have h0 : ∀ k ∈ S, 0 ≤ k.2 := fun k hk => (hS k hk).1
    have e := tangential_int (fun k : S => k.1.2.toNat) (fun k : S => k.1.1.toNat) (inj_pairs hS)
      (fun k => by have := hS _ k.2; omega) (fun k => u k.1) (fun k => v k.1)
    rw [← integral_congr_Ioo_of_le (f := fun _ => (0 : ℝ)) Real.pi_pos.le (fun θ hθ => ?_), integral_zero, eq_comm,
      Finset.sum_eq_zero_iff_of_nonneg fun k _ => mul_nonneg (add_nonneg (A_nonneg _ _) (A_nonneg _ _)) (mul_nonneg (by positivity)
        (N_pos _ _).le)] at e
    · have h1 := e ⟨k, hk⟩ (Finset.mem_univ _)
      have hb := hS k hk
      have hl : ((k.1.toNat : ℕ) : ℝ) ≠ 0 := by
        have : k.1.toNat ≠ 0 := by omega
        exact_mod_cast this
      have hl1 : ((k.1.toNat : ℕ) : ℝ) + 1 ≠ 0 := by positivity
      dsimp only at h1
      rw [Int.toNat_of_nonneg hb.1, mul_eq_zero, or_iff_left (mul_ne_zero (mul_ne_zero hl hl1) (N_pos _ _).ne')] at h1
      have n1 := A_nonneg k.2 (u k)
      have n2 := A_nonneg k.2 (v k)
      exact ⟨A_eq_zero.1 (by linarith), A_eq_zero.1 (by linarith)⟩
    · have hs := Real.sin_pos_of_pos_of_lt_pi hθ.1 hθ.2
      dsimp only
      rw [← tangential_phi (fun k : S => k.1.2.toNat) (fun k : S => k.1.1.toNat) (fun k => u k.1) (fun k => v k.1) hs]
      rw [eq_comm, mul_eq_zero]
      left
      refine Eq.trans (integral_congr (g := fun _ => (0 : ℝ)) fun φ _ => ?_) integral_zero
      obtain ⟨e1, e2⟩ := h θ φ hθ
      rw [K_re_Hs h0, K_re_Hs h0] at e1 e2
      have hc : ∀ k : S, ((k.1.2.toNat : ℕ) : ℤ) = k.1.2 := fun k => Int.toNat_of_nonneg (h0 _ k.2)
      dsimp only
      simp only [hc]
      rw [e1, e2]
      norm_num
  · intro h θ φ _
    have main : ∀ (w : ℤ × ℤ → ℂ), (∀ k ∈ S, k.1 ≠ 0 → Dark k.2 (w k)) →
        (K S w thD θ φ).re = 0 ∧ (K S (fun k => Complex.I * k.2 * w k) thP θ φ).re = 0 := by
      intro w hw
      rw [K, K, Complex.re_sum, Complex.re_sum]
      constructor
      · refine Finset.sum_eq_zero fun k hk => ?_
        by_cases hk0 : k.1 = 0
        · have hb := hS k hk
          have e1 : k.1.toNat = 0 := by omega
          have e2 : k.2.toNat = 0 := by omega
          rw [e1, e2, thD_zero]
          simp
        · exact (hw k hk hk0).term _ _
      · refine Finset.sum_eq_zero fun k hk => ?_
        by_cases hk0 : k.1 = 0
        · have hb := hS k hk
          have e2 : k.2 = 0 := by omega
          rw [e2]
          simp
        · exact (hw k hk hk0).term_I _ _
    obtain ⟨a1, a2⟩ := main u fun k hk hk0 => (h k hk hk0).1
    obtain ⟨b1, b2⟩ := main v fun k hk hk0 => (h k hk hk0).2
    rw [a1, a2, b1, b2]
    simp

end Identify
end Verif
