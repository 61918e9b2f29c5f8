import Verif.Model.Wigner
import Verif.Lemmas.Legendre
import Mathlib.Algebra.Polynomial.Coeff
import Mathlib.Data.Nat.Choose.Cast
import Mathlib.Algebra.Polynomial.Degree.Lemmas

/-!
# Substitution of binary forms: the algebra behind the Wigner matrices
-/

namespace Verif
namespace Wigner
open Polynomial

/-- The form `(a t + b)^p (c t + d)^q`. -/
noncomputable def form (a b c d : ℂ) (p q : ℕ) : ℂ[X] := (C a * X + C b) ^ p * (C c * X + C d) ^ q

theorem lin_degree (a b : ℂ) : (C a * X + C b).natDegree ≤ 1 := natDegree_linear_le

theorem linPow_coeff (a b : ℂ) (p i : ℕ) : ((C a * X + C b) ^ p).coeff i = (p.choose i : ℂ) * a ^ i * b ^ (p - i) := by
  rw [add_pow, finset_sum_coeff]
  have e : ∀ j ∈ Finset.range (p + 1), ((C a * X) ^ j * C b ^ (p - j) * (p.choose j : ℂ[X])).coeff i
      = if i = j then (p.choose i : ℂ) * a ^ i * b ^ (p - i) else 0 := by
    intro j _
    rw [mul_pow, ← C_pow, ← C_pow, ← C_eq_natCast,
      show C (a ^ j) * X ^ j * C (b ^ (p - j)) * C (p.choose j : ℂ) = C (a ^ j * b ^ (p - j) * (p.choose j : ℂ)) * X ^ j by
        rw [C_mul, C_mul]; ring, coeff_C_mul, coeff_X_pow]
    split_ifs with h
    · subst h; ring
    · ring
  rw [Finset.sum_congr rfl e, Finset.sum_ite_eq]
  split_ifs with h
  · rfl
  · rw [Nat.choose_eq_zero_of_lt (by simpa using h)]; simp

theorem form_coeff (a b c d : ℂ) (p q k : ℕ) : (form a b c d p q).coeff k
    = ∑ i ∈ Finset.range (k + 1), (p.choose i : ℂ) * a ^ i * b ^ (p - i) * ((q.choose (k - i) : ℂ) * c ^ (k - i) * d ^ (q - (k - i))) := by
  rw [form, coeff_mul, Finset.Nat.sum_antidiagonal_eq_sum_range_succ_mk]
  simp only [linPow_coeff]

/-- The homogenised form. -/
noncomputable def hom (n : ℕ) (P : ℂ[X]) (x y : ℂ[X]) : ℂ[X] :=
  ∑ k ∈ Finset.range (n + 1), C (P.coeff k) * x ^ k * y ^ (n - k)

theorem hom_lin (a b : ℂ) (n : ℕ) (P x y : ℂ[X]) (h : P.natDegree ≤ n) :
    hom (n + 1) ((C a * X + C b) * P) x y = (C a * x + C b * y) * hom n P x y := by
  have hP : P.coeff (n + 1) = 0 := coeff_eq_zero_of_natDegree_lt (by omega)
  have e : ∀ k, ((C a * X + C b) * P).coeff k = (if k = 0 then 0 else a * P.coeff (k - 1)) + b * P.coeff k := by
    intro k
    rw [add_mul, coeff_add, coeff_C_mul, mul_assoc, coeff_C_mul]
    cases k with
    | zero => simp
    | succ k => rw [mul_comm X P, coeff_mul_X]; simp
  simp only [hom, e]
  simp only [C_add, add_mul, Finset.sum_add_distrib]
  refine congrArg₂ (fun u v : ℂ[X] => u + v) ?_ ?_
  · rw [Finset.sum_range_succ', Finset.mul_sum, if_pos rfl, C_0, zero_mul, zero_mul, add_zero]
    refine Finset.sum_congr rfl fun k hk => ?_
    rw [if_neg (Nat.succ_ne_zero k), Nat.add_sub_cancel]
    rw [show n + 1 - (k + 1) = n - k by omega, C_mul]
    ring
  · rw [Finset.sum_range_succ, hP, mul_zero, C_0, zero_mul, zero_mul, add_zero, Finset.mul_sum]
    refine Finset.sum_congr rfl fun k hk => ?_
    rw [Finset.mem_range] at hk
    rw [show n + 1 - k = (n - k) + 1 by omega, C_mul]
    ring

theorem form_degree (a b c d : ℂ) (p q : ℕ) : (form a b c d p q).natDegree ≤ p + q := by
  refine natDegree_mul_le.trans (add_le_add ?_ ?_)
  · exact (natDegree_pow_le).trans (by nlinarith [lin_degree a b])
  · exact (natDegree_pow_le).trans (by nlinarith [lin_degree c d])

theorem hom_form (a b c d : ℂ) (p q : ℕ) (x y : ℂ[X]) :
    hom (p + q) (form a b c d p q) x y = (C a * x + C b * y) ^ p * (C c * x + C d * y) ^ q := by
  induction p with
  | zero =>
    simp only [zero_add, pow_zero, one_mul]
    induction q with
    | zero => simp [hom, form]
    | succ q ih =>
      have e : form a b c d 0 (q + 1) = (C c * X + C d) * form a b c d 0 q := by simp only [form]; ring
      rw [e, hom_lin c d q _ x y ((form_degree a b c d 0 q).trans (by omega)), ih]
      ring
  | succ p ih =>
    have e : form a b c d (p + 1) q = (C a * X + C b) * form a b c d p q := by simp only [form]; ring
    rw [e, show p + 1 + q = (p + q) + 1 by omega, hom_lin a b _ _ x y (form_degree a b c d p q), ih]
    ring

/-- Substituting twice. -/
theorem form_mul (a b c d a' b' c' d' : ℂ) (p q k : ℕ) :
    (form (a * a' + b * c') (a * b' + b * d') (c * a' + d * c') (c * b' + d * d') p q).coeff k
      = ∑ j ∈ Finset.range (p + q + 1), (form a b c d p q).coeff j * (form a' b' c' d' j (p + q - j)).coeff k := by
  have h := hom_form a b c d p q (C a' * X + C b') (C c' * X + C d')
  have e : form (a * a' + b * c') (a * b' + b * d') (c * a' + d * c') (c * b' + d * d') p q
      = (C a * (C a' * X + C b') + C b * (C c' * X + C d')) ^ p * (C c * (C a' * X + C b') + C d * (C c' * X + C d')) ^ q := by
    simp only [form, C_add, C_mul]
    ring
  rw [e, ← h, hom, finset_sum_coeff]
  refine Finset.sum_congr rfl fun j _ => ?_
  rw [mul_assoc, coeff_C_mul, form, form]

/-- The symmetry between rows and columns. -/
theorem form_transpose (a b c d : ℂ) {p q k n : ℕ} (hn : p + q = n) (hk : k ≤ n) :
    (form a b c d p q).coeff k * ((k.factorial * (n - k).factorial : ℕ) : ℂ)
      = (form a c b d k (n - k)).coeff p * ((p.factorial * q.factorial : ℕ) : ℂ) := by
  have key : ∀ a b c d : ℂ, ∀ p q k : ℕ, p + q = n → k ≤ n → (form a b c d p q).coeff k * ((k.factorial * (n - k).factorial : ℕ) : ℂ)
      = ∑ i ∈ Finset.range (n + 1), if i ≤ p ∧ i ≤ k ∧ k - i ≤ q then
          a ^ i * b ^ (p - i) * c ^ (k - i) * d ^ (q - (k - i)) * (p.factorial * q.factorial * k.factorial * (n - k).factorial : ℕ)
            / (i.factorial * (p - i).factorial * (k - i).factorial * (q - (k - i)).factorial : ℕ) else 0 := by
    intro a b c d p q k hn hk
    rw [form_coeff, Finset.sum_mul]
    have hsub : Finset.range (k + 1) ⊆ Finset.range (n + 1) := Finset.range_mono (by omega)
    rw [← Finset.sum_subset hsub]
    · refine Finset.sum_congr rfl fun i hi => ?_
      rw [Finset.mem_range] at hi
      split_ifs with h
      · rw [Nat.cast_choose ℂ h.1, Nat.cast_choose ℂ h.2.2]
        push_cast
        have f1 : ((i.factorial : ℕ) : ℂ) ≠ 0 := by exact_mod_cast i.factorial_ne_zero
        have f2 : (((p - i).factorial : ℕ) : ℂ) ≠ 0 := by exact_mod_cast (p - i).factorial_ne_zero
        have f3 : (((k - i).factorial : ℕ) : ℂ) ≠ 0 := by exact_mod_cast (k - i).factorial_ne_zero
        have f4 : (((q - (k - i)).factorial : ℕ) : ℂ) ≠ 0 := by exact_mod_cast (q - (k - i)).factorial_ne_zero
        field_simp
      · have h' : p < i ∨ q < k - i := by omega
        rcases h' with h' | h'
        · rw [Nat.choose_eq_zero_of_lt h']; simp
        · rw [Nat.choose_eq_zero_of_lt h']; simp
    · intro i _ hi
      rw [Finset.mem_range] at hi
      rw [if_neg (by omega)]
  rw [key a b c d p q k hn hk]
  have := key a c b d k (n - k) p (by omega) (by omega)
  rw [show n - p = q by omega] at this
  rw [this]
  refine Finset.sum_congr rfl fun i _ => ?_
  by_cases h : i ≤ p ∧ i ≤ k ∧ k - i ≤ q
  · rw [if_pos h, if_pos (by omega), show n - k - (p - i) = q - (k - i) by omega,
      show i.factorial * (p - i).factorial * (k - i).factorial * (q - (k - i)).factorial
        = i.factorial * (k - i).factorial * (p - i).factorial * (q - (k - i)).factorial by ring,
      show p.factorial * q.factorial * k.factorial * (n - k).factorial
        = k.factorial * (n - k).factorial * p.factorial * q.factorial by ring]
    congr 2
    ring
  · rw [if_neg h, if_neg (by omega)]

/-- The matrix elements, with the orders counted from below. -/
noncomputable def E (n p k : ℕ) (a b c d : ℂ) : ℂ :=
  (Real.sqrt ((k.factorial * (n - k).factorial : ℝ) / (p.factorial * (n - p).factorial)) : ℂ)
    * (form a b c d p (n - p)).coeff k

theorem fac_pos (n k : ℕ) : (0 : ℝ) < k.factorial * (n - k).factorial := by positivity

theorem ratio_mul (n p j k : ℕ) :
    Real.sqrt ((k.factorial * (n - k).factorial : ℝ) / (p.factorial * (n - p).factorial))
      = Real.sqrt ((j.factorial * (n - j).factorial : ℝ) / (p.factorial * (n - p).factorial))
        * Real.sqrt ((k.factorial * (n - k).factorial : ℝ) / (j.factorial * (n - j).factorial)) := by
  have h1 := fac_pos n p
  have h2 := fac_pos n j
  have h3 := fac_pos n k
  rw [← Real.sqrt_mul (by positivity)]
  congr 1
  field_simp

theorem E_mul {n p : ℕ} (hp : p ≤ n) (k : ℕ) (a b c d a' b' c' d' : ℂ) :
    E n p k (a * a' + b * c') (a * b' + b * d') (c * a' + d * c') (c * b' + d * d')
      = ∑ j ∈ Finset.range (n + 1), E n p j a b c d * E n j k a' b' c' d' := by
  have e : p + (n - p) = n := by omega
  rw [E, form_mul, e, Finset.mul_sum]
  refine Finset.sum_congr rfl fun j _ => ?_
  rw [E, E, ratio_mul n p j k]
  push_cast
  ring

theorem E_one {n p k : ℕ} : E n p k 1 0 0 1 = if p = k then 1 else 0 := by
  have e : form 1 0 0 1 p (n - p) = X ^ p := by simp [form]
  rw [E, e, coeff_X_pow]
  by_cases h : p = k
  · subst h
    rw [if_pos rfl, div_self (fac_pos n p).ne']; simp
  · rw [if_neg (fun h' => h h'.symm), if_neg h, mul_zero]

theorem E_diag {n p k : ℕ} (a d : ℂ) : E n p k a 0 0 d = if p = k then a ^ p * d ^ (n - p) else 0 := by
  have e : form a 0 0 d p (n - p) = C (a ^ p * d ^ (n - p)) * X ^ p := by
    simp only [form, C_0, zero_mul, add_zero, zero_add, mul_pow, C_mul, C_pow]; ring
  rw [E, e, coeff_C_mul, coeff_X_pow]
  by_cases h : p = k
  · subst h
    rw [if_pos rfl, if_pos rfl, div_self (fac_pos n p).ne']; simp
  · rw [if_neg (fun h' => h h'.symm), if_neg h, mul_zero, mul_zero]

theorem E_conj (n p k : ℕ) (a b c d : ℂ) : (starRingEnd ℂ) (E n p k a b c d)
    = E n p k ((starRingEnd ℂ) a) ((starRingEnd ℂ) b) ((starRingEnd ℂ) c) ((starRingEnd ℂ) d) := by
  rw [E, E, map_mul, Complex.conj_ofReal, form_coeff, form_coeff, map_sum]
  simp only [map_mul, map_pow, map_natCast]

theorem E_transpose {n p k : ℕ} (hp : p ≤ n) (hk : k ≤ n) (a b c d : ℂ) : E n p k a b c d = E n k p a c b d := by
  have h := form_transpose a b c d (p := p) (q := n - p) (k := k) (n := n) (by omega) hk
  set A : ℝ := (k.factorial * (n - k).factorial : ℝ) with hA
  set B : ℝ := (p.factorial * (n - p).factorial : ℝ) with hB
  have hA0 : 0 < A := fac_pos n k
  have hB0 : 0 < B := fac_pos n p
  have h' : (form a b c d p (n - p)).coeff k * (A : ℂ) = (form a c b d k (n - k)).coeff p * (B : ℂ) := by
    rw [hA, hB]; push_cast at h ⊢; exact h
  rw [E, E, ← hA, ← hB]
  have e1 : (form a b c d p (n - p)).coeff k = (form a c b d k (n - k)).coeff p * ((B / A : ℝ) : ℂ) := by
    have : (A : ℂ) ≠ 0 := by exact_mod_cast hA0.ne'
    push_cast
    rw [mul_div_assoc', ← h']
    field_simp
  rw [e1]
  have e2 : Real.sqrt (A / B) * (B / A) = Real.sqrt (B / A) := by
    have h3 : 0 < A / B := by positivity
    rw [← inv_div A B, Real.sqrt_inv]
    have h4 := Real.mul_self_sqrt h3.le
    have h5 : Real.sqrt (A / B) ≠ 0 := (Real.sqrt_pos.2 h3).ne'
    nth_rw 2 [← h4]
    field_simp
  rw [← e2]
  push_cast
  ring

theorem E_unitary {n p p' : ℕ} (hp : p ≤ n) (hp' : p' ≤ n) {a b c d : ℂ}
    (h1 : a * (starRingEnd ℂ) a + b * (starRingEnd ℂ) b = 1) (h2 : a * (starRingEnd ℂ) c + b * (starRingEnd ℂ) d = 0)
    (h3 : c * (starRingEnd ℂ) a + d * (starRingEnd ℂ) b = 0) (h4 : c * (starRingEnd ℂ) c + d * (starRingEnd ℂ) d = 1) :
    ∑ j ∈ Finset.range (n + 1), E n p j a b c d * (starRingEnd ℂ) (E n p' j a b c d) = if p = p' then 1 else 0 := by
  rw [← E_one (n := n), ← h1, ← h2]
  have := E_mul hp p' a b c d ((starRingEnd ℂ) a) ((starRingEnd ℂ) c) ((starRingEnd ℂ) b) ((starRingEnd ℂ) d)
  rw [h3, h4, h1, h2] at this
  rw [h1, h2, this]
  refine Finset.sum_congr rfl fun j hj => ?_
  rw [E_conj, E_transpose hp' (by rw [Finset.mem_range] at hj; omega)]

theorem ratio_symm (n q : ℕ) (hq : q ≤ n) :
    Real.sqrt ((((n - q).factorial : ℝ) * (n - (n - q)).factorial) / (q.factorial * (n - q).factorial)) = 1 := by
  rw [show n - (n - q) = q by omega, mul_comm ((n - q).factorial : ℝ), div_self (fac_pos n q).ne', Real.sqrt_one]

theorem E_J {n p k : ℕ} (hp : p ≤ n) : E n p k 0 1 (-1) 0 = if k = n - p then (-1) ^ (n - p) else 0 := by
  have e : form 0 1 (-1) 0 p (n - p) = C ((-1) ^ (n - p)) * X ^ (n - p) := by
    simp only [form, C_0, zero_mul, C_1, zero_add, one_pow, one_mul, C_neg, neg_mul, add_zero, C_pow]
    exact neg_pow X _
  rw [E, e, coeff_C_mul, coeff_X_pow]
  split_ifs with h
  · subst h
    rw [ratio_symm n p hp]; simp
  · simp

theorem E_J' {n p k : ℕ} (hp : p ≤ n) : E n p k 0 (-1) 1 0 = if k = n - p then (-1) ^ p else 0 := by
  have e : form 0 (-1) 1 0 p (n - p) = C ((-1) ^ p) * X ^ (n - p) := by simp [form]
  rw [E, e, coeff_C_mul, coeff_X_pow]
  split_ifs with h
  · subst h
    rw [ratio_symm n p hp]; simp
  · simp

theorem E_reverse {n p k : ℕ} (hp : p ≤ n) (hk : k ≤ n) (a b c d : ℂ) :
    E n p k d (-c) (-b) a = (-1) ^ (n - p) * (-1) ^ (n - k) * E n (n - p) (n - k) a b c d := by
  have h1 := E_mul hp k (0 * a + 1 * c) (0 * b + 1 * d) (-1 * a + 0 * c) (-1 * b + 0 * d) 0 (-1) 1 0
  have e : ∀ j ∈ Finset.range (n + 1), E n p j (0 * a + 1 * c) (0 * b + 1 * d) (-1 * a + 0 * c) (-1 * b + 0 * d)
      = (-1) ^ (n - p) * E n (n - p) j a b c d := by
    intro j _
    rw [E_mul hp j 0 1 (-1) 0 a b c d, Finset.sum_eq_single (n - p)]
    · rw [E_J hp, if_pos rfl]
    · intro i _ hi; rw [E_J hp, if_neg hi, zero_mul]
    · intro h; exact absurd (Finset.mem_range.2 (by omega)) h
  rw [Finset.sum_congr rfl fun j hj => by rw [e j hj], Finset.sum_eq_single (n - k)] at h1
  · rw [E_J' (by omega), if_pos (by omega)] at h1
    have e2 : E n p k d (-c) (-b) a = E n p k ((0 * a + 1 * c) * 0 + (0 * b + 1 * d) * 1)
        ((0 * a + 1 * c) * -1 + (0 * b + 1 * d) * 0) ((-1 * a + 0 * c) * 0 + (-1 * b + 0 * d) * 1)
        ((-1 * a + 0 * c) * -1 + (-1 * b + 0 * d) * 0) := by
      congr 1 <;> ring
    rw [e2, h1]
    ring
  · intro j hj hjk
    rw [Finset.mem_range] at hj
    rw [E_J' (by omega), if_neg (by omega), mul_zero]
  · intro h; exact absurd (Finset.mem_range.2 (by omega)) h

/-! ## Legendre functions -/

open Spec in
theorem rod_sum (l m : ℕ) (hm : m ≤ l) (x : ℝ) :
    ((l - m).factorial : ℝ) * (rod l (l + m)).eval x = (l.factorial : ℝ) ^ 2 * ∑ i ∈ Finset.range (l + 1),
      ((l + m).choose i : ℝ) * ((l - m).choose (l - i) : ℝ) * (x + 1) ^ (i - m) * (x - 1) ^ (l - i) := by
  have e : rodBase l = (X + C 1) ^ l * (X - C 1) ^ l := by
    rw [rodBase, ← mul_pow]; congr 1; simp; ring
  rw [rod, e, iterate_derivative_mul, eval_finset_sum, Finset.mul_sum, Finset.mul_sum]
  have hsub : Finset.range (l + 1) ⊆ Finset.range (l + m).succ := Finset.range_mono (by omega)
  rw [← Finset.sum_subset hsub]
  · refine Finset.sum_congr rfl fun i hi => ?_
    rw [Finset.mem_range] at hi
    rw [iterate_derivative_X_add_pow, iterate_derivative_X_sub_pow]
    simp only [eval_natCast, eval_mul, eval_pow, eval_add, eval_sub, eval_X, eval_C, nsmul_eq_mul]
    by_cases h : m ≤ i
    · rw [show l - (l + m - i) = i - m by omega]
      have d1 : ((l.descFactorial (l + m - i) : ℕ) : ℝ) = l.factorial / (i - m).factorial := by
        have := Nat.factorial_mul_descFactorial (n := l) (k := l + m - i) (by omega)
        rw [show l - (l + m - i) = i - m by omega] at this
        rw [eq_div_iff (by positivity), ← this]
        push_cast; ring
      have d2 : ((l.descFactorial i : ℕ) : ℝ) = l.factorial / (l - i).factorial := by
        have := Nat.factorial_mul_descFactorial (n := l) (k := i) (by omega)
        rw [eq_div_iff (by positivity), ← this]
        push_cast; ring
      rw [d1, d2, Nat.cast_choose ℝ (show l - i ≤ l - m by omega), show l - m - (l - i) = i - m by omega]
      field_simp
    · rw [Nat.choose_eq_zero_of_lt (show l - m < l - i by omega),
        Nat.descFactorial_eq_zero_iff_lt.2 (show l < l + m - i by omega)]
      simp
  · intro i _ hi
    rw [Finset.mem_range] at hi
    rw [iterate_derivative_X_sub_pow, Nat.descFactorial_eq_zero_iff_lt.2 (show l < i by omega)]
    simp

open Spec in
/-- The middle column holds the Legendre functions. -/
theorem E_legendre {l m : ℕ} (hm : m ≤ l) {a b c d : ℂ} {x s : ℝ} {w : ℂ} (had : a * d = ((1 + x) / 2 : ℝ))
    (hbc : b * c = ((x - 1) / 2 : ℝ)) (hab : a * b = -(((s / 2 : ℝ) : ℂ) * w)) :
    E (2 * l) (l + m) l a b c d = (Real.sqrt ((l - m).factorial / (l + m).factorial)
      * (rodNorm l m * s ^ m * (rod l (l + m)).eval x) : ℝ) * w ^ m := by
  rw [E, show 2 * l - (l + m) = l - m by omega, show 2 * l - l = l by omega, form_coeff]
  have e1 : ∀ i ∈ Finset.range (l + 1), ((l + m).choose i : ℂ) * a ^ i * b ^ (l + m - i)
      * (((l - m).choose (l - i) : ℂ) * c ^ (l - i) * d ^ (l - m - (l - i)))
      = (a * b) ^ m * ((1 / 2) ^ (l - m) * (((l + m).choose i : ℝ) * ((l - m).choose (l - i) : ℝ) * (x + 1) ^ (i - m)
        * (x - 1) ^ (l - i) : ℝ)) := by
    intro i hi
    rw [Finset.mem_range] at hi
    by_cases h : m ≤ i
    · have e : a ^ i * b ^ (l + m - i) * (c ^ (l - i) * d ^ (l - m - (l - i)))
          = (a * b) ^ m * ((a * d) ^ (i - m) * (b * c) ^ (l - i)) := by
        obtain ⟨j, rfl⟩ := Nat.exists_eq_add_of_le h
        obtain ⟨k, rfl⟩ := Nat.exists_eq_add_of_le (show m + j ≤ l by omega)
        rw [show m + j + k + m - (m + j) = m + k by omega, show m + j + k - (m + j) = k by omega,
          show m + j + k - m - k = j by omega, show m + j - m = j by omega]
        ring
      rw [show ∀ u v A B C D : ℂ, u * A * B * (v * C * D) = u * v * (A * B * (C * D)) from fun u v A B C D => by ring, e,
        had, hbc]
      have e2 : (1 / 2 : ℂ) ^ (l - m) = (1 / 2) ^ (i - m) * (1 / 2) ^ (l - i) := by
        rw [← pow_add]; congr 1; omega
      rw [e2]
      push_cast
      rw [div_eq_mul_one_div (1 + (x : ℂ)), div_eq_mul_one_div ((x : ℂ) - 1), mul_pow (1 + (x : ℂ)), mul_pow ((x : ℂ) - 1)]
      ring
    · rw [Nat.choose_eq_zero_of_lt (show l - m < l - i by omega)]
      simp
  rw [Finset.sum_congr rfl e1, ← Finset.mul_sum, ← Finset.mul_sum, ← Complex.ofReal_sum]
  have h2 := rod_sum l m hm x
  have hf : ((l.factorial : ℝ)) ≠ 0 := by positivity
  have h3 : ∑ i ∈ Finset.range (l + 1), ((l + m).choose i : ℝ) * ((l - m).choose (l - i) : ℝ) * (x + 1) ^ (i - m) * (x - 1) ^ (l - i)
      = ((l - m).factorial : ℝ) * (rod l (l + m)).eval x / (l.factorial : ℝ) ^ 2 := by
    rw [h2]; field_simp
  rw [h3, hab]
  have h4 : Real.sqrt ((l.factorial * l.factorial : ℝ) / ((l + m).factorial * (l - m).factorial))
      = Real.sqrt ((l - m).factorial / (l + m).factorial) * (l.factorial / (l - m).factorial) := by
    have e : ((l.factorial * l.factorial : ℝ) / ((l + m).factorial * (l - m).factorial))
        = ((l - m).factorial / (l + m).factorial) * (l.factorial / (l - m).factorial) ^ 2 := by field_simp
    rw [e, Real.sqrt_mul (by positivity), Real.sqrt_sq (by positivity)]
  rw [h4, rodNorm]
  have hfm : (((l - m).factorial : ℕ) : ℂ) ≠ 0 := by exact_mod_cast (l - m).factorial_ne_zero
  have hfl : ((l.factorial : ℕ) : ℂ) ≠ 0 := by exact_mod_cast l.factorial_ne_zero
  have e5 : (2 : ℂ) ^ l = 2 ^ (l - m) * 2 ^ m := by rw [← pow_add]; congr 1; omega
  push_cast
  rw [e5, neg_pow, mul_pow, div_pow, one_div, inv_pow]
  field_simp

end Wigner
end Verif
