import Verif.Model.FloatTurn
import Verif.Props.FloatSeen

/-!
# Property C126: the curve of the default azimuths in double precision
-/

set_option exponentiation.threshold 4000

namespace Verif
open Spec PyFloat FloatRange FloatSets FloatCoords FloatError FloatRound FloatVisible FloatVector

namespace FloatVisible
open FloatEnergy FloatDescribe

theorem deg_fd : FinD (ofInt 360) ∧ (ofInt 360).num = 360 ∧ FinD (ofInt 180) ∧ (ofInt 180).num = 180 := by
  have h1 := int_fd (k := 360) (by norm_num)
  have h2 := int_fd (k := 180) (by norm_num)
  exact ⟨by exact_mod_cast h1.1, by exact_mod_cast h1.2, by exact_mod_cast h2.1, by exact_mod_cast h2.2⟩

/-- An entry of `np.linspace(0, 360, N + 1)` but the last. -/
theorem deg_entry {N i : ℕ} (N1 : 1 ≤ N) (N2 : N ≤ 2 ^ 20) (hi : i < N) :
    FinD (add (mul (ofInt i) (div (ofInt 360) (ofInt (N : ℤ)))) (fin false 0)) ∧
      |((add (mul (ofInt i) (div (ofInt 360) (ofInt (N : ℤ)))) (fin false 0)).num : ℝ) - i * 360 / N| ≤ 1 / 2 ^ 43 ∧
      (i = 0 → (add (mul (ofInt i) (div (ofInt 360) (ofInt (N : ℤ)))) (fin false 0)).num = 0) := by
  obtain ⟨n1, n2⟩ := int_fd (k := N) (lt_of_le_of_lt N2 (by norm_num))
  obtain ⟨i1, i2⟩ := int_fd (k := i) (lt_of_lt_of_le hi (N2.trans (by norm_num)))
  obtain ⟨b1, b2, -, -⟩ := deg_fd
  have hN : (1 : ℝ) ≤ N := by exact_mod_cast N1
  have hiN : (i : ℝ) ≤ N := by exact_mod_cast hi.le
  have i0 : (0 : ℝ) ≤ i := by positivity
  have q0 : 0 ≤ (360 : ℝ) / N := by positivity
  have q7 : (360 : ℝ) / N ≤ 360 := div_le_self (by norm_num) hN
  have hN0 : (((ofInt (N : ℤ)).num : ℚ) : ℝ) ≠ 0 := by rw [n2]; push_cast; linarith
  have rb : (((ofInt 360).num : ℚ) : ℝ) = 360 := by rw [b2]; norm_num
  have rn : (((ofInt (N : ℤ)).num : ℚ) : ℝ) = N := by rw [n2]; norm_num
  have ri : (((ofInt (i : ℤ)).num : ℚ) : ℝ) = i := by rw [i2]; norm_num
  obtain ⟨hd, hde⟩ := div_real b1 n1 hN0 (k := 9) (by rw [rb, rn, abs_of_nonneg q0]; norm_num; linarith) (by norm_num)
  rw [rb, rn, abs_of_nonneg q0] at hde
  have iq : (i : ℝ) * (360 / N) ≤ 360 := by
    have : (i : ℝ) * (360 / N) ≤ N * (360 / N) := by gcongr
    rwa [mul_div_cancel₀ _ (by linarith)] at this
  have iq0 : 0 ≤ (i : ℝ) * (360 / N) := by positivity
  have i20 : (i : ℝ) ≤ 2 ^ 20 := hiN.trans (by exact_mod_cast N2)
  have t0 := tiny_le (a := 1000) (b := 100) (by norm_num)
  generalize hs : div (ofInt 360) (ofInt (N : ℤ)) = s at *
  have is : |(i : ℝ) * s.num - i * (360 / N)| ≤ 360 / 2 ^ 53 + 1 / 2 ^ 80 := by
    rw [← mul_sub, abs_mul, abs_of_nonneg i0]
    calc (i : ℝ) * |(s.num : ℝ) - 360 / N| ≤ i * ((360 : ℝ) / N / 2 ^ 53 + 1 / 2 ^ 1000) := by gcongr
      _ = i * ((360 : ℝ) / N) / 2 ^ 53 + i * (1 / 2 ^ 1000) := by ring
      _ ≤ 360 / 2 ^ 53 + 2 ^ 20 * (1 / 2 ^ 100) := by gcongr
      _ = _ := by norm_num
  have is8 : |(i : ℝ) * s.num| ≤ 2 ^ 9 := by
    generalize (i : ℝ) * s.num = u at *
    generalize (i : ℝ) * (360 / N) = w at *
    clear * - is iq iq0
    rw [abs_le] at *
    norm_num at *
    constructor <;> linarith
  obtain ⟨hm, hme⟩ := mul_real i1 hd (k := 9) (by rw [ri]; exact is8) (by norm_num)
  rw [ri] at hme
  have hm8 : |((mul (ofInt (i : ℤ)) s).num : ℝ)| ≤ 2 ^ 10 := by
    generalize ((mul (ofInt (i : ℤ)) s).num : ℝ) = m at *
    generalize (1 : ℝ) / 2 ^ 1000 = t at *
    have := abs_sub_abs_le_abs_sub m ((i : ℝ) * s.num)
    clear * - this is8 hme t0
    norm_num at *
    linarith
  have z0 : (fin false 0).num = 0 := rfl
  have ha := add_num hm zero_fd (le_max_of_real (k := 10) (by rw [z0]; push_cast; rw [add_zero]; exact hm8) (by norm_num))
  rw [z0, add_zero, num_double hm] at ha
  refine ⟨ha.1, ?_, ?_⟩
  · rw [ha.2, mul_div_assoc]
    generalize ((mul (ofInt (i : ℤ)) s).num : ℝ) = m at *
    generalize (i : ℝ) * s.num = u at *
    generalize (i : ℝ) * (360 / N) = w at *
    generalize (1 : ℝ) / 2 ^ 1000 = t at *
    clear * - is is8 hme t0
    generalize |u| = U at *
    rw [abs_le] at *
    norm_num at *
    constructor <;> linarith
  · intro h
    rw [ha.2]
    have hmn := mul_num i1 hd (le_max_of_real (k := 9) (by push_cast; rw [ri]; exact is8) (by norm_num))
    rw [hmn.2, i2, h]
    simp [rnd_zero]

/-- The constant π/180. -/
theorem radian_fd : FinD (div pi (ofInt 180)) ∧ |((div pi (ofInt 180)).num : ℝ) - Real.pi / 180| ≤ 1 / 2 ^ 57 := by
  obtain ⟨-, -, c1, c2⟩ := deg_fd
  have rc : (((ofInt 180).num : ℚ) : ℝ) = 180 := by rw [c2]; norm_num
  obtain ⟨p1, p2⟩ := FloatDescribe.pi_close
  have p3 := Real.pi_lt_d2
  have p4 := Real.pi_gt_d2
  have hp : |(pi.num : ℝ) / 180| ≤ 4 / 180 := by
    norm_num at p2
    rw [abs_le] at *
    constructor <;> linarith
  obtain ⟨h1, h2⟩ := div_real p1 c1 (by rw [rc]; norm_num) (k := 1) (by rw [rc]; exact hp.trans (by norm_num)) (by norm_num)
  rw [rc] at h2
  refine ⟨h1, ?_⟩
  have t0 := tiny_le (a := 1000) (b := 100) (by norm_num)
  have h3 := h2.trans (add_le_add_left (div_le_div_of_nonneg_right hp (by norm_num)) _)
  generalize ((div pi (ofInt 180)).num : ℝ) = c at *
  generalize (1 : ℝ) / 2 ^ 1000 = t at *
  clear * - h3 p2 t0
  norm_num at *
  rw [abs_le] at *
  constructor <;> linarith

/-- The conversion to radians. -/
theorem radian_ok {x : PyFloat} (hx : FinD x) {X : ℝ} (X0 : 0 ≤ X) (X1 : X ≤ 360) (h : |(x.num : ℝ) - X| ≤ 1 / 2 ^ 43) :
    FinD (deg2rad x) ∧ |((deg2rad x).num : ℝ)| ≤ 8 ∧ |((deg2rad x).num : ℝ) - X * (Real.pi / 180)| ≤ 1 / 2 ^ 46 := by
  obtain ⟨c1, c2⟩ := radian_fd
  have p3 := Real.pi_lt_d2
  have p4 := Real.pi_gt_d2
  have t0 := tiny_le (a := 1000) (b := 100) (by norm_num)
  have hx' : |(x.num : ℝ)| ≤ 361 := by
    norm_num at h
    rw [abs_le] at *
    constructor <;> linarith
  have d : |(x.num : ℝ) * (div pi (ofInt 180)).num - X * (Real.pi / 180)| ≤ 361 / 2 ^ 57 + 1 / 2 ^ 43 * (18 / 1000) := by
    have e : (x.num : ℝ) * (div pi (ofInt 180)).num - X * (Real.pi / 180) = x.num * ((div pi (ofInt 180)).num - Real.pi / 180) + (x.num - X) * (Real.pi / 180) := by ring
    rw [e]
    refine (abs_add_le _ _).trans (add_le_add ?_ ?_)
    · rw [abs_mul, show (361 : ℝ) / 2 ^ 57 = 361 * (1 / 2 ^ 57) by ring]
      exact mul_le_mul hx' c2 (abs_nonneg _) (by norm_num)
    · rw [abs_mul]
      refine mul_le_mul h ?_ (abs_nonneg _) (by norm_num)
      rw [abs_of_pos (by positivity)]
      linarith
  have X2 : 0 ≤ X * (Real.pi / 180) := by positivity
  have X3 : X * (Real.pi / 180) ≤ 63 / 10 := by
    have : X * (Real.pi / 180) ≤ 360 * (Real.pi / 180) := by gcongr
    linarith
  have hb : |(x.num : ℝ) * (div pi (ofInt 180)).num| ≤ 7 := by
    generalize (x.num : ℝ) * (div pi (ofInt 180)).num = u at *
    generalize X * (Real.pi / 180) = w at *
    clear * - d X2 X3
    norm_num at *
    rw [abs_le] at *
    constructor <;> linarith
  obtain ⟨m1, m2⟩ := mul_real hx c1 (k := 3) (hb.trans (by norm_num)) (by norm_num)
  have m3 := m2.trans (add_le_add_left (div_le_div_of_nonneg_right hb (by norm_num)) _)
  refine ⟨m1, ?_, ?_⟩
  · change |((mul x (div pi (ofInt 180))).num : ℝ)| ≤ 8
    generalize ((mul x (div pi (ofInt 180))).num : ℝ) = m at *
    generalize (x.num : ℝ) * (div pi (ofInt 180)).num = u at *
    generalize (1 : ℝ) / 2 ^ 1000 = t at *
    clear * - m3 hb t0
    norm_num at *
    rw [abs_le] at *
    constructor <;> linarith
  · change |((mul x (div pi (ofInt 180))).num : ℝ) - _| ≤ _
    generalize ((mul x (div pi (ofInt 180))).num : ℝ) = m at *
    generalize (x.num : ℝ) * (div pi (ofInt 180)).num = u at *
    generalize X * (Real.pi / 180) = w at *
    generalize (1 : ℝ) / 2 ^ 1000 = t at *
    clear * - m3 d t0
    norm_num at *
    rw [abs_le] at *
    constructor <;> linarith

theorem azimuths_ok {A : List PyFloat} (h2 : 2 ≤ A.length) (hA : A.length ≤ 2 ^ 20) : ∃ az, defaultAzimuths A = .ok az ∧ az.length = A.length ∧
    ∀ i : ℕ, ∀ x, az[i]? = some x → FinD x ∧ |(x.num : ℝ)| ≤ 8 ∧ |(x.num : ℝ) - i * (2 * Real.pi) / (A.length - 1 : ℕ)| ≤ 1 / 2 ^ 46 ∧ (i = 0 → x.num = 0) := by
  obtain ⟨N, hN⟩ : ∃ N, A.length = N + 1 := ⟨A.length - 1, by omega⟩
  have N1 : 1 ≤ N := by omega
  have N2 : N ≤ 2 ^ 20 := by omega
  have hNr : (1 : ℝ) ≤ N := by exact_mod_cast N1
  let f : ℕ → PyFloat := fun i => add (mul (ofInt i) (div (ofInt 360) (ofInt (N : ℤ)))) (fin false 0)
  have e : linspace (ofInt 360) (A.length : ℤ) = .ok ((List.range N).map f ++ [ofInt 360]) := by
    rw [hN, linspace, if_neg (by omega), if_neg (by omega), if_neg (by omega)]
    have : ((N + 1 : ℕ) : ℤ) - 1 = N := by push_cast; ring
    rw [this]
    simp [f]
  refine ⟨((List.range N).map f ++ [ofInt 360]).map deg2rad, by rw [defaultAzimuths, e]; rfl, by simp [hN], ?_⟩
  intro i x hx
  rw [hN, Nat.add_sub_cancel]
  rw [List.getElem?_map] at hx
  have conv : ∀ i : ℕ, (i : ℝ) * (2 * Real.pi) / N = (i * 360 / N) * (Real.pi / 180) := fun i => by ring
  rcases lt_trichotomy i N with hi | hi | hi
  · rw [List.getElem?_append_left (by simpa using hi)] at hx
    simp [hi] at hx
    obtain ⟨k1, k2, k3⟩ := deg_entry N1 N2 hi
    have hiN : (i : ℝ) ≤ N := by exact_mod_cast hi.le
    obtain ⟨r1, r2, r3⟩ := radian_ok k1 (X := i * 360 / N) (by positivity) (by rw [div_le_iff₀ (by linarith)]; nlinarith) k2
    rw [← hx, conv]
    refine ⟨r1, r2, r3, fun h0 => ?_⟩
    have m := mul_num (x := f i) k1 radian_fd.1 (by rw [show (f i).num = 0 from k3 h0, zero_mul, abs_zero]; exact isDouble_zero.le_max)
    change (mul (f i) (div pi (ofInt 180))).num = 0
    rw [m.2, show (f i).num = 0 from k3 h0, zero_mul, rnd_zero]
  · subst hi
    simp at hx
    obtain ⟨b1, b2, -, -⟩ := deg_fd
    obtain ⟨r1, r2, r3⟩ := radian_ok b1 (X := i * 360 / i) (by positivity) (by rw [mul_div_cancel_left₀ _ (by linarith)]) (by
      rw [mul_div_cancel_left₀ _ (by linarith), b2]; norm_num)
    rw [← hx, conv]
    exact ⟨r1, r2, r3, fun h0 => by omega⟩
  · rw [List.getElem?_eq_none (by simp; omega)] at hx
    cases hx

end FloatVisible

open FloatVisible FloatDescribe FloatEnergy

/-- **C126.** The default azimuths in double precision: as many as there are azimuthal corners, equidistant over a full turn to 13 digits, the first
exactly 0. -/
theorem C126_default_azimuths (A : List PyFloat) (h2 : 2 ≤ A.length) (hA : A.length ≤ 2 ^ 20) : ∃ az, defaultAzimuths A = .ok az ∧ az.length = A.length ∧
    ∀ i : ℕ, ∀ x, az[i]? = some x → FinD x ∧ |(x.num : ℝ) - i * (2 * Real.pi) / (A.length - 1 : ℕ)| ≤ 1 / 2 ^ 46 ∧ (i = 0 → x.num = 0) := by
  obtain ⟨az, e, l, h⟩ := azimuths_ok h2 hA
  exact ⟨az, e, l, fun i x hx => ⟨(h i x hx).1, (h i x hx).2.2⟩⟩

namespace FloatVisible
open FloatEnergy FloatDescribe

theorem inner_le_one {D N : ℝ × ℝ × ℝ} (hD : inner3 D D = 1) (hN : inner3 N N = 1) : max 0 (inner3 D N) ≤ 1 := by
  have h := inner_sq_le hD hN
  exact max_le (by norm_num) (by nlinarith)

/-- A small change of the direction of the observer changes the average little. -/
theorem average_lip {α : Type*} (xs : List α) (a : α → ℝ) (N B : α → ℝ × ℝ × ℝ) {D E : ℝ × ℝ × ℝ} {M δ : ℝ} (M0 : 0 ≤ M) (ha : ∀ x ∈ xs, 0 ≤ a x)
    (ht : (xs.map a).sum ≤ 13) (hN : ∀ x ∈ xs, inner3 (N x) (N x) = 1 ∧ |(N x).1| ≤ 1 ∧ |(N x).2.1| ≤ 1 ∧ |(N x).2.2| ≤ 1)
    (hB : ∀ x ∈ xs, |(B x).1| ≤ M ∧ |(B x).2.1| ≤ M ∧ |(B x).2.2| ≤ M) (hD : inner3 D D = 1) (hE : inner3 E E = 1)
    (hE1 : |E.1| ≤ 1 ∧ |E.2.1| ≤ 1 ∧ |E.2.2| ≤ 1) (hd : |D.1 - E.1| ≤ δ ∧ |D.2.1 - E.2.1| ≤ δ ∧ |D.2.2 - E.2.2| ≤ δ)
    (hV : 1 ≤ (xs.map fun x => a x * max 0 (inner3 D (N x))).sum) (hW : 1 ≤ (xs.map fun x => a x * max 0 (inner3 E (N x))).sum) :
    |(xs.map fun x => inner3 (B x) D * (a x * max 0 (inner3 D (N x)))).sum / (xs.map fun x => a x * max 0 (inner3 D (N x))).sum -
      (xs.map fun x => inner3 (B x) E * (a x * max 0 (inner3 E (N x)))).sum / (xs.map fun x => a x * max 0 (inner3 E (N x))).sum| ≤ 300 * M * δ := by
  have δ0 : 0 ≤ δ := (abs_nonneg _).trans hd.1
  have w1 : ∀ x ∈ xs, |max 0 (inner3 D (N x)) - max 0 (inner3 E (N x))| ≤ 3 * δ := by
    intro x hx
    refine (max_lip _ _).trans ?_
    have := inner_diff (u := D) (U := E) (v := N x) (V := N x) (δ := 0) (m := 1) (M := 1) hd (by simp) (hN x hx).2 hE1
    linarith
  have b1 : ∀ x ∈ xs, |inner3 (B x) D - inner3 (B x) E| ≤ 3 * (M * δ) := by
    intro x hx
    have := inner_diff (u := B x) (U := B x) (v := D) (V := E) (ε := 0) (m := 1) (M := M) (by simp) hd ?_ (hB x hx)
    · linarith
    · have : ∀ p q r : ℝ, p * p + q * q + r * r = 1 → |p| ≤ 1 := fun p q r h => by
        rw [abs_le]; constructor <;> nlinarith [mul_self_nonneg q, mul_self_nonneg r]
      simp only [inner3] at hD
      exact ⟨this _ _ _ hD, this D.2.1 D.1 D.2.2 (by linarith), this D.2.2 D.1 D.2.1 (by linarith)⟩
  have b2 : ∀ x ∈ xs, |inner3 (B x) E| ≤ 3 * M := by
    intro x hx
    obtain ⟨h1, h2, h3⟩ := hB x hx
    have := abs_add_three ((B x).1 * E.1) ((B x).2.1 * E.2.1) ((B x).2.2 * E.2.2)
    rw [abs_mul, abs_mul, abs_mul] at this
    have := mul_le_mul h1 hE1.1 (abs_nonneg _) M0
    have := mul_le_mul h2 hE1.2.1 (abs_nonneg _) M0
    have := mul_le_mul h3 hE1.2.2 (abs_nonneg _) M0
    simp only [inner3]
    linarith
  have dV : |(xs.map fun x => a x * max 0 (inner3 D (N x))).sum - (xs.map fun x => a x * max 0 (inner3 E (N x))).sum| ≤ 39 * δ := by
    refine (sum_diff xs (e := fun x => 3 * δ * a x) fun x hx => ?_).trans ?_
    · rw [← mul_sub, abs_mul, abs_of_nonneg (ha x hx), mul_comm]
      exact mul_le_mul_of_nonneg_right (w1 x hx) (ha x hx)
    · rw [List.sum_map_mul_left]
      nlinarith
  have dF : |(xs.map fun x => inner3 (B x) D * (a x * max 0 (inner3 D (N x)))).sum - (xs.map fun x => inner3 (B x) E * (a x * max 0 (inner3 E (N x)))).sum| ≤ 156 * (M * δ) := by
    refine (sum_diff xs (e := fun x => 12 * (M * δ) * a x) fun x hx => ?_).trans ?_
    · have e : inner3 (B x) D * (a x * max 0 (inner3 D (N x))) - inner3 (B x) E * (a x * max 0 (inner3 E (N x))) =
          a x * ((inner3 (B x) D - inner3 (B x) E) * max 0 (inner3 D (N x)) + inner3 (B x) E * (max 0 (inner3 D (N x)) - max 0 (inner3 E (N x)))) := by ring
      rw [e, abs_mul, abs_of_nonneg (ha x hx), mul_comm]
      refine mul_le_mul_of_nonneg_right ((abs_add_le _ _).trans ?_) (ha x hx)
      rw [abs_mul, abs_mul, abs_of_nonneg (le_max_left 0 (inner3 D (N x)))]
      have := mul_le_mul (b1 x hx) (inner_le_one hD (hN x hx).1) (le_max_left 0 _) (by positivity)
      have := mul_le_mul (b2 x hx) (w1 x hx) (abs_nonneg _) (by positivity)
      linarith
    · rw [List.sum_map_mul_left]
      have := mul_nonneg M0 δ0
      nlinarith
  have F1 : |(xs.map fun x => inner3 (B x) E * (a x * max 0 (inner3 E (N x)))).sum| ≤ 3 * M * (xs.map fun x => a x * max 0 (inner3 E (N x))).sum := by
    have := sum_diff xs (f := fun x => inner3 (B x) E * (a x * max 0 (inner3 E (N x)))) (g := fun _ => 0) (e := fun x => 3 * M * (a x * max 0 (inner3 E (N x)))) fun x hx => by
      rw [sub_zero, abs_mul, abs_of_nonneg (mul_nonneg (ha x hx) (le_max_left 0 _))]
      exact mul_le_mul_of_nonneg_right (b2 x hx) (mul_nonneg (ha x hx) (le_max_left 0 _))
    rw [List.sum_map_mul_left] at this
    simpa using this
  generalize (xs.map fun x => a x * max 0 (inner3 D (N x))).sum = V at *
  generalize (xs.map fun x => a x * max 0 (inner3 E (N x))).sum = W at *
  generalize (xs.map fun x => inner3 (B x) D * (a x * max 0 (inner3 D (N x)))).sum = F at *
  generalize (xs.map fun x => inner3 (B x) E * (a x * max 0 (inner3 E (N x)))).sum = G at *
  have V0 : 0 < V := by linarith
  have W0 : 0 < W := by linarith
  have e : F / V - G / W = (F - G) / V + G / W * ((W - V) / V) := by field_simp; ring
  have q1 : |(F - G) / V| ≤ 156 * (M * δ) := by
    rw [abs_div, abs_of_pos V0]
    exact (div_le_self (abs_nonneg _) hV).trans dF
  have q2 : |G / W| ≤ 3 * M := by rwa [abs_div, abs_of_pos W0, div_le_iff₀ W0]
  have q3 : |(W - V) / V| ≤ 39 * δ := by
    rw [abs_div, abs_of_pos V0, abs_sub_comm]
    exact (div_le_self (abs_nonneg _) hV).trans dV
  rw [e]
  refine (abs_add_le _ _).trans ?_
  rw [abs_mul]
  have := mul_le_mul q2 q3 (abs_nonneg _) (by positivity)
  nlinarith

end FloatVisible

open FloatVisible FloatDescribe FloatEnergy

/-- **C126.** `get_longitudinal_field_curve` without azimuths on the grid of `ZdiGeometry(n, k)`, with at least two by three facets: the entries are the
averages over the area seen from `k` equidistant azimuths from 0 to a full turn, up to M/2^20. -/
theorem C126_default_curve (T : SineLib) (hT : GoodCircle T) (L : DescLib) (hL : GoodDesc L) (S : List PyFloat → PyFloat) (hS : ∀ xs, IsNpSum xs (S xs))
    (n k : ℕ) (hn : 3 ≤ n) (hk : 4 ≤ k) (hn' : n ≤ 2 ^ 20) (hk' : k ≤ 2 ^ 20) (hnk : (n - 1) * (k - 1) ≤ 2 ^ 24) (field : List FVec)
    (hf : field.length = (k - 1) * (n - 1)) (M : ℝ) (hM : M ≤ 2 ^ 50) (hb : ∀ b ∈ field, Bounded3 b M) (θ : PyFloat) (hθ : FinD θ ∧ |(θ.num : ℝ)| ≤ 8) :
    ∃ P A ys, corners (some n) (some k) = .ok (P, A) ∧ defaultCurve T L S P A field θ = .ok ys ∧ ys.length = k ∧ ∀ i : ℕ, ∀ y, ys[i]? = some y → FinD y ∧
      |(y.num : ℝ) - seenField (pointing θ.num (i * (2 * Real.pi) / (k - 1 : ℕ))) ((areas L P A).zip ((gridFacets P A).zip field)) /
        seenArea (pointing θ.num (i * (2 * Real.pi) / (k - 1 : ℕ))) ((areas L P A).zip ((gridFacets P A).zip field))| ≤ M / 2 ^ 20 + 1 / 2 ^ 800 := by
  obtain ⟨P, A, e, c1, c2, l1, l2, f1, f2⟩ := C125_corners n k (by omega) (by omega) hn' hk'
  obtain ⟨az, ea, la, ha⟩ := azimuths_ok (A := A) (by omega) (by omega)
  rw [l2] at la ha
  have hφ : ∀ φ ∈ az, FinD φ ∧ |(φ.num : ℝ)| ≤ 8 := by
    intro φ hm
    obtain ⟨i, hi⟩ := List.mem_iff_getElem?.1 hm
    exact ⟨(ha i φ hi).1, (ha i φ hi).2.1⟩
  obtain ⟨P', A', ys, e', c, h⟩ := C126_full_sphere T hT L hL S hS n k hn hk hn' hk' hnk field hf M hM hb θ hθ az hφ
  rw [e] at e'
  obtain ⟨rfl, rfl⟩ := Prod.mk.inj (Except.ok.inj e')
  have lf : (gridFacets P A).length = (k - 1) * (n - 1) := by
    change (List.flatMap (fun a => (FloatDescribe.pairs P).map fun p => (a, p)) (FloatDescribe.pairs A)).length = _
    rw [List.length_flatMap]
    simp only [List.length_map, List.map_const', List.sum_replicate, smul_eq_mul, pairs_length, l1, l2]
  have g : GridField P A field M := ⟨c1, c2, ⟨by omega, by omega⟩, by omega, by rw [l1, l2]; exact hnk, by rw [lf, hf], hb, hM⟩
  refine ⟨P, A, ys, e, by rw [defaultCurve, ea]; exact c, by rw [← h.length_eq, la], ?_⟩
  intro i y hy
  have hi : i < ys.length := (List.getElem?_eq_some_iff.1 hy).1
  have hi' : i < az.length := by rw [h.length_eq]; exact hi
  have hz : az[i]? = some az[i] := List.getElem?_eq_getElem hi'
  obtain ⟨q1, q2, q3, -⟩ := ha i _ hz
  obtain ⟨v1, v2, v3⟩ := h.get hi' hi
  have ey : ys.get ⟨i, hi⟩ = y := (List.getElem?_eq_some_iff.1 hy).2
  have ez : az.get ⟨i, hi'⟩ = az[i] := rfl
  rw [ey, ez] at v3
  rw [ey] at v2
  rw [ez] at v1
  refine ⟨v2, ?_⟩
  obtain ⟨g1, g2, g3, g4, g5, g6⟩ := grid_facts hT hL g
  obtain ⟨x0, hx0⟩ := List.exists_mem_of_ne_nil _ g6
  have M0 : 0 ≤ M := (abs_nonneg _).trans (g5 x0 hx0).first
  have w1 := seen_ge hL hn hk g l1 l2 f1 f2 (pointing_unit (θ.num : ℝ) (i * (2 * Real.pi) / (k - 1 : ℕ))) (pointing_le _ _)
  have lip := average_lip ((gridFacets P A).zip field) (fun x => ((area L x.1).num : ℝ)) (fun x => facetNormal x.1) (fun x => real3 x.2)
    (D := pointing θ.num az[i].num) (E := pointing θ.num (i * (2 * Real.pi) / (k - 1 : ℕ))) (δ := 2 * (1 / 2 ^ 46)) M0 (fun x hx => (g2 x hx).2.1) g3
    (fun x _ => ⟨pointing_unit _ _, pointing_le _ _⟩) (fun x hx => ⟨(g5 x hx).first, (g5 x hx).second, (g5 x hx).third⟩) (pointing_unit _ _) (pointing_unit _ _)
    (pointing_le _ _) (pointing_lip (by rw [sub_self, abs_zero]; norm_num) q3)
    (by rw [zip_pairs, seenArea, List.map_map] at v1; exact v1) (by rw [zip_pairs, seenArea, List.map_map] at w1; exact w1)
  rw [zip_pairs] at v3 ⊢
  simp only [seenArea, seenField, List.map_map] at v3 ⊢
  refine (abs_sub_le _ _ _).trans ((add_le_add v3 lip).trans ?_)
  generalize (1 : ℝ) / 2 ^ 800 = t
  clear * - M0
  norm_num
  linarith

/-- **C126.** The first and the last entry of the default curve, a full turn apart, agree up to M/2^19. -/
theorem C126_full_turn (T : SineLib) (hT : GoodCircle T) (L : DescLib) (hL : GoodDesc L) (S : List PyFloat → PyFloat) (hS : ∀ xs, IsNpSum xs (S xs))
    (n k : ℕ) (hn : 3 ≤ n) (hk : 4 ≤ k) (hn' : n ≤ 2 ^ 20) (hk' : k ≤ 2 ^ 20) (hnk : (n - 1) * (k - 1) ≤ 2 ^ 24) (field : List FVec)
    (hf : field.length = (k - 1) * (n - 1)) (M : ℝ) (hM : M ≤ 2 ^ 50) (hb : ∀ b ∈ field, Bounded3 b M) (θ : PyFloat) (hθ : FinD θ ∧ |(θ.num : ℝ)| ≤ 8) :
    ∃ P A ys x y, corners (some n) (some k) = .ok (P, A) ∧ defaultCurve T L S P A field θ = .ok ys ∧ ys.head? = some x ∧ ys.getLast? = some y ∧
      |(x.num : ℝ) - y.num| ≤ M / 2 ^ 19 + 1 / 2 ^ 790 := by
  obtain ⟨P, A, ys, e, c, l, h⟩ := C126_default_curve T hT L hL S hS n k hn hk hn' hk' hnk field hf M hM hb θ hθ
  have h0 : ys[0]? = some ys[0] := List.getElem?_eq_getElem (by omega)
  obtain ⟨y, h1⟩ : ∃ y, ys[k - 1]? = some y := ⟨_, List.getElem?_eq_getElem (by omega)⟩
  refine ⟨P, A, ys, ys[0], y, e, c, by rw [List.head?_eq_getElem?, h0], by rw [List.getLast?_eq_getElem?, l, h1], ?_⟩
  have a := (h 0 _ h0).2
  have b := (h (k - 1) _ h1).2
  have k0 : ((k - 1 : ℕ) : ℝ) ≠ 0 := by exact_mod_cast (by omega : k - 1 ≠ 0)
  have ed : pointing θ.num (((k - 1 : ℕ) : ℝ) * (2 * Real.pi) / (k - 1 : ℕ)) = pointing θ.num (((0 : ℕ) : ℝ) * (2 * Real.pi) / (k - 1 : ℕ)) := by
    rw [mul_div_cancel_left₀ _ k0]
    simp [pointing]
  rw [ed] at b
  rw [abs_sub_comm] at b
  refine (abs_sub_le _ _ _).trans ((add_le_add a b).trans ?_)
  have t : (1 : ℝ) / 2 ^ 800 * 2 ^ 10 ≤ 1 / 2 ^ 790 := by
    rw [div_mul_eq_mul_div, one_mul, div_le_div_iff₀ (by positivity) (by positivity), one_mul, ← pow_add]
  have t0 : (0 : ℝ) ≤ 1 / 2 ^ 800 := by positivity
  generalize (1 : ℝ) / 2 ^ 800 = u at *
  generalize (1 : ℝ) / 2 ^ 790 = w at *
  clear * - t t0
  norm_num at *
  linarith

/-! ### Non-vacuity -/

private theorem exHair : Bounded3 (fin false 1, fin false 0, fin false 0) 1 :=
  ⟨⟨⟨_, _, rfl, 1, 0, by norm_num, by norm_num, by norm_num, by norm_num⟩, zero_fd, zero_fd⟩, by simp [PyFloat.num], by simp [PyFloat.num], by simp [PyFloat.num]⟩

/-- A uniform field on the grid of `ZdiGeometry(3, 4)`. -/
example : ∃ P A ys x y, corners (some 3) (some 4) = .ok (P, A) ∧
    defaultCurve exCircle exDesc exSum P A (List.replicate 6 (fin false 1, fin false 0, fin false 0)) (fin false (3 / 2)) = .ok ys ∧ ys.head? = some x ∧
      ys.getLast? = some y ∧ |(x.num : ℝ) - y.num| ≤ 1 / 2 ^ 19 + 1 / 2 ^ 790 := by
  have h32 : FinD (fin false (3 / 2)) := ⟨_, _, rfl, 3, -1, by norm_num, by norm_num, by norm_num, by norm_num⟩
  exact C126_full_turn exCircle exCircle_good exDesc exDesc_good exSum exSum_ok 3 4 le_rfl le_rfl (by norm_num) (by norm_num) (by norm_num) _ rfl 1 (by norm_num)
    (fun b hb => by obtain rfl := List.eq_of_mem_replicate hb; exact exHair) _ ⟨h32, by simp only [PyFloat.num]; norm_num [abs_le]⟩

end Verif
