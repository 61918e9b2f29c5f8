import Verif.Model.FloatAxis
import Verif.Lemmas.FloatRange
import Verif.Props.PfssUnique

/-!
# C106: the field on the axis
-/

namespace Verif
open PyFloat FloatRange FloatAxis
open Shell (E3)

namespace FloatAxis

/-- Zero or not a number. -/
def Nil (x : PyFloat) : Prop := x = nan ∨ ∃ s, x = fin s 0

theorem Nil.mul {x : PyFloat} (h : Nil x) (y : PyFloat) : Nil (PyFloat.mul x y) := by
  rcases h with rfl | ⟨s, rfl⟩
  · left; simp
  · cases y with
    | fin t b => right; exact ⟨s != t, by simp [PyFloat.mul, ofMag_zero]⟩
    | inf t => left; simp [PyFloat.mul]
    | nan => left; simp

theorem mul_zero_nil (x : PyFloat) (t : Bool) : Nil (PyFloat.mul x (fin t 0)) := by
  cases x with
  | fin s b => right; exact ⟨s != t, by simp [PyFloat.mul, ofMag_zero]⟩
  | inf s => left; simp [PyFloat.mul]
  | nan => left; simp

theorem Nil.neg {x : PyFloat} (h : Nil x) : Nil (PyFloat.neg x) := by
  rcases h with rfl | ⟨s, rfl⟩
  · left; rfl
  · right; exact ⟨!s, rfl⟩

theorem Nil.add {x y : PyFloat} (h : Nil x) (h' : Nil y) : Nil (PyFloat.add x y) := by
  rcases h with rfl | ⟨s, rfl⟩
  · left; simp
  · rcases h' with rfl | ⟨t, rfl⟩
    · left; simp
    · right; exact ⟨_, add_zeros s t⟩

theorem Nil.sub {x y : PyFloat} (h : Nil x) (h' : Nil y) : Nil (PyFloat.sub x y) := h.add h'.neg

theorem Nil.div_zero {x : PyFloat} (h : Nil x) (t : Bool) : PyFloat.div x (fin t 0) = nan := by
  rcases h with rfl | ⟨s, rfl⟩ <;> simp [PyFloat.div]

/-- Complex numbers with both parts zero or not a number. -/
def CNil (z : PyFloat × PyFloat) : Prop := Nil z.1 ∧ Nil z.2

theorem CNil.mul {z : PyFloat × PyFloat} (h : CNil z) (w : PyFloat × PyFloat) : CNil (cmul z w) :=
  ⟨(h.1.mul _).add (h.2.mul _).neg, (h.1.mul _).add (h.2.mul _)⟩

theorem mul_czero (z : PyFloat × PyFloat) (s t : Bool) : CNil (cmul z (fin s 0, fin t 0)) :=
  ⟨(mul_zero_nil _ _).add (mul_zero_nil _ _).neg, (mul_zero_nil _ _).add (mul_zero_nil _ _)⟩

theorem CNil.divReal {z : PyFloat × PyFloat} (h : CNil z) (x : PyFloat) : CNil (cdivReal z x) := by
  unfold cdivReal
  split
  · split_ifs
    · exact ⟨by rw [h.1.div_zero]; exact .inl rfl, by rw [h.2.div_zero]; exact .inl rfl⟩
    · exact ⟨(h.1.add (h.2.mul _)).mul _, (h.2.sub (h.1.mul _)).mul _⟩
  · exact ⟨(h.1.add (h.2.mul _)).mul _, (h.2.sub (h.1.mul _)).mul _⟩

theorem CNil.divZero {z : PyFloat × PyFloat} (h : CNil z) (s : Bool) : cdivReal z (fin s 0) = (nan, nan) := by
  simp only [cdivReal, if_true, h.1.div_zero, h.2.div_zero]

/-- A quantity accumulated in a loop takes on a property that one summand has and that sums keep. -/
theorem foldl_keeps {α β : Type} (P : β → Prop) (f : β → α → β) (hk : ∀ b a, P b → P (f b a)) (l : List α) (a : α)
    (ha : a ∈ l) (h1 : ∀ b, P (f b a)) (b : β) : P (l.foldl f b) := by
  have keep : ∀ (l : List α) (b : β), P b → P (l.foldl f b) := by
    intro l
    induction l with
    | nil => exact fun b h => h
    | cons x l ih => exact fun b h => ih _ (hk b x h)
  induction l generalizing b with
  | nil => simp at ha
  | cons x l ih =>
    rcases List.mem_cons.1 ha with rfl | ha
    · exact keep l _ (h1 b)
    · exact ih ha _

theorem ofInt_zero : ofInt 0 = fin false 0 := by
  simp [ofInt, ofMag_zero]

end FloatAxis

/-- At a pole every Legendre function of nonzero order vanishes. -/
def Spec.AtPole (r : ZPoint) : Prop := r.m = 0 ∨ ∃ s, r.p = fin s 0

theorem FloatAxis.numerator_nil {r : ZPoint} (h : Spec.AtPole r) (x : PyFloat) :
    CNil (cdivReal (cmul (cmul (cmul (cmul (cmul r.b (r.c, fin false 0)) (r.p, fin false 0)) (fin false 0, fin false 1))
      (ofInt r.m, fin false 0)) r.e) x) := by
  rcases h with h | ⟨s, h⟩
  · rw [h, ofInt_zero]
    exact ((mul_czero _ _ _).mul _).divReal _
  · rw [h]
    exact ((((mul_czero _ _ _).mul _).mul _).mul _).divReal _

theorem FloatAxis.overSin_zero {r : ZPoint} (h : Spec.AtPole r) (s : Bool) : overSin (fin s 0) r = (nan, nan) :=
  (numerator_nil h _).divZero s

/-- **C106**: at the north pole, where `np.sin` is zero, `get_azimuthal_poloidal_field` and `get_polar_toroidal_field` of
every magnetogram with at least one row return nan, and so do `get_azimuthal_field` and `get_polar_field`. -/
theorem C106_zdi_nan (s : Bool) (rows : List ZPoint) (h : ∃ r ∈ rows, Spec.AtPole r) (t : PyFloat) :
    azimuthalPoloidal (fin s 0) rows = nan ∧ polarToroidal (fin s 0) rows = nan ∧
      azimuthal (fin s 0) rows t = nan ∧ polar (fin s 0) rows t = nan := by
  obtain ⟨r, hr, hp⟩ := h
  have e := overSin_zero hp s
  have h1 : azimuthalPoloidal (fin s 0) rows = nan := by
    refine foldl_keeps (fun b : PyFloat × PyFloat => b.1 = nan) _ ?_ rows r hr ?_ _
    · intro b a hb
      dsimp only
      rw [hb]
      simp [PyFloat.sub]
    · intro b
      dsimp only
      rw [e]
      simp [PyFloat.sub, PyFloat.neg]
  have h2 : polarToroidal (fin s 0) rows = nan := by
    refine foldl_keeps (fun b : PyFloat × PyFloat => b.1 = nan) _ ?_ rows r hr ?_ _
    · intro b a hb
      simp [cadd, hb]
    · intro b
      simp [cadd, e]
  exact ⟨h1, h2, by unfold azimuthal; rw [h1, nan_add], by unfold polar; rw [h2, add_nan]⟩

/-- Values of a row at the south pole: the products that are made before the zero comes in are finite. -/
structure Spec.TameRow (r : ZPoint) : Prop where
  pole : Spec.AtPole r
  b : isFin (cmul r.b (r.c, fin false 0)).1 = true ∧ isFin (cmul r.b (r.c, fin false 0)).2 = true
  i : isFin (cmul (cmul (cmul r.b (r.c, fin false 0)) (r.p, fin false 0)) (fin false 0, fin false 1)).1 = true ∧
    isFin (cmul (cmul (cmul r.b (r.c, fin false 0)) (r.p, fin false 0)) (fin false 0, fin false 1)).2 = true
  e : isFin r.e.1 = true ∧ isFin r.e.2 = true
  m : isFin (ofInt r.m) = true
  l : 0 ≤ r.l ∧ r.l ≤ 2 ^ 61

namespace FloatAxis

/-- Dividing a complex zero by a number that is not too small. -/
theorem divReal_zero {z : PyFloat × PyFloat} (hz : IsZero z) (s : Bool) {a : ℚ} (ha : a ≠ 0)
    (hs : isFin (PyFloat.div (fin false 1) (PyFloat.add (fin s a) (PyFloat.mul (fin false 0) (PyFloat.div (fin false 0) (fin s a))))) = true) :
    IsZero (cdivReal z (fin s a)) := by
  obtain ⟨x, y, rfl⟩ := hz
  have e : PyFloat.div (fin false 0) (fin s a) = fin (false != s) 0 := by simp [PyFloat.div, ha, ofMag_zero]
  simp only [cdivReal, if_neg ha]
  generalize PyFloat.div (fin false 1) _ = scl at hs
  rw [e]
  have e2 : ∀ p q : Bool, PyFloat.mul (fin p 0) (fin q 0) = fin (p != q) 0 := by
    intro p q; simp [PyFloat.mul, ofMag_zero]
  rw [e2, e2]
  simp only [PyFloat.sub, PyFloat.neg, add_zeros]
  obtain ⟨t1, h1⟩ := (mul_finzero hs (x && (y != (false != s)))).2
  obtain ⟨t2, h2⟩ := (mul_finzero hs (y && !(x != (false != s)))).2
  exact ⟨t1, t2, by rw [h1, h2]⟩

theorem scl_fin {s : Bool} {a : ℚ} (ha : 0 < a) (hd : IsDouble a) (h : (2 : ℚ) ^ (-1000 : ℤ) ≤ a) :
    isFin (PyFloat.div (fin false 1) (PyFloat.add (fin s a) (PyFloat.mul (fin false 0) (PyFloat.div (fin false 0) (fin s a))))) = true := by
  have e : PyFloat.div (fin false 0) (fin s a) = fin (false != s) 0 := by simp [PyFloat.div, ha.ne', ofMag_zero]
  have e2 : PyFloat.mul (fin false 0) (fin (false != s) 0) = fin (false != (false != s)) 0 := by
    simp [PyFloat.mul, ofMag_zero]
  rw [e, e2, add_zero_eq (x := fin s a) _ hd (by intro h; injection h with _ h; exact ha.ne' h)]
  simp only [PyFloat.div, if_neg ha.ne']
  rw [ofMag_of_le (by positivity)]
  · rfl
  · have h1 : 1 / a ≤ 1 / 2 ^ (-1000 : ℤ) := one_div_le_one_div_of_le (by positivity) h
    have h2 : (1 : ℚ) / 2 ^ (-1000 : ℤ) = 2 ^ (1000 : ℤ) := by rw [zpow_neg, one_div, inv_inv]
    have h3 : (2 : ℚ) ^ (1000 : ℤ) ≤ maxDouble := 
      IsDouble.le_max ⟨2 ^ 29, 971, by norm_num, by norm_num, by norm_num, by
        rw [show (1000 : ℤ) = 29 + 971 by norm_num, zpow_add₀ (by norm_num)]; norm_num⟩
    linarith

theorem overSin_small {r : ZPoint} (h : Spec.TameRow r) {a : ℚ} (hd : IsDouble a) (ha : (2 : ℚ) ^ (-1000 : ℤ) ≤ a) :
    IsZero (overSin (fin false a) r) := by
  have ha0 : 0 < a := lt_of_lt_of_le (by positivity) ha
  unfold overSin
  refine divReal_zero ?_ false ha0.ne' (scl_fin ha0 hd ha)
  obtain ⟨c, ec, hcd, x, hx, hc⟩ := near_ofInt (n := r.l + 1) (by have := h.l; omega) (by have := h.l; omega)
  have hx1 := abs_le.1 hx
  have hl : (1 : ℝ) ≤ ((r.l + 1 : ℤ) : ℝ) := by exact_mod_cast (by have := h.l; omega : (1 : ℤ) ≤ r.l + 1)
  have hc1 : (1 / 2 : ℝ) ≤ c := by rw [hc]; nlinarith
  have hc2 : (1 / 2 : ℚ) ≤ c := by
    have : (((1 / 2 : ℚ)) : ℝ) ≤ c := by push_cast; exact hc1
    exact Rat.cast_le.1 this
  have hc0 : 0 < c := by linarith
  rw [ec]
  refine divReal_zero ?_ false hc0.ne' (scl_fin hc0 hcd (le_trans ?_ hc2))
  · refine IsZero.mul_right ?_ h.e.1 h.e.2
    rcases h.pole with hm | ⟨s, hp⟩
    · rw [hm, ofInt_zero]
      exact IsZero.mul_left ⟨_, _, rfl⟩ h.i.1 h.i.2
    · rw [hp]
      exact ((IsZero.mul_left ⟨_, _, rfl⟩ h.b.1 h.b.2).mul_right rfl rfl).mul_right h.m rfl
  · calc (2 : ℚ) ^ (-1000 : ℤ) ≤ 2 ^ (-1 : ℤ) := zpow_le_zpow_right₀ (by norm_num) (by norm_num)
      _ = 1 / 2 := by norm_num

end FloatAxis

/-- **C106**: at the south pole, where `np.sin(np.pi)` is a small positive number, both components come out as zero,
whatever the coefficients. -/
theorem C106_zdi_south (a : ℚ) (hd : IsDouble a) (ha : (2 : ℚ) ^ (-1000 : ℤ) ≤ a) (rows : List ZPoint)
    (h : ∀ r ∈ rows, Spec.TameRow r) :
    (∃ s, azimuthalPoloidal (fin false a) rows = fin s 0) ∧ ∃ s, polarToroidal (fin false a) rows = fin s 0 := by
  constructor
  · unfold azimuthalPoloidal
    have key : ∀ (rs : List ZPoint) (b : PyFloat × PyFloat), (∀ r ∈ rs, Spec.TameRow r) → IsZero b →
        IsZero (rs.foldl (fun acc r =>
          (sub acc.1 (overSin (fin false a) r).1, sub acc.2 (overSin (fin false a) r).2)) b) := by
      intro rs
      induction rs with
      | nil => exact fun b _ hb => hb
      | cons r rs ih =>
        intro b hr hb
        refine ih _ (fun r' h' => hr r' (List.mem_cons_of_mem _ h')) ?_
        obtain ⟨x, y, rfl⟩ := hb
        obtain ⟨u, v, e⟩ := overSin_small (hr r List.mem_cons_self) hd ha
        dsimp only
        rw [e]
        exact ⟨x && !u, y && !v, by simp only [PyFloat.sub, PyFloat.neg, add_zeros]⟩
    obtain ⟨x, y, e⟩ := key rows _ h ⟨false, false, rfl⟩
    exact ⟨x, by rw [e]⟩
  · unfold polarToroidal
    have key : ∀ (rs : List ZPoint) (b : PyFloat × PyFloat), (∀ r ∈ rs, Spec.TameRow r) → IsZero b →
        IsZero (rs.foldl (fun acc r => cadd acc (overSin (fin false a) r)) b) := by
      intro rs
      induction rs with
      | nil => exact fun b _ hb => hb
      | cons r rs ih =>
        intro b hr hb
        refine ih _ (fun r' h' => hr r' (List.mem_cons_of_mem _ h')) ?_
        obtain ⟨x, y, rfl⟩ := hb
        obtain ⟨u, v, e⟩ := overSin_small (hr r List.mem_cons_self) hd ha
        dsimp only
        rw [e]
        exact ⟨x && u, y && v, by simp only [cadd, add_zeros]⟩
    obtain ⟨x, y, e⟩ := key rows _ h ⟨false, false, rfl⟩
    exact ⟨x, by rw [e]⟩

namespace FloatAxis

theorem Bad.mul {x : PyFloat} (h : Bad x) (y : PyFloat) : Bad (PyFloat.mul x y) := by
  cases x with
  | fin s a => simp [Bad, isFin] at h
  | inf s => cases y <;> simp only [PyFloat.mul, Bad] <;> (try split_ifs) <;> rfl
  | nan => simp [Bad, isFin]

theorem Bad.mul_left {y : PyFloat} (h : Bad y) (x : PyFloat) : Bad (PyFloat.mul x y) := by
  cases y with
  | fin s a => simp [Bad, isFin] at h
  | inf s => cases x <;> simp only [PyFloat.mul, Bad] <;> (try split_ifs) <;> rfl
  | nan => simp [Bad, isFin]

theorem Bad.div {x : PyFloat} (h : Bad x) (y : PyFloat) : Bad (PyFloat.div x y) := by
  cases x with
  | fin s a => simp [Bad, isFin] at h
  | inf s => cases y <;> simp [PyFloat.div, Bad, isFin]
  | nan => cases y <;> simp [PyFloat.div, Bad, isFin]

theorem Bad.neg {x : PyFloat} (h : Bad x) : Bad (PyFloat.neg x) := by
  cases x <;> simp_all [PyFloat.neg, Bad, isFin]

theorem nan_div (y : PyFloat) : PyFloat.div nan y = nan := by cases y <;> rfl

end FloatAxis

/-- **C106**: wherever scipy's derivative of some Legendre function is infinite (order 1 at both poles) the polar component
and all three cartesian components of the PFSS field are infinite or nan, in the shell and beyond. -/
theorem C106_pfss_not_finite (rad sinθ cosθ sinφ cosφ q : PyFloat) (rows : List PPoint)
    (h : ∃ r ∈ rows, ∃ s, r.d = inf s) :
    let f := loop rad sinθ rows
    isFin f.2.1 = false ∧ isFin (beyond q f).2.1 = false ∧
      ∀ g, g = f ∨ g = beyond q f → isFin (cartesian sinθ cosθ sinφ cosφ g).1 = false ∧
        isFin (cartesian sinθ cosθ sinφ cosφ g).2.1 = false ∧ isFin (cartesian sinθ cosθ sinφ cosφ g).2.2 = false := by
  obtain ⟨r, hr, s, hd⟩ := h
  intro f
  have hf : Bad f.2.1 := by
    refine foldl_keeps (fun b : PyFloat × PyFloat × PyFloat => Bad b.2.1) _ ?_ rows r hr ?_ _
    · intro b a hb
      exact hb.add _
    · intro b
      refine Bad.add_right ?_ _
      have h0 : Bad r.d := by rw [hd]; rfl
      exact Bad.neg (Bad.div (Bad.mul (Bad.mul_left (Bad.mul (Bad.mul h0 _) _) _) _) _)
  have hb : Bad (beyond q f).2.1 := Bad.mul hf _
  refine ⟨hf, hb, ?_⟩
  intro g hg
  have hg' : Bad g.2.1 := by rcases hg with rfl | rfl <;> assumption
  have hc : ∀ a b c, Bad (component a b c g) := fun a b c => Bad.add (Bad.add_right (Bad.mul_left hg' _) _) _
  exact ⟨hc _ _ _, hc _ _ _, hc _ _ _⟩

/-- **C106**: at the north pole, where `np.sin` is zero, all of them are nan. -/
theorem C106_pfss_nan (rad cosθ sinφ cosφ q : PyFloat) (t : Bool) (rows : List PPoint) (h : ∃ r ∈ rows, ∃ s, r.d = inf s) :
    let f := loop rad (fin t 0) rows
    f.2.1 = nan ∧ (beyond q f).2.1 = nan ∧
      ∀ g, g = f ∨ g = beyond q f → cartesian (fin t 0) cosθ sinφ cosφ g = (nan, nan, nan) := by
  obtain ⟨r, hr, s, hd⟩ := h
  intro f
  have hf : f.2.1 = nan := by
    refine foldl_keeps (fun b : PyFloat × PyFloat × PyFloat => b.2.1 = nan) _ ?_ rows r hr ?_ _
    · intro b a hb
      dsimp only
      rw [hb]
      simp [PyFloat.sub]
    · intro b
      have h0 : r.dtheta (fin t 0) = nan := by
        simp [PPoint.dtheta, hd, PyFloat.neg, PyFloat.mul]
      dsimp only
      rw [h0, mul_nan, nan_mul, nan_div]
      simp [PyFloat.sub, PyFloat.neg]
  have hb : (beyond q f).2.1 = nan := by simp [beyond, hf]
  refine ⟨hf, hb, ?_⟩
  intro g hg
  have hg' : g.2.1 = nan := by rcases hg with rfl | rfl <;> assumption
  simp [cartesian, component, hg']

/-- Values on the axis: finite, the Legendre function zero unless the order is zero, and the derivative of `phi_lm` zero when
it is; the derivative of the Legendre function is finite, as for all orders but 1. -/
structure Spec.AxisRow (r : PPoint) : Prop where
  rl : isFin r.rl = true
  d : isFin r.d = true
  clm : isFin r.clm = true
  phi : isFin r.phi = true
  dphi : isFin r.dphi = true
  theta : isFin r.theta = true
  rltheta : isFin (mul r.rl r.theta) = true
  pole : (∃ s, r.dphi = fin s 0) ∨ ∃ s, r.p = fin s 0

/-- **C106**: without order 1 the polar and azimuthal components at the north pole are zero. -/
theorem C106_pfss_zero (t : Bool) (rows : List PPoint) (u : Bool) (a : ℚ) (ha : a ≠ 0) (h : ∀ r ∈ rows, Spec.AxisRow r) :
    ∃ x y, (loop (fin u a) (fin t 0) rows).2 = (fin x 0, fin y 0) := by
  unfold loop
  have key : ∀ (rs : List PPoint) (b : PyFloat × PyFloat × PyFloat), (∀ r ∈ rs, Spec.AxisRow r) →
      (∃ x y, b.2 = (fin x 0, fin y 0)) → ∃ x y, (rs.foldl (fun acc r =>
        let ur := mul (mul r.drl r.theta) r.phi
        let up := mul (mul r.rl (r.dtheta (fin t 0))) r.phi
        let ua := mul (mul r.rl r.theta) r.dphi
        (sub acc.1 ur, sub acc.2.1 (div up (fin u a)),
          sub acc.2.2 (if neZero ua then div ua (mul (fin u a) (fin t 0)) else fin false 0))) b).2 = (fin x 0, fin y 0) := by
    intro rs
    induction rs with
    | nil => exact fun b _ hb => hb
    | cons r rs ih =>
      intro b hr hb
      rw [List.foldl_cons]
      refine ih _ (fun r' h' => hr r' (List.mem_cons_of_mem _ h')) ?_
      obtain ⟨x, y, hb⟩ := hb
      have R := hr r List.mem_cons_self
      obtain ⟨s1, e1⟩ := (mul_finzero R.d (!t)).1
      obtain ⟨s2, e2⟩ := (mul_finzero R.clm s1).2
      obtain ⟨s3, e3⟩ := (mul_finzero R.rl s2).1
      obtain ⟨s4, e4⟩ := (mul_finzero R.phi s3).2
      have e5 : PyFloat.div (fin s4 0) (fin u a) = fin (s4 != u) 0 := by
        simp [PyFloat.div, ha, ofMag_zero]
      have hua : ∃ s, PyFloat.mul (PyFloat.mul r.rl r.theta) r.dphi = fin s 0 := by
        rcases R.pole with ⟨s, e⟩ | ⟨s, e⟩
        · rw [e]; exact (mul_finzero R.rltheta s).1
        · obtain ⟨s6, e6⟩ := (mul_finzero R.clm s).2
          obtain ⟨s7, e7⟩ := (mul_finzero R.rl s6).1
          unfold PPoint.theta
          rw [e, e6, e7]
          exact (mul_finzero R.dphi s7).2
      obtain ⟨s8, e8⟩ := hua
      dsimp only
      refine ⟨x && !(s4 != u), y && !false, ?_⟩
      rw [hb]
      dsimp only
      rw [e8]
      simp only [PPoint.dtheta, PyFloat.neg, e1, e2, e3, e4, e5, PyFloat.sub, add_zeros, neZero, ne_eq, not_true,
        decide_false, Bool.false_eq_true, if_false]
  exact key rows _ h ⟨false, false, rfl⟩

/-- The cartesian field of the exact model. -/
noncomputable def Spec.cartesianOf (s : Coefs ℂ) (r0 rss : ℝ) (x : E3) : Fin 3 → ℝ :=
  match Pfss.evalCartesian s (x 0) (x 1) (x 2) r0 rss with
  | .ok (_, v) => v
  | _ => 0

open Topology Filter in
/-- **C106**: in exact arithmetic there is nothing singular about the axis: the cartesian field has a limit at every point
of the axis between the star and the source surface. -/
theorem C106_limit (s : Coefs ℂ) (h : Spec.RadialSet s) (r0 rss : ℝ) (h0 : 0 < r0) (h1 : r0 < rss) (x : E3)
    (hx0 : r0 < ‖x‖) (hx1 : ‖x‖ < rss) :
    ∃ B : Fin 3 → ℝ, Tendsto (Spec.cartesianOf s r0 rss) (𝓝[{y | Spec.OffPoleLine y}] x) (𝓝 B) := by
  obtain ⟨V, hV, -, hf⟩ := C98_potential s h r0 rss h0 h1
  refine ⟨fun i => -fderiv ℝ V x (EuclideanSpace.single i 1), tendsto_pi_nhds.2 fun i => ?_⟩
  have hc : ContinuousAt (fderiv ℝ V) x := ((hV x ⟨hx0.le, hx1.le⟩).1.fderiv_right (m := 1) (by norm_num)).continuousAt
  have hc' : Tendsto (fun y => -fderiv ℝ V y (EuclideanSpace.single i 1)) (𝓝[{y | Spec.OffPoleLine y}] x)
      (𝓝 (-fderiv ℝ V x (EuclideanSpace.single i 1))) :=
    ((hc.clm_apply continuousAt_const).neg).tendsto.mono_left nhdsWithin_le_nhds
  refine hc'.congr' ?_
  have hn : ∀ᶠ y in 𝓝 x, r0 < ‖y‖ ∧ ‖y‖ < rss :=
    (continuousAt_id.norm.eventually (lt_mem_nhds hx0)).and (continuousAt_id.norm.eventually (gt_mem_nhds hx1))
  filter_upwards [hn.filter_mono nhdsWithin_le_nhds, self_mem_nhdsWithin] with y hy ho
  obtain ⟨f, v, e, hv⟩ := hf y hy.1.le hy.2.le ho
  simp only [Spec.cartesianOf, e]
  exact (hv i).symm

/-! ### Non-vacuity -/

/-- A tilted dipole at the north pole: the values of the two rows at azimuth 0. -/
private def exPoleZ : List ZPoint :=
  [⟨1, 0, (fin false 1, fin false 0), fin false (1 / 2), fin false 1, (fin false 1, fin false 0)⟩,
   ⟨1, 1, (fin false 2, fin false 0), fin false (1 / 4), fin true 0, (fin false 1, fin false 0)⟩]

example : azimuthal (fin false 0) exPoleZ (fin false 0) = nan :=
  (C106_zdi_nan false exPoleZ ⟨_, List.mem_cons_self, .inl rfl⟩ _).2.2.1

private theorem exPoleZ_fin : ∀ r ∈ exPoleZ, Spec.TameRow r := by
  have h1 : ofInt 1 = fin false 1 := by
    have := ofMag_of_le (neg := false) (q := 1) (by norm_num) (IsDouble.le_max isDouble_one)
    simpa [ofInt, fl0_of_isDouble isDouble_one] using this
  have d2 : IsDouble (1 / 2) := ⟨1, -1, by norm_num, by norm_num, by norm_num, by norm_num⟩
  have m : ∀ (s t : Bool) {x y : ℚ}, IsDouble (x * y) → PyFloat.mul (fin s x) (fin t y) = fin (s != t) (x * y) := by
    intro s t x y h
    simp only [PyFloat.mul]
    rw [ofMag_of_le h.nonneg h.le_max, fl0_of_isDouble h]
  have z : ∀ (s t : Bool) (x : ℚ), PyFloat.mul (fin s x) (fin t 0) = fin (s != t) 0 := by
    intro s t x; simp [PyFloat.mul, ofMag_zero]
  have z' : ∀ (s t : Bool) (x : ℚ), PyFloat.mul (fin t 0) (fin s x) = fin (t != s) 0 := by
    intro s t x; simp [PyFloat.mul, ofMag_zero]
  have a0 : ∀ (s t : Bool) {x : ℚ}, IsDouble x → 0 < x → PyFloat.add (fin s x) (fin t 0) = fin s x := by
    intro s t x h hx
    exact add_zero_eq (x := fin s x) t h (by intro e; injection e with _ e; exact hx.ne' e)
  have d22 : IsDouble (1 * (1 / 2)) := by norm_num; simpa using d2
  have d24 : IsDouble (2 * (1 / 4)) := by norm_num; simpa using d2
  intro r hr
  simp only [exPoleZ, List.mem_cons, List.not_mem_nil, or_false] at hr
  rcases hr with rfl | rfl
  · have e1 : cmul (fin false 1, fin false 0) (fin false (1 / 2), fin false 0) = (fin false (1 * (1 / 2)), fin false 0) := by
      simp only [cmul, m false false d22, z, z', PyFloat.neg, a0 _ _ d22 (by norm_num), add_zeros]
      rfl
    have e2 : cmul (fin false (1 * (1 / 2)), fin false 0) (fin false 1, fin false 0)
        = (fin false (1 * (1 / 2) * 1), fin false 0) := by
      have d : IsDouble (1 * (1 / 2) * 1) := by norm_num; simpa using d2
      simp only [cmul, m false false d, z, z', PyFloat.neg, a0 _ _ d (by norm_num), add_zeros]
      rfl
    have d : IsDouble (1 * (1 / 2) * 1 * 1) := by norm_num; simpa using d2
    have e3 : cmul (fin false (1 * (1 / 2) * 1), fin false 0) (fin false 0, fin false 1)
        = (fin false 0, fin false (1 * (1 / 2) * 1 * 1)) := by
      simp only [cmul, m false false d, z, z', PyFloat.neg, a0 _ _ d (by norm_num), add_zeros]
      rfl
    exact ⟨.inl rfl, by rw [e1]; exact ⟨rfl, rfl⟩, by rw [e1, e2, e3]; exact ⟨rfl, rfl⟩, ⟨rfl, rfl⟩,
      by rw [ofInt_zero]; rfl, by norm_num⟩
  · have e1 : cmul (fin false 2, fin false 0) (fin false (1 / 4), fin false 0) = (fin false (2 * (1 / 4)), fin false 0) := by
      simp only [cmul, m false false d24, z, z', PyFloat.neg, a0 _ _ d24 (by norm_num), add_zeros]
      rfl
    have hz : IsZero (cmul (cmul (fin false (2 * (1 / 4)), fin false 0) (fin true 0, fin false 0)) (fin false 0, fin false 1)) :=
      (IsZero.mul_left ⟨_, _, rfl⟩ rfl rfl).mul_right rfl rfl
    obtain ⟨x, y, hz⟩ := hz
    exact ⟨.inr ⟨_, rfl⟩, by rw [e1]; exact ⟨rfl, rfl⟩, by rw [e1, hz]; exact ⟨rfl, rfl⟩, ⟨rfl, rfl⟩,
      by rw [h1]; rfl, by norm_num⟩

/-- `np.sin(np.pi) = 4967757600021511 * 2**-105`. -/
example : ∃ s, azimuthalPoloidal (fin false (4967757600021511 * 2 ^ (-105 : ℤ))) exPoleZ = fin s 0 :=
  (C106_zdi_south _ ⟨4967757600021511, -105, by norm_num, by norm_num, by norm_num, by norm_num⟩ (by
    calc (2 : ℚ) ^ (-1000 : ℤ) ≤ 2 ^ (-105 : ℤ) := zpow_le_zpow_right₀ (by norm_num) (by norm_num)
      _ ≤ _ := by
        have : (0 : ℚ) < 2 ^ (-105 : ℤ) := by positivity
        nlinarith) exPoleZ exPoleZ_fin).1

/-- An order 1 coefficient above the north pole. -/
private def exAxisP : List PPoint :=
  [⟨1, fin false (1 / 4), fin true 1, fin true 0, inf false, fin true 1, fin false 3, fin false 0⟩]

example : cartesian (fin false 0) (fin false 1) (fin false 0) (fin false 1) (loop (fin false 2) (fin false 0) exAxisP)
    = (nan, nan, nan) :=
  (C106_pfss_nan (fin false 2) (fin false 1) (fin false 0) (fin false 1) (fin false 1) false exAxisP
    ⟨_, List.mem_cons_self, false, rfl⟩).2.2 _ (.inl rfl)

example : ∃ x y, (loop (fin false 2) (fin false 0)
    [⟨2, fin false 3, fin true 1, fin false 0, fin false 3, fin false 1, fin false 5, fin false 7⟩]).2 = (fin x 0, fin y 0) := by
  refine C106_pfss_zero false _ false 2 (by norm_num) fun r hr => ?_
  rw [List.mem_singleton] at hr
  subst hr
  have e1 : PyFloat.mul (fin false 0) (fin false 1) = fin false 0 := by simp [PyFloat.mul, ofMag_zero]
  have e2 : PyFloat.mul (fin false 3) (fin false 0) = fin false 0 := by simp [PyFloat.mul, ofMag_zero]
  exact ⟨rfl, rfl, rfl, rfl, rfl, by simp [PPoint.theta, e1, isFin], by simp [PPoint.theta, e1, e2, isFin], .inr ⟨_, rfl⟩⟩

private noncomputable def exLean : Coefs ℂ := ⟨[0], .cplx, [((1, 0), [1]), ((1, 1), [1])], 1, 0⟩

open Topology Filter in
/-- The tilted dipole has a limit halfway up the axis. -/
example : ∃ B : Fin 3 → ℝ, Tendsto (Spec.cartesianOf exLean 1 3)
    (𝓝[{y | Spec.OffPoleLine y}] (EuclideanSpace.single 2 2 : E3)) (𝓝 B) := by
  have hw : exLean.WF := by
    refine Spec.Reach.WF (Spec.Reach.append (s := ⟨[0], .cplx, [((1, 0), [1])], 1, 0⟩) (.int 1) (.int 1) [1] ?_ rfl)
    refine Spec.Reach.append (s := Coefs.new [0] .cplx) (.int 1) (.int 0) [1] ?_ rfl
    exact Spec.Reach.new _ _ (by simp)
  have hr : Spec.RadialSet exLean := by
    refine ⟨wellFormed_of_WF hw, rfl, ⟨1, 0, rfl⟩, fun l m hm => ?_⟩
    rw [Spec.stores, Coefs.has_int] at hm
    simp [exLean, Coefs.keys] at hm
    omega
  refine C106_limit exLean hr 1 3 one_pos (by norm_num) _ ?_ ?_ <;> rw [EuclideanSpace.norm_single] <;> norm_num

end Verif
