import Verif.Lemmas.Degrees
import Verif.Props.Pfss
import Verif.Props.Zdi

/-!
# Properties C70, C71: rotating the coefficients rotates the field as a vector
-/

namespace Verif
open Spec Coefs Rotate Wigner Converter Quaternion Pfss Transport Degrees

namespace Equivariance

/-- The potential of a converted set, at the mirrored azimuth. -/
noncomputable def pot (q : Coefs ℂ) (r0 rss r θ φ : ℝ) : ℝ :=
  ∑ k ∈ pairs q, ((rL k.1 r r0 rss).1 * tv θ k) * (phiLm k.2 (coef q k.1 k.2).re (coef q k.1 k.2).im (-φ)).1

theorem diff2_pot (q : Coefs ℂ) (r0 rss : ℝ) {r θ : ℝ} (hr : r ≠ 0) (hθ : OffAxis θ) (φ : ℝ) :
    Diff2 (pot q r0 rss r) θ φ (-r * fP q r0 rss r θ (-φ)) (r * Real.sin θ * fA q r0 rss r θ (-φ)) := by
  have hs : 0 < Real.sin θ := Real.sin_pos_of_pos_of_lt_pi hθ.1 hθ.2
  have hp : ∀ k : Key, HasDerivAt (fun x => (phiLm k.2 (coef q k.1 k.2).re (coef q k.1 k.2).im (-x)).1)
      (-(phiLm k.2 (coef q k.1 k.2).re (coef q k.1 k.2).im (-φ)).2) φ := by
    intro k
    have := (C33_azimuth k.2 (coef q k.1 k.2).re (coef q k.1 k.2).im (-φ)).comp φ (hasDerivAt_neg φ)
    refine this.congr_deriv ?_
    ring
  have := diff2_sum (pairs q) fun k _ =>
    diff2_prod ((hasDerivAt_tv k hs).const_mul (rL k.1 r r0 rss).1) (hp k)
  convert this using 1
  · rfl
  · rw [fP, Finset.mul_sum]
    refine Finset.sum_congr rfl fun k _ => ?_
    field_simp
  · rw [fA, Finset.mul_sum]
    refine Finset.sum_congr rfl fun k _ => ?_
    field_simp

/-- Radial field and potential of a converted set, degree by degree. -/
theorem by_degrees {s q : Coefs ℂ} (hs : Operand .cplx 1 s) (hr : RadialSet s) (hq : zdiToPfss s = .ok q) {L : ℤ}
    (hL : s.degreeMax ≤ L) (r0 rss r θ φ : ℝ) :
    fR q r0 rss r θ (-φ) = ∑ l ∈ Finset.Icc 0 L, -(rL l r r0 rss).2 * degField 0 s l θ φ ∧
    pot q r0 rss r θ φ = ∑ l ∈ Finset.Icc 0 L, (rL l r r0 rss).1 * degField 0 s l θ φ := by
  obtain ⟨q', hq', _, _, hp, hv⟩ := converted (Or.inr rfl) hs hr
  rw [hq] at hq'; cases hq'
  rw [← sum_degrees hs 0 hL, ← sum_degrees hs 0 hL, fR, pot, hp]
  constructor <;> refine Finset.sum_congr rfl fun k hk => ?_
  · have := hv k hk θ (-φ)
    rw [neg_neg, coef_eq_coefCol s] at this
    rw [← this]; ring
  · have := hv k hk θ (-φ)
    rw [neg_neg, coef_eq_coefCol s] at this
    rw [← this]; ring

/-- If one set is another one after a rotation, degree by degree, then so are the extrapolated fields. -/
theorem extrapolated {R : ℍ[ℝ]} (hR : R * star R = 1) (hR' : star R * R = 1) {u s p q : Coefs ℂ}
    (hu : Operand .cplx 1 u) (ru : RadialSet u) (hs : Operand .cplx 1 s) (rs : RadialSet s)
    (hp : zdiToPfss u = .ok p) (hq : zdiToPfss s = .ok q)
    (hd : ∀ l θ φ θ' φ', 0 ≤ Real.sin θ → 0 ≤ Real.sin θ' → Moves R θ φ θ' φ' → degField 0 u l θ φ = degField 0 s l θ' φ')
    {r0 rss r θ φ θ' φ' : ℝ} (hr : r ≠ 0) (hθ : OffAxis θ) (hθ' : OffAxis θ') (hM : Moves R θ φ θ' φ') :
    fR p r0 rss r θ (-φ) = fR q r0 rss r θ' (-φ') ∧
    R * sphQ θ φ 0 (fP p r0 rss r θ (-φ)) (-fA p r0 rss r θ (-φ)) * star R
      = sphQ θ' φ' 0 (fP q r0 rss r θ' (-φ')) (-fA q r0 rss r θ' (-φ')) := by
  have s1 : 0 < Real.sin θ := Real.sin_pos_of_pos_of_lt_pi hθ.1 hθ.2
  have s2 : 0 < Real.sin θ' := Real.sin_pos_of_pos_of_lt_pi hθ'.1 hθ'.2
  have b1 := fun θ φ => by_degrees hu ru hp (le_max_left u.degreeMax s.degreeMax) r0 rss r θ φ
  have b2 := fun θ φ => by_degrees hs rs hq (le_max_right u.degreeMax s.degreeMax) r0 rss r θ φ
  refine ⟨?_, ?_⟩
  · rw [(b1 θ φ).1, (b2 θ' φ').1]
    exact Finset.sum_congr rfl fun l _ => by rw [hd l _ _ _ _ s1.le s2.le hM]
  · have hfg : ∀ θ φ θ' φ', 0 ≤ Real.sin θ → 0 ≤ Real.sin θ' → Moves R θ φ θ' φ' →
        pot p r0 rss r θ φ = pot q r0 rss r θ' φ' := by
      intro θ φ θ' φ' h1 h2 h3
      rw [(b1 θ φ).2, (b2 θ' φ').2]
      exact Finset.sum_congr rfl fun l _ => by rw [hd l _ _ _ _ h1 h2 h3]
    have d1 := diff2_pot p r0 rss hr hθ φ
    have g := gradient hR hR' hfg hθ hθ' hM (diff2_pot q r0 rss hr hθ' φ') d1.polar d1.azimuth
    have e : ∀ (x : Coefs ℂ) (θ φ : ℝ), 0 < Real.sin θ → sphQ θ φ 0 (fP x r0 rss r θ (-φ)) (-fA x r0 rss r θ (-φ))
        = (-r)⁻¹ • sphQ θ φ 0 (-r * fP x r0 rss r θ (-φ)) (r * Real.sin θ * fA x r0 rss r θ (-φ) / Real.sin θ) := by
      intro x θ φ h
      rw [← sphQ_smul]
      congr 1
      · ring
      · field_simp
      · field_simp
    rw [e p θ φ s1, e q θ' φ' s2, conj_smul, g]

theorem normSq_sphQ (θ φ br bp ba : ℝ) : normSq (sphQ θ φ br bp ba) = br ^ 2 + bp ^ 2 + ba ^ 2 := by
  rw [normSq_def']
  simp [sphQ, thQ, phQ]
  have u := Real.sin_sq_add_cos_sq θ
  have v := Real.sin_sq_add_cos_sq φ
  linear_combination (br ^ 2 + bp ^ 2) * u + ((br * Real.sin θ + bp * Real.cos θ) ^ 2 + ba ^ 2) * v

end Equivariance

open Equivariance

/-- **C70.** Extrapolating the rotated set gives the rotated extrapolation, as a vector: at any distance the field at a
point is carried by the rotation to the field of the original at the image of the point. (The extrapolation has its
azimuth mirrored against that of the harmonics, hence the signs.) -/
theorem C70_extrapolation (α β γ : ℝ) (s : Coefs ℂ) (hs : Operand .cplx 1 s) (hr : RadialSet s) :
    ∃ t u p q, rotateEuler s α β γ = .ok t ∧ mapToPositiveOrders t = .ok u ∧ zdiToPfss u = .ok p ∧ zdiToPfss s = .ok q ∧
      ∀ r0 rss r θ φ θ' φ', 0 < r0 → r0 < rss → OffAxis θ → OffAxis θ' → Moves (zyz α β γ) θ (-φ) θ' (-φ') →
        ∃ br bp ba bp' ba', evalSpherical p r θ φ r0 rss = .ok (br, bp, ba) ∧
          evalSpherical q r θ' φ' r0 rss = .ok (br, bp', ba') ∧
          zyz α β γ * sphQ θ (-φ) br bp (-ba) * star (zyz α β γ) = sphQ θ' (-φ') br bp' (-ba') := by
  obtain ⟨t, u, _, _, ht, hu, ru, _, _, _⟩ := C69_folded α β γ s hs hr.nonempty
  have ot := operand_of_rotate hs ht
  obtain ⟨u', hu', ou, _⟩ := C25_fold .cplx (Or.inr rfl) t ot
  rw [hu] at hu'; cases hu'
  obtain ⟨p, hp, op, rp, _⟩ := converted (Or.inr rfl) ou ru
  obtain ⟨q, hq, oq, rq, _⟩ := converted (Or.inr rfl) hs hr
  refine ⟨t, u, p, q, ht, hu, hp, hq, fun r0 rss r θ φ θ' φ' h0 h1 hθ hθ' hM => ?_⟩
  have hR := fromEuler_unit (rad α) (rad β) (rad γ)
  have hR' := fromEuler_unit' (rad α) (rad β) (rad γ)
  rw [fromEuler_rad] at hR hR'
  have hd : ∀ l θ φ θ' φ', 0 ≤ Real.sin θ → 0 ≤ Real.sin θ' → Moves (zyz α β γ) θ φ θ' φ' →
      degField 0 u l θ φ = degField 0 s l θ' φ' := by
    intro l θ φ θ' φ' h1 h2 h3
    rw [← fromEuler_rad] at h3
    rw [fold_deg (Or.inr rfl) ot hu, rotate_deg ⟨_, fromEuler_mem _ _ _⟩ hs ht 0 l h1 h2 h3]
  have key : ∀ x : ℝ, x ≠ 0 → fR p r0 rss x θ φ = fR q r0 rss x θ' φ' ∧
      zyz α β γ * sphQ θ (-φ) 0 (fP p r0 rss x θ φ) (-fA p r0 rss x θ φ) * star (zyz α β γ)
        = sphQ θ' (-φ') 0 (fP q r0 rss x θ' φ') (-fA q r0 rss x θ' φ') := by
    intro x hx
    have := extrapolated hR hR' ou ru hs hr hp hq hd (r0 := r0) (rss := rss) hx hθ hθ' hM
    simpa only [neg_neg] using this
  rw [evalSpherical_eq rp h1, evalSpherical_eq rq h1]
  by_cases c1 : r < r0
  · simp only [if_pos c1]
    exact ⟨0, 0, 0, 0, 0, rfl, rfl, rotate_sphQ hM (by simp [sphQ, zsmul0])⟩
  · simp only [if_neg c1]
    by_cases c2 : rss < r
    · simp only [if_pos c2]
      obtain ⟨k1, k2⟩ := key rss (by linarith)
      refine ⟨_, _, _, _, _, rfl, by rw [k1], rotate_sphQ hM ?_⟩
      have e : ∀ θ φ a b, sphQ θ φ 0 (a * (rss / r) ^ 2) (-(b * (rss / r) ^ 2)) = (rss / r) ^ 2 • sphQ θ φ 0 a (-b) := by
        intro θ φ a b
        rw [← sphQ_smul]
        congr 1 <;> ring
      rw [e, e, conj_smul, k2]
    · simp only [if_neg c2]
      obtain ⟨k1, k2⟩ := key r (by linarith)
      exact ⟨_, _, _, _, _, rfl, by rw [k1], rotate_sphQ hM k2⟩

/-- **C70.** In particular the strength of the extrapolated field moves with the rotation. -/
theorem C70_strength (α β γ : ℝ) (s : Coefs ℂ) (hs : Operand .cplx 1 s) (hr : RadialSet s) :
    ∃ t u p q, rotateEuler s α β γ = .ok t ∧ mapToPositiveOrders t = .ok u ∧ zdiToPfss u = .ok p ∧ zdiToPfss s = .ok q ∧
      ∀ r0 rss r θ φ θ' φ', 0 < r0 → r0 < rss → OffAxis θ → OffAxis θ' → Moves (zyz α β γ) θ (-φ) θ' (-φ') →
        ∃ br bp ba br' bp' ba', evalSpherical p r θ φ r0 rss = .ok (br, bp, ba) ∧
          evalSpherical q r θ' φ' r0 rss = .ok (br', bp', ba') ∧
          br ^ 2 + bp ^ 2 + ba ^ 2 = br' ^ 2 + bp' ^ 2 + ba' ^ 2 := by
  obtain ⟨t, u, p, q, h1, h2, h3, h4, h⟩ := C70_extrapolation α β γ s hs hr
  refine ⟨t, u, p, q, h1, h2, h3, h4, fun r0 rss r θ φ θ' φ' a1 a2 a3 a4 a5 => ?_⟩
  obtain ⟨br, bp, ba, bp', ba', e1, e2, e3⟩ := h r0 rss r θ φ θ' φ' a1 a2 a3 a4 a5
  refine ⟨br, bp, ba, br, bp', ba', e1, e2, ?_⟩
  have hR := fromEuler_unit (rad α) (rad β) (rad γ)
  rw [fromEuler_rad] at hR
  have n1 : normSq (zyz α β γ) * normSq (zyz α β γ) = 1 := by
    have := congrArg normSq hR
    rwa [map_mul, normSq_star, map_one] at this
  have := congrArg normSq e3
  rw [map_mul, map_mul, normSq_star, normSq_sphQ, normSq_sphQ] at this
  linear_combination this + (-(br ^ 2 + bp ^ 2 + (-ba) ^ 2)) * n1

namespace Equivariance

theorem cartQ (θ φ r p a : ℝ) :
    vecQ (toCartesian θ φ r p a 0) (toCartesian θ φ r p a 1) (toCartesian θ φ r p a 2) = sphQ θ φ r p a := by
  ext <;> simp [toCartesian, sphToRectMatrix, Matrix.mulVec, dotProduct, Fin.sum_univ_three, sphQ, thQ, phQ] <;> ring

theorem cartQ_mirror (θ φ r p a : ℝ) :
    vecQ (toCartesian θ φ r p a 0) (-toCartesian θ φ r p a 1) (toCartesian θ φ r p a 2) = sphQ θ (-φ) r p (-a) := by
  ext <;> simp [toCartesian, sphToRectMatrix, Matrix.mulVec, dotProduct, Fin.sum_univ_three, sphQ, thQ, phQ] <;> ring

/-- Spherical coordinates of a point off the axis. -/
theorem off_axis {x y z : ℝ} (h : 0 < x ^ 2 + y ^ 2) : 0 < (sphericalFromRect x y z).1 ∧
    OffAxis (sphericalFromRect x y z).2.1 ∧
    vecQ x (-y) z = (sphericalFromRect x y z).1 • dirQ (sphericalFromRect x y z).2.1 (-(sphericalFromRect x y z).2.2) := by
  have e := C35_rect_of_spherical x y z
  have hr := C35_radius x y z
  obtain ⟨r0, t0, t1, _⟩ := C35_ranges x y z
  set r := (sphericalFromRect x y z).1
  set θ := (sphericalFromRect x y z).2.1
  set φ := (sphericalFromRect x y z).2.2
  simp only [rectFromSpherical, Prod.mk.injEq] at e
  obtain ⟨e1, e2, e3⟩ := e
  have hpos : 0 < r := by
    rcases r0.lt_or_eq with h' | h'
    · exact h'
    · rw [← h'] at hr; nlinarith [sq_nonneg z]
  have hsin : Real.sin θ ≠ 0 := by
    intro h0
    rw [h0] at e1 e2
    simp only [mul_zero, zero_mul] at e1 e2
    rw [← e1, ← e2] at h
    simp at h
  refine ⟨hpos, ⟨lt_of_le_of_ne t0 fun h0 => hsin (by rw [← h0, Real.sin_zero]),
    lt_of_le_of_ne t1 fun h0 => hsin (by rw [h0, Real.sin_pi])⟩, ?_⟩
  ext
  · simp
  · simp [← e1]; ring
  · simp [← e2]; ring
  · simp [← e3]

end Equivariance

/-- **C70.** The same with `evaluate_cartesian`, in terms of points and vectors of space. -/
theorem C70_cartesian (α β γ : ℝ) (s : Coefs ℂ) (hs : Operand .cplx 1 s) (hr : RadialSet s) :
    ∃ t u p q, rotateEuler s α β γ = .ok t ∧ mapToPositiveOrders t = .ok u ∧ zdiToPfss u = .ok p ∧ zdiToPfss s = .ok q ∧
      ∀ r0 rss x y z x' y' z', 0 < r0 → r0 < rss → 0 < x ^ 2 + y ^ 2 → 0 < x' ^ 2 + y' ^ 2 →
        zyz α β γ * vecQ x (-y) z * star (zyz α β γ) = vecQ x' (-y') z' →
        ∃ b v b' v', evalCartesian p x y z r0 rss = .ok (b, v) ∧ evalCartesian q x' y' z' r0 rss = .ok (b', v') ∧
          b.1 = b'.1 ∧
          zyz α β γ * vecQ (v 0) (-v 1) (v 2) * star (zyz α β γ) = vecQ (v' 0) (-v' 1) (v' 2) := by
  obtain ⟨t, u, p, q, h1, h2, h3, h4, h⟩ := C70_extrapolation α β γ s hs hr
  refine ⟨t, u, p, q, h1, h2, h3, h4, fun r0 rss x y z x' y' z' a1 a2 a3 a4 a5 => ?_⟩
  obtain ⟨r1, o1, e1⟩ := off_axis (z := z) a3
  obtain ⟨r2, o2, e2⟩ := off_axis (z := z') a4
  have hR := fromEuler_unit (rad α) (rad β) (rad γ)
  rw [fromEuler_rad] at hR
  have hrr : (sphericalFromRect x y z).1 = (sphericalFromRect x' y' z').1 := by
    have n1 : normSq (zyz α β γ) * normSq (zyz α β γ) = 1 := by
      have := congrArg normSq hR
      rwa [map_mul, normSq_star, map_one] at this
    have := congrArg normSq a5
    rw [map_mul, map_mul, normSq_star, normSq_def' (vecQ x (-y) z), normSq_def' (vecQ x' (-y') z')] at this
    simp only [vecQ_re, vecQ_imI, vecQ_imJ, vecQ_imK] at this
    have q1 := C35_radius x y z
    have q2 := C35_radius x' y' z'
    have : (sphericalFromRect x y z).1 ^ 2 = (sphericalFromRect x' y' z').1 ^ 2 := by
      rw [q1, q2]; linear_combination this - (x ^ 2 + y ^ 2 + z ^ 2) * n1
    exact (sq_eq_sq₀ r1.le r2.le).1 this
  have hM : Moves (zyz α β γ) (sphericalFromRect x y z).2.1 (-(sphericalFromRect x y z).2.2)
      (sphericalFromRect x' y' z').2.1 (-(sphericalFromRect x' y' z').2.2) := by
    rw [e1, e2, conj_smul, hrr] at a5
    have := congrArg (fun v => (sphericalFromRect x' y' z').1⁻¹ • v) a5
    rw [Moves]
    simpa only [smul_smul, inv_mul_cancel₀ r2.ne', one_smul] using this
  obtain ⟨br, bp, ba, bp', ba', f1, f2, f3⟩ := h r0 rss (sphericalFromRect x y z).1 _ _ _ _ a1 a2 o1 o2 hM
  rw [hrr] at f2
  refine ⟨(br, bp, ba), toCartesian (sphericalFromRect x y z).2.1 (sphericalFromRect x y z).2.2 br bp ba, (br, bp', ba'),
    toCartesian (sphericalFromRect x' y' z').2.1 (sphericalFromRect x' y' z').2.2 br bp' ba', ?_, ?_, rfl, ?_⟩
  · rw [evalCartesian, resAssert, if_pos a2]
    simp only [bind, Except.bind, f1]
    rfl
  · rw [evalCartesian, resAssert, if_pos a2]
    simp only [bind, Except.bind, f2]
    rfl
  · rw [cartQ_mirror, cartQ_mirror]
    exact f3

/-! ## C71 -/

namespace Equivariance
open Zdi Legendre

/-- Stacking three sets of one column. -/
theorem stack3 {a b g : Coefs ℂ} (oa : Operand .cplx 1 a) (ob : Operand .cplx 1 b) (og : Operand .cplx 1 g)
    {ks : List Key} (hk : IsSetIter ks ([a, b, g].flatMap Coefs.keys)) :
    ∃ u, hstack ks [a, b, g] = .ok u ∧ Operand .cplx 3 u ∧ (∀ l m, stores u l m ↔ stores a l m ∨ stores b l m ∨ stores g l m) ∧
      ∀ l m, coefCol 0 u l m = coefCol 0 a l m ∧ coefCol 1 u l m = coefCol 0 b l m ∧ coefCol 2 u l m = coefCol 0 g l m := by
  have hw : ∀ t ∈ [a, b, g], t.WF := by
    intro t ht
    simp only [List.mem_cons, List.not_mem_nil, or_false] at ht
    rcases ht with rfl | rfl | rfl
    exacts [oa.reach.WF, ob.reach.WF, og.reach.WF]
  obtain ⟨u, eu, wu, ku, du, tu, gu⟩ := hstack_spec hw hk
  have ou : Operand .cplx 3 u := by
    refine ⟨Reach.hstack ks [a, b, g] ?_ hk eu, ?_, ?_, ?_⟩
    · intro t ht
      simp only [List.mem_cons, List.not_mem_nil, or_false] at ht
      rcases ht with rfl | rfl | rfl
      exacts [oa.reach, ob.reach, og.reach]
    · intro x hx
      rw [du] at hx
      simp only [List.flatMap_cons, List.flatMap_nil, List.append_nil, List.mem_append] at hx
      rcases hx with hx | hx | hx
      exacts [oa.zero x hx, ob.zero x hx, og.zero x hx]
    · rw [tu]
      simp only [List.foldl_cons, List.foldl_nil, oa.dtype, ob.dtype, og.dtype]
      rfl
    · rw [du]; simp [oa.cols, ob.cols, og.cols]
  refine ⟨u, eu, ou, fun l m => ?_, fun l m => ?_⟩
  · simp only [stores, has_int]
    rw [ku, hk.2]
    simp
  · have h1 : ∀ {x : Coefs ℂ}, Operand .cplx 1 x → valueAt x l m = [coefCol 0 x l m] := by
      intro x hx
      have := hx.len l m
      obtain ⟨c, hc⟩ := List.length_eq_one_iff.1 this
      rw [coefCol, hc]; rfl
    have := gu (l, m)
    rw [← valueAt_eq] at this
    simp only [List.flatMap_cons, List.flatMap_nil, List.append_nil, ← valueAt_eq, h1 oa, h1 ob, h1 og] at this
    refine ⟨?_, ?_, ?_⟩ <;> rw [coefCol, this] <;> rfl

/-- The surface potential of one column of a ZDI set. -/
noncomputable def zpot (i : ℕ) (s : Coefs ℂ) (θ φ : ℝ) : ℝ :=
  ∑ k ∈ pairs s, (cLm k.1 k.2 / (k.1 + 1) * thP k.1.toNat k.2.toNat θ) * (coefCol i s k.1 k.2 * expi k.2 φ).re

/-- Its derivatives. -/
noncomputable def zdT (i : ℕ) (s : Coefs ℂ) (θ φ : ℝ) : ℝ :=
  ∑ k ∈ pairs s, (cLm k.1 k.2 / (k.1 + 1) * thD k.1.toNat k.2.toNat θ) * (coefCol i s k.1 k.2 * expi k.2 φ).re
noncomputable def zdF (i : ℕ) (s : Coefs ℂ) (θ φ : ℝ) : ℝ :=
  ∑ k ∈ pairs s, (cLm k.1 k.2 / (k.1 + 1) * thP k.1.toNat k.2.toNat θ)
    * (coefCol i s k.1 k.2 * (Complex.I * k.2 * expi k.2 φ)).re

theorem diff2_zpot (i : ℕ) (s : Coefs ℂ) (θ φ : ℝ) : Diff2 (zpot i s) θ φ (zdT i s θ φ) (zdF i s θ φ) :=
  diff2_sum (pairs s) fun k _ => diff2_prod ((hasDerivAt_thP k.1.toNat k.2.toNat θ).const_mul (cLm k.1 k.2 / (k.1 + 1)))
    (hasDerivAt_re ((hasDerivAt_expi k.2 φ).const_mul (coefCol i s k.1 k.2)))

theorem zpot_degrees {d : DType} {n : ℕ} {s : Coefs ℂ} (h : Operand d n s) (ho : ∀ l m : ℤ, stores s l m → 0 ≤ m)
    (i : ℕ) {L : ℤ} (hL : s.degreeMax ≤ L) {θ : ℝ} (hθ : 0 ≤ Real.sin θ) (φ : ℝ) :
    zpot i s θ φ = ∑ l ∈ Finset.Icc 0 L, (1 / ((l : ℝ) + 1)) * degField i s l θ φ := by
  rw [← sum_degrees h i hL (fun l => 1 / ((l : ℝ) + 1)), zpot]
  refine Finset.sum_congr rfl fun k hk => ?_
  rw [mem_pairs] at hk
  have h0 := ho _ _ hk
  rw [stores, has_int] at hk
  have h1 := h.reach.WF.valid _ hk
  have h2 := (abs_le.1 h1).2
  rw [sphY_eq h1, lpmv_nonneg h0 h2, legendreP_cos _ _ hθ,
    show coefCol i s k.1 k.2 * ((cLm k.1 k.2 : ℂ) * (thP k.1.toNat k.2.toNat θ : ℂ) * expi k.2 φ)
      = ((cLm k.1 k.2 * thP k.1.toNat k.2.toNat θ : ℝ) : ℂ) * (coefCol i s k.1 k.2 * expi k.2 φ) by push_cast; ring,
    Complex.re_ofReal_mul]
  ring

theorem harm_re {s : Coefs ℂ} (h : ZdiSet s) (i : ℕ) (sel : ZRow → ℂ) (hsel : ∀ k, sel (zrow s k) = coefCol i s k.1 k.2)
    (p : ℕ → ℕ → ℝ → ℝ) (θ φ : ℝ) :
    (harm (fun r => sel r * cLm r.l r.m / (r.l + 1)) p (s.rowKeys.map (zrow s)) θ φ).re
      = ∑ k ∈ pairs s, (cLm k.1 k.2 / (k.1 + 1) * p k.1.toNat k.2.toNat θ) * (coefCol i s k.1 k.2 * expi k.2 φ).re ∧
    (harm (fun r => Complex.I * r.m * (sel r * cLm r.l r.m / (r.l + 1))) p (s.rowKeys.map (zrow s)) θ φ).re
      = ∑ k ∈ pairs s, (cLm k.1 k.2 / (k.1 + 1) * p k.1.toNat k.2.toNat θ)
        * (coefCol i s k.1 k.2 * (Complex.I * k.2 * expi k.2 φ)).re := by
  constructor <;> rw [harm, sum_rows h, Complex.re_sum] <;> refine Finset.sum_congr rfl fun k _ => ?_ <;>
    rw [hsel, ← Complex.re_ofReal_mul] <;> congr 1 <;> simp only [zrow] <;> push_cast <;> ring

/-- The tangential components of a ZDI magnetogram in terms of its two surface potentials. -/
theorem components {s : Coefs ℂ} (h : ZdiSet s) (ho : ∀ l m : ℤ, stores s l m → 0 ≤ m) {θ : ℝ} (hs : 0 < Real.sin θ)
    (φ : ℝ) : polar (s.rowKeys.map (zrow s)) θ φ = .ok (-zdT 1 s θ φ + zdF 2 s θ φ / Real.sin θ) ∧
      azimuthal (s.rowKeys.map (zrow s)) θ φ = .ok (-(zdF 1 s θ φ / Real.sin θ) + -zdT 2 s θ φ) := by
  have hn := h.nonnegOrders ho
  have e1 := harm_re h 1 (fun r => r.b) (fun _ => rfl)
  have e2 := harm_re h 2 (fun r => r.g) (fun _ => rfl)
  constructor
  · rw [polar, polarPoloidal_eq hn hs, polarToroidal_eq hn.2 hs.le, (e1 thD θ φ).1, (e2 thP θ φ).2]
    rfl
  · rw [azimuthal, azimuthalToroidal_eq hn hs, azimuthalPoloidal_eq hn.2 hs.le, (e1 thP θ φ).2, (e2 thD θ φ).1]
    rfl

theorem quarter_turn (θ φ a b : ℝ) : sphQ θ φ 0 b (-a) = -(dirQ θ φ * sphQ θ φ 0 a b) := by
  have u := Real.sin_sq_add_cos_sq θ
  have v := Real.sin_sq_add_cos_sq φ
  ext <;> simp [sphQ, thQ, phQ]
  · linear_combination (-a * Real.sin θ * Real.cos θ) * v
  · linear_combination (-a * Real.sin φ) * u
  · linear_combination (a * Real.cos φ) * u
  · linear_combination (b * Real.sin θ) * v

/-- Two ZDI sets that differ by a rotation degree by degree have fields that differ by the rotation. -/
theorem zdi_field {R : ℍ[ℝ]} (hR : R * star R = 1) (hR' : star R * R = 1) {n : ℕ} {u s : Coefs ℂ}
    (hu : Operand .cplx n u) (zu : ZdiSet u) (ou : ∀ l m : ℤ, stores u l m → 0 ≤ m)
    (hs : Operand .cplx n s) (zs : ZdiSet s) (os : ∀ l m : ℤ, stores s l m → 0 ≤ m)
    (hd : ∀ (i : ℕ) (l : ℤ) (θ φ θ' φ' : ℝ), i < 3 → 0 ≤ Real.sin θ → 0 ≤ Real.sin θ' → Moves R θ φ θ' φ' →
      degField i u l θ φ = degField i s l θ' φ')
    {θ φ θ' φ' : ℝ} (hθ : OffAxis θ) (hθ' : OffAxis θ') (hM : Moves R θ φ θ' φ') :
    ∃ v w, cartesian (u.rowKeys.map (zrow u)) θ φ = .ok v ∧ cartesian (s.rowKeys.map (zrow s)) θ' φ' = .ok w ∧
      R * vecQ (v 0) (v 1) (v 2) * star R = vecQ (w 0) (w 1) (w 2) := by
  have s1 : 0 < Real.sin θ := Real.sin_pos_of_pos_of_lt_pi hθ.1 hθ.2
  have s2 : 0 < Real.sin θ' := Real.sin_pos_of_pos_of_lt_pi hθ'.1 hθ'.2
  obtain ⟨p1, a1⟩ := components zu ou s1 φ
  obtain ⟨p2, a2⟩ := components zs os s2 φ'
  have hrad : radial (u.rowKeys.map (zrow u)) θ φ = radial (s.rowKeys.map (zrow s)) θ' φ' := by
    rw [C25_radial_is_surfaceField u zu _ zu.fromCoefficients, C25_radial_is_surfaceField s zs _ zs.fromCoefficients,
      surfaceField, surfaceField, Complex.re_sum, Complex.re_sum]
    have q1 := sum_degrees hu 0 (le_max_left u.degreeMax s.degreeMax) (fun _ => 1) θ φ
    have q2 := sum_degrees hs 0 (le_max_right u.degreeMax s.degreeMax) (fun _ => 1) θ' φ'
    simp only [one_mul] at q1 q2
    simp only [coef_eq_coefCol]
    rw [q1, q2]
    exact Finset.sum_congr rfl fun l _ => hd 0 l _ _ _ _ (by norm_num) s1.le s2.le hM
  have hg : ∀ i < 3, R * sphQ θ φ 0 (zdT i u θ φ) (zdF i u θ φ / Real.sin θ) * star R
      = sphQ θ' φ' 0 (zdT i s θ' φ') (zdF i s θ' φ' / Real.sin θ') := by
    intro i hi
    refine gradient hR hR' (f := zpot i s) (g := zpot i u) ?_ hθ hθ' hM (diff2_zpot i s θ' φ') (diff2_zpot i u θ φ).polar
      (diff2_zpot i u θ φ).azimuth
    intro x y x' y' h1 h2 h3
    rw [zpot_degrees hu ou i (le_max_left u.degreeMax s.degreeMax) h1,
      zpot_degrees hs os i (le_max_right u.degreeMax s.degreeMax) h2]
    exact Finset.sum_congr rfl fun l _ => by rw [hd i l _ _ _ _ hi h1 h2 h3]
  refine ⟨_, _, by rw [cartesian, p1, a1]; rfl, by rw [cartesian, p2, a2]; rfl, ?_⟩
  rw [cartQ, cartQ, hrad]
  refine rotate_sphQ hM ?_
  have e : ∀ θ φ a b c d, sphQ θ φ 0 (-a + d) (-b + -c) = -sphQ θ φ 0 a b - dirQ θ φ * sphQ θ φ 0 c d := by
    intro θ φ a b c d
    rw [sub_eq_add_neg, ← quarter_turn]
    ext <;> simp [sphQ] <;> ring
  have l : ∀ n x y : ℍ[ℝ], R * (-x - n * y) * star R = -(R * x * star R) - (R * n * star R) * (R * y * star R) := by
    intro n x y
    have : R * n * star R * (R * y * star R) = R * (n * y) * star R := by
      calc _ = R * n * (star R * R) * y * star R := by simp only [mul_assoc]
        _ = _ := by rw [hR', mul_one]; simp only [mul_assoc]
    have hn : R * -x * star R = -(R * x * star R) := by ext <;> simp <;> ring
    rw [this, mul_sub, sub_mul, hn]
  have hM' : R * dirQ θ φ * star R = dirQ θ' φ' := hM
  rw [e, e, l, hg 1 (by norm_num), hg 2 (by norm_num), hM']

end Equivariance

/-- **C71.** For a ZDI set of three columns: rotate, split, fold every column to positive orders, stack. The cartesian
surface field of the result at a point is carried by the rotation to the field of the original at the image of the
point. -/
theorem C71_zdi (α β γ : ℝ) (s : Coefs ℂ) (hs : Operand .cplx 3 s) (hne : ∃ l m, stores s l m)
    (ho : ∀ l m : ℤ, stores s l m → 0 ≤ m) :
    ∃ t a b g a' b' g', rotateEuler s α β γ = .ok t ∧ hsplit t = .ok [a, b, g] ∧ mapToPositiveOrders a = .ok a' ∧
      mapToPositiveOrders b = .ok b' ∧ mapToPositiveOrders g = .ok g' ∧
      ∀ ks, IsSetIter ks ([a', b', g'].flatMap Coefs.keys) →
        ∃ u z z', hstack ks [a', b', g'] = .ok u ∧ Zdi.fromCoefficients s = .ok z ∧ Zdi.fromCoefficients u = .ok z' ∧
          ∀ θ φ θ' φ', OffAxis θ → OffAxis θ' → Moves (zyz α β γ) θ φ θ' φ' →
            ∃ v w, Zdi.cartesian z' θ φ = .ok v ∧ Zdi.cartesian z θ' φ' = .ok w ∧
              zyz α β γ * vecQ (v 0) (v 1) (v 2) * star (zyz α β γ) = vecQ (w 0) (w 1) (w 2) := by
  obtain ⟨t, ht, _⟩ := rotate_spec hs.reach.WF hs.dtype (wignerD (fromEuler (rad α) (rad β) (rad γ)))
  have ot := operand_of_rotate hs ht
  obtain ⟨w, d, _, dm, st, _⟩ := values_zero hs ht
  have h3 : Holds t (stores t) (fun l m => [coefCol 0 t l m, coefCol 1 t l m, coefCol 2 t l m]) := by
    refine ⟨fun _ _ => Iff.rfl, fun l m => ?_⟩
    obtain ⟨x, y, z, e⟩ := List.length_eq_three.1 (ot.len l m)
    simp only [coefCol, e]
    rfl
  obtain ⟨a, b, g, es, oa, ob, og, ha, hb, hg⟩ := split3 ot h3
  obtain ⟨a', ea, oa', sa, _⟩ := fold_spec (Or.inr rfl) oa
  obtain ⟨b', eb, ob', sb, _⟩ := fold_spec (Or.inr rfl) ob
  obtain ⟨g', eg, og', sg, _⟩ := fold_spec (Or.inr rfl) og
  refine ⟨t, a, b, g, a', b', g', ht, es, ea, eb, eg, fun ks hk => ?_⟩
  obtain ⟨u, eu, ou, su, vu⟩ := stack3 oa' ob' og' hk
  have zs : ZdiSet s := ⟨wellFormed_of_WF hs.reach.WF, Or.inr (Or.inr hs.cols), hne⟩
  obtain ⟨l, m, hlm⟩ := hne
  have hlm' := hlm
  rw [stores, has_int] at hlm'
  have hv := hs.reach.WF.valid _ hlm'
  have hta : stores a l m := (ha.has l m).2 ((st l m).2 ⟨hv, hs.reach.WF.degUpper _ hlm'⟩)
  have hl0 : 0 ≤ l := (abs_nonneg _).trans hv
  have zu : ZdiSet u := ⟨wellFormed_of_WF ou.reach.WF, Or.inr (Or.inr ou.cols), l, 0,
    (su l 0).2 (Or.inl ((sa l 0).2 ⟨le_rfl, hl0, degree_le oa hta⟩))⟩
  have ou' : ∀ l m : ℤ, stores u l m → 0 ≤ m := by
    intro l m h
    rcases (su l m).1 h with h | h | h
    exacts [((sa l m).1 h).1, ((sb l m).1 h).1, ((sg l m).1 h).1]
  refine ⟨u, _, _, eu, zs.fromCoefficients, zu.fromCoefficients, fun θ φ θ' φ' hθ hθ' hM => ?_⟩
  have hR := fromEuler_unit (rad α) (rad β) (rad γ)
  have hR' := fromEuler_unit' (rad α) (rad β) (rad γ)
  rw [fromEuler_rad] at hR hR'
  refine zdi_field hR hR' ou zu ou' hs zs ho ?_ hθ hθ' hM
  intro i l θ φ θ' φ' hi h1 h2 h3
  rw [← fromEuler_rad] at h3
  rw [← rotate_deg ⟨_, fromEuler_mem _ _ _⟩ hs ht i l h1 h2 h3]
  have key : ∀ {x x' : Coefs ℂ}, Operand .cplx 1 x → mapToPositiveOrders x = .ok x' →
      (∀ l m, coefCol i u l m = coefCol 0 x' l m) → (∀ l m, valueAt x l m = [coefCol i t l m]) →
      degField i u l θ φ = degField i t l θ φ := by
    intro x x' ox ex c1 c2
    have q1 : degField i u l θ φ = degField 0 x' l θ φ := by simp only [degField, c1]
    have q2 : degField 0 x l θ φ = degField i t l θ φ := by
      have : ∀ l m, coefCol 0 x l m = coefCol i t l m := fun l m => by rw [coefCol, c2]; rfl
      simp only [degField, this]
    rw [q1, fold_deg (Or.inr rfl) ox ex, q2]
  have hi' : i = 0 ∨ i = 1 ∨ i = 2 := by omega
  rcases hi' with rfl | rfl | rfl
  exacts [key oa ea (fun l m => (vu l m).1) ha.val, key ob eb (fun l m => (vu l m).2.1) hb.val,
    key og eg (fun l m => (vu l m).2.2) hg.val]

/-- A set of three columns, all three fields present. -/
private noncomputable def exThree : Coefs ℂ := ⟨[0, 0, 0], .cplx, [((1, 0), [1, 2, 3])], 1, 0⟩
private noncomputable def exOne : Coefs ℂ := ⟨[0], .cplx, [((1, 0), [1])], 1, 0⟩

private theorem exThree_operand : Operand .cplx 3 exThree := by
  refine ⟨?_, by simp [exThree, ZeroDefault], rfl, rfl⟩
  refine Reach.append (s := Coefs.new [0, 0, 0] .cplx) (.int 1) (.int 0) [1, 2, 3] ?_ rfl
  exact Reach.new _ _ (by simp)

private theorem exOne_operand : Operand .cplx 1 exOne := by
  refine ⟨?_, by simp [exOne, ZeroDefault], rfl, rfl⟩
  refine Reach.append (s := Coefs.new [0] .cplx) (.int 1) (.int 0) [1] ?_ rfl
  exact Reach.new _ _ (by simp)

private theorem moves_eighth : Moves (zyz 0 90 0) (Real.pi / 4) 0 (3 * Real.pi / 4) 0 := by
  have h := fun θ => fromEuler_axis θ 0
  have r : rad 90 = Real.pi / 2 := by rw [rad]; ring
  have r0 : rad 0 = 0 := by rw [rad, zero_mul]
  have e : fromEuler 0 (Real.pi / 2) 0 * fromEuler 0 (Real.pi / 4) 0 = fromEuler 0 (3 * Real.pi / 4) 0 := by
    have c : 3 * Real.pi / 4 / 2 = Real.pi / 2 / 2 + Real.pi / 4 / 2 := by ring
    ext <;> simp [c, Real.cos_add, Real.sin_add] <;> ring
  rw [← fromEuler_rad, r, r0, Moves, ← h (Real.pi / 4), ← h (3 * Real.pi / 4), ← e, star_mul]
  simp only [mul_assoc]

/-- Non-vacuity of C70 and C71: sets meeting the hypotheses, and two points off the axis with one moved to the other. -/
example : Operand .cplx 1 exOne ∧ RadialSet exOne ∧ Operand .cplx 3 exThree ∧ (∃ l m, stores exThree l m) ∧
    (∀ l m : ℤ, stores exThree l m → 0 ≤ m) ∧ OffAxis (Real.pi / 4) ∧ OffAxis (3 * Real.pi / 4) ∧
    Moves (zyz 0 90 0) (Real.pi / 4) 0 (3 * Real.pi / 4) 0 := by
  have hp := Real.pi_pos
  have k1 : ∀ l m : ℤ, stores exOne l m → 0 ≤ m := by
    intro l m h
    simp [stores, has_int, Coefs.keys, exOne] at h
    omega
  have k3 : ∀ l m : ℤ, stores exThree l m → 0 ≤ m := by
    intro l m h
    simp [stores, has_int, Coefs.keys, exThree] at h
    omega
  refine ⟨exOne_operand, ⟨wellFormed_of_WF exOne_operand.reach.WF, rfl, ⟨1, 0, ?_⟩, k1⟩, exThree_operand, ⟨1, 0, ?_⟩, k3,
    ⟨by positivity, by linarith⟩, ⟨by positivity, by linarith⟩, moves_eighth⟩
  · simp [stores, has_int, Coefs.keys, exOne]
  · simp [stores, has_int, Coefs.keys, exThree]

end Verif
