import Verif.Lemmas.ZdiSet
import Verif.Props.ContainerAlgebra
import Verif.Props.Zdi
import Verif.Props.Pfss

/-!
# Property C34: field evaluation is linear in the coefficients; C37 for the PFSS field
-/

namespace Verif
open Spec Legendre Coefs

/-! ## C37 for `evaluate_cartesian` -/

/-- **C37.** `evaluate_cartesian` returns the components of `evaluate_spherical` at the point; the cartesian vector
has the same length, and for points other than the origin its component along the position is the radial one. -/
theorem C37_pfss_cartesian (s : Coefs ℂ) (x y z r0 rss : ℝ) :
    let p := sphericalFromRect x y z
    (∀ e, Pfss.evalCartesian s x y z r0 rss = .error e ↔ Pfss.evalSpherical s p.1 p.2.1 p.2.2 r0 rss = .error e) ∧
    ∀ f v, Pfss.evalCartesian s x y z r0 rss = .ok (f, v) →
      Pfss.evalSpherical s p.1 p.2.1 p.2.2 r0 rss = .ok f ∧
      v 0 ^ 2 + v 1 ^ 2 + v 2 ^ 2 = f.1 ^ 2 + f.2.1 ^ 2 + f.2.2 ^ 2 ∧
      x * v 0 + y * v 1 + z * v 2 = Real.sqrt (x ^ 2 + y ^ 2 + z ^ 2) * f.1 := by
  intro p
  rw [Pfss.evalCartesian]
  by_cases h : r0 < rss
  · simp only [resAssert, if_pos h, bind, Except.bind, pure, Except.pure]
    rcases he : Pfss.evalSpherical s p.1 p.2.1 p.2.2 r0 rss with e | f
    · exact ⟨fun e' => by simp, fun f v hv => by simp at hv⟩
    · refine ⟨fun e' => by simp, fun f' v hv => ?_⟩
      simp only [Except.ok.injEq, Prod.mk.injEq] at hv
      obtain ⟨rfl, rfl⟩ := hv
      refine ⟨rfl, C37_norm _ _ _ _ _, ?_⟩
      have h1 := C37_radial_component p.2.1 p.2.2 f.1 f.2.1 f.2.2
      have h2 := C35_rect_of_spherical x y z
      have h3 := C35_radius x y z
      have h4 := (C35_ranges x y z).1
      have h5 : Real.sqrt (x ^ 2 + y ^ 2 + z ^ 2) = p.1 := by rw [← h3, Real.sqrt_sq h4]
      rw [h5]
      simp only [rectFromSpherical, Prod.mk.injEq, one_mul] at h1 h2
      obtain ⟨hx, hy, hz⟩ := h2
      change p.1 * Real.sin p.2.1 * Real.cos p.2.2 = x at hx
      change p.1 * Real.sin p.2.1 * Real.sin p.2.2 = y at hy
      change p.1 * Real.cos p.2.1 = z at hz
      change x * toCartesian p.2.1 p.2.2 f.1 f.2.1 f.2.2 0 + y * toCartesian p.2.1 p.2.2 f.1 f.2.1 f.2.2 1
        + z * toCartesian p.2.1 p.2.2 f.1 f.2.1 f.2.2 2 = p.1 * f.1
      linear_combination p.1 * h1 - toCartesian p.2.1 p.2.2 f.1 f.2.1 f.2.2 0 * hx
        - toCartesian p.2.1 p.2.2 f.1 f.2.1 f.2.2 1 * hy - toCartesian p.2.1 p.2.2 f.1 f.2.1 f.2.2 2 * hz
  · have e1 : Pfss.evalSpherical s p.1 p.2.1 p.2.2 r0 rss = .error .assertion :=
      C30_radii_order s r0 rss _ _ _ (not_lt.1 h)
    rw [e1, resAssert, if_neg h]
    simp only [bind, Except.bind, throw, throwThe, MonadExceptOf.throw]
    exact ⟨fun e => by simp, fun f v hv => by simp at hv⟩

/-! ## C34 -/

private theorem getD_zipWith_add (xs ys : List ℂ) (h : xs.length = ys.length) (i : ℕ) :
    (List.zipWith (· + ·) xs ys).getD i 0 = xs.getD i 0 + ys.getD i 0 := by
  simp only [List.getD_eq_getElem?_getD, List.getElem?_zipWith]
  by_cases hi : i < xs.length
  · simp [List.getElem?_eq_getElem hi, List.getElem?_eq_getElem (h ▸ hi)]
  · simp [List.getElem?_eq_none (not_lt.1 hi), List.getElem?_eq_none (h ▸ not_lt.1 hi)]

private theorem getD_map_mul (xs : List ℂ) (x : ℂ) (i : ℕ) : (xs.map (· * x)).getD i 0 = xs.getD i 0 * x := by
  simp only [List.getD_eq_getElem?_getD, List.getElem?_map]
  rcases xs[i]? with _ | c <;> simp

/-- `c = x a + y b` computed with the operations of the package. -/
structure LinComb (d : DType) (n : ℕ) (a b c : Coefs ℂ) (x y : ℝ) : Prop where
  floating : d ≠ .bool
  left : Operand d n a
  right : Operand d n b
  scalarLeft : Elem.cast d (x : ℂ) = x
  scalarRight : Elem.cast d (y : ℂ) = y
  result : ∃ a' b' ks, mulScalar a (x : ℂ) = .ok a' ∧ mulScalar b (y : ℂ) = .ok b' ∧
    IsSetIter ks (a'.keys ++ b'.keys) ∧ add ks a' b' = .ok c

private theorem LinComb.spec {d : DType} {n : ℕ} {a b c : Coefs ℂ} {x y : ℝ} (h : LinComb d n a b c x y) :
    Operand d n c ∧ (∀ l m, stores c l m ↔ stores a l m ∨ stores b l m) ∧
    ∀ i l m, coefCol i c l m = x * coefCol i a l m + y * coefCol i b l m := by
  obtain ⟨a', b', ks, e1, e2, hk, e3⟩ := h.result
  obtain ⟨_, e, oa, ha⟩ := C10_mulScalar_pointwise h.left x h.scalarLeft; rw [e1] at e; cases e
  obtain ⟨_, e, ob, hb⟩ := C10_mulScalar_pointwise h.right y h.scalarRight; rw [e2] at e; cases e
  obtain ⟨_, e, oc, hc⟩ := C08_add_pointwise h.floating oa ob hk; rw [e3] at e; cases e
  refine ⟨oc, fun l m => by rw [hc.has, ha.has, hb.has], fun i l m => ?_⟩
  have la : (valueAt a' l m).length = n := by
    rw [valueAt_eq, oa.reach.WF.getI_length, oa.cols]
  have lb : (valueAt b' l m).length = n := by
    rw [valueAt_eq, ob.reach.WF.getI_length, ob.cols]
  rw [coefCol, hc.val, getD_zipWith_add _ _ (la.trans lb.symm), ha.val, hb.val, getD_map_mul, getD_map_mul,
    coefCol, coefCol]
  ring

/-- Real-linear dependence on a complex number. -/
private def RealLinear {β : Type} [AddCommGroup β] [Module ℝ β] (f : ℂ → β) : Prop :=
  ∀ (x y : ℝ) (c d : ℂ), f (x * c + y * d) = x • f c + y • f d

private theorem LinComb.sum {β : Type} [AddCommGroup β] [Module ℝ β] {d : DType} {n : ℕ} {a b c : Coefs ℂ} {x y : ℝ}
    (h : LinComb d n a b c x y) (i : ℕ) (g : ℤ × ℤ → ℂ → β) (hg : ∀ k, RealLinear (g k)) :
    ∑ k ∈ pairs c, g k (coefCol i c k.1 k.2)
      = x • ∑ k ∈ pairs a, g k (coefCol i a k.1 k.2) + y • ∑ k ∈ pairs b, g k (coefCol i b k.1 k.2) := by
  obtain ⟨oc, hs, hv⟩ := h.spec
  have h0 : ∀ k, g k 0 = 0 := fun k => by simpa using hg k 0 0 0 0
  have h1 : pairs a ⊆ pairs c := fun k hk => (mem_pairs c k).2 ((hs _ _).2 (Or.inl ((mem_pairs a k).1 hk)))
  have h2 : pairs b ⊆ pairs c := fun k hk => (mem_pairs c k).2 ((hs _ _).2 (Or.inr ((mem_pairs b k).1 hk)))
  rw [sum_pairs_extend h.left.reach.WF h.left.zero i h1 g h0,
    sum_pairs_extend h.right.reach.WF h.right.zero i h2 g h0,
    Finset.smul_sum, Finset.smul_sum, ← Finset.sum_add_distrib]
  exact Finset.sum_congr rfl fun k _ => by rw [hv, hg]

private theorem LinComb.radialSet {d : DType} {a b c : Coefs ℂ} {x y : ℝ} (h : LinComb d 1 a b c x y)
    (ha : RadialSet a) (hb : RadialSet b) : RadialSet c := by
  obtain ⟨oc, hs, _⟩ := h.spec
  obtain ⟨l, m, hlm⟩ := ha.nonempty
  refine ⟨wellFormed_of_WF oc.reach.WF, oc.cols, ⟨l, m, (hs l m).2 (Or.inl hlm)⟩, fun l m hm => ?_⟩
  rcases (hs l m).1 hm with h' | h'
  · exact ha.orders l m h'
  · exact hb.orders l m h'

private theorem LinComb.pfss {d : DType} {a b c : Coefs ℂ} {x y : ℝ} (h : LinComb d 1 a b c x y) (r0 rss r θ φ : ℝ) :
    Pfss.fR c r0 rss r θ φ = x * Pfss.fR a r0 rss r θ φ + y * Pfss.fR b r0 rss r θ φ ∧
    Pfss.fP c r0 rss r θ φ = x * Pfss.fP a r0 rss r θ φ + y * Pfss.fP b r0 rss r θ φ ∧
    Pfss.fA c r0 rss r θ φ = x * Pfss.fA a r0 rss r θ φ + y * Pfss.fA b r0 rss r θ φ := by
  simp only [Pfss.fR, Pfss.fP, Pfss.fA, coef_eq_coefCol]
  refine ⟨h.sum 0 (fun k v => -((Pfss.rL k.1 r r0 rss).2 * Pfss.tv θ k * (Pfss.phiLm k.2 v.re v.im φ).1)) ?_,
    h.sum 0 (fun k v => -((Pfss.rL k.1 r r0 rss).1 * Pfss.td θ k * (Pfss.phiLm k.2 v.re v.im φ).1 / r)) ?_,
    h.sum 0 (fun k v => -((Pfss.rL k.1 r r0 rss).1 * Pfss.tv θ k * (Pfss.phiLm k.2 v.re v.im φ).2
      / (r * Real.sin θ))) ?_⟩ <;>
  · intro k p q c d
    simp only [Pfss.phiLm, Complex.add_re, Complex.add_im, Complex.re_ofReal_mul, Complex.im_ofReal_mul, smul_eq_mul]
    ring

/-- **C34.** The PFSS field of `x a + y b` is `x` times that of `a` plus `y` times that of `b`, at every point and
for all radii (and is refused for all three sets or for none). -/
theorem C34_pfss (d : DType) (a b c : Coefs ℂ) (x y : ℝ) (h : LinComb d 1 a b c x y) (ha : RadialSet a)
    (hb : RadialSet b) (r0 rss r θ φ : ℝ) :
    Pfss.evalSpherical c r θ φ r0 rss = (do
      let p ← Pfss.evalSpherical a r θ φ r0 rss
      let q ← Pfss.evalSpherical b r θ φ r0 rss
      pure (x * p.1 + y * q.1, x * p.2.1 + y * q.2.1, x * p.2.2 + y * q.2.2)) := by
  by_cases h1 : r0 < rss
  · have hR := fun r => (h.pfss r0 rss r θ φ).1
    have hP := fun r => (h.pfss r0 rss r θ φ).2.1
    have hA := fun r => (h.pfss r0 rss r θ φ).2.2
    rw [Pfss.evalSpherical_eq (h.radialSet ha hb) h1, Pfss.evalSpherical_eq ha h1, Pfss.evalSpherical_eq hb h1]
    simp only [bind, Except.bind, pure, Except.pure]
    congr 1
    split_ifs
    · simp
    · rw [hR, hP, hA]
      refine Prod.ext ?_ (Prod.ext ?_ ?_) <;> dsimp only <;> ring
    · rw [hR, hP, hA]
  · have h1 := not_lt.1 h1
    rw [C30_radii_order _ _ _ _ _ _ h1, C30_radii_order _ _ _ _ _ _ h1]
    rfl

private theorem LinComb.zdiSet {d : DType} {n : ℕ} {a b c : Coefs ℂ} {x y : ℝ} (h : LinComb d n a b c x y)
    (ha : ZdiSet a) : ZdiSet c := by
  obtain ⟨oc, hs, _⟩ := h.spec
  obtain ⟨l, m, hlm⟩ := ha.nonempty
  refine ⟨wellFormed_of_WF oc.reach.WF, ?_, ⟨l, m, (hs l m).2 (Or.inl hlm)⟩⟩
  rw [oc.cols, ← h.left.cols]; exact ha.cols

private theorem LinComb.orders {d : DType} {n : ℕ} {a b c : Coefs ℂ} {x y : ℝ} (h : LinComb d n a b c x y)
    (ha : ∀ l m : ℤ, stores a l m → 0 ≤ m) (hb : ∀ l m : ℤ, stores b l m → 0 ≤ m) (l m : ℤ) (hc : stores c l m) :
    0 ≤ m := by
  rcases (h.spec.2.1 l m).1 hc with h' | h'
  · exact ha l m h'
  · exact hb l m h'

private theorem re_lin (x y : ℝ) (u v w : ℂ) (h : u = x • v + y • w) : u.re = x * v.re + y * w.re := by
  rw [h]; simp

/-- **C34.** The ZDI radial field of `x a + y b` is `x` times that of `a` plus `y` times that of `b`, at every point
and for all orders. -/
theorem C34_zdi_radial (d : DType) (n : ℕ) (a b c : Coefs ℂ) (x y : ℝ) (h : LinComb d n a b c x y) (ha : ZdiSet a)
    (hb : ZdiSet b) (za zb zc : Zdi) (ea : Zdi.fromCoefficients a = .ok za) (eb : Zdi.fromCoefficients b = .ok zb)
    (ec : Zdi.fromCoefficients c = .ok zc) (θ φ : ℝ) :
    Zdi.radial zc θ φ = x * Zdi.radial za θ φ + y * Zdi.radial zb θ φ := by
  rw [ha.eq_rows ea, hb.eq_rows eb, (h.zdiSet ha).eq_rows ec]
  simp only [Zdi.radial, Zdi.radialToroidal, Zdi.radialPoloidal, Zdi.sum_rows ha, Zdi.sum_rows hb,
    Zdi.sum_rows (h.zdiSet ha), Complex.zero_re, add_zero]
  refine re_lin _ _ _ _ _ (h.sum 0 (fun k v => v * cLm k.1 k.2 * lpmv k.2 k.1 (Real.cos θ) * Zdi.expi k.2 φ) ?_)
  intro k p q c d
  simp only [Complex.real_smul]; ring

private theorem harm_sum {s : Coefs ℂ} (h : ZdiSet s) (w : ZRow → ℂ) (p : ℕ → ℕ → ℝ → ℝ) (θ φ : ℝ) :
    Zdi.harm w p (s.rowKeys.map (zrow s)) θ φ
      = ∑ k ∈ pairs s, w (zrow s k) * (p k.1.toNat k.2.toNat θ : ℝ) * Zdi.expi k.2 φ := by
  rw [Zdi.harm, Zdi.sum_rows h]; rfl

/-- **C34.** For non-negative orders and away from the poles the polar and azimuthal ZDI fields are linear too.
Missing from the full statement: negative orders, where it is false (`C34_negative_orders_fail`), and the poles,
where the code divides by zero. -/
theorem C34_zdi_tangential_partial (d : DType) (n : ℕ) (a b c : Coefs ℂ) (x y : ℝ) (h : LinComb d n a b c x y)
    (ha : ZdiSet a) (hb : ZdiSet b) (oa : ∀ l m : ℤ, stores a l m → 0 ≤ m) (ob : ∀ l m : ℤ, stores b l m → 0 ≤ m)
    (za zb zc : Zdi) (ea : Zdi.fromCoefficients a = .ok za) (eb : Zdi.fromCoefficients b = .ok zb)
    (ec : Zdi.fromCoefficients c = .ok zc) (θ φ : ℝ) (hθ : OffAxis θ) :
    ∃ pa pb aa ab, Zdi.polar za θ φ = .ok pa ∧ Zdi.polar zb θ φ = .ok pb ∧
      Zdi.polar zc θ φ = .ok (x * pa + y * pb) ∧
      Zdi.azimuthal za θ φ = .ok aa ∧ Zdi.azimuthal zb θ φ = .ok ab ∧
      Zdi.azimuthal zc θ φ = .ok (x * aa + y * ab) := by
  have hs : 0 < Real.sin θ := Real.sin_pos_of_pos_of_lt_pi hθ.1 hθ.2
  have hc := h.zdiSet ha
  rw [ha.eq_rows ea, hb.eq_rows eb, hc.eq_rows ec]
  have na := ha.nonnegOrders oa
  have nb := hb.nonnegOrders ob
  have nc := hc.nonnegOrders (h.orders oa ob)
  have hp : ∀ z, NonnegOrders z → Zdi.polar z θ φ = .ok (-(Zdi.harm (fun r => r.b * cLm r.l r.m / (r.l + 1)) thD z θ φ).re
      + (Zdi.harm (fun r => Complex.I * r.m * (r.g * cLm r.l r.m / (r.l + 1))) thP z θ φ).re / Real.sin θ) := by
    intro z hz
    rw [Zdi.polar, Zdi.polarPoloidal_eq hz hs, Zdi.polarToroidal_eq hz.2 hs.le]; rfl
  have haz : ∀ z, NonnegOrders z → Zdi.azimuthal z θ φ
      = .ok (-((Zdi.harm (fun r => Complex.I * r.m * (r.b * cLm r.l r.m / (r.l + 1))) thP z θ φ).re / Real.sin θ)
      + -(Zdi.harm (fun r => r.g * cLm r.l r.m / (r.l + 1)) thD z θ φ).re) := by
    intro z hz
    rw [Zdi.azimuthal, Zdi.azimuthalToroidal_eq hz hs, Zdi.azimuthalPoloidal_eq hz.2 hs.le]; rfl
  refine ⟨_, _, _, _, hp _ na, hp _ nb, ?_, haz _ na, haz _ nb, ?_⟩
  · rw [hp _ nc]
    simp only [harm_sum ha, harm_sum hb, harm_sum hc, zrow]
    have e1 := re_lin _ _ _ _ _ (h.sum 1 (fun k v => v * cLm k.1 k.2 / (k.1 + 1)
      * (thD k.1.toNat k.2.toNat θ : ℝ) * Zdi.expi k.2 φ) (by
        intro k p q c d; simp only [Complex.real_smul]; ring))
    have e2 := re_lin _ _ _ _ _ (h.sum 2 (fun k v => Complex.I * k.2 * (v * cLm k.1 k.2 / (k.1 + 1))
      * (thP k.1.toNat k.2.toNat θ : ℝ) * Zdi.expi k.2 φ) (by
        intro k p q c d; simp only [Complex.real_smul]; ring))
    rw [e1, e2]; congr 1; ring
  · rw [haz _ nc]
    simp only [harm_sum ha, harm_sum hb, harm_sum hc, zrow]
    have e1 := re_lin _ _ _ _ _ (h.sum 2 (fun k v => v * cLm k.1 k.2 / (k.1 + 1)
      * (thD k.1.toNat k.2.toNat θ : ℝ) * Zdi.expi k.2 φ) (by
        intro k p q c d; simp only [Complex.real_smul]; ring))
    have e2 := re_lin _ _ _ _ _ (h.sum 1 (fun k v => Complex.I * k.2 * (v * cLm k.1 k.2 / (k.1 + 1))
      * (thP k.1.toNat k.2.toNat θ : ℝ) * Zdi.expi k.2 φ) (by
        intro k p q c d; simp only [Complex.real_smul]; ring))
    rw [e1, e2]; congr 1; ring

/-! ### Negative orders: when the tangential fields are linear -/

/-- The column of the table that is looked up for order `m` when the highest order is `M`. -/
private def orderIx (M m : ℤ) : ℕ := if 0 ≤ m then m.toNat else (m + (M + 1)).toNat

private theorem mapM_guard {α β : Type} (p : α → Prop) [DecidablePred p] (f : α → β) (e : Err) (g : α → Res β) (l : List α)
    (hg : ∀ k ∈ l, g k = if p k then .ok (f k) else .error e) :
    l.mapM g = if ∀ k ∈ l, p k then .ok (l.map f) else .error e := by
  induction l with
  | nil => simp [pure, Except.pure]
  | cons k l ih =>
    rw [List.mapM_cons, ih fun k' hk' => hg k' (List.mem_cons_of_mem _ hk'), hg k List.mem_cons_self]
    by_cases h : p k
    · by_cases h' : ∀ k ∈ l, p k
      · rw [if_pos h, if_pos h', if_pos (by simpa [h] using h')]; rfl
      · rw [if_pos h, if_neg h', if_neg (by simpa [h] using h')]; rfl
    · rw [if_neg h, if_neg (show ¬ ∀ k' ∈ k :: l, p k' from fun h' => h (h' k List.mem_cons_self))]; rfl

/-- `M` is the highest order of the set. -/
private def TopOrder (s : Coefs ℂ) (M : ℤ) : Prop := (∃ l, stores s l M) ∧ ∀ l m, stores s l m → m ≤ M

private theorem topOrder_exists {s : Coefs ℂ} (h : ZdiSet s) : ∃ M, TopOrder s M := by
  obtain ⟨l, m, hlm⟩ := h.nonempty
  obtain ⟨k, hk, hmax⟩ := (pairs s).exists_max_image (fun k => k.2) ⟨(l, m), (mem_pairs s (l, m)).2 hlm⟩
  exact ⟨k.2, ⟨k.1, (mem_pairs s k).1 hk⟩, fun l m h => hmax (l, m) ((mem_pairs s (l, m)).2 h)⟩

private theorem mem_rows {s : Coefs ℂ} (h : ZdiSet s) (k : ℤ × ℤ) : k ∈ s.rowKeys ↔ stores s k.1 k.2 := by
  rw [mem_rowKeys h.WF, stores, has_int]

/-- What is looked up for a pair. -/
private noncomputable def looked (M : ℤ) (θ : ℝ) (k : ℤ × ℤ) : ℝ × ℝ :=
  (legendreP k.1.toNat (orderIx M k.2) (Real.cos θ), deriv (legendreP k.1.toNat (orderIx M k.2)) (Real.cos θ) * -Real.sin θ)

/-- Values looked up for the rows of a set, and the errors. -/
private theorem calc_rows {s : Coefs ℂ} (h : ZdiSet s) {M : ℤ} (hM : TopOrder s M) (θ : ℝ) :
    calcLpmn (Zdi.lm (s.rowKeys.map (zrow s))) θ
      = if M < 0 then .error .value else if ∀ k ∈ s.rowKeys, -(M + 1) ≤ k.2 then .ok (s.rowKeys.map (looked M θ))
        else .error .index := by
  have hlm : Zdi.lm (s.rowKeys.map (zrow s)) = s.rowKeys := by
    rw [Zdi.lm, List.map_map]
    exact (List.map_congr_left fun k _ => rfl).trans (List.map_id _)
  rw [hlm]
  have hin : ∀ k ∈ s.rowKeys, 0 ≤ k.1 ∧ k.2 ≤ k.1 := by
    intro k hk
    have h1 := h.WF.valid k ((mem_rowKeys h.WF k).1 hk)
    have := abs_le.1 h1
    omega
  have hne : s.rowKeys ≠ [] := by
    obtain ⟨l, m, h'⟩ := h.nonempty
    exact List.ne_nil_of_mem ((mem_rows h (l, m)).2 h')
  obtain ⟨L, hL, hLm, hLu⟩ := listMax_spec (xs := s.rowKeys.map Prod.fst) (by simpa using hne)
  obtain ⟨N, hN, hNm, hNu⟩ := listMax_spec (xs := s.rowKeys.map Prod.snd) (by simpa using hne)
  have hNM : N = M := by
    obtain ⟨⟨l, hl⟩, hup⟩ := hM
    obtain ⟨k, hk, rfl⟩ := List.mem_map.1 hNm
    exact le_antisymm (hup _ _ ((mem_rows h k).1 hk)) (hNu M (List.mem_map.2 ⟨(l, M), (mem_rows h (l, M)).2 hl, rfl⟩))
  subst hNM
  have hML : ¬ L < N := by
    obtain ⟨k, hk, rfl⟩ := List.mem_map.1 hNm
    exact not_lt.2 ((hin k hk).2.trans (hLu _ (List.mem_map.2 ⟨k, hk, rfl⟩)))
  rw [calcLpmn, hL, hN]
  simp only [hML, or_false]
  by_cases hN0 : N < 0
  · rw [if_pos hN0, if_pos hN0]
  rw [if_neg hN0, if_neg hN0]
  refine mapM_guard (fun k : ℤ × ℤ => -(N + 1) ≤ k.2) (looked N θ) .index _ _ fun k hk => ?_
  have h1 := hin k hk
  have h2 : k.1 ≤ L := hLu _ (List.mem_map.2 ⟨k, hk, rfl⟩)
  have h3 : k.2 ≤ N := hNu _ (List.mem_map.2 ⟨k, hk, rfl⟩)
  have hi : npIndex (L + 1) k.1 = .ok k.1.toNat := by
    rw [npIndex, if_pos ⟨h1.1, by omega⟩]
  by_cases hk0 : 0 ≤ k.2
  · have hj : npIndex (N + 1) k.2 = .ok (orderIx N k.2) := by
      rw [npIndex, if_pos ⟨hk0, by omega⟩, orderIx, if_pos hk0]
    rw [hi, hj, if_pos (by omega)]; rfl
  · by_cases hk1 : -(N + 1) ≤ k.2
    · have hj : npIndex (N + 1) k.2 = .ok (orderIx N k.2) := by
        rw [npIndex, if_neg (by omega), if_pos ⟨hk1, by omega⟩, orderIx, if_neg hk0]
      rw [hi, hj, if_pos hk1]; rfl
    · have hj : npIndex (N + 1) k.2 = .error .index := by
        rw [npIndex, if_neg (by omega), if_neg (by omega)]
      rw [hi, hj, if_neg hk1]; rfl

/-- The part of the tangential field that needs derivatives. -/
private theorem derivative_part {s : Coefs ℂ} (h : ZdiSet s) {M : ℤ} (hM : TopOrder s M) (i : ℕ) (v : ZRow → ℂ)
    (hv : ∀ k, v (zrow s k) = coefCol i s k.1 k.2) (θ φ : ℝ) :
    (do
      let pd ← calcLpmn (Zdi.lm (s.rowKeys.map (zrow s))) θ
      pure ((List.zipWith (fun r (p : ℝ × ℝ) => v r * cLm r.l r.m / (r.l + 1) * Zdi.expi r.m φ * (-p.2 : ℝ))
        (s.rowKeys.map (zrow s)) pd).sum).re : Res ℝ)
      = if M < 0 then .error .value else if ∀ k ∈ pairs s, -(M + 1) ≤ k.2 then
          .ok (∑ k ∈ pairs s, coefCol i s k.1 k.2 * cLm k.1 k.2 / (k.1 + 1) * Zdi.expi k.2 φ * (-(looked M θ k).2 : ℝ)).re
        else .error .index := by
  rw [calc_rows h hM]
  have hall : (∀ k ∈ s.rowKeys, -(M + 1) ≤ k.2) ↔ ∀ k ∈ pairs s, -(M + 1) ≤ k.2 :=
    forall_congr' fun k => by rw [mem_rows h, mem_pairs]
  by_cases hM0 : M < 0
  · rw [if_pos hM0, if_pos hM0]; rfl
  rw [if_neg hM0, if_neg hM0]
  by_cases hk : ∀ k ∈ pairs s, -(M + 1) ≤ k.2
  · rw [if_pos hk, if_pos (hall.2 hk)]
    show Except.ok _ = _
    rw [List.zipWith_map_left, List.zipWith_map_right, List.zipWith_self]
    have := Zdi.sum_rows h fun r => v r * cLm r.l r.m / (r.l + 1) * Zdi.expi r.m φ * (-(looked M θ (r.l, r.m)).2 : ℝ)
    rw [List.map_map] at this
    congr 2
    refine Eq.trans ?_ (this.trans (Finset.sum_congr rfl fun k _ => ?_))
    · rfl
    · rw [hv]; rfl
  · rw [if_neg hk, if_neg (fun h => hk (hall.1 h))]; rfl

/-- A set without negative orders, or with orders as high as those of the other set. -/
def OrdersCover (a b : Coefs ℂ) : Prop :=
  (∀ l m : ℤ, stores a l m → 0 ≤ m) ∨ ∀ l m : ℤ, stores b l m → ∃ l' m' : ℤ, stores a l' m' ∧ m ≤ m'

private theorem looked_congr {M M' : ℤ} {k : ℤ × ℤ} (h : 0 ≤ k.2 ∨ M = M') (θ : ℝ) : looked M θ k = looked M' θ k := by
  rcases h with h | rfl
  · simp only [looked, orderIx, if_pos h]
  · rfl

private theorem derivative_linear {d : DType} {n : ℕ} {a b c : Coefs ℂ} {x y : ℝ} (h : LinComb d n a b c x y)
    (ha : ZdiSet a) (hb : ZdiSet b) (hab : OrdersCover a b) (hba : OrdersCover b a) (i : ℕ) (v : ZRow → ℂ)
    (hv : ∀ s k, v (zrow s k) = coefCol i s k.1 k.2) (θ φ : ℝ) (F : Zdi → Res ℝ)
    (hF : ∀ z, F z = (do
      let pd ← calcLpmn z.lm θ
      pure ((List.zipWith (fun r (p : ℝ × ℝ) => v r * cLm r.l r.m / (r.l + 1) * Zdi.expi r.m φ * (-p.2 : ℝ)) z pd).sum).re)) :
    F (c.rowKeys.map (zrow c)) = (do
      let p ← F (a.rowKeys.map (zrow a))
      let q ← F (b.rowKeys.map (zrow b))
      pure (x * p + y * q)) := by
  have hc := h.zdiSet ha
  obtain ⟨oc, hs, hval⟩ := h.spec
  obtain ⟨A, hA⟩ := topOrder_exists ha
  obtain ⟨B, hB⟩ := topOrder_exists hb
  obtain ⟨C, hC⟩ := topOrder_exists hc
  rw [hF, hF, hF, derivative_part ha hA i v (hv a), derivative_part hb hB i v (hv b), derivative_part hc hC i v (hv c)]
  have hAC : A ≤ C := by obtain ⟨l, hl⟩ := hA.1; exact hC.2 l A ((hs l A).2 (.inl hl))
  have hBC : B ≤ C := by obtain ⟨l, hl⟩ := hB.1; exact hC.2 l B ((hs l B).2 (.inr hl))
  have hCm : C = A ∨ C = B := by
    obtain ⟨l, hl⟩ := hC.1
    rcases (hs l C).1 hl with h | h
    · exact .inl (le_antisymm (hA.2 l C h) hAC)
    · exact .inr (le_antisymm (hB.2 l C h) hBC)
  have cover : ∀ {s t : Coefs ℂ} {S T : ℤ}, TopOrder s S → TopOrder t T → OrdersCover s t →
      (∀ l m : ℤ, stores s l m → 0 ≤ m) ∨ T ≤ S := by
    rintro s t S T hS hT (h | h)
    · exact .inl h
    · obtain ⟨l, hl⟩ := hT.1
      obtain ⟨l', m', h1, h2⟩ := h l T hl
      exact .inr (h2.trans (hS.2 l' m' h1))
  have eA : (∀ l m : ℤ, stores a l m → 0 ≤ m) ∨ A = C := (cover hA hB hab).imp_right fun h => by omega
  have eB : (∀ l m : ℤ, stores b l m → 0 ≤ m) ∨ B = C := (cover hB hA hba).imp_right fun h => by omega
  have lower : ∀ {s : Coefs ℂ} {S : ℤ}, TopOrder s S → (∀ l m : ℤ, stores s l m → 0 ≤ m) ∨ S = C → (S < 0 ↔ C < 0 ∧ S = C) := by
    intro s S hS hcase
    rcases hcase with h | h
    · obtain ⟨l, hl⟩ := hS.1
      have := h l S hl
      constructor
      · intro; omega
      · rintro ⟨h1, h2⟩; omega
    · subst h; simp
  by_cases hC0 : C < 0
  · rw [if_pos hC0]
    have : A < 0 := by omega
    rw [if_pos this]; rfl
  · have hA0 : ¬ A < 0 := fun h => hC0 ((lower hA eA).1 h).1
    have hB0 : ¬ B < 0 := fun h => hC0 ((lower hB eB).1 h).1
    rw [if_neg hC0, if_neg hA0, if_neg hB0]
    have kA : (∀ k ∈ pairs a, -(A + 1) ≤ k.2) ↔ ∀ k ∈ pairs a, -(C + 1) ≤ k.2 := by
      rcases eA with h | h
      · exact ⟨fun _ k hk => by have := h k.1 k.2 ((mem_pairs a k).1 hk); omega,
          fun _ k hk => by have := h k.1 k.2 ((mem_pairs a k).1 hk); omega⟩
      · rw [h]
    have kB : (∀ k ∈ pairs b, -(B + 1) ≤ k.2) ↔ ∀ k ∈ pairs b, -(C + 1) ≤ k.2 := by
      rcases eB with h | h
      · exact ⟨fun _ k hk => by have := h k.1 k.2 ((mem_pairs b k).1 hk); omega,
          fun _ k hk => by have := h k.1 k.2 ((mem_pairs b k).1 hk); omega⟩
      · rw [h]
    have kC : (∀ k ∈ pairs c, -(C + 1) ≤ k.2) ↔ (∀ k ∈ pairs a, -(C + 1) ≤ k.2) ∧ ∀ k ∈ pairs b, -(C + 1) ≤ k.2 := by
      constructor
      · exact fun h => ⟨fun k hk => h k ((mem_pairs c k).2 ((hs _ _).2 (.inl ((mem_pairs a k).1 hk)))),
          fun k hk => h k ((mem_pairs c k).2 ((hs _ _).2 (.inr ((mem_pairs b k).1 hk))))⟩
      · rintro ⟨h1, h2⟩ k hk
        rcases (hs _ _).1 ((mem_pairs c k).1 hk) with h | h
        · exact h1 k ((mem_pairs a k).2 h)
        · exact h2 k ((mem_pairs b k).2 h)
    by_cases h1 : ∀ k ∈ pairs a, -(C + 1) ≤ k.2
    · by_cases h2 : ∀ k ∈ pairs b, -(C + 1) ≤ k.2
      · rw [if_pos (kC.2 ⟨h1, h2⟩), if_pos (kA.2 h1), if_pos (kB.2 h2)]
        show Except.ok _ = Except.ok _
        congr 1
        have sA : ∑ k ∈ pairs a, coefCol i a k.1 k.2 * cLm k.1 k.2 / (k.1 + 1) * Zdi.expi k.2 φ * (-(looked A θ k).2 : ℝ)
            = ∑ k ∈ pairs a, coefCol i a k.1 k.2 * cLm k.1 k.2 / (k.1 + 1) * Zdi.expi k.2 φ * (-(looked C θ k).2 : ℝ) :=
          Finset.sum_congr rfl fun k hk => by
            rw [looked_congr (eA.imp_left fun h => h k.1 k.2 ((mem_pairs a k).1 hk)) θ]
        have sB : ∑ k ∈ pairs b, coefCol i b k.1 k.2 * cLm k.1 k.2 / (k.1 + 1) * Zdi.expi k.2 φ * (-(looked B θ k).2 : ℝ)
            = ∑ k ∈ pairs b, coefCol i b k.1 k.2 * cLm k.1 k.2 / (k.1 + 1) * Zdi.expi k.2 φ * (-(looked C θ k).2 : ℝ) :=
          Finset.sum_congr rfl fun k hk => by
            rw [looked_congr (eB.imp_left fun h => h k.1 k.2 ((mem_pairs b k).1 hk)) θ]
        rw [sA, sB]
        exact re_lin _ _ _ _ _ (h.sum i (fun k v => v * cLm k.1 k.2 / (k.1 + 1) * Zdi.expi k.2 φ * (-(looked C θ k).2 : ℝ)) (by
          intro k p q c d; simp only [Complex.real_smul]; ring))
      · rw [if_neg (fun h => h2 (kC.1 h).2), if_pos (kA.2 h1), if_neg (fun h => h2 (kB.1 h))]; rfl
    · rw [if_neg (fun h => h1 (kC.1 h).1), if_neg (fun h => h1 (kA.1 h))]; rfl

/-- **C34.** With negative orders the tangential ZDI fields are linear, errors included, if each of the two sets either has no
negative orders or has orders as high as those of the other. (Away from the poles, where the code divides by zero.) -/
theorem C34_zdi_tangential (d : DType) (n : ℕ) (a b c : Coefs ℂ) (x y : ℝ) (h : LinComb d n a b c x y) (ha : ZdiSet a)
    (hb : ZdiSet b) (hab : OrdersCover a b) (hba : OrdersCover b a) (za zb zc : Zdi) (ea : Zdi.fromCoefficients a = .ok za)
    (eb : Zdi.fromCoefficients b = .ok zb) (ec : Zdi.fromCoefficients c = .ok zc) (θ φ : ℝ) (_hθ : OffAxis θ) :
    (Zdi.polar zc θ φ = do
      let p ← Zdi.polar za θ φ
      let q ← Zdi.polar zb θ φ
      pure (x * p + y * q)) ∧
    (Zdi.azimuthal zc θ φ = do
      let p ← Zdi.azimuthal za θ φ
      let q ← Zdi.azimuthal zb θ φ
      pure (x * p + y * q)) := by
  have hc := h.zdiSet ha
  rw [ha.eq_rows ea, hb.eq_rows eb, hc.eq_rows ec]
  have glue : ∀ (P Q R : Res ℝ) (p q r : ℝ), R = (do let u ← P; let w ← Q; pure (x * u + y * w)) → r = x * p + y * q →
      (do let w ← R; pure (w + r)) = (do
        let u ← (do let u ← P; pure (u + p)); let w ← (do let w ← Q; pure (w + q)); pure (x * u + y * w) : Res ℝ) := by
    rintro P Q R p q r rfl rfl
    cases P with
    | error e => rfl
    | ok u => cases Q with
      | error e => rfl
      | ok w => show Except.ok _ = Except.ok _; congr 1; ring
  have glue' : ∀ (P Q R : Res ℝ) (p q r : ℝ), R = (do let u ← P; let w ← Q; pure (x * u + y * w)) → r = x * p + y * q →
      (do let w ← R; pure (r + w)) = (do
        let u ← (do let u ← P; pure (p + u)); let w ← (do let w ← Q; pure (q + w)); pure (x * u + y * w) : Res ℝ) := by
    rintro P Q R p q r rfl rfl
    cases P with
    | error e => rfl
    | ok u => cases Q with
      | error e => rfl
      | ok w => show Except.ok _ = Except.ok _; congr 1; ring
  constructor
  · refine glue _ _ _ _ _ _ (derivative_linear h ha hb hab hba 1 ZRow.b (fun _ _ => rfl) θ φ
      (fun z => Zdi.polarPoloidal z θ φ) fun z => rfl) ?_
    simp only [Zdi.polarToroidal, Zdi.sum_rows ha, Zdi.sum_rows hb, Zdi.sum_rows hc]
    refine re_lin _ _ _ _ _ (h.sum 2 (fun k v => v * cLm k.1 k.2 * lpmv k.2 k.1 (Real.cos θ) * Complex.I * k.2 * Zdi.expi k.2 φ
      / (k.1 + 1) / (Real.sin θ : ℂ)) ?_)
    intro k p q c d
    simp only [Complex.real_smul]; ring
  · refine glue' _ _ _ _ _ _ (derivative_linear h ha hb hab hba 2 ZRow.g (fun _ _ => rfl) θ φ
      (fun z => Zdi.azimuthalToroidal z θ φ) fun z => rfl) ?_
    simp only [Zdi.azimuthalPoloidal, Zdi.sum_rows ha, Zdi.sum_rows hb, Zdi.sum_rows hc]
    refine re_lin _ _ _ _ _ (h.sum 1 (fun k v => -(v * cLm k.1 k.2 * lpmv k.2 k.1 (Real.cos θ) * Complex.I * k.2
      * Zdi.expi k.2 φ / (k.1 + 1) / (Real.sin θ : ℂ))) ?_)
    intro k p q c d
    simp only [Complex.real_smul]; ring

/-! ### Non-vacuity, and the case of negative orders -/

/-- Three columns, `β = 1` at (1, -1) and zeros at (1, 0). -/
private noncomputable def exA : Coefs ℂ :=
  ⟨[0, 0, 0], .cplx, [((1, -1), [0, 1, 0]), ((1, 0), [0, 0, 0])], 1, -1⟩

/-- Zeros at (1, 1). -/
private noncomputable def exB : Coefs ℂ := ⟨[0, 0, 0], .cplx, [((1, 1), [0, 0, 0])], 1, 0⟩

private theorem exA_operand : Operand .cplx 3 exA := by
  refine ⟨?_, by simp [exA, ZeroDefault], rfl, rfl⟩
  refine Reach.append (s := ⟨[0, 0, 0], .cplx, [((1, -1), [0, 1, 0])], 1, -1⟩) (.int 1) (.int 0) [0, 0, 0] ?_ rfl
  refine Reach.append (s := Coefs.new [0, 0, 0] .cplx) (.int 1) (.int (-1)) [0, 1, 0] ?_ rfl
  exact Reach.new _ _ (by simp)

private theorem exB_operand : Operand .cplx 3 exB := by
  refine ⟨?_, by simp [exB, ZeroDefault], rfl, rfl⟩
  refine Reach.append (s := Coefs.new [0, 0, 0] .cplx) (.int 1) (.int 1) [0, 0, 0] ?_ rfl
  exact Reach.new _ _ (by simp)

private theorem linComb_exists {d : DType} {n : ℕ} (hd : d ≠ .bool) {a b : Coefs ℂ} (ha : Operand d n a)
    (hb : Operand d n b) (x y : ℝ) (hx : Elem.cast d (x : ℂ) = x) (hy : Elem.cast d (y : ℂ) = y) :
    ∃ c, LinComb d n a b c x y := by
  obtain ⟨a', e1, oa, _⟩ := C10_mulScalar_pointwise ha (x : ℂ) hx
  obtain ⟨b', e2, ob, _⟩ := C10_mulScalar_pointwise hb (y : ℂ) hy
  have hk : IsSetIter (a'.keys ++ b'.keys).dedup (a'.keys ++ b'.keys) := ⟨List.nodup_dedup _, fun k => List.mem_dedup⟩
  obtain ⟨c, e3, _, _⟩ := C08_add_pointwise hd oa ob hk
  exact ⟨c, hd, ha, hb, hx, hy, a', b', _, e1, e2, hk, e3⟩

/-- `C34_zdi_tangential` applies to sets with negative orders. -/
example : OrdersCover exA exA ∧ ¬ (∀ l m : ℤ, stores exA l m → 0 ≤ m) :=
  ⟨.inr fun l m h => ⟨l, m, h, le_rfl⟩, fun h => absurd (h 1 (-1) (by simp [stores, has_int, exA, Coefs.keys])) (by norm_num)⟩

/-- Non-vacuity of C34: linear combinations exist for all operands and scalars of the dtype. -/
example (x y : ℝ) : ∃ c, LinComb .cplx 3 exA exB c x y := linComb_exists (by decide) exA_operand exB_operand x y rfl rfl

private theorem rowKeys_one {s : Coefs ℂ} (h : s.degreeMax = 1) :
    s.rowKeys = [((0 : ℤ), (0 : ℤ)), (1, -1), (1, 0), (1, 1)].filter fun k => s.has (.int k.1) (.int k.2) := by
  have : s.requested none none none none = [(0, 0), (1, -1), (1, 0), (1, 1)] := by
    simp only [requested, Option.getD_none, h]; decide
  rw [rowKeys, this]

private theorem d10 : deriv (legendreP 1 0) 0 = 1 := by
  have := neg_sin_mul_deriv 1 0 (θ := Real.pi / 2) (by simp)
  simp only [Real.sin_pi_div_two, Real.cos_pi_div_two] at this
  have h : thD 1 0 (Real.pi / 2) = -1 := by
    norm_num [thD, rodNorm, rod, rodBase]
  rw [h] at this
  linarith

private theorem d11 : deriv (legendreP 1 1) 0 = 0 := by
  have := neg_sin_mul_deriv 1 1 (θ := Real.pi / 2) (by simp)
  simp only [Real.sin_pi_div_two, Real.cos_pi_div_two] at this
  have h : thD 1 1 (Real.pi / 2) = 0 := by
    simp [thD, rodNorm, rod, rodBase]
  rw [h] at this
  linarith

/-- **C34.** The hypothesis on the orders is needed: with a negative order the polar field of a sum is not the sum
of the polar fields, because the lookup of negative orders depends on the highest order present. -/
theorem C34_negative_orders_fail : ∃ (a b c : Coefs ℂ) (za zb zc : Zdi) (θ φ pa pb pc : ℝ),
    LinComb .cplx 3 a b c 1 1 ∧ ZdiSet a ∧ ZdiSet b ∧ Zdi.fromCoefficients a = .ok za ∧
    Zdi.fromCoefficients b = .ok zb ∧ Zdi.fromCoefficients c = .ok zc ∧ OffAxis θ ∧
    Zdi.polar za θ φ = .ok pa ∧ Zdi.polar zb θ φ = .ok pb ∧ Zdi.polar zc θ φ = .ok pc ∧ pc ≠ pa + pb := by
  obtain ⟨c, hc⟩ := linComb_exists (by decide) exA_operand exB_operand 1 1 rfl rfl
  obtain ⟨oc, hs, hv⟩ := hc.spec
  have ha : ZdiSet exA := ⟨wellFormed_of_WF exA_operand.reach.WF, Or.inr (Or.inr rfl), 1, 0, rfl⟩
  have hb : ZdiSet exB := ⟨wellFormed_of_WF exB_operand.reach.WF, Or.inr (Or.inr rfl), 1, 1, rfl⟩
  have hz := hc.zdiSet ha
  have hst : ∀ l m : ℤ, stores c l m ↔ (l, m) = (1, -1) ∨ (l, m) = (1, 0) ∨ (l, m) = (1, 1) := by
    intro l m
    rw [hs, stores, stores, has_int, has_int]
    simp [exA, exB, Coefs.keys]; tauto
  have hdeg : c.degreeMax = 1 := by
    rcases hz.WF.degAttained with ⟨h, _⟩ | ⟨k, h, e⟩
    · have := (has_int c 1 0).1 ((hst 1 0).2 (by simp))
      rw [h] at this; simp at this
    · have := (hst k.1 k.2).1 ((has_int c k.1 k.2).2 h)
      simp only [Prod.mk.injEq] at this
      rw [← e]; tauto
  have ra : exA.rowKeys = [(1, -1), (1, 0)] := by rw [rowKeys_one rfl]; decide
  have rb : exB.rowKeys = [(1, 1)] := by rw [rowKeys_one rfl]; decide
  have rc : c.rowKeys = [(1, -1), (1, 0), (1, 1)] := by
    have h0 : c.has (.int 0) (.int 0) = false := by
      rw [← Bool.not_eq_true]; exact fun h => by simpa using (hst 0 0).1 h
    have h1 : c.has (.int 1) (.int (-1)) = true := (hst 1 (-1)).2 (by simp)
    have h2 : c.has (.int 1) (.int 0) = true := (hst 1 0).2 (by simp)
    have h3 : c.has (.int 1) (.int 1) = true := (hst 1 1).2 (by simp)
    rw [rowKeys_one hdeg]
    simp [h0, h1, h2, h3]
  have sin1 := Real.sin_pi_div_two
  have cos0 := Real.cos_pi_div_two
  have va : ∀ i m, coefCol i exA 1 m = if m = -1 ∧ i = 1 then 1 else 0 := by
    intro i m
    rw [coefCol, valueAt_eq]
    by_cases h1 : m = -1
    · subst h1
      rcases i with _ | _ | _ | i <;> simp [exA, getI, dictGet]
    · by_cases h2 : m = 0
      · subst h2
        rcases i with _ | _ | _ | i <;> simp [exA, getI, dictGet]
      · have h3 : ((1 : ℤ), m) ∉ exA.keys := by simp [exA, Coefs.keys, h1, h2]
        rw [getI_of_not_mem _ _ h3, if_neg (by tauto)]
        rcases i with _ | _ | _ | i <;> simp [exA]
  have vb : ∀ i m, coefCol i exB 1 m = 0 := by
    intro i m
    rw [coefCol, valueAt_eq]
    by_cases h1 : m = 1
    · subst h1
      rcases i with _ | _ | _ | i <;> simp [exB, getI, dictGet]
    · have h3 : ((1 : ℤ), m) ∉ exB.keys := by simp [exB, Coefs.keys, h1]
      rw [getI_of_not_mem _ _ h3]
      rcases i with _ | _ | _ | i <;> simp [exB]
  have hpos : cLm 1 (-1) ≠ 0 := by
    rw [cLm]; refine (Real.sqrt_pos.2 ?_).ne'; simp [spFactorial]; positivity
  refine ⟨exA, exB, c, _, _, _, Real.pi / 2, 0, -(1 / 2) * cLm 1 (-1) * -1, 0, 0, hc, ha, hb, ha.fromCoefficients,
    hb.fromCoefficients, hz.fromCoefficients, ⟨by positivity, by linarith [Real.pi_pos]⟩, ?_, ?_, ?_, ?_⟩
  · rw [ra]
    simp [Zdi.polar, Zdi.polarPoloidal, Zdi.polarToroidal, Zdi.lm, calcLpmn, listMax, npIndex, zrow, va, d10, d11]
    simp only [bind, Except.bind, d10, d11]
    congr 1
    have e : ((cLm 1 (-1) : ℂ) / (1 + 1)) = ((cLm 1 (-1) / 2 : ℝ) : ℂ) := by push_cast; norm_num
    simp [e, Zdi.expi]
    ring
  · rw [rb]
    simp [Zdi.polar, Zdi.polarPoloidal, Zdi.polarToroidal, Zdi.lm, calcLpmn, listMax, npIndex, zrow, vb, d10, d11]
    rfl
  · rw [rc]
    simp [Zdi.polar, Zdi.polarPoloidal, Zdi.polarToroidal, Zdi.lm, calcLpmn, listMax, npIndex, zrow, hv, va, vb, d10, d11]
    simp [bind, Except.bind, d10, d11]
  · simpa using hpos

end Verif
