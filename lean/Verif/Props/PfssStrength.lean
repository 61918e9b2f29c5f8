import Verif.Lemmas.ShellField
import Verif.Props.PfssUnique

/-!
# Property C99: the extrapolated field is strongest at the surface
-/

namespace Verif
open Spec Legendre Coefs Pfss Shell Filter Topology InnerProductSpace

namespace Spec

/-- The square of the strength of a field with the given components. -/
def strengthSq (f : ℝ × ℝ × ℝ) : ℝ := f.1 ^ 2 + f.2.1 ^ 2 + f.2.2 ^ 2

end Spec

namespace Shell

/-- A bound that holds on a sphere away from the poles holds on the sphere. -/
theorem bound_poles {g : E3 → ℝ} {r0 M : ℝ} (h0 : 0 < r0) (hg : ∀ y : E3, ‖y‖ = r0 → ContinuousAt g y)
    (hi : ∀ y : E3, ‖y‖ = r0 → OffPoleLine y → g y ≤ M) (y : E3) (hy : ‖y‖ = r0) : g y ≤ M := by
  obtain ⟨θ, φ, ha, hb, e⟩ := exists_point y
  rw [hy] at e
  have hcp : Continuous fun t => point r0 t φ := by simp only [point]; fun_prop
  have hct : ContinuousAt (fun t => g (point r0 t φ)) θ :=
    ContinuousAt.comp (f := fun t => point r0 t φ) (by rw [e]; exact hg y hy) hcp.continuousAt
  have hcl : θ ∈ closure (Set.Ioo 0 Real.pi) := by
    rw [closure_Ioo Real.pi_pos.ne]; exact ⟨ha, hb⟩
  have hnb : (𝓝[Set.Ioo 0 Real.pi] θ).NeBot := mem_closure_iff_nhdsWithin_neBot.1 hcl
  have hl : Tendsto (fun t => g (point r0 t φ)) (𝓝[Set.Ioo 0 Real.pi] θ) (𝓝 (g (point r0 θ φ))) :=
    hct.tendsto.mono_left nhdsWithin_le_nhds
  rw [← e]
  refine le_of_tendsto hl ?_
  filter_upwards [self_mem_nhdsWithin] with t ht using hi _ (norm_point h0.le t φ) (offPoleLine_point h0 ht φ)

section
variable {s : Coefs ℂ} (h : RadialSet s) {r0 rss : ℝ} (h0 : 0 < r0) (h1 : r0 < rss)
include h h0 h1

theorem field_point {r θ φ : ℝ} (ha : r0 ≤ r) (hb : r ≤ rss) (hθ : OffAxis θ) {f : ℝ × ℝ × ℝ}
    (hf : evalSpherical s r θ φ r0 rss = .ok f) :
    r * f.1 = -fderiv ℝ (pot s r0 rss) (point r θ φ) (point r θ φ) ∧
      strengthSq f = gsq (pot s r0 rss) (point r θ φ) := by
  rw [sph_gradient h h0 h1 ha hb hθ, Except.ok.injEq] at hf
  subst hf
  set D := fderiv ℝ (pot s r0 rss) (point r θ φ) with hD
  have a := Real.sin_sq_add_cos_sq θ
  have b := Real.sin_sq_add_cos_sq φ
  constructor
  · have : point r θ φ = r • eR θ φ := by simp only [eR, point, smul_add, smul_smul]; ring_nf
    conv_rhs => rw [this]
    rw [map_smul, smul_eq_mul]; ring
  · rw [strengthSq, gsq, Fin.sum_univ_three, ← hD]
    simp only [eR, eP, eA, point, map_add, map_smul, smul_eq_mul, one_mul, neg_sq]
    generalize D (ax 0) = x
    generalize D (ax 1) = y
    generalize D (ax 2) = z
    linear_combination ((x * Real.cos φ + y * Real.sin φ) ^ 2 + z ^ 2) * a + (x ^ 2 + y ^ 2) * b

theorem surface_radial {B σ : ℝ}
    (hi : ∀ θ φ, OffAxis θ → ∀ f, evalSpherical s r0 θ φ r0 rss = .ok f → σ * f.1 ≤ B) (y : E3) (hy : ‖y‖ = r0) :
    fderiv ℝ ((-σ) • pot s r0 rss) y y ≤ r0 * B := by
  refine bound_poles (g := fun y => fderiv ℝ ((-σ) • pot s r0 rss) y y) h0 (fun z hz => ?_) (fun z hz ho => ?_) y hy
  · have hne : z ≠ 0 := norm_pos_iff.1 (by rw [hz]; exact h0)
    have : ContDiffAt ℝ 2 ((-σ) • pot s r0 rss) z := contDiffAt_const.smul (contDiffAt_pot s r0 rss hne)
    exact ((this.fderiv_right (m := 1) (by norm_num)).continuousAt).clm_apply continuousAt_id
  · obtain ⟨r, θ, φ, -, hn, -, hθ, hp⟩ := angles z ho
    have hr : r = r0 := hn.trans hz
    subst hr
    have q := (field_point h h0 h1 le_rfl h1.le hθ (evalSpherical_eq h h1 r θ φ)).1
    have := hi θ φ hθ _ (evalSpherical_eq h h1 r θ φ)
    rw [hp] at q
    change fderiv ℝ ((-σ) • pot s r rss) z z ≤ r * B
    have hne : z ≠ 0 := norm_pos_iff.1 (by rw [hz]; exact h0)
    rw [fderiv_const_smul ((contDiffAt_pot s r rss (n := 1) hne).differentiableAt (by norm_num)),
      ContinuousLinearMap.smul_apply, smul_eq_mul, neg_mul_comm, ← q, mul_left_comm]
    exact mul_le_mul_of_nonneg_left this h0.le

theorem surface_gsq {M : ℝ}
    (hi : ∀ θ φ, OffAxis θ → ∀ f, evalSpherical s r0 θ φ r0 rss = .ok f → strengthSq f ≤ M) (y : E3) (hy : ‖y‖ = r0) :
    gsq (pot s r0 rss) y ≤ M := by
  refine bound_poles (g := gsq (pot s r0 rss)) h0 (fun z hz => ?_) (fun z hz ho => ?_) y hy
  · have hne : z ≠ 0 := norm_pos_iff.1 (by rw [hz]; exact h0)
    have : ContDiffAt ℝ 2 (pot s r0 rss) z := contDiffAt_pot s r0 rss hne
    have hc := (this.fderiv_right (m := 1) (by norm_num)).continuousAt
    exact tendsto_finset_sum _ fun i _ => ((hc.clm_apply continuousAt_const).pow 2).tendsto
  · obtain ⟨r, θ, φ, -, hn, -, hθ, hp⟩ := angles z ho
    have hr : r = r0 := hn.trans hz
    subst hr
    have q := (field_point h h0 h1 le_rfl h1.le hθ (evalSpherical_eq h h1 r θ φ)).2
    rw [hp] at q
    rw [← q]
    exact hi θ φ hθ _ (evalSpherical_eq h h1 r θ φ)

private theorem shell_radial {B σ : ℝ}
    (hi : ∀ θ φ, OffAxis θ → ∀ f, evalSpherical s r0 θ φ r0 rss = .ok f → σ * f.1 ≤ B) {r θ φ : ℝ} (ha : r0 ≤ r)
    (hb : r ≤ rss) (hθ : OffAxis θ) {f : ℝ × ℝ × ℝ} (hf : evalSpherical s r θ φ r0 rss = .ok f) :
    r ^ 2 * (σ * f.1) ≤ r0 ^ 2 * B := by
  have hn := norm_point (h0.le.trans ha) θ φ
  have hne : ∀ y ∈ shell r0 rss, y ≠ 0 := fun y hy => norm_pos_iff.1 (lt_of_lt_of_le h0 hy.1)
  have hm : point r θ φ ∈ shell r0 rss := by rw [shell, Set.mem_setOf_eq, hn]; exact ⟨ha, hb⟩
  have := radial_le (V := (-σ) • pot s r0 rss) (c := 0) h0 h1
    (fun y hy => contDiffAt_const.smul (contDiffAt_pot s r0 rss (hne y hy)))
    (fun y hy => (harmonicAt_pot h r0 rss (hne y hy)).const_smul)
    (fun y hy => by rw [Pi.smul_apply, pot_outer h r0 (h0.trans h1) hy, smul_zero])
    (surface_radial h h0 h1 hi) hm
  rw [fderiv_const_smul ((contDiffAt_pot s r0 rss (n := 1) (hne _ hm)).differentiableAt (by norm_num)),
    ContinuousLinearMap.smul_apply, smul_eq_mul, neg_mul_comm, ← (field_point h h0 h1 ha hb hθ hf).1, hn] at this
  linarith

private theorem shell_strength {M : ℝ}
    (hi : ∀ θ φ, OffAxis θ → ∀ f, evalSpherical s r0 θ φ r0 rss = .ok f → strengthSq f ≤ M) {r θ φ : ℝ} (ha : r0 ≤ r)
    (hb : r ≤ rss) (hθ : OffAxis θ) {f : ℝ × ℝ × ℝ} (hf : evalSpherical s r θ φ r0 rss = .ok f) :
    r ^ 4 * strengthSq f ≤ r0 ^ 4 * M := by
  have hn := norm_point (h0.le.trans ha) θ φ
  have hne : ∀ y ∈ shell r0 rss, y ≠ 0 := fun y hy => norm_pos_iff.1 (lt_of_lt_of_le h0 hy.1)
  have := gsq_le (V := pot s r0 rss) (c := 0) h0 h1 (fun y hy => contDiffAt_pot s r0 rss (hne y hy))
    (fun y hy => harmonicAt_pot h r0 rss (hne y hy))
    (fun y hy => pot_outer h r0 (h0.trans h1) hy)
    (surface_gsq h h0 h1 hi) (x := point r θ φ) (by rw [shell, Set.mem_setOf_eq, hn]; exact ⟨ha, hb⟩)
  rwa [← (field_point h h0 h1 ha hb hθ hf).2, hn] at this

end

end Shell

private theorem radial_sign {s : Coefs ℂ} (h : RadialSet s) {r0 rss : ℝ} (h0 : 0 < r0) (h1 : r0 < rss) {B σ : ℝ}
    (hi : ∀ θ φ, OffAxis θ → ∀ f, evalSpherical s r0 θ φ r0 rss = .ok f → σ * f.1 ≤ B) {r θ : ℝ} (φ : ℝ) (hr : r0 ≤ r)
    (hθ : OffAxis θ) : ∃ f, evalSpherical s r θ φ r0 rss = .ok f ∧ σ * f.1 ≤ B * (r0 / r) ^ 2 := by
  have hp : 0 < r := lt_of_lt_of_le h0 hr
  suffices hh : ∃ f, evalSpherical s r θ φ r0 rss = .ok f ∧ r ^ 2 * (σ * f.1) ≤ r0 ^ 2 * B by
    obtain ⟨f, e, hl⟩ := hh
    refine ⟨f, e, ?_⟩
    rw [div_pow, ← mul_div_assoc, le_div_iff₀ (by positivity)]
    linarith
  rcases le_or_gt r rss with hb | hb
  · exact ⟨_, evalSpherical_eq h h1 r θ φ, shell_radial h h0 h1 hi hr hb hθ (evalSpherical_eq h h1 r θ φ)⟩
  · obtain ⟨b, e1, e2⟩ := C31_falloff s h r0 rss h0 h1 r θ φ hb.le
    refine ⟨_, e2, ?_⟩
    have := shell_radial h h0 h1 hi h1.le le_rfl hθ e1
    dsimp only at this ⊢
    have e : r ^ 2 * (σ * ((rss / r) ^ 2 * b)) = rss ^ 2 * (σ * b) := by field_simp
    rw [e]
    exact this

/-- **C99.** The radial field is bounded by its range on the surface of the star: where it is at most `B` on the surface
(away from the poles), it is at most `B * (r0 / r)^2` at every radius outside the star, whatever the sign of `B`. -/
theorem C99_radial (s : Coefs ℂ) (h : RadialSet s) (r0 rss : ℝ) (h0 : 0 < r0) (h1 : r0 < rss) (B : ℝ)
    (hi : ∀ θ φ, OffAxis θ → ∀ f, evalSpherical s r0 θ φ r0 rss = .ok f → f.1 ≤ B) (r θ φ : ℝ) (hr : r0 ≤ r)
    (hθ : OffAxis θ) : ∃ f, evalSpherical s r θ φ r0 rss = .ok f ∧ f.1 ≤ B * (r0 / r) ^ 2 := by
  obtain ⟨f, e, hl⟩ := radial_sign h h0 h1 (σ := 1) (B := B) (fun θ φ hθ f hf => by
    rw [one_mul]; exact hi θ φ hθ f hf) φ hr hθ
  exact ⟨f, e, by linarith⟩

/-- **C99.** The same for lower bounds. With `B = 0`: a star whose surface has one polarity has no field line that turns
back. -/
theorem C99_radial_lower (s : Coefs ℂ) (h : RadialSet s) (r0 rss : ℝ) (h0 : 0 < r0) (h1 : r0 < rss) (B : ℝ)
    (hi : ∀ θ φ, OffAxis θ → ∀ f, evalSpherical s r0 θ φ r0 rss = .ok f → B ≤ f.1) (r θ φ : ℝ) (hr : r0 ≤ r)
    (hθ : OffAxis θ) : ∃ f, evalSpherical s r θ φ r0 rss = .ok f ∧ B * (r0 / r) ^ 2 ≤ f.1 := by
  obtain ⟨f, e, hl⟩ := radial_sign h h0 h1 (σ := -1) (B := -B) (fun θ φ hθ f hf => by
    have := hi θ φ hθ f hf
    linarith) φ hr hθ
  exact ⟨f, e, by linarith⟩

/-- **C99.** The field is nowhere stronger than at the surface, and falls off at least as fast as that of a charge: if
its strength is at most `M` on the surface (away from the poles), it is at most `M * (r0 / r)^2` at every radius outside
the star. -/
theorem C99_strength (s : Coefs ℂ) (h : RadialSet s) (r0 rss : ℝ) (h0 : 0 < r0) (h1 : r0 < rss) (M : ℝ)
    (hi : ∀ θ φ, OffAxis θ → ∀ f, evalSpherical s r0 θ φ r0 rss = .ok f → Real.sqrt (strengthSq f) ≤ M) (r θ φ : ℝ)
    (hr : r0 ≤ r) (hθ : OffAxis θ) :
    ∃ f, evalSpherical s r θ φ r0 rss = .ok f ∧ Real.sqrt (strengthSq f) ≤ M * (r0 / r) ^ 2 := by
  have hp : 0 < r := lt_of_lt_of_le h0 hr
  have hM : 0 ≤ M := (Real.sqrt_nonneg _).trans (hi θ φ hθ _ (evalSpherical_eq h h1 r0 θ φ))
  have hi' : ∀ θ φ, OffAxis θ → ∀ f, evalSpherical s r0 θ φ r0 rss = .ok f → strengthSq f ≤ M ^ 2 :=
    fun θ φ hθ f hf => (Real.sqrt_le_left hM).1 (hi θ φ hθ f hf)
  suffices hh : ∃ f, evalSpherical s r θ φ r0 rss = .ok f ∧ r ^ 4 * strengthSq f ≤ r0 ^ 4 * M ^ 2 by
    obtain ⟨f, e, hl⟩ := hh
    refine ⟨f, e, (Real.sqrt_le_left (by positivity)).2 ?_⟩
    have e4 : (M * (r0 / r) ^ 2) ^ 2 = r0 ^ 4 * M ^ 2 / r ^ 4 := by field_simp
    rw [e4, le_div_iff₀ (by positivity)]
    linarith
  rcases le_or_gt r rss with hb | hb
  · exact ⟨_, evalSpherical_eq h h1 r θ φ, shell_strength h h0 h1 hi' hr hb hθ (evalSpherical_eq h h1 r θ φ)⟩
  · obtain ⟨b, e1, e2⟩ := C31_falloff s h r0 rss h0 h1 r θ φ hb.le
    refine ⟨_, e2, ?_⟩
    have := shell_strength h h0 h1 hi' h1.le le_rfl hθ e1
    simp only [strengthSq] at this ⊢
    have e : r ^ 4 * (((rss / r) ^ 2 * b) ^ 2 + 0 ^ 2 + 0 ^ 2) = rss ^ 4 * (b ^ 2 + 0 ^ 2 + 0 ^ 2) := by
      field_simp; ring
    rw [e]
    exact this

/-! ### Cases meeting the hypotheses -/

private noncomputable def exStar : Coefs ℂ := ⟨[0], .cplx, [((0, 0), [2])], 0, 0⟩

private theorem exStar_radial : RadialSet exStar := by
  have hw : exStar.WF := by
    refine Reach.WF (Reach.append (s := Coefs.new [0] .cplx) (.int 0) (.int 0) [2] ?_ rfl)
    exact Reach.new _ _ (by simp)
  refine ⟨wellFormed_of_WF hw, rfl, ⟨0, 0, rfl⟩, fun l' m hm => ?_⟩
  rw [stores, Coefs.has_int] at hm
  simp [exStar, Coefs.keys] at hm
  omega

/-- The bounds are reached by the field of a charge, at every radius. -/
private theorem exStar_field (r0 rss r θ φ : ℝ) (h0 : 0 < r0) (h1 : r0 < rss) (hr : r0 ≤ r) :
    evalSpherical exStar r θ φ r0 rss = .ok (2 * (r0 / r) ^ 2, 0, 0) := by
  have hp : pairs exStar = {(0, 0)} := by rw [pairs_eq]; rfl
  have hc : coef exStar 0 0 = 2 := rfl
  have ht : ∀ θ, Pfss.tv θ (0, 0) = 1 := by
    intro θ
    simp [Pfss.tv, legendreP, rodNorm, rod, rodBase, Pfss.thetaScale, spFactorial]
    norm_num
  have hd : ∀ θ, Pfss.td θ (0, 0) = 0 := by
    intro θ
    have : legendreP 0 0 = fun _ => legendreP 0 0 0 := by
      funext x; simp [legendreP, rodNorm, rod, rodBase]
    rw [Pfss.td]
    simp only [Int.toNat_zero]
    rw [this, deriv_const]; ring
  have hq : 0 < r := lt_of_lt_of_le h0 hr
  have hss : 0 < rss := h0.trans h1
  rw [Pfss.evalSpherical_eq exStar_radial h1, if_neg (not_lt.2 hr)]
  simp only [Pfss.fR, Pfss.fP, Pfss.fA, hp, Finset.sum_singleton, hc, ht, hd, Pfss.rL, Pfss.phiLm]
  split_ifs with h2
  · simp
    field_simp
  · simp
    ring

example : ∃ f, evalSpherical exStar 7 1 1 1 3 = .ok f ∧ Real.sqrt (strengthSq f) ≤ 2 * (1 / 7) ^ 2 := by
  refine C99_strength _ exStar_radial 1 3 one_pos (by norm_num) 2 (fun θ φ _ f hf => ?_) 7 1 1 (by norm_num)
    ⟨by norm_num, by linarith [Real.pi_gt_three]⟩
  rw [exStar_field _ _ _ _ _ one_pos (by norm_num) le_rfl, Except.ok.injEq] at hf
  rw [← hf, strengthSq, Real.sqrt_le_left (by norm_num)]
  norm_num

private noncomputable def exNorth : Coefs ℂ := ⟨[0], .cplx, [((1, 0), [1])], 1, 0⟩

private theorem exNorth_radial : RadialSet exNorth := by
  have hw : exNorth.WF := by
    refine Reach.WF (Reach.append (s := Coefs.new [0] .cplx) (.int 1) (.int 0) [1] ?_ rfl)
    exact Reach.new _ _ (by simp)
  refine ⟨wellFormed_of_WF hw, rfl, ⟨1, 0, rfl⟩, fun l' m hm => ?_⟩
  rw [stores, Coefs.has_int] at hm
  simp [exNorth, Coefs.keys] at hm
  omega

/-- The radial field of a dipole of strength one is between minus one and one at the surface. -/
example (θ φ : ℝ) (f : ℝ × ℝ × ℝ) (hf : evalSpherical exNorth 1 θ φ 1 3 = .ok f) : -1 ≤ f.1 ∧ f.1 ≤ 1 := by
  obtain ⟨_, _, e⟩ := C30_surface _ exNorth_radial 1 3 one_pos (by norm_num) θ φ
  have hp : pairs exNorth = {(1, 0)} := by rw [pairs_eq]; rfl
  have hc : coef exNorth 1 0 = 1 := rfl
  rw [e, Except.ok.injEq] at hf
  rw [← hf]
  have hs : schmidt 1 0 θ = Real.cos θ := by
    simp [schmidt, legendrePZ, legendreP, rodNorm, rod, rodBase]
    ring
  simp only [hp, Finset.sum_singleton, hc, hs]
  simp [Real.neg_one_le_cos, Real.cos_le_one]

end Verif
