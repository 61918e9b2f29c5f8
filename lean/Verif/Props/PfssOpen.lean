import Verif.Lemmas.OpenFlux
import Mathlib.Analysis.Calculus.ContDiff.Polynomial

/-!
# Property C104: the unsigned flux never grows with the radius
-/

namespace Verif
open Spec Zdi Pfss Legendre Identify PfssFlux OpenFlux intervalIntegral

namespace OpenFlux

noncomputable def psi (l m : ℕ) : ℝ → ℝ := deriv fun θ => Real.sin θ * thD l m θ

theorem contDiff_sin_thD (l m : ℕ) : ContDiff ℝ 2 fun θ => Real.sin θ * thD l m θ := by
  have hp : ∀ q : Polynomial ℝ, ContDiff ℝ 2 fun θ => q.eval (Real.cos θ) := fun q => by
    have := (Polynomial.contDiff_aeval q 2 (𝕜 := ℝ)).comp (Real.contDiff_cos (n := 2))
    simpa [Function.comp_def] using this
  have h1 := hp (rod l (l + m))
  have h2 := hp (rod l (l + m + 1))
  have hs : ContDiff ℝ 2 Real.sin := Real.contDiff_sin
  have hc : ContDiff ℝ 2 Real.cos := Real.contDiff_cos
  unfold thD
  exact hs.mul (contDiff_const.mul ((((contDiff_const.mul (hs.pow _)).mul hc).mul h1).sub ((hs.pow _).mul h2)))

theorem phi1_deriv (m : ℤ) (g h φ : ℝ) : HasDerivAt (fun φ => (phiLm m g h φ).1) (phiLm m g h φ).2 φ := by
  simp only [phiLm]
  have h0 : HasDerivAt (fun x : ℝ => (m : ℝ) * x) m φ := by
    simpa using (hasDerivAt_id φ).const_mul (m : ℝ)
  exact ((h0.cos.const_mul g).add (h0.sin.const_mul h)).congr_deriv (by ring)

theorem phi2_deriv (m : ℤ) (g h φ : ℝ) :
    HasDerivAt (fun φ => (phiLm m g h φ).2) (-(m : ℝ) ^ 2 * (phiLm m g h φ).1) φ := by
  simp only [phiLm]
  have h0 : HasDerivAt (fun x : ℝ => (m : ℝ) * x) m φ := by
    simpa using (hasDerivAt_id φ).const_mul (m : ℝ)
  exact (((h0.sin.const_mul (-g)).add (h0.cos.const_mul h)).mul_const (m : ℝ)).congr_deriv (by ring)

theorem phi_period (m : ℤ) (g h : ℝ) : phiLm m g h (2 * Real.pi) = phiLm m g h 0 := by
  have hc : Real.cos (m * (2 * Real.pi)) = 1 := Real.cos_int_mul_two_pi m
  have hs : Real.sin (m * (2 * Real.pi)) = 0 := by
    rw [show (m : ℝ) * (2 * Real.pi) = ((2 * m : ℤ) : ℝ) * Real.pi by push_cast; ring]; exact Real.sin_int_mul_pi _
  simp [phiLm, hc, hs]

theorem factors {s : Coefs ℂ} (h : RadialSet s) : Factors (pairs s) (fun k => thP k.1.toNat k.2.toNat)
    (fun k => thD k.1.toNat k.2.toNat) (fun k => psi k.1.toNat k.2.toNat)
    (fun k φ => (phiLm k.2 (coef s k.1 k.2).re (coef s k.1 k.2).im φ).1)
    (fun k φ => (phiLm k.2 (coef s k.1 k.2).re (coef s k.1 k.2).im φ).2) where
  cp k := continuous_iff_continuousAt.2 fun θ => (hasDerivAt_thP _ _ θ).continuousAt
  cp1 k := continuous_thD _ _
  cΨ k := (contDiff_sin_thD _ _).continuous_deriv (by norm_num)
  ce k := continuous_iff_continuousAt.2 fun φ => (phi1_deriv _ _ _ φ).continuousAt
  ce1 k := continuous_iff_continuousAt.2 fun φ => (phi2_deriv _ _ _ φ).continuousAt
  dp k θ := hasDerivAt_thP _ _ θ
  dΨ k θ := ((contDiff_sin_thD _ _).differentiable (by norm_num) θ).hasDerivAt
  de k φ := phi1_deriv _ _ _ φ
  de1 k φ := phi2_deriv _ _ _ φ
  pe k := by rw [phi_period]
  pe1 k := by rw [phi_period]
  ode k hk θ hs := by
    have hb := bounds h hk
    have e1 : ((k.1.toNat : ℕ) : ℝ) = k.1 := by exact_mod_cast Int.toNat_of_nonneg (hb.1.trans hb.2)
    have e2 : ((k.2.toNat : ℕ) : ℝ) = k.2 := by exact_mod_cast Int.toNat_of_nonneg hb.1
    rw [psi, (hasDerivAt_sin_thD k.1.toNat k.2.toNat θ hs.ne').deriv, e1, e2]

/-- `r` times the radial factor of a coefficient, `r = e^t`. -/
noncomputable def cf (r0 rss : ℝ) (k : ℤ × ℤ) (t : ℝ) : ℝ :=
  r0 ^ (k.1 + 2) * thetaScale k.1 k.2 / (k.1 + 1 + k.1 * (r0 / rss) ^ (2 * k.1 + 1))
    * ((k.1 + 1) * Real.exp (-(k.1 + 1) * t) + k.1 / rss ^ (2 * k.1 + 1) * Real.exp (k.1 * t))
noncomputable def cf1 (r0 rss : ℝ) (k : ℤ × ℤ) (t : ℝ) : ℝ :=
  r0 ^ (k.1 + 2) * thetaScale k.1 k.2 / (k.1 + 1 + k.1 * (r0 / rss) ^ (2 * k.1 + 1))
    * (-(k.1 + 1) ^ 2 * Real.exp (-(k.1 + 1) * t) + k.1 ^ 2 / rss ^ (2 * k.1 + 1) * Real.exp (k.1 * t))
noncomputable def cf2 (r0 rss : ℝ) (k : ℤ × ℤ) (t : ℝ) : ℝ :=
  r0 ^ (k.1 + 2) * thetaScale k.1 k.2 / (k.1 + 1 + k.1 * (r0 / rss) ^ (2 * k.1 + 1))
    * ((k.1 + 1) ^ 3 * Real.exp (-(k.1 + 1) * t) + k.1 ^ 3 / rss ^ (2 * k.1 + 1) * Real.exp (k.1 * t))

theorem exp_deriv (a t : ℝ) : HasDerivAt (fun t => Real.exp (a * t)) (a * Real.exp (a * t)) t := by
  have h0 : HasDerivAt (fun x : ℝ => a * x) a t := by simpa using (hasDerivAt_id t).const_mul a
  exact h0.exp.congr_deriv (by ring)

theorem cf_deriv (r0 rss : ℝ) (k : ℤ × ℤ) (t : ℝ) : HasDerivAt (cf r0 rss k) (cf1 r0 rss k t) t := by
  unfold cf cf1
  exact ((((exp_deriv _ t).const_mul _).add ((exp_deriv _ t).const_mul _)).const_mul _).congr_deriv (by ring)

theorem cf1_deriv (r0 rss : ℝ) (k : ℤ × ℤ) (t : ℝ) : HasDerivAt (cf1 r0 rss k) (cf2 r0 rss k t) t := by
  unfold cf1 cf2
  exact ((((exp_deriv _ t).const_mul _).add ((exp_deriv _ t).const_mul _)).const_mul _).congr_deriv (by ring)

theorem exp_int (l : ℤ) {r : ℝ} (hr : 0 < r) : Real.exp (l * Real.log r) = r ^ l := by
  rw [mul_comm, Real.exp_mul, Real.exp_log hr, Real.rpow_intCast]

theorem exp_int' (l : ℤ) {r : ℝ} (hr : 0 < r) : Real.exp (-((l : ℝ) + 1) * Real.log r) = r ^ (-(l + 1)) := by
  rw [← exp_int _ hr]; push_cast; rfl

/-- The radial factor of the code. -/
theorem cf_eq {r0 rss r : ℝ} (h0 : 0 < r0) (h1 : 0 < rss) (hr : 0 < r) (k : ℤ × ℤ) :
    cf r0 rss k (Real.log r) = r * (-(rL k.1 r r0 rss).2 * thetaScale k.1 k.2) := by
  rw [cf, exp_int _ hr, exp_int' _ hr, rL]
  dsimp only
  rw [div_zpow r0 r, div_zpow r rss]
  have e1 : r ^ (2 * k.1 + 1) = r ^ (k.1 + 2) * r ^ (k.1 - 1) := by rw [← zpow_add₀ hr.ne']; congr 1; ring
  have e2 : r ^ k.1 = r * r ^ (k.1 - 1) := by rw [← zpow_one_add₀ hr.ne']; congr 1; ring
  have e3 : r ^ (k.1 + 2) * r ^ (-(k.1 + 1)) = r := by rw [← zpow_add₀ hr.ne']; ring_nf; simp
  have n1 : r ^ (k.1 + 2) ≠ 0 := (zpow_pos hr _).ne'
  have n2 : rss ^ (2 * k.1 + 1) ≠ 0 := (zpow_pos h1 _).ne'
  have e4 : r ^ (-(k.1 + 1)) = r / r ^ (k.1 + 2) := by rw [eq_div_iff n1, mul_comm, e3]
  rw [e1, e2, e4]
  generalize (k.1 : ℝ) + 1 + k.1 * (r0 / rss) ^ (2 * k.1 + 1) = D
  field_simp

theorem cf_outer {r0 rss : ℝ} (h1 : 0 < rss) (k : ℤ × ℤ) :
    cf1 r0 rss k (Real.log rss) = -cf r0 rss k (Real.log rss) := by
  rw [cf, cf1, exp_int _ h1, exp_int' _ h1]
  have e1 : rss ^ k.1 / rss ^ (2 * k.1 + 1) = rss ^ (-(k.1 + 1)) := by rw [← zpow_sub₀ h1.ne']; congr 1; ring
  rw [← e1]
  ring

theorem fR_U {s : Coefs ℂ} {r0 rss r : ℝ} (h0 : 0 < r0) (h1 : 0 < rss) (hr : 0 < r) {θ : ℝ} (hs : 0 ≤ Real.sin θ) (φ : ℝ) :
    r * fR s r0 rss r θ φ = U (pairs s) (fun k => cf r0 rss k (Real.log r)) (fun k => thP k.1.toNat k.2.toNat)
      (fun k φ => (phiLm k.2 (coef s k.1 k.2).re (coef s k.1 k.2).im φ).1) θ φ := by
  rw [fR, U, Finset.mul_sum]
  refine Finset.sum_congr rfl fun k _ => ?_
  rw [cf_eq h0 h1 hr, tv, legendreP_cos _ _ hs]
  ring

theorem radialOf_within {s : Coefs ℂ} (h : RadialSet s) {r0 rss r : ℝ} (h0 : 0 < r0) (h1 : r0 < rss) (hr : r0 ≤ r) (hs : r ≤ rss)
    (θ φ : ℝ) : radialOf s r0 rss r θ φ = fR s r0 rss r θ φ := by
  rw [radialOf_eq h h0 h1 hr, min_eq_left hs, div_self (h0.trans_le hr).ne']; ring

theorem radialOf_beyond {s : Coefs ℂ} (h : RadialSet s) {r0 rss r : ℝ} (h0 : 0 < r0) (h1 : r0 < rss) (hr : rss ≤ r) (θ φ : ℝ) :
    radialOf s r0 rss r θ φ = radialOf s r0 rss rss θ φ * (rss / r) ^ 2 := by
  rw [radialOf_eq h h0 h1 (h1.le.trans hr), radialOf_within h h0 h1 h1.le le_rfl, min_eq_right hr]

theorem abs_within {s : Coefs ℂ} (h : RadialSet s) {r0 rss r : ℝ} (h0 : 0 < r0) (h1 : r0 < rss) (hr : r0 ≤ r) (hs : r ≤ rss) :
    r ^ 2 * overSphere (fun θ φ => |radialOf s r0 rss r θ φ|)
      = Real.exp (Real.log r) * overSphere (fun θ φ => |U (pairs s) (fun k => cf r0 rss k (Real.log r))
        (fun k => thP k.1.toNat k.2.toNat) (fun k φ => (phiLm k.2 (coef s k.1 k.2).re (coef s k.1 k.2).im φ).1) θ φ|) := by
  have p3 : 0 < r := h0.trans_le hr
  rw [Real.exp_log p3, pow_two, mul_assoc, mul_comm r (overSphere _), ← overSphere_mul]
  congr 1
  refine overSphere_congr fun θ φ hθ => ?_
  rw [← fR_U h0 (h0.trans h1) p3 hθ, radialOf_within h h0 h1 hr hs, abs_mul, abs_of_pos p3, mul_comm]

theorem abs_beyond {s : Coefs ℂ} (h : RadialSet s) {r0 rss r : ℝ} (h0 : 0 < r0) (h1 : r0 < rss) (hr : rss ≤ r) :
    r ^ 2 * overSphere (fun θ φ => |radialOf s r0 rss r θ φ|)
      = rss ^ 2 * overSphere (fun θ φ => |radialOf s r0 rss rss θ φ|) := by
  have p1 : 0 < rss := h0.trans h1
  have p3 : 0 < r := p1.trans_le hr
  have e : overSphere (fun θ φ => |radialOf s r0 rss r θ φ|)
      = overSphere (fun θ φ => |radialOf s r0 rss rss θ φ|) * (rss / r) ^ 2 := by
    rw [← overSphere_mul]
    refine overSphere_congr fun θ φ _ => ?_
    rw [radialOf_beyond h h0 h1 hr, abs_mul, abs_of_pos (by positivity : 0 < (rss / r) ^ 2)]
  rw [e]
  field_simp

theorem unsigned_within {s : Coefs ℂ} (h : RadialSet s) {r0 rss r r' : ℝ} (h0 : 0 < r0) (h1 : r0 < rss) (hr : r0 ≤ r)
    (hrr : r ≤ r') (hs : r' ≤ rss) :
    r' ^ 2 * overSphere (fun θ φ => |radialOf s r0 rss r' θ φ|) ≤ r ^ 2 * overSphere (fun θ φ => |radialOf s r0 rss r θ φ|) := by
  have p3 : 0 < r := h0.trans_le hr
  rw [abs_within h h0 h1 hr (hrr.trans hs), abs_within h h0 h1 (hr.trans hrr) hs]
  refine unsigned (factors h) (cf_deriv r0 rss) (cf1_deriv r0 rss) (fun k => by unfold cf2; fun_prop) (fun k _ t => ?_)
    (t1 := Real.log rss) (fun k _ => cf_outer (h0.trans h1) k) (Real.log_le_log p3 hrr) (Real.log_le_log (p3.trans_le hrr) hs)
  unfold cf cf1 cf2
  ring

end OpenFlux

/-- **C104.** The unsigned flux through the spheres around the star, the integral of the magnitude of the radial field, never
grows with the radius. -/
theorem C104_unsigned (s : Coefs ℂ) (h : RadialSet s) (r0 rss r r' : ℝ) (h0 : 0 < r0) (h1 : r0 < rss) (hr : r0 ≤ r)
    (hrr : r ≤ r') :
    r' ^ 2 * overSphere (fun θ φ => |radialOf s r0 rss r' θ φ|) ≤ r ^ 2 * overSphere (fun θ φ => |radialOf s r0 rss r θ φ|) := by
  rcases le_total r' rss with hs | hs
  · exact unsigned_within h h0 h1 hr hrr hs
  · rw [abs_beyond h h0 h1 hs]
    rcases le_total r rss with hs' | hs'
    · exact unsigned_within h h0 h1 hr hs' le_rfl
    · rw [abs_beyond h h0 h1 hs']

/-- **C104.** The open flux, which is the same through every sphere beyond the source surface, is at most the unsigned flux
through the surface of the star and at least the net flux. -/
theorem C104_open (s : Coefs ℂ) (h : RadialSet s) (r0 rss r : ℝ) (h0 : 0 < r0) (h1 : r0 < rss) (hr : rss ≤ r) :
    r ^ 2 * overSphere (fun θ φ => |radialOf s r0 rss r θ φ|) = rss ^ 2 * overSphere (fun θ φ => |radialOf s r0 rss rss θ φ|) ∧
    r ^ 2 * overSphere (fun θ φ => |radialOf s r0 rss r θ φ|) ≤ r0 ^ 2 * overSphere (fun θ φ => |radialOf s r0 rss r0 θ φ|) ∧
    4 * Real.pi * r0 ^ 2 * |(storedCoef s 0 0).re| ≤ r ^ 2 * overSphere (fun θ φ => |radialOf s r0 rss r θ φ|) := by
  refine ⟨abs_beyond h h0 h1 hr, C104_unsigned s h r0 rss r0 r h0 h1 le_rfl (h1.le.trans hr), ?_⟩
  rw [abs_beyond h h0 h1 hr]
  have p1 : 0 < rss := h0.trans h1
  have e := C103_flux s h r0 rss rss h0 h1 h1.le
  have F := factors h
  have cU : Continuous fun q : ℝ × ℝ => U (pairs s) (fun k => cf r0 rss k (Real.log rss)) (fun k => thP k.1.toNat k.2.toNat)
      (fun k φ => (phiLm k.2 (coef s k.1 k.2).re (coef s k.1 k.2).im φ).1) q.1 q.2 := U_cont2 _ F.cp F.ce
  set V : ℝ → ℝ → ℝ := fun θ φ => U (pairs s) (fun k => cf r0 rss k (Real.log rss)) (fun k => thP k.1.toNat k.2.toNat)
      (fun k φ => (phiLm k.2 (coef s k.1 k.2).re (coef s k.1 k.2).im φ).1) θ φ with hV
  have eV : rss ^ 2 * overSphere (radialOf s r0 rss rss) = rss * overSphere V := by
    rw [pow_two, mul_assoc, mul_comm rss (overSphere _), ← overSphere_mul]
    congr 1
    refine overSphere_congr fun θ φ hθ => ?_
    rw [hV]
    dsimp only
    rw [← fR_U h0 p1 p1 hθ, radialOf_within h h0 h1 h1.le le_rfl, mul_comm]
  have eA := abs_within h h0 h1 h1.le le_rfl
  rw [Real.exp_log p1] at eA
  rw [eA]
  rw [eV] at e
  have up := overSphere_mono (F := V) (G := fun θ φ => |V θ φ|) cU cU.abs fun θ φ => le_abs_self _
  have dn := overSphere_mono (F := fun θ φ => V θ φ * (-1)) (G := fun θ φ => |V θ φ|) (cU.mul continuous_const) cU.abs
    fun θ φ => by rw [mul_neg_one]; exact neg_le_abs _
  rw [overSphere_mul] at dn
  have hpi := Real.pi_pos
  rw [← abs_of_pos (by positivity : 0 < 4 * Real.pi * r0 ^ 2), ← abs_mul, ← e]
  refine abs_le.2 ⟨?_, mul_le_mul_of_nonneg_left up p1.le⟩
  have := mul_le_mul_of_nonneg_left dn p1.le
  linarith

/-- A charge and a dipole across the axis. -/
private noncomputable def exOpen : Coefs ℂ := ⟨[0], .cplx, [((0, 0), [2]), ((1, 1), [3 + Complex.I])], 1, 0⟩

private theorem exOpen_radial : RadialSet exOpen := by
  have hr : Reach exOpen := by
    refine Reach.append (s := ⟨[0], .cplx, [((0, 0), [2])], 0, 0⟩) (.int 1) (.int 1) [3 + Complex.I] ?_ rfl
    refine Reach.append (s := Coefs.new [0] .cplx) (.int 0) (.int 0) [2] ?_ rfl
    exact Reach.new _ _ (by simp)
  refine ⟨wellFormed_of_WF hr.WF, rfl, ⟨1, 1, rfl⟩, fun l m hm => ?_⟩
  have := (Coefs.has_int exOpen l m).1 hm
  simp only [Coefs.keys, exOpen, List.map_cons, List.map_nil, List.mem_cons, List.not_mem_nil, or_false, Prod.mk.injEq] at this
  omega

/-- For that set the open flux lies between `8π` and the unsigned flux through the surface. -/
example : 8 * Real.pi ≤ 5 ^ 2 * overSphere (fun θ φ => |radialOf exOpen 1 2.5 5 θ φ|) ∧
    5 ^ 2 * overSphere (fun θ φ => |radialOf exOpen 1 2.5 5 θ φ|) ≤ 1 ^ 2 * overSphere (fun θ φ => |radialOf exOpen 1 2.5 1 θ φ|) := by
  have h := C104_open exOpen exOpen_radial 1 2.5 5 one_pos (by norm_num) (by norm_num)
  refine ⟨?_, h.2.1⟩
  have e : storedCoef exOpen 0 0 = 2 := by
    have hs : stores exOpen 0 0 := rfl
    rw [storedCoef, if_pos hs]; rfl
  have := h.2.2
  rw [e] at this
  refine le_trans (le_of_eq ?_) this
  simp
  ring

end Verif
