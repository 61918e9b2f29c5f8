import Verif.Lemmas.Disc
import Verif.Props.Maps

/-!
# C91: the longitudinal field in the limit of fine grids
-/

namespace Verif
open Geometry Filter Topology

namespace Spec

/-- Cosine of the angle between the surface normal at `(θ, φ)` and the direction of an observer at `(t, x)`. -/
noncomputable def cosAngle (t x θ φ : ℝ) : ℝ :=
  Real.sin t * Real.cos x * (Real.sin θ * Real.cos φ) + Real.sin t * Real.sin x * (Real.sin θ * Real.sin φ) + Real.cos t * Real.cos θ

/-- The mean over the visible disc: surface elements count with their projected area, the disc has area `π`. -/
noncomputable def discMean (t x : ℝ) (f : ℝ → ℝ → ℝ) : ℝ :=
  (∫ φ in (0 : ℝ)..2 * Real.pi, ∫ θ in (0 : ℝ)..Real.pi, f θ φ * max 0 (cosAngle t x θ φ) * Real.sin θ) / Real.pi

/-- The component of the field towards an observer at `(t, x)`. -/
def LineOfSight (z : Zdi) (t x : ℝ) (L : ℝ → ℝ → ℝ) : Prop := ∀ θ φ, OffAxis θ → ∃ v, Zdi.cartesian z θ φ = .ok v ∧
  L θ φ = v 0 * (Real.sin t * Real.cos x) + v 1 * (Real.sin t * Real.sin x) + v 2 * Real.cos t

end Spec

open Spec

namespace Disc
open Riemann Rotation SphereLimit

theorem cosAngle_eq (t x θ φ : ℝ) : cosAngle t x θ φ = kr t θ (φ - x) := by
  rw [cosAngle, kr, Real.cos_sub]; ring

theorem discMean_eq (t x : ℝ) (f : ℝ → ℝ → ℝ) :
    discMean t x f = sphereInt (fun θ φ => f θ φ * max 0 (kr t θ (φ - x))) / Real.pi := by
  simp only [discMean, cosAngle_eq, sphereInt]

theorem discMean_congr {t x : ℝ} {f g : ℝ → ℝ → ℝ} (h : ∀ θ φ, OffAxis θ → f θ φ = g θ φ) : discMean t x f = discMean t x g := by
  rw [discMean_eq, discMean_eq, sphereInt_congr fun θ φ hθ => by rw [h θ φ hθ]]

/-- The component of the field towards the observer as a continuous function. -/
noncomputable def cL (z : Zdi) (t x θ φ : ℝ) : ℝ :=
  (cR z θ φ + 0) * kr t θ (φ - x) + (cPP z θ φ + cPT z θ φ) * kp t θ (φ - x) + (cAP z θ φ + cAT z θ φ) * ka t (φ - x)

theorem kr_cont (t x : ℝ) : Continuous fun p : ℝ × ℝ => kr t p.1 (p.2 - x) := by unfold kr; fun_prop

theorem kp_cont (t x : ℝ) : Continuous fun p : ℝ × ℝ => kp t p.1 (p.2 - x) := by unfold kp; fun_prop

theorem ka_cont (t x : ℝ) : Continuous fun p : ℝ × ℝ => ka t (p.2 - x) := by unfold ka; fun_prop

theorem cL_cont (z : Zdi) (t x : ℝ) : Continuous fun p : ℝ × ℝ => cL z t x p.1 p.2 :=
  ((((cR_cont z).add continuous_const).mul (kr_cont t x)).add (((cPP_cont z).add (cPT_cont z)).mul (kp_cont t x))).add
    (((cAP_cont z).add (cAT_cont z)).mul (ka_cont t x))

theorem cart_ok {z : Zdi} (hz : NonnegOrders z) {θ : ℝ} (hθ : OffAxis θ) (φ : ℝ) : Zdi.cartesian z θ φ
    = .ok (toCartesian θ φ (cR z θ φ + 0) (cPP z θ φ + cPT z θ φ) (cAP z θ φ + cAT z θ φ)) := by
  have hp : z.polar θ φ = .ok (cPP z θ φ + cPT z θ φ) := by rw [Zdi.polar, pp_ok hz hθ, ← pt_ok hz hθ]; rfl
  have ha : z.azimuthal θ φ = .ok (cAP z θ φ + cAT z θ φ) := by rw [Zdi.azimuthal, at_ok hz hθ, ← ap_ok hz hθ]; rfl
  have hr : z.radial θ φ = cR z θ φ + 0 := by rw [Zdi.radial, rp_ok hz hθ]; rfl
  rw [Zdi.cartesian, hp, ha, hr]
  rfl

theorem cL_sight {z : Zdi} (hz : NonnegOrders z) (t x : ℝ) : LineOfSight z t x (cL z t x) := by
  intro θ φ hθ
  refine ⟨_, cart_ok hz hθ φ, ?_⟩
  have := dot_field t x θ φ (cR z θ φ + 0) (cPP z θ φ + cPT z θ φ) (cAP z θ φ + cAT z θ φ)
  rw [cL, ← this]
  simp [dot3, rectFromSpherical]

theorem sight_unique {z : Zdi} {t x : ℝ} {L L' : ℝ → ℝ → ℝ} (h : LineOfSight z t x L) (h' : LineOfSight z t x L') {θ : ℝ}
    (hθ : OffAxis θ) (φ : ℝ) : L θ φ = L' θ φ := by
  obtain ⟨v, hv, e⟩ := h θ φ hθ
  obtain ⟨v', hv', e'⟩ := h' θ φ hθ
  rw [hv] at hv'
  cases hv'
  rw [e, e']

theorem weight_eq (t x : ℝ) (p a : ℝ × ℝ) : weight (rectFromSpherical 1 t x) p a
    = max 0 (kr t (mid p) (mid a - x)) * ((Real.cos p.1 - Real.cos p.2) * (a.2 - a.1)) := by
  rw [weight, norm_dir, div_one, dot_dir, mul_comm]

theorem field_full {z : Zdi} (hz : NonnegOrders z) {n : ℕ} (hn : 2 ≤ n) (k : ℕ) :
    fieldXyz (meshgrid (lin Real.pi n) (lin (2 * Real.pi) k)) z = .ok (grid (lin Real.pi n) (lin (2 * Real.pi) k)
      (cartF (fun θ φ => cR z θ φ + 0) (fun θ φ => cPP z θ φ + cPT z θ φ) fun θ φ => cAP z θ φ + cAT z θ φ)) := by
  rw [fieldXyz_eq]
  refine mapM_grid_ok _ _ _ _ _ fun p hp a _ => ?_
  rw [cart, cart_ok hz (Maps.full_offAxis hn hp)]
  rfl

/-- What the curve on a full-sphere grid consists of. -/
theorem curve_full {z : Zdi} (hz : NonnegOrders z) {n k : ℕ} (hn : 2 ≤ n) (hk : 2 ≤ k) {t : ℝ} {xs c : List ℝ}
    (h : longitudinalCurve (meshgrid (lin Real.pi n) (lin (2 * Real.pi) k)) z t (.floats xs) = .ok c) {x y : ℝ}
    (hy : (x, y) ∈ xs.zip c) :
    y = sum2 (grid (lin Real.pi n) (lin (2 * Real.pi) k) fun p a =>
          cL z t x (mid p) (mid a) * max 0 (kr t (mid p) (mid a - x)) * ((Real.cos p.1 - Real.cos p.2) * (a.2 - a.1)))
        / sum2 (grid (lin Real.pi n) (lin (2 * Real.pi) k) fun p a =>
          max 0 (kr t (mid p) (mid a - x)) * ((Real.cos p.1 - Real.cos p.2) * (a.2 - a.1))) := by
  obtain ⟨F, hF, rfl⟩ := curve_floats h
  rw [field_full hz hn] at hF
  obtain rfl := Except.ok.inj hF
  rw [mem_zip_map hy, longitudinal_eq]
  simp only [weight_eq, cartF, dot_field, mul_assoc]
  rfl

end Disc

open Disc

/-- **C91.** The visible area tends to that of the disc, from every direction. -/
theorem C91_visible (N K : ℕ → ℕ) (hN : Tendsto N atTop atTop) (hK : Tendsto K atTop atTop) (hN2 : ∀ n, 2 ≤ N n)
    (hK2 : ∀ n, 2 ≤ K n) (g : ℕ → Geom) (hg : ∀ n, Geom.init (.int (N n)) (.int (K n)) = .ok (g n)) (t x : ℝ) :
    Tendsto (fun n => sum2 (map2 (· * ·) (g n).areas ((g n).projFrac (rectFromSpherical 1 t x)))) atTop (𝓝 Real.pi) := by
  have hN' : Tendsto (fun n => N n - 1) atTop atTop := (tendsto_sub_atTop_nat 1).comp hN
  have hK' : Tendsto (fun n => K n - 1) atTop atTop := (tendsto_sub_atTop_nat 1).comp hK
  have h := SphereLimit.area_tendsto (f := fun θ φ => max 0 (Rotation.kr t θ (φ - x))) (continuous_const.max (kr_cont t x))
    hN' hK' fun n => by have := hN2 n; omega
  rw [disc_area] at h
  refine h.congr fun n => ?_
  rw [Maps.full_grid (hN2 n) (hK2 n) (hg n), Nat.sub_add_cancel (by have := hN2 n; omega),
    Nat.sub_add_cancel (by have := hK2 n; omega), areas_eq, projFrac_eq, map2_grid]
  congr 2
  funext p a
  rw [Rotation.norm_dir, div_one, Rotation.dot_dir, mul_comm]

/-- **C91.** On finer and finer full-sphere grids the longitudinal field tends to the mean over the visible disc of the component
of the field towards the observer. -/
theorem C91_limit (z : Zdi) (hz : NonnegOrders z) (N K : ℕ → ℕ) (hN : Tendsto N atTop atTop) (hK : Tendsto K atTop atTop)
    (hN2 : ∀ n, 2 ≤ N n) (hK2 : ∀ n, 2 ≤ K n) (g : ℕ → Geom) (hg : ∀ n, Geom.init (.int (N n)) (.int (K n)) = .ok (g n))
    (t : ℝ) (xs : List ℝ) (c : ℕ → List ℝ) (hc : ∀ n, longitudinalCurve (g n) z t (.floats xs) = .ok (c n)) (x : ℝ) (y : ℕ → ℝ)
    (hy : ∀ n, (x, y n) ∈ xs.zip (c n)) (L : ℝ → ℝ → ℝ) (hL : LineOfSight z t x L) :
    Tendsto y atTop (𝓝 (discMean t x L)) := by
  have hN' : Tendsto (fun n => N n - 1) atTop atTop := (tendsto_sub_atTop_nat 1).comp hN
  have hK' : Tendsto (fun n => K n - 1) atTop atTop := (tendsto_sub_atTop_nat 1).comp hK
  have hN1 : ∀ n, 0 < N n - 1 := fun n => by have := hN2 n; omega
  have hm : Continuous fun p : ℝ × ℝ => max 0 (Rotation.kr t p.1 (p.2 - x)) := continuous_const.max (kr_cont t x)
  have h1 := SphereLimit.area_tendsto (f := fun θ φ => cL z t x θ φ * max 0 (Rotation.kr t θ (φ - x)))
    ((cL_cont z t x).mul hm) hN' hK' hN1
  have h2 := SphereLimit.area_tendsto (f := fun θ φ => max 0 (Rotation.kr t θ (φ - x))) hm hN' hK' hN1
  rw [disc_area] at h2
  rw [discMean_congr fun θ φ hθ => sight_unique hL (cL_sight hz t x) hθ φ, discMean_eq]
  refine (h1.div h2 Real.pi_ne_zero).congr fun n => ?_
  have hc' := hc n
  rw [Maps.full_grid (hN2 n) (hK2 n) (hg n)] at hc'
  rw [curve_full hz (hN2 n) (hK2 n) hc' (hy n)]
  simp only [Pi.div_apply]
  rw [Nat.sub_add_cancel (by have := hN2 n; omega), Nat.sub_add_cancel (by have := hK2 n; omega)]

/-- **C91.** The weights of the mean add up to one, from every direction. -/
theorem C91_weights (t x : ℝ) : discMean t x (fun _ _ => 1) = 1 := by
  rw [discMean_eq]
  simp only [one_mul]
  rw [disc_area, div_self Real.pi_ne_zero]

/-- A case meeting the hypotheses of `C91_limit`: grids of `n + 2` by `n + 2` corners. -/
example : ∃ (z : Zdi) (g : ℕ → Geom) (c : ℕ → List ℝ) (y : ℕ → ℝ) (L : ℝ → ℝ → ℝ), NonnegOrders z ∧
    (∀ n : ℕ, Geom.init (.int (n + 2 : ℕ)) (.int (n + 2 : ℕ)) = .ok (g n)) ∧
    (∀ n, longitudinalCurve (g n) z 1 (.floats [0, 2]) = .ok (c n)) ∧ (∀ n, ((2 : ℝ), y n) ∈ [0, 2].zip (c n)) ∧
    LineOfSight z 1 2 L := by
  have hz : NonnegOrders [⟨1, 0, 1, 0, 2⟩, ⟨2, 1, Complex.I, 3, 0⟩] := by simp [NonnegOrders]
  have hg := fun n : ℕ => C46_full_sphere (n + 2) (n + 2) (by omega) (by omega)
  choose g hg _ using hg
  have hF : ∀ n, ∃ F, fieldXyz (g n) [⟨1, 0, 1, 0, 2⟩, ⟨2, 1, Complex.I, 3, 0⟩] = .ok F := by
    intro n
    rw [Maps.full_grid (by omega) (by omega) (hg n)]
    exact ⟨_, field_full hz (by omega) _⟩
  choose F hF using hF
  refine ⟨_, g, fun n => [0, 2].map fun x => longitudinal (g n) (F n) 1 x, fun n => longitudinal (g n) (F n) 1 2, _, hz, hg,
    fun n => ?_, fun n => ?_, cL_sight hz 1 2⟩
  · rw [longitudinalCurve, hF]
    rfl
  · simp

end Verif
