import Verif.Model.Zdi

/-!
# Specification vocabulary for magnetograms
-/

namespace Verif
namespace Spec

/-- Some row exists and all orders are non-negative and at most the degree: what `from_coefficients` makes of a
non-empty set after `map_to_positive_orders`. -/
def NonnegOrders (z : Zdi) : Prop := z ≠ [] ∧ ∀ r ∈ z, 0 ≤ r.m ∧ r.m ≤ r.l

/-- A point of the unit sphere away from the two poles. -/
def OffAxis (θ : ℝ) : Prop := 0 < θ ∧ θ < Real.pi

end Spec
end Verif
