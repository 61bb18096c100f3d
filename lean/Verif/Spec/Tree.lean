import Verif.Model.Mixture

/-!
# Specification of hierarchical mixtures
-/

namespace Mixtera

/-- The leaves of a mixture tree, in order: the properties on the path from the root to the leaf, root first, and the
product of the weights on it. -/
def leaves (name : PyStr) : MComps → List (RawKey × ℚ)
  | .nil => []
  | .leaf values weight rest => ([(name, values)], weight) :: leaves name rest
  | .sub values weight sname comps rest =>
    (leaves sname comps).map (fun leaf => ((name, values) :: leaf.1, weight * leaf.2)) ++ leaves name rest

/-- Sum of the weights of the components of one node. -/
def weightSum : MComps → ℚ
  | .nil => 0
  | .leaf _ w rest => w + weightSum rest
  | .sub _ w _ _ rest => w + weightSum rest

/-- In every submixture the weights sum to 1. -/
def SubsNormalised : MComps → Prop
  | .nil => True
  | .leaf _ _ rest => SubsNormalised rest
  | .sub _ _ _ comps rest => weightSum comps = 1 ∧ SubsNormalised comps ∧ SubsNormalised rest

/-- No weight is negative. -/
def WeightsNonneg : MComps → Prop
  | .nil => True
  | .leaf _ w rest => 0 ≤ w ∧ WeightsNonneg rest
  | .sub _ w _ comps rest => 0 ≤ w ∧ WeightsNonneg comps ∧ WeightsNonneg rest

end Mixtera
