import Verif.Spec.FMeasure

/-!
# Specification: accuracy of measurements on several workers
-/

namespace QIP.Spec

/-- Distance, in the interval of the manager's draws, between the exact and the computed borders of the workers, for a state of squared
norm `T`. -/
noncomputable def selectErr (u : ℝ) (n : Nat) (T : ℝ) : ℝ := (factor u ^ (2 ^ n + 1) - 1) * (1 + T)

/-- The part of the errors on `K` workers that is due to underflow. -/
noncomputable def distTiny (u eta : ℝ) (n K : Nat) : ℝ := K * drawTiny u eta n

end QIP.Spec
