import Mathlib.Analysis.SpecialFunctions.Log.Deriv

/-!
# Derivatives of the logarithm and of the exponential function

/repo/basicmath/src/mt_auto_derivative_tree.cpp and /repo/basicmath/include/mt_auto_derivative_tree.h, with real numbers for `f64`.
-/

namespace Verif.Derivative

/-- `mt_mat::log(base)`, /repo/basicmath/src/mt_mat_math_operation.cpp 2903–2910 with 1107–1112, for one element. -/
noncomputable def logValue (base x : ℝ) : ℝ :=
  if base = Real.exp 1 then Real.log x else (Real.log x / Real.log 10) / (Real.log base / Real.log 10)

/-- `mt_mat::exp`, 2893–2898 with 1104–1106, for one element. -/
noncomputable def expValue (x : ℝ) : ℝ := Real.exp x

/-- `mt_ad_log_tree_node::derivate_child_on_operation`, tree.cpp 249–257: the derivative by the child with value `x`, where `d` is the derivative
by the logarithm to `base`.  `compare_double` is the comparison of real numbers. -/
noncomputable def logChild (base x d : ℝ) : ℝ :=
  (if base ≠ Real.exp 1 then 1 / x * Real.log base else 1 / x) * d

/-- `mt_ad_exp_tree_node`, tree.h 700–704 (`y` is `m_mat`, the result of the node). -/
def expChild (y d : ℝ) : ℝ := y * d

end Verif.Derivative
