import Verif.Spec.Derivative
import Mathlib.Analysis.Calculus.Deriv.Basic

/-!
# Specification: the results of a computation as functions of one of its steps
-/

namespace Verif.Spec

/-- The operand as a function. -/
def Operand.at (φ : Nat → ℝ → ℝ) (x : ℝ) : Operand ℝ → ℝ
  | .step i => φ i x
  | .const k => k

/-- The result of a step as a function of `x`. -/
def Step.Function (φ : Nat → ℝ → ℝ) (f : ℝ → ℝ) : Step ℝ → Prop
  | .input => ∃ k, f = fun _ => k
  | .copy a => f = φ a
  | .add l => f = fun x => (l.map (Operand.at φ x)).sum
  | .sub a b => f = fun x => a.at φ x - b.at φ x
  | .dot l => f = fun x => (l.map (Operand.at φ x)).prod
  | .div a b => f = fun x => a.at φ x / b.at φ x
  | .pow a k => f = fun x => φ a x ^ (k + 1)

/-- `φ i x` is the result of step `i` when the result of step `t` is replaced by `x`. -/
def Functions (n : Nat) (op : Nat → Step ℝ) (t : Nat) (φ : Nat → ℝ → ℝ) : Prop :=
  φ t = (fun x => x) ∧ ∀ i < n, i ≠ t → (op i).Function φ (φ i)

/-- No division by zero. -/
def NoZeroDivision (n : Nat) (op : Nat → Step ℝ) (φ : Nat → ℝ → ℝ) (x : ℝ) : Prop :=
  ∀ i < n, ∀ a b, op i = .div a b → b.at φ x ≠ 0

end Verif.Spec
