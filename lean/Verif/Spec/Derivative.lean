import Mathlib.Algebra.Field.Basic

/-!
# Specification: derivatives by dual numbers

A dual number `(v, d)` stands for `v + d * e` with `e * e = 0`: when a variable is `v + e`, the value of a rational function of it is its value
and its derivative.  Nothing here refers to the model of the code.
-/

namespace Verif.Spec

variable {K : Type} [Field K]

/-- An operand: the result of a step, or a constant. -/
inductive Operand (K : Type) where
  | step (i : Nat)
  | const (k : K)

/-- A step of a computation: an input, a copy, a sum, a difference, a product, a quotient, a power with exponent `k + 1`. -/
inductive Step (K : Type) where
  | input
  | copy (a : Nat)
  | add (l : List (Operand K))
  | sub (a b : Operand K)
  | dot (l : List (Operand K))
  | div (a b : Operand K)
  | pow (a k : Nat)

/-- The operands of a step. -/
def Step.operands : Step K → List (Operand K)
  | .input => []
  | .copy a => [.step a]
  | .add l => l
  | .sub a b => [a, b]
  | .dot l => l
  | .div a b => [a, b]
  | .pow a _ => [.step a]

/-- The dual number of an operand. -/
def Operand.dual (D : Nat → K × K) : Operand K → K × K
  | .step i => D i
  | .const k => (k, 0)

def dualAdd (x y : K × K) : K × K := (x.1 + y.1, x.2 + y.2)

def dualMul (x y : K × K) : K × K := (x.1 * y.1, x.1 * y.2 + x.2 * y.1)

/-- `r` is the result of a step whose operands are `D`. -/
def Step.Result (D : Nat → K × K) (r : K × K) : Step K → Prop
  | .input => r.2 = 0
  | .copy a => r = D a
  | .add l => r = (l.map (Operand.dual D)).foldr dualAdd (0, 0)
  | .sub a b => dualAdd r (b.dual D) = a.dual D
  | .dot l => r = (l.map (Operand.dual D)).foldr dualMul (1, 0)
  | .div a b => (b.dual D).1 ≠ 0 ∧ dualMul r (b.dual D) = a.dual D
  | .pow a k => r = (List.replicate (k + 1) (D a)).foldr dualMul (1, 0)

/-- `δ` are the derivatives of the steps by step `t`, where `v` are their values. -/
def IsDerivative (n : Nat) (op : Nat → Step K) (v : Nat → K) (t : Nat) (δ : Nat → K) : Prop :=
  δ t = 1 ∧ ∀ i < n, i ≠ t → (op i).Result (fun j => (v j, δ j)) (v i, δ i)

/-- Every step uses earlier steps. -/
def Earlier (n : Nat) (op : Nat → Step K) : Prop := ∀ i < n, ∀ c, Operand.step c ∈ (op i).operands → c < i

/-- Step `s` depends on step `t`. -/
inductive DependsOn (n : Nat) (op : Nat → Step K) (s : Nat) : Nat → Prop
  | self : DependsOn n op s s
  | child {p t : Nat} : p < n → Operand.step t ∈ (op p).operands → DependsOn n op s p → DependsOn n op s t

/-- A difference, product or quotient does not use a step twice. -/
def Step.Simple : Step K → Prop
  | .sub a b => ∀ i, ¬ (a = .step i ∧ b = .step i)
  | .div a b => ∀ i, ¬ (a = .step i ∧ b = .step i)
  | .dot l => (∃ is : List Nat, l = is.map .step ∧ is.Nodup) ∨ ∃ a k, l = [.step a, .const k]
  | .pow _ k => k = 0
  | _ => True

end Verif.Spec
