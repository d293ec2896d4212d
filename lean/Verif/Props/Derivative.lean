import Verif.Proof.DerivativeReal
import Verif.Model.DerivativeLog
import Mathlib.Analysis.SpecialFunctions.ExpDeriv
import Mathlib.Tactic.IntervalCases

/-!
# C160–C163: automatic derivatives
-/

namespace Verif.Props

open Verif.Derivative Verif.Spec

section Field

variable {K : Type} [Field K]

/-- **C161.**  Whatever derivatives of the source have been asked for before, the derivative of the source by a target ends, and it is empty exactly
when the source does not depend on the target. -/
theorem C161_empty {n : Nat} {op : Nat → Step K} (hE : Earlier n op) (val : Nat → K) {s t : Nat} (hs : s < n) (ht : t < n)
    (ts : List Nat) (hts : ∀ u ∈ ts, u < n) :
    ∃ c, session n op val s (ts ++ [t]) (initial s) = some c ∧ (c t = none ↔ ¬ DependsOn n op s t) := by
  obtain ⟨c, h1, h2, h3⟩ := session_spec (val := val) hE hs (ts ++ [t])
    (by intro u hu; rcases List.mem_append.1 hu with h | h
        · exact hts u h
        · rw [List.mem_singleton.1 h]; exact ht) (initial s) good_initial
  refine ⟨c, h1, fun h => h3 t (by simp) h, fun h => ?_⟩
  cases hc : c t with
  | none => rfl
  | some d => exact absurd (h2.2 t d hc).1 h

/-- **C160**, over any field, when no difference, product or quotient uses a step twice and no power is taken.  The derivative of the source by the
target, where an empty result stands for zero, is the derivative by dual numbers, whatever derivatives of the source have been asked for before. -/
theorem C160_dual_partial {n : Nat} {op : Nat → Step K} (hE : Earlier n op) (hS : ∀ i < n, (op i).Simple) {val : Nat → K} {s t : Nat} (hs : s < n)
    (ht : t < n) {δ : Nat → K} (hD : IsDerivative n op val t δ) (ts : List Nat) (hts : ∀ u ∈ ts, u < n) :
    ∃ c, session n op val s (ts ++ [t]) (initial s) = some c ∧ (c t).getD 0 = δ s := by
  obtain ⟨c, h1, h2, h3⟩ := session_spec (val := val) hE hs (ts ++ [t])
    (by intro u hu; rcases List.mem_append.1 hu with h | h
        · exact hts u h
        · rw [List.mem_singleton.1 h]; exact ht) (initial s) good_initial
  have hg := grad_derivative hE hs hS ht hD
  refine ⟨c, h1, ?_⟩
  cases hc : c t with
  | none =>
    have hn := h3 t (by simp) hc
    rw [← hg]
    by_contra h0
    exact hn (grad_depends _ _ (Ne.symm h0))
  | some d => rw [← hg]; exact (h2.2 t d hc).2

end Field

/-- **C160**, when no difference, product or quotient uses a step twice and no power is taken.  The derivative of the source by the target is the
derivative of the source as a function of the target at its value, where an empty result stands for zero. -/
theorem C160_derivative_partial {n : Nat} {op : Nat → Step ℝ} (hE : Earlier n op) (hS : ∀ i < n, (op i).Simple) {s t : Nat} (hs : s < n)
    (ht : t < n) {φ : Nat → ℝ → ℝ} (hF : Functions n op t φ) {x : ℝ} (hZ : NoZeroDivision n op φ x) (ts : List Nat) (hts : ∀ u ∈ ts, u < n) :
    ∃ c, session n op (fun j => φ j x) s (ts ++ [t]) (initial s) = some c ∧ HasDerivAt (φ s) ((c t).getD 0) x := by
  obtain ⟨hd, hD⟩ := functions_derivative hE hF hZ
  obtain ⟨c, h1, h2⟩ := C160_dual_partial hE hS hs ht hD ts hts
  refine ⟨c, h1, ?_⟩
  rw [h2]
  exact (hd s hs).hasDerivAt

/-- `(x + y) * x / y` with the inputs `x`, `y`. -/
def quotientGraph {K : Type} : Nat → Step K
  | 0 => .input
  | 1 => .input
  | 2 => .add [.step 0, .step 1]
  | 3 => .dot [.step 2, .step 0]
  | 4 => .div (.step 3) (.step 1)
  | _ => .input

theorem quotientGraph_earlier {K : Type} [Field K] : Earlier 5 (quotientGraph (K := K)) := by
  intro i hi c hc
  interval_cases i <;> simp_all [quotientGraph, Step.operands] <;> omega

theorem quotientGraph_simple {K : Type} [Field K] : ∀ i < 5, (quotientGraph (K := K) i).Simple := by
  intro i hi
  interval_cases i <;> simp only [quotientGraph, Step.Simple]
  · exact Or.inl ⟨[2, 0], rfl, by decide⟩
  · rintro i ⟨h, h'⟩
    cases h; cases h'

/-- The derivative by `y` at `x = 3`, `y = 2` is `-9/4`. -/
example : ∃ c, session 5 quotientGraph (fun j => [3, 2, 5, 15, 15 / 2].getD j (0 : ℚ)) 4 [0, 1] (initial 4) = some c ∧ c 1 = some (-9 / 4) ∧
    c 0 = some 4 := by
  refine ⟨_, rfl, ?_, ?_⟩ <;> decide +kernel

example : IsDerivative 5 quotientGraph (fun j => [3, 2, 5, 15, 15 / 2].getD j (0 : ℚ)) 1 (fun j => [0, 1, 1, 3, -9 / 4].getD j (0 : ℚ)) := by
  refine ⟨rfl, fun i hi h => ?_⟩
  interval_cases i <;> simp_all [quotientGraph, Step.Result, Operand.dual, dualAdd, dualMul] <;> norm_num

/-- The functions of `y` for `x = 3`. -/
example : ∃ φ, Functions 5 quotientGraph 1 φ ∧ NoZeroDivision 5 quotientGraph φ 2 := by
  refine ⟨fun j y => [3, y, 3 + y, (3 + y) * 3, (3 + y) * 3 / y].getD j 0, ⟨by funext y; rfl, fun i hi h => ?_⟩, fun i hi a b hab => ?_⟩
  · interval_cases i <;> simp_all [quotientGraph, Step.Function, Operand.at]
    exact ⟨3, rfl⟩
  · interval_cases i <;> simp_all [quotientGraph]
    rw [← hab.2]; simp [Operand.at]

example : DependsOn 5 (quotientGraph (K := ℚ)) 4 0 := by
  refine .child (p := 3) (by omega) (by simp [quotientGraph, Step.operands]) (.child (p := 4) (by omega) ?_ .self)
  simp [quotientGraph, Step.operands]

/-- A graph with the input 0 and one operation. -/
def oneOperation (o : Step ℚ) : Nat → Step ℚ
  | 1 => o
  | _ => .input

/-- **C160 is false** for `x - x`: the derivative is 2 and not 0. -/
theorem not_C160_sub :
    (∃ c, session 2 (oneOperation (.sub (.step 0) (.step 0))) (fun j => [3, 0].getD j 0) 1 [0] (initial 1) = some c ∧ c 0 = some 2) ∧
    IsDerivative 2 (oneOperation (.sub (.step 0) (.step 0))) (fun j => [3, 0].getD j 0) 0 (fun j => [1, 0].getD j 0) := by
  refine ⟨⟨_, rfl, by decide +kernel⟩, rfl, fun i hi h => ?_⟩
  interval_cases i <;> simp_all [oneOperation, Step.Result, Operand.dual, dualAdd]

/-- **C160 is false** for `x * x` at 3: the derivative is 2 and not 6. -/
theorem not_C160_dot :
    (∃ c, session 2 (oneOperation (.dot [.step 0, .step 0])) (fun j => [3, 9].getD j 0) 1 [0] (initial 1) = some c ∧ c 0 = some 2) ∧
    IsDerivative 2 (oneOperation (.dot [.step 0, .step 0])) (fun j => [3, 9].getD j 0) 0 (fun j => [1, 6].getD j 0) := by
  refine ⟨⟨_, rfl, by decide +kernel⟩, rfl, fun i hi h => ?_⟩
  interval_cases i <;> simp_all [oneOperation, Step.Result, Operand.dual, dualMul] <;> norm_num

/-- **C160 is false** for `x / x` at 3: the derivative is 2/3 and not 0. -/
theorem not_C160_div :
    (∃ c, session 2 (oneOperation (.div (.step 0) (.step 0))) (fun j => [3, 1].getD j 0) 1 [0] (initial 1) = some c ∧ c 0 = some (2 / 3)) ∧
    IsDerivative 2 (oneOperation (.div (.step 0) (.step 0))) (fun j => [3, 1].getD j 0) 0 (fun j => [1, 0].getD j 0) := by
  refine ⟨⟨_, rfl, by decide +kernel⟩, rfl, fun i hi h => ?_⟩
  interval_cases i <;> simp_all [oneOperation, Step.Result, Operand.dual, dualMul]

/-- **C160 is false** for the square of 3: the derivative is 3 and not 6. -/
theorem not_C160_pow :
    (∃ c, session 2 (oneOperation (.pow 0 1)) (fun j => [3, 9].getD j 0) 1 [0] (initial 1) = some c ∧ c 0 = some 3) ∧
    IsDerivative 2 (oneOperation (.pow 0 1)) (fun j => [3, 9].getD j 0) 0 (fun j => [1, 6].getD j 0) := by
  refine ⟨⟨_, rfl, by decide +kernel⟩, rfl, fun i hi h => ?_⟩
  interval_cases i <;> simp_all [oneOperation, Step.Result, Operand.dual, dualMul] <;> norm_num

/-- **C162**, for one source: the derivatives by the targets. -/
theorem C162_sources_partial {K T S : Type} [Field K] (D : T → S → K) (targets : List T) (s : S) :
    several D targets [s] = some (targets.map fun t => ([s].map (D t)).sum) := by
  simp [several]

/-- **C162 is false** for two targets and two sources: the derivative of the second source by the second target is added to the derivative by the
first. -/
theorem not_C162_sources : ∃ (D : Bool → Bool → ℚ), several D [false, true] [false, true] = some [1, 1] ∧
    [false, true].map (fun t => ([false, true].map (D t)).sum) = [0, 1] := by
  refine ⟨fun t s => if t && s then 1 else 0, by decide +kernel, by decide +kernel⟩

/-- **C162 is false** for one target and two sources: the second target is read. -/
theorem not_C162_outside (D : Bool → Bool → ℚ) : several D [false] [false, true] = none := rfl

/-- **C163**, for the exponential function and the logarithm to base `e`: the derivative is given on by the chain rule. -/
theorem C163_log_partial (g : ℝ → ℝ) (d y x : ℝ) (hy : y ≠ 0) (hg : HasDerivAt g d (logValue (Real.exp 1) y)) (h : ℝ → ℝ)
    (hh : HasDerivAt h x (expValue y)) :
    HasDerivAt (fun y => g (logValue (Real.exp 1) y)) (logChild (Real.exp 1) y d) y ∧
    HasDerivAt (fun y => h (expValue y)) (expChild (expValue y) x) y := by
  have he : logValue (Real.exp 1) = Real.log := by funext z; simp [logValue]
  constructor
  · rw [he] at hg ⊢
    have := hg.comp y (Real.hasDerivAt_log hy)
    have hc : logChild (Real.exp 1) y d = d * y⁻¹ := by simp [logChild, mul_comm]
    rw [hc]; exact this
  · have := hh.comp y (Real.hasDerivAt_exp y)
    have hc : expChild (expValue y) x = x * Real.exp y := by simp [expChild, expValue, mul_comm]
    rw [hc]; exact this

/-- The derivative of the square of the logarithm at `e`. -/
example : logValue (Real.exp 1) (Real.exp 1) = 1 ∧ HasDerivAt (fun z : ℝ => z ^ 2) 2 1 := by
  refine ⟨by simp [logValue], ?_⟩
  simpa using (hasDerivAt_pow 2 (1 : ℝ))

/-- **C163 is false** for the logarithm to base 2: at 1 the value given is `log 2` and the derivative is `1 / log 2`. -/
theorem not_C163_log : HasDerivAt (logValue 2) (1 / Real.log 2) 1 ∧ logChild 2 1 1 = Real.log 2 ∧ Real.log 2 ≠ 1 / Real.log 2 := by
  have h1 : Real.log 2 < 1 := by
    have := Real.log_lt_sub_one_of_pos (show (0 : ℝ) < 2 by norm_num) (by norm_num)
    linarith
  have h0 : 0 < Real.log 2 := Real.log_pos (by norm_num)
  have hne : (2 : ℝ) ≠ Real.exp 1 := by
    intro h
    rw [h, Real.log_exp] at h1
    exact lt_irrefl _ h1
  have h10 : Real.log 10 ≠ 0 := (Real.log_pos (by norm_num)).ne'
  refine ⟨?_, by simp [logChild, hne], ?_⟩
  · have : logValue 2 = fun z => Real.log z / Real.log 2 := by
      funext z
      simp only [logValue, if_neg hne]
      field_simp
    rw [this]
    simpa using (Real.hasDerivAt_log (one_ne_zero)).div_const (Real.log 2)
  · intro h
    rw [eq_div_iff h0.ne'] at h
    nlinarith

end Verif.Props
