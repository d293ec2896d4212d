import Verif.Proof.Derivative
import Verif.Spec.DerivativeReal
import Mathlib.Analysis.Calculus.Deriv.Add
import Mathlib.Analysis.Calculus.Deriv.Mul
import Mathlib.Analysis.Calculus.Deriv.Inv
import Mathlib.Analysis.Calculus.Deriv.Pow

/-!
# Dual numbers give derivatives: proofs
-/

namespace Verif.Derivative

open Verif.Spec

variable {n : Nat} {op : Nat → Step ℝ} {φ : Nat → ℝ → ℝ} {x : ℝ}

/-- The dual numbers of the steps. -/
noncomputable def duals (φ : Nat → ℝ → ℝ) (x : ℝ) (j : Nat) : ℝ × ℝ := (φ j x, deriv (φ j) x)

theorem operand_deriv (a : Operand ℝ) (h : ∀ c, a = .step c → DifferentiableAt ℝ (φ c) x) :
    HasDerivAt (fun y => a.at φ y) (a.dual (duals φ x)).2 x ∧ (a.dual (duals φ x)).1 = a.at φ x := by
  cases a with
  | step i => exact ⟨(h i rfl).hasDerivAt, rfl⟩
  | const k => exact ⟨hasDerivAt_const x k, rfl⟩

theorem sum_deriv (l : List (Operand ℝ)) (h : ∀ c, Operand.step c ∈ l → DifferentiableAt ℝ (φ c) x) :
    HasDerivAt (fun y => (l.map (Operand.at φ y)).sum) ((l.map (Operand.dual (duals φ x))).foldr dualAdd (0, 0)).2 x ∧
    ((l.map (Operand.dual (duals φ x))).foldr dualAdd (0, 0)).1 = (l.map (Operand.at φ x)).sum := by
  induction l with
  | nil => exact ⟨hasDerivAt_const x 0, rfl⟩
  | cons a l ih =>
    obtain ⟨h1, h2⟩ := ih fun c hc => h c (List.mem_cons_of_mem _ hc)
    obtain ⟨h3, h4⟩ := operand_deriv (x := x) (φ := φ) a fun c hc => h c (hc ▸ List.mem_cons_self)
    constructor
    · have := h3.add h1
      simpa [dualAdd, Function.comp_def, Pi.add_def] using this
    · simp [dualAdd, h2, h4]

theorem prod_deriv (l : List (Operand ℝ)) (h : ∀ c, Operand.step c ∈ l → DifferentiableAt ℝ (φ c) x) :
    HasDerivAt (fun y => (l.map (Operand.at φ y)).prod) ((l.map (Operand.dual (duals φ x))).foldr dualMul (1, 0)).2 x ∧
    ((l.map (Operand.dual (duals φ x))).foldr dualMul (1, 0)).1 = (l.map (Operand.at φ x)).prod := by
  induction l with
  | nil => exact ⟨hasDerivAt_const x 1, rfl⟩
  | cons a l ih =>
    obtain ⟨h1, h2⟩ := ih fun c hc => h c (List.mem_cons_of_mem _ hc)
    obtain ⟨h3, h4⟩ := operand_deriv (x := x) (φ := φ) a fun c hc => h c (hc ▸ List.mem_cons_self)
    constructor
    · have := h3.mul h1
      rw [← h2, ← h4, add_comm] at this
      simpa [dualMul, Pi.mul_def] using this
    · simp [dualMul, h2, h4]

theorem functions_derivative (hE : Earlier n op) {t : Nat} (hF : Functions n op t φ) (hZ : NoZeroDivision n op φ x) :
    (∀ i < n, DifferentiableAt ℝ (φ i) x) ∧ IsDerivative n op (fun j => φ j x) t (fun j => deriv (φ j) x) := by
  have key : ∀ i < n, DifferentiableAt ℝ (φ i) x ∧ (i ≠ t → (op i).Result (duals φ x) (duals φ x i)) := by
    intro i
    induction i using Nat.strong_induction_on with
    | _ i ih =>
      intro hi
      by_cases hit : i = t
      · subst hit
        rw [hF.1]
        exact ⟨differentiableAt_id, fun h => absurd rfl h⟩
      · have hf := hF.2 i hi hit
        have hc : ∀ c, Operand.step c ∈ (op i).operands → DifferentiableAt ℝ (φ c) x := fun c h => by
          have := hE i hi c h
          exact (ih c this (by omega)).1
        cases hop : op i with
        | input =>
          rw [hop] at hf
          obtain ⟨k, hk⟩ := hf
          refine ⟨by rw [hk]; exact differentiableAt_const k, fun _ => ?_⟩
          show deriv (φ i) x = 0
          rw [hk]; exact (hasDerivAt_const x k).deriv
        | copy a =>
          rw [hop] at hf hc
          have hf : φ i = φ a := hf
          refine ⟨by rw [hf]; exact hc a (by simp [Step.operands]), fun _ => ?_⟩
          show duals φ x i = duals φ x a
          unfold duals
          rw [hf]
        | add l =>
          rw [hop] at hf hc
          have hf : φ i = _ := hf
          obtain ⟨h1, h2⟩ := sum_deriv (φ := φ) (x := x) l hc
          rw [← hf] at h1
          refine ⟨h1.differentiableAt, fun _ => ?_⟩
          refine Prod.ext ?_ h1.deriv
          show φ i x = _
          rw [hf]; exact h2.symm
        | sub a b =>
          rw [hop] at hf hc
          have hf : φ i = _ := hf
          obtain ⟨h1, h2⟩ := operand_deriv (φ := φ) (x := x) a fun c h => hc c (by simp [Step.operands, h])
          obtain ⟨h3, h4⟩ := operand_deriv (φ := φ) (x := x) b fun c h => hc c (by simp [Step.operands, h])
          have h5 : HasDerivAt (φ i) ((a.dual (duals φ x)).2 - (b.dual (duals φ x)).2) x := by rw [hf]; exact h1.sub h3
          refine ⟨h5.differentiableAt, fun _ => ?_⟩
          refine Prod.ext ?_ ?_
          · show φ i x + _ = _
            rw [h2, h4, hf]; ring
          · show deriv (φ i) x + _ = _
            rw [h5.deriv]; ring
        | dot l =>
          rw [hop] at hf hc
          have hf : φ i = _ := hf
          obtain ⟨h1, h2⟩ := prod_deriv (φ := φ) (x := x) l hc
          rw [← hf] at h1
          refine ⟨h1.differentiableAt, fun _ => ?_⟩
          refine Prod.ext ?_ h1.deriv
          show φ i x = _
          rw [hf]; exact h2.symm
        | div a b =>
          have hz := hZ i hi a b hop
          rw [hop] at hf hc
          have hf : φ i = _ := hf
          obtain ⟨h1, h2⟩ := operand_deriv (φ := φ) (x := x) a fun c h => hc c (by simp [Step.operands, h])
          obtain ⟨h3, h4⟩ := operand_deriv (φ := φ) (x := x) b fun c h => hc c (by simp [Step.operands, h])
          have h5 : HasDerivAt (φ i) (((a.dual (duals φ x)).2 * b.at φ x - a.at φ x * (b.dual (duals φ x)).2) / b.at φ x ^ 2) x := by
            rw [hf]; exact h1.div h3 hz
          refine ⟨h5.differentiableAt, fun _ => ⟨by rw [h4]; exact hz, ?_⟩⟩
          have h6 : φ i x = a.at φ x / b.at φ x := by rw [hf]
          refine Prod.ext ?_ ?_
          · show φ i x * _ = _
            rw [h2, h4, h6]; field_simp
          · show φ i x * _ + deriv (φ i) x * _ = _
            rw [h5.deriv, h4, h6]; field_simp; ring
        | pow a k =>
          rw [hop] at hf hc
          have hf : φ i = _ := hf
          obtain ⟨h1, h2⟩ := prod_deriv (φ := φ) (x := x) (List.replicate (k + 1) (.step a)) fun c h => by
            have := List.eq_of_mem_replicate h
            exact hc c (by simp [Step.operands, this])
          have e : (fun y => ((List.replicate (k + 1) (Operand.step a)).map (Operand.at φ y)).prod) = φ i := by
            rw [hf]
            funext y
            rw [List.map_replicate, List.prod_replicate]
            rfl
          rw [e] at h1
          rw [List.map_replicate] at h1 h2
          refine ⟨h1.differentiableAt, fun _ => ?_⟩
          refine Prod.ext ?_ h1.deriv
          show φ i x = _
          rw [← e]; exact h2.symm
  refine ⟨fun i hi => (key i hi).1, ?_, fun i hi h => (key i hi).2 h⟩
  show deriv (φ t) x = 1
  rw [hF.1]
  exact deriv_id x

end Verif.Derivative
