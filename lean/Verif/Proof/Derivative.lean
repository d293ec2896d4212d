import Verif.Model.Derivative
import Mathlib.Algebra.BigOperators.Ring.Finset
import Mathlib.Algebra.BigOperators.Intervals
import Mathlib.Algebra.BigOperators.Group.List.Basic
import Mathlib.Tactic.FieldSimp
import Mathlib.Tactic.Ring
import Mathlib.Tactic.LinearCombination

/-!
# Automatic derivatives: proofs
-/

namespace Verif.Derivative

open Verif.Spec

variable {K : Type} [Field K] {n : Nat} {op : Nat → Step K} {val : Nat → K} {s : Nat}

/-- The factor of a parent. -/
def coef (op : Nat → Step K) (val : Nat → K) (p t : Nat) : K := (derivateChild val t 1 (op p)).getD 0

theorem isNode_iff (t : Nat) (x : Operand K) : isNode t x = true ↔ x = .step t := by
  cases x with
  | step i => simp [isNode]
  | const k => simp [isNode]

theorem derivateChild_coef (p t : Nat) (d : K) (h : Operand.step t ∈ (op p).operands) :
    derivateChild val t d (op p) = some (coef op val p t * d) := by
  unfold coef
  cases hop : op p with
  | input => rw [hop] at h; simp [Step.operands] at h
  | copy a => simp [derivateChild]
  | add l => simp [derivateChild]
  | sub a b =>
    rw [hop] at h
    simp only [derivateChild]
    by_cases ha : isNode t a = true
    · simp [ha]
    · by_cases hb : isNode t b = true
      · simp [ha, hb]
      · exfalso
        simp only [Step.operands, List.mem_cons, List.not_mem_nil, or_false] at h
        rcases h with h | h
        · exact ha ((isNode_iff t a).2 h.symm)
        · exact hb ((isNode_iff t b).2 h.symm)
  | dot l =>
    simp only [derivateChild]
    rcases others val t l with ⟨_ | ⟨o, os⟩, k⟩
    · simp [mul_comm]
    · simp
  | div a b =>
    rw [hop] at h
    simp only [derivateChild]
    by_cases ha : isNode t a = true
    · simp [ha]; ring
    · by_cases hb : isNode t b = true
      · simp [ha, hb]; ring
      · exfalso
        simp only [Step.operands, List.mem_cons, List.not_mem_nil, or_false] at h
        rcases h with h | h
        · exact ha ((isNode_iff t a).2 h.symm)
        · exact hb ((isNode_iff t b).2 h.symm)
  | pow a k => simp [derivateChild, mul_comm]

theorem mem_parents {t p : Nat} : p ∈ parents n op t ↔ p < n ∧ Operand.step t ∈ (op p).operands := by
  unfold parents
  rw [List.mem_flatMap]
  constructor
  · rintro ⟨i, hi, hp⟩
    rw [List.mem_map] at hp
    obtain ⟨x, hx, rfl⟩ := hp
    rw [List.mem_filter, isNode_iff] at hx
    exact ⟨List.mem_range.1 hi, hx.2 ▸ hx.1⟩
  · rintro ⟨hp, ht⟩
    refine ⟨p, List.mem_range.2 hp, ?_⟩
    rw [List.mem_map]
    exact ⟨.step t, List.mem_filter.2 ⟨ht, (isNode_iff _ _).2 rfl⟩, rfl⟩

/-- How often a node is a child. -/
def count (op : Nat → Step K) (p t : Nat) : K := (((op p).operands.filter (isNode t)).length : K)

theorem sum_parents (t : Nat) (f : Nat → K) : ((parents n op t).map f).sum = ∑ p ∈ Finset.range n, count op p t * f p := by
  unfold parents
  induction n with
  | zero => simp
  | succ n ih =>
    rw [List.range_succ, List.flatMap_append, List.map_append, List.sum_append, ih, Finset.sum_range_succ]
    congr 1
    simp only [List.flatMap_cons, List.flatMap_nil, List.append_nil, List.map_map, count]
    generalize ((op n).operands.filter (isNode t)) = l
    induction l with
    | nil => simp
    | cons x l ih => rw [List.map_cons, List.sum_cons, ih]; simp; ring

theorem count_zero {p t : Nat} (h : Operand.step t ∉ (op p).operands) : count op p t = 0 := by
  unfold count
  have : (op p).operands.filter (isNode t) = [] := by
    rw [List.filter_eq_nil_iff]
    intro x hx hc
    rw [isNode_iff] at hc
    exact h (hc ▸ hx)
  simp [this]

/-- The derivative of the source by a node, computed from the parents. -/
def adj (n : Nat) (op : Nat → Step K) (val : Nat → K) (s : Nat) : Nat → Nat → K
  | 0, _ => 0
  | f + 1, j => if j = s then 1 else ((parents n op j).map fun p => coef op val p j * adj n op val s f p).sum

theorem adj_stable (hE : Earlier n op) (hs : s < n) : ∀ (f f' j : Nat), n ≤ j + f → n ≤ j + f' →
    adj n op val s f j = adj n op val s f' j := by
  have none : ∀ j, n ≤ j → parents n op j = [] := by
    intro j hj
    rw [List.eq_nil_iff_forall_not_mem]
    intro p hp
    obtain ⟨h1, h2⟩ := mem_parents.1 hp
    have := hE p h1 j h2
    omega
  have zero : ∀ f j, n ≤ j → adj n op val s f j = 0 := by
    intro f j hj
    cases f with
    | zero => rfl
    | succ f => rw [adj, if_neg (by omega), none j hj]; rfl
  intro f
  induction f with
  | zero => intro f' j h1 _; rw [zero 0 j (by omega), zero f' j (by omega)]
  | succ f ih =>
    intro f' j h1 h2
    cases f' with
    | zero => rw [zero _ j (by omega), zero _ j (by omega)]
    | succ f' =>
      rw [adj, adj]
      congr 2
      apply List.map_congr_left
      intro p hp
      obtain ⟨h3, h4⟩ := mem_parents.1 hp
      have := hE p h3 j h4
      rw [ih f' p (by omega) (by omega)]

/-- The derivative of the source by a node. -/
def grad (n : Nat) (op : Nat → Step K) (val : Nat → K) (s j : Nat) : K := adj n op val s (n + 1) j

theorem grad_self : grad n op val s s = 1 := by rw [grad, adj, if_pos rfl]

theorem grad_eq (hE : Earlier n op) (hs : s < n) {j : Nat} (hj : j ≠ s) :
    grad n op val s j = ((parents n op j).map fun p => coef op val p j * grad n op val s p).sum := by
  rw [grad, adj, if_neg hj]
  congr 1
  apply List.map_congr_left
  intro p hp
  obtain ⟨h3, h4⟩ := mem_parents.1 hp
  have := hE p h3 j h4
  rw [grad, adj_stable hE hs n (n + 1) p (by omega) (by omega)]

theorem grad_depends : ∀ (f j : Nat), adj n op val s f j ≠ 0 → DependsOn n op s j := by
  intro f
  induction f with
  | zero => intro j h; exact absurd rfl h
  | succ f ih =>
    intro j h
    rw [adj] at h
    by_cases hj : j = s
    · subst hj; exact .self
    · rw [if_neg hj] at h
      by_contra hc
      apply h
      apply List.sum_eq_zero
      intro x hx
      rw [List.mem_map] at hx
      obtain ⟨p, hp, rfl⟩ := hx
      obtain ⟨h3, h4⟩ := mem_parents.1 hp
      have : adj n op val s f p = 0 := by
        by_contra h5
        exact hc (.child h3 h4 (ih p h5))
      rw [this, mul_zero]

theorem depends_le (hE : Earlier n op) {j : Nat} (h : DependsOn n op s j) : j ≤ s := by
  induction h with
  | self => exact le_refl _
  | child h1 h2 _ ih => have := hE _ h1 _ h2; omega

/-- What the stored derivatives are. -/
def Good (n : Nat) (op : Nat → Step K) (val : Nat → K) (s : Nat) (c : Nat → Option K) : Prop :=
  c s = some 1 ∧ ∀ j d, c j = some d → DependsOn n op s j ∧ d = grad n op val s j

theorem good_initial : Good n op val s (initial s) := by
  refine ⟨by simp [initial], fun j d h => ?_⟩
  unfold initial at h
  by_cases hj : j = s
  · subst hj
    rw [if_pos rfl] at h
    cases h
    exact ⟨.self, grad_self.symm⟩
  · rw [if_neg hj] at h; cases h

theorem derive_spec (hE : Earlier n op) (hs : s < n) : ∀ (f t : Nat) (c : Nat → Option K), t < n → n < t + f → Good n op val s c →
    ∃ c', derive n op val s f t c = some c' ∧ Good n op val s c' ∧ (c' t = none → ¬ DependsOn n op s t) := by
  intro f
  induction f with
  | zero =>
    intro t c h0 h hg
    omega
  | succ f ih =>
    intro t c h0 h hg
    rw [derive]
    by_cases ht : t = s
    · rw [if_pos ht]
      exact ⟨c, rfl, hg, fun h => by rw [ht, hg.1] at h; cases h⟩
    · rw [if_neg ht]
      by_cases hc : (c t).isSome = true
      · rw [if_pos hc]
        exact ⟨c, rfl, hg, fun h => by rw [h] at hc; cases hc⟩
      · rw [if_neg hc]
        have loop : ∀ (ps : List Nat), (∀ p ∈ ps, p ∈ parents n op t) → ∀ (c : Nat → Option K) (res : List K), Good n op val s c →
            ∃ c' res', ps.foldl (fun acc p => acc.bind fun r => (derive n op val s f p r.1).bind fun c' =>
              gather val (op p) t p c' r.2) (some (c, res)) = some (c', res ++ res') ∧
              Good n op val s c' ∧ res'.sum = (ps.map fun p => coef op val p t * grad n op val s p).sum ∧
              (res' = [] → ∀ p ∈ ps, ¬ DependsOn n op s p) ∧ (res' ≠ [] → DependsOn n op s t) := by
          intro ps
          induction ps with
          | nil => intro _ c res hg; exact ⟨c, [], by simp, hg, by simp, by simp, by simp⟩
          | cons p ps ihp =>
            intro hm c res hg
            obtain ⟨h3, h4⟩ := mem_parents.1 (hm p List.mem_cons_self)
            have hlt := hE p h3 t h4
            obtain ⟨c1, e1, g1, d1⟩ := ih p c h3 (by omega) hg
            rw [List.foldl_cons]
            simp only [Option.bind_some, e1]
            cases h5 : c1 p with
            | none =>
              rw [show gather val (op p) t p c1 res = some (c1, res) by simp only [gather, h5]]
              obtain ⟨c2, res', e2, g2, s2, n2, m2⟩ := ihp (fun q hq => hm q (List.mem_cons_of_mem _ hq)) c1 res g1
              refine ⟨c2, res', e2, g2, ?_, ?_, m2⟩
              · have : grad n op val s p = 0 := by
                  by_contra h6
                  exact d1 h5 (grad_depends _ _ h6)
                rw [s2, List.map_cons, List.sum_cons, this, mul_zero, zero_add]
              · intro hr q hq
                rcases List.mem_cons.1 hq with rfl | hq
                · exact d1 h5
                · exact n2 hr q hq
            | some d =>
              obtain ⟨r1, r2⟩ := g1.2 p d h5
              rw [show gather val (op p) t p c1 res = some (c1, res ++ [coef op val p t * d]) by
                simp only [gather, h5, derivateChild_coef (val := val) p t d h4, Option.map_some]]
              obtain ⟨c2, res', e2, g2, s2, n2, m2⟩ := ihp (fun q hq => hm q (List.mem_cons_of_mem _ hq)) c1
                (res ++ [coef op val p t * d]) g1
              refine ⟨c2, coef op val p t * d :: res', ?_, g2, ?_, ?_, ?_⟩
              · rw [e2]; simp
              · rw [List.sum_cons, s2, List.map_cons, List.sum_cons, r2]
              · intro hr; simp at hr
              · intro _; exact .child h3 h4 r1
        obtain ⟨c', res', e, g, hsum, hnil, hne⟩ := loop (parents n op t) (fun _ h => h) c [] hg
        rw [e]
        simp only [List.nil_append, Option.map_some]
        refine ⟨_, rfl, ?_⟩
        by_cases hr : res' = []
        · rw [if_pos hr]
          refine ⟨g, fun _ hd => ?_⟩
          cases hd with
          | self => exact ht rfl
          | child h3 h4 h5 => exact hnil hr _ (mem_parents.2 ⟨h3, h4⟩) h5
        · rw [if_neg hr]
          refine ⟨⟨?_, fun j d hj => ?_⟩, fun h => by simp at h⟩
          · show (if s = t then _ else _) = _
            rw [if_neg (Ne.symm ht)]; exact g.1
          · change (if j = t then _ else _) = _ at hj
            by_cases hjt : j = t
            · subst hjt
              rw [if_pos rfl] at hj
              cases hj
              exact ⟨hne hr, by rw [hsum, grad_eq hE hs ht]⟩
            · rw [if_neg hjt] at hj
              exact g.2 j d hj

theorem session_spec (hE : Earlier n op) (hs : s < n) (ts : List Nat) (hts : ∀ t ∈ ts, t < n) : ∀ (c : Nat → Option K), Good n op val s c →
    ∃ c', session n op val s ts c = some c' ∧ Good n op val s c' ∧ ∀ t, ts.getLast? = some t → c' t = none → ¬ DependsOn n op s t := by
  induction ts with
  | nil => intro c hg; exact ⟨c, rfl, hg, by simp⟩
  | cons t ts ih =>
    intro c hg
    obtain ⟨c1, e1, g1, d1⟩ := derive_spec (val := val) hE hs (n + 1) t c (hts t List.mem_cons_self) (by have := hts t List.mem_cons_self; omega) hg
    obtain ⟨c2, e2, g2, d2⟩ := ih (fun u hu => hts u (List.mem_cons_of_mem _ hu)) c1 g1
    refine ⟨c2, by rw [session, e1]; exact e2, g2, fun u hu => ?_⟩
    cases ts with
    | nil =>
      rw [session] at e2
      cases e2
      have : t = u := by simpa using hu
      subst this
      exact d1
    | cons v ts =>
      rw [List.getLast?_cons_cons] at hu
      exact d2 u hu

/-- The weight of an operand. -/
def opw (h : Nat → K) : Operand K → K
  | .step i => h i
  | .const _ => 0

theorem sum_childs (l : List (Operand K)) (h : Nat → K) (hl : ∀ c, Operand.step c ∈ l → c < n) :
    ∑ c ∈ Finset.range n, ((l.filter (isNode c)).length : K) * h c = (l.map (opw h)).sum := by
  induction l with
  | nil => simp
  | cons x l ih =>
    have ih := ih fun c hc => hl c (List.mem_cons_of_mem _ hc)
    rw [List.map_cons, List.sum_cons, ← ih]
    cases x with
    | const k => simp [isNode, opw]
    | step i =>
      have hi : i < n := hl i List.mem_cons_self
      have e : ∀ c, (((Operand.step i :: l).filter (isNode c)).length : K) * h c =
          (if i = c then h c else 0) + ((l.filter (isNode c)).length : K) * h c := by
        intro c
        rw [List.filter_cons]
        by_cases hc : i = c
        · subst hc; simp [isNode]; ring
        · simp [isNode, hc]
      simp only [e, Finset.sum_add_distrib, opw]
      congr 1
      rw [Finset.sum_ite_eq, if_pos (Finset.mem_range.2 hi)]

theorem others_steps (val : Nat → K) (t : Nat) (is : List Nat) :
    (others val t (is.map .step)) = ((is.filter fun i => decide (i ≠ t)).map val, 1) := by
  induction is with
  | nil => rfl
  | cons i is ih =>
    rw [List.map_cons, others, ih]
    by_cases h : i = t
    · simp [h]
    · simp [h]

theorem coef_dot {p : Nat} {is : List Nat} (hop : op p = .dot (is.map .step)) (t : Nat) :
    coef op val p t = ((is.filter fun i => decide (i ≠ t)).map val).prod := by
  unfold coef
  rw [hop]
  simp only [derivateChild, others_steps]
  cases h : (is.filter fun i => decide (i ≠ t)).map val with
  | nil => simp
  | cons o os => simp

theorem prod_rule (val δ : Nat → K) (is : List Nat) (hn : is.Nodup) :
    ((is.map .step).map (Operand.dual fun j => (val j, δ j))).foldr dualMul (1, 0) =
      ((is.map val).prod, (is.map fun t => ((is.filter fun i => decide (i ≠ t)).map val).prod * δ t).sum) := by
  induction is with
  | nil => simp
  | cons i is ih =>
    rw [List.nodup_cons] at hn
    have ih := ih hn.2
    rw [List.map_cons, List.map_cons, List.foldr_cons, ih]
    unfold dualMul
    simp only [Operand.dual, List.map_cons, List.prod_cons, List.sum_cons]
    congr 1
    have e1 : (i :: is).filter (fun j => decide (j ≠ i)) = is := by
      rw [List.filter_cons]
      simp only [ne_eq, not_true_eq_false, decide_false, Bool.false_eq_true, if_false]
      rw [List.filter_eq_self]
      intro a ha
      simp only [decide_eq_true_eq]
      rintro rfl
      exact hn.1 ha
    have e2 : (is.map fun t => (((i :: is).filter fun j => decide (j ≠ t)).map val).prod * δ t) =
        is.map fun t => val i * (((is.filter fun j => decide (j ≠ t)).map val).prod * δ t) := by
      apply List.map_congr_left
      intro t ht
      have : i ≠ t := by rintro rfl; exact hn.1 ht
      rw [List.filter_cons, if_pos (by simpa using this), List.map_cons, List.prod_cons]
      ring
    rw [e1, e2, List.sum_map_mul_left]
    ring

theorem forward (hE : Earlier n op) {t i : Nat} {δ : Nat → K} (hi : i < n) (hS : (op i).Simple)
    (hR : (op i).Result (fun j => (val j, δ j)) (val i, δ i)) :
    δ i = ∑ c ∈ Finset.range n, count op i c * (coef op val i c * δ c) := by
  unfold count
  rw [sum_childs (op i).operands (fun c => coef op val i c * δ c) fun c hc => lt_trans (hE i hi c hc) hi]
  cases hop : op i with
  | input => rw [hop] at hR; simpa [Step.operands, Step.Result] using hR
  | copy a =>
    rw [hop] at hR
    have : (val i, δ i) = (val a, δ a) := hR
    simp [Step.operands, opw, coef, hop, derivateChild]
    exact (Prod.mk.inj this).2
  | add l =>
    rw [hop] at hR
    have hR : (val i, δ i) = (l.map (Operand.dual fun j => (val j, δ j))).foldr dualAdd (0, 0) := hR
    have : ∀ l : List (Operand K), ((l.map (Operand.dual fun j => (val j, δ j))).foldr dualAdd (0, 0)).2 =
        (l.map (opw fun c => coef op val i c * δ c)).sum := by
      intro l
      induction l with
      | nil => rfl
      | cons x l ih =>
        rw [List.map_cons, List.foldr_cons, List.map_cons, List.sum_cons, ← ih]
        show _ + _ = _
        congr 1
        cases x with
        | step c => simp [Operand.dual, opw, coef, hop, derivateChild]
        | const k => rfl
    exact (congrArg Prod.snd hR).trans (this l)
  | sub a b =>
    rw [hop] at hR hS
    have hR : dualAdd (val i, δ i) (b.dual fun j => (val j, δ j)) = a.dual fun j => (val j, δ j) := hR
    have hS : ∀ i, ¬ (a = .step i ∧ b = .step i) := hS
    have h2 := congrArg Prod.snd hR
    simp only [Step.operands, List.map_cons, List.map_nil, List.sum_cons, List.sum_nil]
    cases a with
    | const k =>
      cases b with
      | const k' => simp only [dualAdd, Operand.dual, opw] at h2 ⊢; linear_combination h2
      | step j =>
        simp only [dualAdd, Operand.dual, opw, coef, hop, derivateChild, isNode] at h2 ⊢
        simp
        linear_combination h2
    | step a =>
      cases b with
      | const k' =>
        simp only [dualAdd, Operand.dual, opw, coef, hop, derivateChild, isNode] at h2 ⊢
        simp
        linear_combination h2
      | step j =>
        have hne : a ≠ j := by rintro rfl; exact hS a ⟨rfl, rfl⟩
        simp only [dualAdd, Operand.dual, opw, coef, hop, derivateChild, isNode] at h2 ⊢
        simp [hne]
        linear_combination h2
  | dot l =>
    rw [hop] at hR hS
    have hR : (val i, δ i) = (l.map (Operand.dual fun j => (val j, δ j))).foldr dualMul (1, 0) := hR
    have hS : (∃ is : List Nat, l = is.map .step ∧ is.Nodup) ∨ ∃ a k, l = [.step a, .const k] := hS
    rcases hS with ⟨is, rfl, hn⟩ | ⟨a, k, rfl⟩
    · rw [prod_rule val δ is hn] at hR
      rw [(Prod.mk.inj hR).2]
      simp only [Step.operands, List.map_map]
      congr 1
      apply List.map_congr_left
      intro t _
      simp only [Function.comp, opw]
      rw [coef_dot hop]
    · have h2 := congrArg Prod.snd hR
      simp [Step.operands, opw, coef, hop, derivateChild, others, dualMul, Operand.dual] at h2 ⊢
      linear_combination h2
  | div a b =>
    rw [hop] at hR hS
    have hR : (b.dual fun j => (val j, δ j)).1 ≠ 0 ∧ dualMul (val i, δ i) (b.dual fun j => (val j, δ j)) = a.dual fun j => (val j, δ j) := hR
    have hS : ∀ i, ¬ (a = .step i ∧ b = .step i) := hS
    obtain ⟨h0, hR⟩ := hR
    have h1 := congrArg Prod.fst hR
    have h2 := congrArg Prod.snd hR
    simp only [Step.operands, List.map_cons, List.map_nil, List.sum_cons, List.sum_nil]
    cases a with
    | const k =>
      cases b with
      | const k' =>
        simp only [dualMul, Operand.dual, opw] at h0 h1 h2 ⊢
        have : δ i * k' = 0 := by linear_combination h2
        rcases mul_eq_zero.1 this with h | h
        · rw [h]; ring
        · exact absurd h h0
      | step j =>
        simp only [dualMul, Operand.dual, opw, coef, hop, derivateChild, isNode, childVal] at h0 h1 h2 ⊢
        simp
        field_simp
        linear_combination val j * h2 - δ j * h1
    | step a =>
      cases b with
      | const k' =>
        simp only [dualMul, Operand.dual, opw, coef, hop, derivateChild, isNode, childVal] at h0 h1 h2 ⊢
        simp
        field_simp
        linear_combination h2
      | step j =>
        have hne : a ≠ j := by rintro rfl; exact hS a ⟨rfl, rfl⟩
        simp only [dualMul, Operand.dual, opw, coef, hop, derivateChild, isNode, childVal] at h0 h1 h2 ⊢
        simp [hne]
        field_simp
        linear_combination val j * h2 - δ j * h1
  | pow a k =>
    rw [hop] at hR hS
    have hS : k = 0 := hS
    subst hS
    have hR : (val i, δ i) = (List.replicate (0 + 1) ((val a, δ a) : K × K)).foldr dualMul (1, 0) := hR
    have h2 := congrArg Prod.snd hR
    simp [dualMul, Step.operands, opw, coef, hop, derivateChild] at h2 ⊢
    exact h2

theorem grad_derivative (hE : Earlier n op) (hs : s < n) (hS : ∀ i < n, (op i).Simple) {t : Nat} (ht : t < n) {δ : Nat → K}
    (hD : IsDerivative n op val t δ) : grad n op val s t = δ s := by
  -- the derivatives before the target are zero
  have hz : ∀ i, i < t → δ i = 0 := by
    intro i
    induction i using Nat.strong_induction_on with
    | _ i ih =>
      intro hi
      rw [forward (val := val) (t := t) hE (by omega) (hS i (by omega)) (hD.2 i (by omega) (by omega))]
      apply Finset.sum_eq_zero
      intro c _
      by_cases hc : Operand.step c ∈ (op i).operands
      · have := hE i (by omega) c hc
        rw [ih c this (by omega), mul_zero, mul_zero]
      · rw [count_zero hc, zero_mul]
  have hB : ∀ i ∈ Finset.range n, δ i = (if i = t then 1 else 0) + ∑ c ∈ Finset.range n, count op i c * (coef op val i c * δ c) := by
    intro i hi
    rw [Finset.mem_range] at hi
    by_cases h : i = t
    · subst h
      have : ∑ c ∈ Finset.range n, count op i c * (coef op val i c * δ c) = 0 := by
        apply Finset.sum_eq_zero
        intro c _
        by_cases hc : Operand.step c ∈ (op i).operands
        · rw [hz c (hE i hi c hc), mul_zero, mul_zero]
        · rw [count_zero hc, zero_mul]
      rw [this, if_pos rfl, hD.1, add_zero]
    · rw [if_neg h, zero_add]
      exact forward (t := t) hE hi (hS i hi) (hD.2 i hi h)
  have hA : ∀ j ∈ Finset.range n, grad n op val s j =
      (if j = s then 1 else 0) + ∑ p ∈ Finset.range n, count op p j * (coef op val p j * grad n op val s p) := by
    intro j _
    by_cases h : j = s
    · subst h
      have : ∑ p ∈ Finset.range n, count op p j * (coef op val p j * grad n op val j p) = 0 := by
        apply Finset.sum_eq_zero
        intro p hp
        by_cases hc : Operand.step j ∈ (op p).operands
        · have h1 := hE p (Finset.mem_range.1 hp) j hc
          have : grad n op val j p = 0 := by
            by_contra h2
            have := depends_le hE (grad_depends _ _ h2)
            omega
          rw [this, mul_zero, mul_zero]
        · rw [count_zero hc, zero_mul]
      rw [this, if_pos rfl, grad_self, add_zero]
    · rw [if_neg h, zero_add, grad_eq hE hs h, sum_parents]
  have e1 : ∑ j ∈ Finset.range n, grad n op val s j * δ j =
      δ s + ∑ j ∈ Finset.range n, ∑ p ∈ Finset.range n, count op p j * coef op val p j * grad n op val s p * δ j := by
    have : ∀ j ∈ Finset.range n, grad n op val s j * δ j = (if j = s then δ j else 0) +
        ∑ p ∈ Finset.range n, count op p j * coef op val p j * grad n op val s p * δ j := by
      intro j hj
      rw [hA j hj, add_mul, Finset.sum_mul]
      congr 1
      · split <;> simp
      · apply Finset.sum_congr rfl
        intro p _
        ring
    rw [Finset.sum_congr rfl this, Finset.sum_add_distrib, Finset.sum_ite_eq', if_pos (Finset.mem_range.2 hs)]
  have e2 : ∑ j ∈ Finset.range n, grad n op val s j * δ j =
      grad n op val s t + ∑ p ∈ Finset.range n, ∑ j ∈ Finset.range n, count op p j * coef op val p j * grad n op val s p * δ j := by
    have : ∀ p ∈ Finset.range n, grad n op val s p * δ p = (if p = t then grad n op val s p else 0) +
        ∑ j ∈ Finset.range n, count op p j * coef op val p j * grad n op val s p * δ j := by
      intro p hp
      conv_lhs => rw [hB p hp, mul_add, Finset.mul_sum]
      congr 1
      · split <;> simp
      · apply Finset.sum_congr rfl
        intro j _
        ring
    rw [Finset.sum_congr rfl this, Finset.sum_add_distrib, Finset.sum_ite_eq', if_pos (Finset.mem_range.2 ht)]
  rw [Finset.sum_comm] at e2
  have := e1.symm.trans e2
  exact (add_right_cancel this).symm

end Verif.Derivative
