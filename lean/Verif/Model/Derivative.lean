import Verif.Spec.Derivative

/-!
# Automatic derivatives

`mt_auto_derivative`, /repo/basicmath/src/mt_auto_derivative.cpp, and the nodes of /repo/basicmath/include/mt_auto_derivative_tree.h and
/repo/basicmath/src/mt_auto_derivative_tree.cpp for the operations that act on every element alone: one element stands for the array, with exact
arithmetic.  `m_nodes` are the numbers below `n`; `op` and `val` are the operation and the value of `m_mat` of a node.
-/

namespace Verif.Derivative

open Verif.Spec

variable {K : Type} [Field K]

/-- `m_childs[j] == node`. -/
def isNode (t : Nat) : Operand K → Bool
  | .step i => i == t
  | .const _ => false

/-- The value of a child. -/
def childVal (val : Nat → K) : Operand K → K
  | .step i => val i
  | .const k => k

/-- The loop of `mt_ad_dot_tree_node::derivate_child_on_operation`, tree.cpp 168–178: `other_mats` and `constant_value`. -/
def others (val : Nat → K) (t : Nat) : List (Operand K) → List K × K
  | [] => ([], 1)
  | .step i :: l => if i = t then others val t l else (val i :: (others val t l).1, (others val t l).2)
  | .const k :: _ => ([], k)

/-- `derivate_child_on_operation` of the nodes: leaf (tree.h 201), clone (219–221), add (246–248), subtract (265–276), dot (tree.cpp 161–185), div
(187–205), pow (tree.h 723–725).  `none` is the empty array. -/
def derivateChild (val : Nat → K) (t : Nat) (d : K) : Step K → Option K
  | .input => none
  | .copy _ => some d
  | .add _ => some d
  | .sub a b => if isNode t a then some d else if isNode t b then some (-d) else none
  | .dot l =>
    match others val t l with
    | ([], k) => some (d * k)
    | (o :: os, _) => some ((o :: os).prod * d)
  | .div a b =>
    if isNode t a then some (d / childVal val b)
    else if isNode t b then some (-d * childVal val a / childVal val b ^ 2) else none
  | .pow _ k => some (d * val t ^ k)

/-- `find_node_in_parent`, 302–313: a node comes once for each of its children that is the node. -/
def parents (n : Nat) (op : Nat → Step K) (t : Nat) : List Nat :=
  (List.range n).flatMap fun i => ((op i).operands.filter (isNode t)).map fun _ => i

/-- Lines 469–473: the derivative through a parent, if the source depends on it. -/
def gather (val : Nat → K) (o : Step K) (t p : Nat) (c : Nat → Option K) (res : List K) : Option ((Nat → Option K) × List K) :=
  match c p with
  | none => some (c, res)
  | some d => (derivateChild val t d o).map fun x => (c, res ++ [x])

/-- `derivative(target, src, src_mat)`, 451–482: `c` are the derivatives of the source that are stored in the nodes.  `none` when it has not ended
with the given depth, or when an empty array is added. -/
def derive (n : Nat) (op : Nat → Step K) (val : Nat → K) (s : Nat) : Nat → Nat → (Nat → Option K) → Option (Nat → Option K)
  | 0, _, _ => none
  | f + 1, t, c =>
    if t = s then some c
    else if (c t).isSome then some c
    else
      ((parents n op t).foldl (fun acc p => acc.bind fun r => (derive n op val s f p r.1).bind fun c' =>
        gather val (op p) t p c' r.2) (some (c, []))).map fun r =>
      if r.2 = [] then r.1 else fun j => if j = t then some r.2.sum else r.1 j

/-- `derivative(target, src)`, 40–76, for one target after the other; line 57 stores the derivative 1 at the source. -/
def session (n : Nat) (op : Nat → Step K) (val : Nat → K) (s : Nat) : List Nat → (Nat → Option K) → Option (Nat → Option K)
  | [], c => some c
  | t :: ts, c => (derive n op val s (n + 1) t c).bind (session n op val s ts)

/-- The nodes before the first derivative of the source `s`, with line 57. -/
def initial (s : Nat) : Nat → Option K := fun j => if j = s then some 1 else none

/-- `derivative(reses, targets, srcs)`, 103–111, for the derivatives `D target source` of lines 90–96 and 40–76; `none` for an index outside. -/
def several {T S : Type} (D : T → S → K) (targets : List T) : List S → Option (List K)
  | [] => none
  | s :: srcs => (List.range srcs.length).foldl (fun acc i => acc.bind fun r =>
      if r = [] then some r
      else targets[i + 1]?.bind fun t => srcs[i]?.map fun x => r.map fun v => v + D t x) (some (targets.map fun t => D t s))

end Verif.Derivative
