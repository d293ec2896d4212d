import Mathlib.Data.List.Chain
import Mathlib.Data.List.Infix

/-!
# Specification vocabulary for linked lists

A doubly linked list is given by two functions from a node to the next and to the previous one.
-/

namespace Verif.Spec

/-- The nodes of `l` follow each other in both directions. -/
def Linked (next prev : Nat → Option Nat) (l : List Nat) : Prop :=
  l.IsChain (fun a b => next a = some b ∧ prev b = some a)

/-- `l` is a non-empty run of linked nodes from `h` to `t`. -/
structure IsRun (next prev : Nat → Option Nat) (l : List Nat) (h t : Option Nat) : Prop where
  ne : l ≠ []
  head : l.head? = h
  last : l.getLast? = t
  linked : Linked next prev l

/-- The nodes seen by starting at `a` and going to the next node `n - 1` times; `none` if the list ends
before that. -/
def walk (next : Nat → Option Nat) : Nat → Option Nat → Option (List Nat)
  | 0, _ => some []
  | _ + 1, none => none
  | n + 1, some a => (walk next n (next a)).map (a :: ·)

end Verif.Spec
