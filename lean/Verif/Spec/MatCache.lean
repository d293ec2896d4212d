import Mathlib.Algebra.BigOperators.Group.List.Basic

/-!
# Specification: requests to a cache of arrays

Nothing here refers to the model of the code.
-/

namespace Verif.Spec

/-- What a user does with arrays: requests one with sizes and a type, makes another reference to one they hold, drops a reference, switches the cache
on or off, sets the limit of memory. -/
inductive ArrayOp where
  | get (sizes : List Nat) (type : Nat)
  | copy (m : Nat)
  | drop (m : Nat)
  | enable (on : Bool)
  | limit (bytes : Int)

/-- The bytes of an array with elements of the given sizes by type. -/
def arrayBytes (elem : Nat → Nat) (a : List Nat × Nat) : Int := ((elem a.2 * a.1.prod : Nat) : Int)

/-- The bytes of some arrays. -/
def totalBytes (elem : Nat → Nat) (l : List (List Nat × Nat)) : Int := (l.map (arrayBytes elem)).sum

end Verif.Spec
