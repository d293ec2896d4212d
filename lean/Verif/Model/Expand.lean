import Verif.Model.MatCopy

/-!
# A border around an array

`mt_mat::expand`, /repo/basicmath/src/mt_mat_math_operation.cpp 2748–2787, without the record for derivatives (2781–2784).
-/

namespace Verif.Mat

/-- The sides given for a number of dimensions: `NULL` adds nothing (2764, 2769); a shorter array is read out of bounds. -/
def sidesOf (dim : Nat) : Option (List Int) → Option (List Int)
  | none => some (List.replicate dim 0)
  | some l => if l.length < dim then none else some (l.take dim)

/-- The loop over the dimensions (2759–2774): the new sizes and the ranges of the old elements. -/
def expandLoop : List Int → List Int → List Int → List (Int × Range)
  | n :: ns, p :: ps, q :: qs => (n + p + q, ⟨0 + p, 0 + p + n⟩) :: expandLoop ns ps qs
  | _, _, _ => []

/-- `expand(size, side_sizes_1, side_sizes_2, filled_channel_value)` with the new memory at `a`.  The assertion on `size`
(2753) is taken as a stop; `&value[0]` of no values (mt_mat.cpp 1938) is undefined. -/
def expand (H : Heap) (m : Mat) (size : Nat) (s1 s2 : Option (List Int)) (vals : List Int) (a : Int) (junk : Int → Nat) :
    Option (Heap × Mat) :=
  if size = 0 ∨ (s1 = none ∧ s2 = none) then some (H, m)
  else if size ≠ m.dims.length then none
  else
    match sidesOf m.dims.length s1, sidesOf m.dims.length s2 with
    | some ps, some qs =>
      let k := expandLoop (m.dims.map Dim.size) ps qs
      let r := create a (k.map Prod.fst) m.depth m.chan
      if vals = [] then none
      else
        (setValue (alloc H a (allocSize (k.map Prod.fst) m.depth m.chan) junk) r vals.length fun c => vals.getD c 0).bind
          fun H1 => (sub r (k.map Prod.snd)).bind fun v => (setMat H1 v m).map fun H2 => (H2, r)
    | _, _ => none

end Verif.Mat
