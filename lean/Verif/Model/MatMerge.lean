import Verif.Model.MatCopy

/-!
# `mt_mat`: repeating and joining arrays

`repeat` (mt_mat.cpp) and the two functions of `mt_mat_helper.cpp` that join arrays.  New memory starts at `a` and holds
`junk`.  The automatic derivative is `NULL`.
-/

namespace Verif.Mat

/-- `++m_cur_position[m_dims - 1]` (mt_array_iteration.cpp 279); pairs of size and position. -/
def posInc : List (Int × Int) → List (Int × Int)
  | [] => []
  | [g] => [(g.1, g.2 + 1)]
  | g :: gs => g :: posInc gs

/-- The loop from the last dimension to the first (281–289). -/
def posCarry : List (Int × Int) → List (Int × Int)
  | [] => []
  | g :: gs =>
    match posCarry gs with
    | [] => [g]
    | e :: es => if e.2 = e.1 then (g.1, g.2 + 1) :: (e :: es).map fun (x : Int × Int) => (x.1, 0) else g :: e :: es

/-- The positions after further calls of `next` (270–292) until it returns false; `count` calls so far. -/
def posRun (total : Int) : Nat → Int → List (Int × Int) → List (List Int)
  | 0, _, _ => []
  | f + 1, count, gs =>
    if count = total then []
    else
      let gs' := posCarry (posInc gs)
      gs'.map (fun (x : Int × Int) => x.2) :: posRun total f (count + 1) gs'

/-- The positions of a loop over `mt_array_index_iterator` (248–292): the first call of `next` does not look at the number. -/
def positions (sizes : List Int) : List (List Int) :=
  let total := sizes.foldl (fun (r : Int) (n : Int) => r * n) 1
  let start := sizes.map fun (n : Int) => (n, (0 : Int))
  start.map (fun (x : Int × Int) => x.2) :: posRun total total.toNat 1 start

/-- A sequence of `dst.set(src)`. -/
def setAll : List (Option Mat × Mat) → Heap → Option Heap
  | [], H => some H
  | (some v, s) :: l, H => (setMat H v s).bind (setAll l)
  | (none, _) :: _, _ => none

/-- `start_ranges` (mt_mat.cpp 2449–2452). -/
def tileRanges (sizes pos : List Int) : List Range := List.zipWith (fun (n p : Int) => ⟨p * n, p * n + n⟩) sizes pos

/-- `repeat(dims, nsizes, nchannels)` (mt_mat.cpp 2418–2468).  `none` also stands for another number of repetitions than
dimensions. -/
def repeatMat (H : Heap) (m : Mat) (ns : List Int) (nch : Nat) (a : Int) (junk : Int → Nat) : Option (Heap × Mat) :=
  let sizes := m.dims.map Dim.size
  if ns.length ≠ m.dims.length then none
  else if (ns.all fun (n : Int) => decide (n ≤ 1)) = true ∧ nch = 1 then clone H m a junk
  else
    let dst := List.zipWith (fun (x y : Int) => x * y) sizes ns
    let r := create a dst m.depth (m.chan * nch)
    let l := (positions ns).flatMap fun pos => (List.range nch).map fun (c : Nat) =>
      ((sub r (tileRanges sizes pos)).map fun v => subChannel v (c * m.chan) (c * m.chan + m.chan), m)
    (setAll l (alloc H a (allocSize dst m.depth (m.chan * nch)) junk)).map fun H' => (H', r)

/-- The loop of `merge_align_channel` (mt_mat_helper.cpp 77–80). -/
def chanTiles (r : Mat) : Int → List Mat → List (Option Mat × Mat)
  | _, [] => []
  | k, e :: es => (some (subChannel r k (k + e.chan)), e) :: chanTiles r (k + e.chan) es

/-- `merge_align_channel` (mt_mat_helper.cpp 52–94); no elements give an empty array, here `none`. -/
def mergeChannel (H : Heap) (es : List Mat) (share : Bool) (a : Int) (junk : Int → Nat) : Option (Heap × Mat) :=
  match es with
  | [] => none
  | e :: es' =>
    if es' = [] ∧ share = true then some (H, e)
    else
      let total := (e :: es').foldl (fun (r : Int) (x : Mat) => r + x.chan) 0
      let sizes := e.dims.map Dim.size
      let r := create a sizes e.depth total
      (setAll (chanTiles r 0 (e :: es')) (alloc H a (allocSize sizes e.depth total) junk)).map fun H' => (H', r)

/-- The loop of `merge_align_dim` (mt_mat_helper.cpp 30–35): `n` is the size of the first element for all of them. -/
def dimTiles (r : Mat) (n : Int) (dim : Nat) : Int → List Mat → List (Option Mat × Mat)
  | _, [] => []
  | k, e :: es => (subRange r ⟨k, k + n⟩ dim, e) :: dimTiles r n dim (k + n) es

/-- `merge_align_dim` (mt_mat_helper.cpp 5–50); no elements give an empty array, here `none`.  A dimension an array does not
have is read out of bounds. -/
def mergeDim (H : Heap) (es : List Mat) (dim : Nat) (share : Bool) (a : Int) (junk : Int → Nat) : Option (Heap × Mat) :=
  match es with
  | [] => none
  | e :: es' =>
    if es' = [] ∧ share = true then some (H, e)
    else
      match e.dims[dim]? with
      | none => none
      | some d =>
        if es'.any (fun (x : Mat) => decide (x.dims.length ≤ dim)) = true then none
        else
          let n := es'.foldl (fun (r : Int) (x : Mat) => r + ((x.dims.map Dim.size).getD dim 0)) d.size
          let sizes := (e.dims.map Dim.size).set dim n
          let r := create a sizes e.depth e.chan
          (setAll (dimTiles r d.size dim 0 (e :: es')) (alloc H a (allocSize sizes e.depth e.chan) junk)).map fun H' => (H', r)

end Verif.Mat
