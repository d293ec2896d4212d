import Verif.Model.Mat

/-!
# `mt_mat`: visiting, copying, filling and comparing elements

Memory is a map from byte addresses to bytes; an address without a byte is not allocated, and reading or writing it is
undefined behaviour: outcome `none`.  A value of a C type is its bytes.  The loops over elements are modelled by the list of
byte accesses they make, in order; pointers are advanced as in the code.  The special cases for 1, 2, 3 and 4 channels repeat
the general loop over channels and are one case here, except where the general loop differs.  A typed assignment
`ptr_data[c] = ptr_src_data[c]` and `memcpy` are copies byte by byte; they are the same when source and destination do not
overlap.
-/

namespace Verif.Mat

/-- Allocated bytes. -/
abbrev Heap := Int → Option Nat

/-- Writing a byte. -/
def write (H : Heap) (a : Int) (v : Nat) : Option Heap :=
  match H a with
  | none => none
  | some _ => some fun x => if x = a then some v else H x

/-- Copying bytes, pairs of destination and source. -/
def copyPairs : List (Int × Int) → Heap → Option Heap
  | [], H => some H
  | (a, b) :: l, H =>
    match H b with
    | none => none
    | some v =>
      match write H a v with
      | none => none
      | some H' => copyPairs l H'

/-- Writing bytes. -/
def writeAll : List (Int × Nat) → Heap → Option Heap
  | [], H => some H
  | (a, v) :: l, H =>
    match write H a v with
    | none => none
    | some H' => writeAll l H'

/-- Comparing bytes, stopping at the first difference. -/
def cmpPairs : List (Int × Int) → Heap → Option Bool
  | [], _ => some true
  | (a, b) :: l, H =>
    match H a, H b with
    | some x, some y => if x ≠ y then some false else cmpPairs l H
    | _, _ => none

/-- `last_dim_element_step` (mt_mat.h 303–305). -/
def lastStep (m : Mat) : Option Int := m.dims.getLast?.map fun d => d.step.tdiv m.unit

/-- One loop that runs `n` times and advances two pointers. -/
def loop2 {α : Type} (f : Int → Int → List α) (dp dq : Int) : Nat → Int → Int → List α
  | 0, _, _ => []
  | n + 1, p, q => f p q ++ loop2 f dp dq n (p + dp) (q + dq)

/-- One loop that runs `n` times and advances one pointer. -/
def loop1 {α : Type} (f : Int → List α) (dp : Int) : Nat → Int → List α
  | 0, _ => []
  | n + 1, p => f p ++ loop1 f dp n (p + dp)

/-- `n` bytes from `p` and from `q` on. -/
def bytePairs (n : Nat) (p q : Int) : List (Int × Int) := loop2 (fun p q => [(p, q)]) 1 1 n p q

/-! ### The element iterator -/

/-- One entry of `m_sizes`, `m_int_steps`, `m_cur_position`, `m_ptr_dim_datas` (mt_array_iteration.h 120–127). -/
structure Digit where
  size : Int
  step : Int
  pos : Int
  ptr : Int
deriving DecidableEq, Repr

/-- `init_construct` (mt_array_iteration.cpp 317–334). -/
def iterInit (p : Int) (dims : List Dim) : List Digit := dims.map fun d => ⟨d.size, d.step, 0, p⟩

/-- `m_ptr_dim_datas[m_dims - 1] += …; ++m_cur_position[m_dims - 1]` (344–346). -/
def incLast : List Digit → List Digit
  | [] => []
  | [g] => [{ g with pos := g.pos + 1, ptr := g.ptr + g.step }]
  | g :: gs => g :: incLast gs

/-- The loop from the last dimension to the first (350–360): an index that reached its size advances the one before it
and sets all behind to the start. -/
def carry : List Digit → List Digit
  | [] => []
  | g :: gs =>
    match carry gs with
    | [] => [g]
    | e :: es =>
      if e.pos = e.size then
        let g' := { g with pos := g.pos + 1, ptr := g.ptr + g.step }
        g' :: (e :: es).map fun x => { x with pos := 0, ptr := g'.ptr }
      else g :: e :: es

/-- The pointers returned by further calls of `data()` (336–363), `total` the number of elements, `count` the number of
calls so far.  The fuel is the number of further calls that are looked at. -/
def iterRun (total : Int) : Nat → Int → List Digit → List Int
  | 0, _, _ => []
  | f + 1, count, gs =>
    if count = total then []
    else
      let gs' := carry (incLast gs)
      match gs'.getLast? with
      | none => []
      | some g => g.ptr :: iterRun total f (count + 1) gs'

/-- The pointers a loop over an element iterator gets until `data()` returns `NULL`, at most `f + 1` of them: the first call
(337–339) does not look at the number of elements. -/
def iterPtrs (f : Nat) (p : Int) (dims : List Dim) : List Int :=
  match (iterInit p dims).getLast? with
  | none => []
  | some g => g.ptr :: iterRun (dims.foldl (fun (r : Int) (d : Dim) => r * d.size) 1) f 1 (iterInit p dims)

/-- A whole loop over the elements. -/
def iterAll (m : Mat) : List Int := iterPtrs (elementNumber m).toNat m.data m.dims

/-! ### Copying: `set(other)` -/

/-- The channels of an element with `u` bytes each (for instance 605–609). -/
def chanPairs (u ch : Nat) (p q : Int) : List (Int × Int) :=
  loop2 (fun p q => bytePairs u p q) u u ch p q

/-- `private_mat::set<T, T>(mat, src)` (mt_mat.cpp 513–768): the copied bytes.  `set(other)` (1481–1888) chooses `T` by the
depth of the destination in all cases: the inner `switch` (1523 and so on) looks at `depth()`, not at `other.depth()`. -/
def copyPlan (m s : Mat) : Option (List (Int × Int)) :=
  let u := m.unit.toNat
  let ch := m.chan.toNat
  match lastStep m, lastStep s with
  | some l, some k =>
    if m.depth = s.depth ∧ l = k ∧ isContinuous m = true ∧ isContinuous s = true then
      some (bytePairs (m.elemSize * elementNumber m).toNat (memoryData m) (memoryData s))
    else
      match m.dims, s.dims with
      | [d0, d1], [e0, _] =>
        some (loop2 (fun p q => loop2 (chanPairs u ch) (l * u) (k * u) d1.size.toNat p q) d0.step e0.step
          d0.size.toNat m.data s.data)
      | [d0, d1, d2], [e0, e1, _] =>
        some (loop2 (fun p q => loop2 (fun p q => loop2 (chanPairs u ch) (l * u) (k * u) d2.size.toNat p q)
          d1.step e1.step d1.size.toNat p q) d0.step e0.step d0.size.toNat m.data s.data)
      | ds, es =>
        if ds.length = es.length then
          some ((List.zip (iterAll m) (iterAll s)).flatMap fun pq => chanPairs u ch pq.1 pq.2)
        else none
  | _, _ => none

/-- `set(other)` (mt_mat.cpp 1481–1888). -/
def setMat (H : Heap) (m s : Mat) : Option Heap := (copyPlan m s).bind fun l => copyPairs l H

/-- `malloc`: the bytes of a new block hold anything. -/
def alloc (H : Heap) (a n : Int) (junk : Int → Nat) : Heap := fun x => if a ≤ x ∧ x < a + n then some (junk x) else H x

/-- `clone` (mt_mat.cpp 2025–2036) with the new memory at `a`. -/
def clone (H : Heap) (m : Mat) (a : Int) (junk : Int → Nat) : Option (Heap × Mat) :=
  let r := create a (m.dims.map Dim.size) m.depth m.chan
  (setMat (alloc H a (allocSize (m.dims.map Dim.size) m.depth m.chan) junk) r m).map fun H' => (H', r)

/-- `combine_dim` (mt_mat.cpp 2339–2386); new memory for the clone at `a` (2349–2352).  The steps of a clone are in order, so
the second call does not clone again.  `none` reads sizes and steps behind the last dimension. -/
def combineDim (H : Heap) (m : Mat) (s n : Nat) (a : Int) (junk : Int → Nat) : Option (Heap × Mat) :=
  if m.dims.length < s + n then none
  else if combineOrdered ((m.dims.drop s).take n) = true then (combineView m s n).map fun v => (H, v)
  else (clone H m a junk).bind fun hc => (combineView hc.2 s n).map fun v => (hc.1, v)

/-- `decrease_dim` (mt_mat.cpp 2200–2208). -/
def decreaseDim (H : Heap) (m : Mat) (k : Nat) (a : Int) (junk : Int → Nat) : Option (Heap × Mat) :=
  combineDim H m (if k = 0 then 0 else k - 1) 2 a junk

/-! ### Filling: `set(value)` -/

/-- The values of an integer type (depths 0 to 7: `u8`, `i8`, `u16`, …). -/
def inRange (d : Fin 10) (v : Int) : Bool :=
  if d.val % 2 = 0 then decide (0 ≤ v ∧ v < 256 ^ (depthSize d).toNat)
  else decide (-(256 ^ (depthSize d).toNat / 2) ≤ v ∧ v < 256 ^ (depthSize d).toNat / 2)

/-- Byte `b` of an integer in two's complement, lowest byte first. -/
def byteOf (v : Int) (b : Nat) : Nat := (v / 256 ^ b % 256).toNat

/-- `assign_values` (mt_mat.cpp 221–225).  A `size` of 0 takes the first value for all channels; with a positive `size` below
the number of channels the values are read out of bounds, and a value outside the type is undefined behaviour. -/
def assignValues (m : Mat) (size : Nat) (vals : Nat → Int) : Option (Nat → Int) :=
  if 0 < size ∧ (size : Int) < m.chan then none
  else if (List.range m.chan.toNat).all (fun (c : Nat) => inRange m.depth (vals (if size = 0 then 0 else c))) then
    some fun c => vals (if size = 0 then 0 else c)
  else none

/-- The bytes written for channel `c` at `p`. -/
def chanWrites (u : Nat) (v : Int) (p : Int) : List (Int × Nat) :=
  (List.range u).map fun (b : Nat) => (p + (b : Int), byteOf v b)

/-- The channels of an element (for instance 299–301). -/
def elemWrites (u ch : Nat) (vals : Nat → Int) (p : Int) : List (Int × Nat) :=
  (List.range ch).flatMap fun (c : Nat) => chanWrites u (vals c) (p + c * u)

/-- The column loop of the case of 3 dimensions and more than 4 channels (477–484): the pointer is advanced after each
channel. -/
def badCols (u ch : Nat) (vals : Nat → Int) (l : Int) : Nat → Int → List (Int × Nat)
  | 0, _ => []
  | n + 1, p => ((List.range ch).flatMap fun (c : Nat) => chanWrites u (vals c) (p + c * (l * u) + c * u)) ++
      badCols u ch vals l n (p + ch * (l * u))

/-- `can_use_memset` (mt_mat.cpp 233–250), for whole numbers as values. -/
def canMemset (m : Mat) (size : Nat) (vals : Nat → Int) : Bool :=
  decide (m.depth.val ≤ 1) &&
    (decide (size ≤ 1) || (List.range m.chan.toNat).all fun (c : Nat) => decide (vals 0 = vals c))

/-- `private_mat::set<T>(mat, values, value_size)` (mt_mat.cpp 212–510) for integer depths: the written bytes. -/
def fillPlan (m : Mat) (size : Nat) (vals : Nat → Int) : Option (List (Int × Nat)) :=
  let u := m.unit.toNat
  let ch := m.chan.toNat
  match assignValues m size vals, lastStep m with
  | some av, some l =>
    if isContinuous m = true then
      if canMemset m size vals = true then
        -- `memset(mat.memory_data(), (u8)values[0], mat.memory_size())` (253): the conversion to `u8` is undefined
        -- behaviour for a negative value
        if 0 ≤ vals 0 ∧ vals 0 < 256 then
          some (loop1 (fun p => [(p, (vals 0).toNat)]) 1 (memorySize m).toNat (memoryData m))
        else none
      else some (loop1 (elemWrites u ch av) (l * u) (elementNumber m).toNat m.data)
    else
      match m.dims with
      | [d0, d1] =>
        some (loop1 (fun p => loop1 (elemWrites u ch av) (l * u) d1.size.toNat p) d0.step d0.size.toNat m.data)
      | [d0, d1, d2] =>
        if ch ≤ 4 then
          some (loop1 (fun p => loop1 (fun p => loop1 (elemWrites u ch av) (l * u) d2.size.toNat p) d1.step
            d1.size.toNat p) d0.step d0.size.toNat m.data)
        else
          some (loop1 (fun p => loop1 (fun p => badCols u ch av l d2.size.toNat p) d1.step
            d1.size.toNat p) d0.step d0.size.toNat m.data)
      | _ => some ((iterAll m).flatMap (elemWrites u ch av))
  | _, _ => none

/-- `set(size, value)` (mt_mat.cpp 1898–1935); `set(value)` (1890–1892) has `size` 0 and `set(mt_scalar)` (1894–1896) has
`size` 4. -/
def setValue (H : Heap) (m : Mat) (size : Nat) (vals : Nat → Int) : Option Heap :=
  (fillPlan m size vals).bind fun l => writeAll l H

/-! ### Comparing -/

/-- `size()[c]` read from the array that holds the sizes and then the steps (mt_mat.h 287–301). -/
def rawSize (m : Mat) (c : Nat) : Option Int := (m.dims.map Dim.size ++ m.dims.map Dim.step)[c]?

/-- The loop over the sizes in `operator==` (mt_mat.cpp 1360–1364), from dimension `c` on. -/
def sizesSame (o : Mat) : List Dim → Nat → Option Bool
  | [], _ => some true
  | d :: ds, c =>
    match rawSize o c with
    | none => none
    | some n => if d.size ≠ n then some false else sizesSame o ds (c + 1)

/-- `private_array_iteration::memcmp` (mt_array_iteration.cpp 79–151): the compared bytes.  With three dimensions the rows of
a plane all start at the plane (127–128: `ptr_dst_data_dim0` instead of `ptr_dst_data_dim1`); with four nothing is compared. -/
def smallCmp (a b : Int) (ds es : List Dim) (n : Nat) : List (Int × Int) :=
  match ds, es with
  | [d0], [e0] => loop2 (bytePairs n) d0.step e0.step d0.size.toNat a b
  | [d0, d1], [e0, e1] =>
    loop2 (fun p q => loop2 (bytePairs n) d1.step e1.step d1.size.toNat p q) d0.step e0.step d0.size.toNat a b
  | [d0, d1, d2], [e0, _, e2] =>
    loop2 (fun p q => (List.range d1.size.toNat).flatMap fun _ =>
      loop2 (bytePairs n) d2.step e2.step d2.size.toNat p q) d0.step e0.step d0.size.toNat a b
  | _, _ => []

/-- The pointers of `mt_array_memory_block_const_iterator` (381–407, 428–430) for the dimensions from `k` on, and the bytes
of a block (436–438). -/
def blockStarts (p : Int) (ds : List Dim) (k : Nat) (n : Int) : Option (List Int × Nat) :=
  match ds.getLast? with
  | none => none
  | some last =>
    if k = ds.length then
      some (iterPtrs (ds.foldl (fun (r : Int) (d : Dim) => r * d.size) 1).toNat p ds, n.toNat)
    else
      let cnt := (ds.drop k).foldl (fun (r : Int) (d : Dim) => r * d.size) 1
      let p' := if last.step < 0 then p + (cnt - 1) * last.step else p
      some (if k = 0 then [p'] else iterPtrs ((ds.take k).foldl (fun (r : Int) (d : Dim) => r * d.size) 1).toNat p' (ds.take k),
        (cnt * last.step.natAbs).toNat)

/-- `is_same_symbol` (mt_helper.h 17–24). -/
def sameSymbol (x y : Int) : Bool := decide ((0 ≤ x ∧ 0 ≤ y) ∨ (x ≤ 0 ∧ y ≤ 0))

/-- `array_cmp` (mt_array_iteration.cpp 179–246): the compared bytes; `n` is the element size.  The step of dimension
`ndims` is read out of bounds when the last dimension is not continuous and there are more than four (199). -/
def cmpPlan (a : Int) (ds : List Dim) (b : Int) (es : List Dim) (n : Int) : Option (List (Int × Int)) :=
  let k := max (continuousDim es n) (continuousDim ds n)
  if k ≠ 0 ∧ ds.length ≤ 4 then some (smallCmp a b ds es n.toNat)
  else
    match es[k]?, ds[k]? with
    | some e, some d =>
      if sameSymbol e.step d.step = true then
        match blockStarts b es k n, blockStarts a ds k n with
        | some x, some y => some ((List.zip y.1 x.1).flatMap fun pq => bytePairs x.2 pq.1 pq.2)
        | _, _ => none
      else
        let cnt := (ds.foldl (fun (r : Int) (d : Dim) => r * d.size) 1).toNat
        some ((List.zip (iterPtrs cnt a ds) (iterPtrs cnt b es)).flatMap fun pq => bytePairs n.toNat pq.1 pq.2)
    | _, _ => none

/-- `operator==` (mt_mat.cpp 1355–1403) for integer depths.  The steps of the other array are found behind as many sizes as it
has dimensions (mt_mat.h 299–301), so with more dimensions only its first steps are used. -/
def eqMat (H : Heap) (m o : Mat) : Option Bool :=
  if m.depth ≠ o.depth ∨ m.chan ≠ o.chan then some false
  else
    match sizesSame o m.dims 0 with
    | none => none
    | some false => some false
    | some true =>
      if o.dims.length < m.dims.length then none
      else
        (cmpPlan o.data (List.zipWith (fun (d e : Dim) => ⟨d.size, e.step⟩) m.dims o.dims) m.data m.dims m.elemSize).bind
          fun l => cmpPairs l H

/-- The loop of `is_zero` over the first `n` bytes from `p` on (mt_mat.cpp 1335–1339). -/
def zeroBytes (H : Heap) : Nat → Int → Option Bool
  | 0, _ => some true
  | n + 1, p =>
    match H p with
    | none => none
    | some v => if v ≠ 0 then some false else zeroBytes H n (p + 1)

/-- The loop of `is_zero` over the elements (1328–1340). -/
def zeroLoop (H : Heap) (n : Nat) : List Int → Option Bool
  | [] => some true
  | p :: ps =>
    match zeroBytes H n p with
    | none => none
    | some false => some false
    | some true => zeroLoop H n ps

/-- `is_zero` (mt_mat.cpp 1325–1343): of each element as many bytes are looked at as it has channels. -/
def isZero (H : Heap) (m : Mat) : Option Bool := zeroLoop H m.chan.toNat (iterAll m)

end Verif.Mat
