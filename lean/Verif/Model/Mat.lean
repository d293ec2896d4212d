import Mathlib.Data.List.Basic

/-!
# `mt_mat`: views

`mt_mat` (`basicmath/include/mt_mat.h`, `basicmath/src/mt_mat.cpp`) is the picture type of the library: a start address,
sizes and byte steps, and a depth with a number of channels.  This file models the functions that make a new `mt_mat`
showing the memory of another one, and the functions that compute addresses.  Copying, filling and comparing is in
`Verif.Model.MatCopy`.

Simplifications: `basiclog_assert` only prints a message (basiclog.h 15–16) and the function goes on, so a check is a
separate definition and the function is defined without it.  Overflow of `int` is not considered.  The automatic derivative
(`m_auto_derivative`) is `NULL`.  The reference count of the memory is not part of a view here.  The arrays
for sizes and steps are lists here; the arrays used above four dimensions are not modelled
except where the code frees one too early (`subRange`).
-/

namespace Verif.Mat

/-- `size()[i]` and `step()[i]` (mt_mat.h 287–301). -/
structure Dim where
  size : Int
  step : Int
deriving DecidableEq, Repr

/-- `m_data`, `m_dims` with sizes and steps, `m_depth_channel` (mt_mat.h 663–667). -/
structure Mat where
  data : Int
  dims : List Dim
  depth : Fin 10
  chan : Int
deriving DecidableEq, Repr

/-- `mt_Depth_Size` (mt_data_type.h 30), in the order of the enumeration `mt_Depth` (7–20). -/
def depthSize (d : Fin 10) : Int := [1, 1, 2, 2, 4, 4, 8, 8, 4, 8].getD d 0

/-- `element_channel_size` (mt_mat.cpp 2125–2127). -/
def Mat.unit (m : Mat) : Int := depthSize m.depth

/-- `element_size` (mt_mat.cpp 2121–2123, mt_data_type.h 61–63). -/
def Mat.elemSize (m : Mat) : Int := m.unit * m.chan

/-- The loop of `ptr` (mt_mat.h 460–462, 475–477); the caller gives at most `m_dims` indices. -/
def ptrLoop : List Dim → List Int → Int → Int
  | d :: ds, i :: is, p => ptrLoop ds is (p + i * d.step)
  | _, _, p => p

/-- `ptr` (mt_mat.h 453–482): the address of a channel of an element. -/
def ptr (m : Mat) (idx : List Int) (c : Int) : Int := ptrLoop m.dims idx m.data + c * m.unit

/-- `mt_range` (mt_range_t.h 8–26). -/
structure Range where
  start : Int
  stop : Int
deriving DecidableEq, Repr

/-- What `sub` checks for each range (mt_mat.cpp 2735). -/
def subCheck : List Dim → List Range → Bool
  | d :: ds, r :: rs => decide (0 < r.stop - r.start ∧ r.stop ≤ d.size) && subCheck ds rs
  | _, _ => true

/-- The loop of `sub` (mt_mat.cpp 2734–2746). -/
def subLoop : List Dim → List Range → Int → Int × List Dim
  | d :: ds, r :: rs, p =>
    let k := subLoop ds rs (p + r.start * d.step)
    (k.1, ⟨if r.stop = -1 then d.size - r.start else r.stop - r.start, d.step⟩ :: k.2)
  | _, _, p => (p, [])

/-- `sub(dims, ranges)` (mt_mat.cpp 2708–2754); another number of ranges than dimensions is read out of bounds. -/
def sub (m : Mat) (rs : List Range) : Option Mat :=
  if rs = [] then some m
  else if rs.length ≠ m.dims.length then none
  else
    let k := subLoop m.dims rs m.data
    some { m with data := k.1, dims := k.2 }

/-- `sub(roi)` (mt_mat.cpp 2756–2766). -/
def subRect (m : Mat) (left top width height : Int) : Option Mat :=
  sub m [⟨top, top + height⟩, ⟨left, left + width⟩]

/-- The ranges of `sub(range, dim)` (mt_mat.cpp 2771–2778). -/
def oneRange : List Dim → Range → Nat → List Range
  | _ :: ds, r, 0 => r :: ds.map fun d => ⟨0, d.size⟩
  | d :: ds, r, n + 1 => ⟨0, d.size⟩ :: oneRange ds r n
  | [], _, _ => []

/-- `sub(range, dim)` (mt_mat.cpp 2768–2781).  Above four dimensions the array of ranges is freed (2780) before it is
read (2781): undefined behaviour. -/
def subRange (m : Mat) (r : Range) (dim : Nat) : Option Mat :=
  if 4 < m.dims.length then none else sub m (oneRange m.dims r dim)

/-- `index(index, dim)` (mt_mat.cpp 2696–2698). -/
def index (m : Mat) (i : Int) (dim : Nat) : Option Mat := subRange m ⟨i, i + 1⟩ dim

/-- `row` (mt_mat.cpp 2670–2674). -/
def row (m : Mat) (i : Int) : Option Mat := index m i 0

/-- `col` (mt_mat.cpp 2676–2680). -/
def col (m : Mat) (i : Int) : Option Mat := index m i 1

/-- `plane` (mt_mat.cpp 2682–2686). -/
def plane (m : Mat) (i : Int) : Option Mat := index m i 2

/-- `front` (mt_mat.cpp 2688–2690). -/
def front (m : Mat) (n : Int) (dim : Nat) : Option Mat := subRange m ⟨0, n⟩ dim

/-- `back` (mt_mat.cpp 2692–2694); a dimension that does not exist is read out of bounds. -/
def back (m : Mat) (n : Int) (dim : Nat) : Option Mat :=
  match m.dims[dim]? with
  | none => none
  | some d => subRange m ⟨d.size - n, d.size⟩ dim

/-- `flip(dim)` (mt_mat.cpp 2499–2506). -/
def flip (m : Mat) (dim : Nat) : Option Mat :=
  match m.dims[dim]? with
  | none => none
  | some d => some { m with data := m.data + (d.size - 1) * d.step, dims := m.dims.set dim ⟨d.size, -d.step⟩ }

/-- The loop of `flip(size, flip_flags)` (mt_mat.cpp 2541–2546). -/
def flipLoop : List Dim → List Bool → Int → Int × List Dim
  | d :: ds, true :: fs, p =>
    let k := flipLoop ds fs (p + (d.size - 1) * d.step)
    (k.1, ⟨d.size, -d.step⟩ :: k.2)
  | d :: ds, false :: fs, p =>
    let k := flipLoop ds fs p
    (k.1, d :: k.2)
  | _, _, p => (p, [])

/-- `flip(size, flip_flags)` (mt_mat.cpp 2536–2555). -/
def flipFlags (m : Mat) (fs : List Bool) : Option Mat :=
  if fs.length ≠ m.dims.length then none
  else
    let k := flipLoop m.dims fs m.data
    some { m with data := k.1, dims := k.2 }

/-- The flags of `flip(size, dims)` (mt_mat.cpp 2515–2523).  `junk` is what the array holds before: the first loop (2517)
clears only as many flags as dimensions are given. -/
def listFlags (junk : List Bool) (ks : List Nat) : List Bool :=
  ks.foldl (fun fs k => fs.set k true) (List.replicate ks.length false ++ junk.drop ks.length)

/-- `flip(size, dims)` (mt_mat.cpp 2512–2530); `junk` has one entry for each dimension. -/
def flipList (junk : List Bool) (m : Mat) (ks : List Nat) : Option Mat := flipFlags m (listFlags junk ks)

/-- `flip_all_dim` (mt_mat.cpp 2557–2569). -/
def flipAll (m : Mat) : Option Mat := flipFlags m (m.dims.map fun _ => true)

/-- `swap_dim` (mt_mat.cpp 2476–2485). -/
def swapDim (m : Mat) (a b : Nat) : Option Mat :=
  match m.dims[a]?, m.dims[b]? with
  | some x, some y => some { m with dims := (m.dims.set a y).set b x }
  | _, _ => none

/-- `t` (mt_mat.cpp 2470–2474). -/
def transpose (m : Mat) : Option Mat := swapDim m 0 1

/-- `sub_channel` (mt_mat.cpp 2651–2668). -/
def subChannel (m : Mat) (s e : Int) : Mat :=
  if s = 0 ∧ e = m.chan then m else { m with data := m.data + s * m.unit, chan := e - s }

/-- `channel_at` (mt_mat.cpp 2639–2641). -/
def channelAt (m : Mat) (c : Int) : Mat := subChannel m c (c + 1)

/-- `channel_as_last_dim` (mt_mat.cpp 2571–2598). -/
def channelAsLastDim (m : Mat) : Mat := { m with dims := m.dims ++ [⟨m.chan, m.unit⟩], chan := 1 }

/-- `last_dim_as_channel` (mt_mat.cpp 2600–2625). -/
def lastDimAsChannel (m : Mat) : Option Mat :=
  match m.dims.getLast? with
  | none => none
  | some d => some { m with dims := m.dims.dropLast, chan := d.size }

/-- `fill_auto_step` (mt_mat.cpp 2487–2493). -/
def autoStep (s : Int) : List Int → List Dim
  | [] => []
  | n :: ns =>
    match autoStep s ns with
    | [] => [⟨n, s⟩]
    | d :: ds => ⟨n, d.step * d.size⟩ :: d :: ds

/-- `create` (mt_mat.cpp 1275–1319) when the sizes or the depth differ from those before: new memory at `a`. -/
def create (a : Int) (sizes : List Int) (depth : Fin 10) (chan : Int) : Mat :=
  ⟨a, autoStep (depthSize depth * chan) sizes, depth, chan⟩

/-- `element_number` (mt_mat.cpp 2155–2163). -/
def elementNumber (m : Mat) : Int := m.dims.foldl (fun r d => r * d.size) 1

/-- `memory_size` (mt_mat.cpp 2129–2131). -/
def memorySize (m : Mat) : Int := m.elemSize * elementNumber m

/-- The number of bytes `create` allocates (mt_mat.cpp 1306–1312). -/
def allocSize (sizes : List Int) (depth : Fin 10) (chan : Int) : Int :=
  sizes.foldl (fun r n => r * n) (depthSize depth * chan)

/-- The loop of `get_continuous_dim` (mt_array_iteration.cpp 164–170): how many dimensions outside of `d` continue it. -/
def contRun : Dim → List Dim → Nat
  | d, e :: es => if e.step = d.step * d.size then contRun e es + 1 else 0
  | _, [] => 0

/-- `get_continuous_dim` (mt_array_iteration.cpp 155–173). -/
def continuousDim (dims : List Dim) (es : Int) : Nat :=
  match dims.reverse with
  | [] => 0
  | d :: rest => if es ≠ (d.step.natAbs : Int) then dims.length else dims.length - 1 - contRun d rest

/-- `is_continuous` (mt_mat.cpp 2169–2171). -/
def isContinuous (m : Mat) : Bool := decide (continuousDim m.dims m.elemSize = 0)

/-- `memory_data` (mt_mat.cpp 2143–2153). -/
def memoryData (m : Mat) : Int :=
  m.dims.foldl (fun p d => if d.step < 0 then p + (d.size - 1) * d.step else p) m.data

/-- What `reshape` checks (mt_mat.cpp 2225–2234); `ch` is the new number of channels, or −1. -/
def reshapeCheck (m : Mat) (sizes : List Int) (ch : Int) : Bool :=
  isContinuous m &&
    (if ch ≠ -1 then decide (elementNumber m * m.chan = sizes.foldl (fun r n => r * n) 1 * ch)
      else decide (elementNumber m = sizes.foldl (fun r n => r * n) 1))

/-- `reshape` (mt_mat.cpp 2224–2273). -/
def reshape (m : Mat) (sizes : List Int) (ch : Int) : Mat :=
  let c := if ch = -1 then m.chan else ch
  { m with dims := autoStep (m.unit * c) sizes, chan := c }

/-- `reshape_channel` (mt_mat.cpp 2275–2297): `none` divides by 0 or has no dimension. -/
def reshapeChannel (m : Mat) (ch : Int) : Option Mat :=
  if ch = m.chan then some m
  else if ch = 0 ∨ m.chan = 0 then none
  else
    match m.dims.getLast? with
    | none => none
    | some d => some (reshape m (m.dims.dropLast.map Dim.size ++ [(d.size * m.chan).tdiv ch]) ch)

/-- `split_dim` (mt_mat.cpp 2299–2337). -/
def splitDim (m : Mat) (dim : Nat) (sizes : List Int) : Option Mat :=
  match m.dims[dim]? with
  | none => none
  | some d => some { m with dims := m.dims.take dim ++ (autoStep d.step sizes ++ m.dims.drop (dim + 1)) }

/-- `increase_dim` (mt_mat.cpp 2185–2198). -/
def increaseDim (m : Mat) (k : Nat) : Option Mat :=
  if k = m.dims.length then
    match m.dims[k - 1]? with
    | none => none
    | some d => splitDim m (k - 1) [d.size, 1]
  else
    match m.dims[k]? with
    | none => none
    | some d => splitDim m k [1, d.size]

/-- The loop of `combine_dim` that looks at the steps (mt_mat.cpp 2342–2347). -/
def combineOrdered : List Dim → Bool
  | d :: e :: ds => if d.step < e.step then false else combineOrdered (e :: ds)
  | _ => true

/-- `combine_dim` when the steps are in order (mt_mat.cpp 2354–2386). -/
def combineView (m : Mat) (s n : Nat) : Option Mat :=
  match (m.dims.drop s).take n with
  | [] => none
  | d :: ds =>
    if (d :: ds).length ≠ n then none
    else some { m with dims := m.dims.take s ++ (⟨ds.foldl (fun r e => r * e.size) d.size, ((d :: ds).getLast (by simp)).step⟩ ::
      m.dims.drop (s + n)) }

/-- The counting loop of `get_index` (mt_mat.cpp 2845–2851): it stops at a step that is not positive once a positive one
was met. -/
def posCount : List Dim → Nat → Nat
  | d :: ds, k => if 0 < d.step then posCount ds (k + 1) else if 0 < k then k else posCount ds k
  | [], k => k

/-- The loop that looks for the largest step without a flag (mt_mat.cpp 2864–2869): position and absolute step so far. -/
def pickLoop : List Dim → List Bool → Nat → Int × Option Nat → Int × Option Nat
  | d :: ds, f :: fs, i, b => pickLoop ds fs (i + 1) (if f = false ∧ b.1 < d.step.natAbs then (d.step.natAbs, some i) else b)
  | _, _, _, b => b

/-- The loop of `get_index` over the dimensions (mt_mat.cpp 2860–2880); `none` is the access to `index[-1]`. -/
def indexLoop (dims : List Dim) : Nat → List Bool → List Int → Int → Option (List Int)
  | 0, _, idx, _ => some idx
  | n + 1, fs, idx, off =>
    match (pickLoop dims fs 0 (0, none)).2 with
    | none => none
    | some k =>
      match dims[k]? with
      | none => none
      | some d =>
        let q := off.tdiv d.step
        indexLoop dims n (fs.set k true) (idx.set k q) (off - q * d.step)

/-- `get_index` when all steps have the same sign (mt_mat.cpp 2853–2882). -/
def indexSame (m : Mat) (p : Int) : Option (List Int) :=
  indexLoop m.dims m.dims.length (m.dims.map fun _ => false) (m.dims.map fun _ => -1) (p - m.data)

/-- Whether `get_index` takes the first branch (mt_mat.cpp 2853). -/
def sameSign (m : Mat) : Bool := decide (posCount m.dims 0 = 0 ∨ posCount m.dims 0 = m.dims.length)

/-- The last loop of `get_index` (mt_mat.cpp 2893–2897). -/
def turnBack : List Dim → List Dim → List Int → List Int
  | d :: ds, e :: es, i :: is => (if d.step ≠ e.step then d.size - 1 - i else i) :: turnBack ds es is
  | _, _, is => is

/-- `get_index` (mt_mat.cpp 2836–2901).  The inner call (2891) of the second branch takes the first branch when no step
is 0; with a step 0 the function calls itself without end, here `none`. -/
def getIndex (m : Mat) (p : Int) : Option (List Int) :=
  if sameSign m then indexSame m p
  else
    match flipFlags m (m.dims.map fun d => !decide (0 < d.step)) with
    | none => none
    | some f => if sameSign f then (indexSame f p).map (turnBack m.dims f.dims) else none

end Verif.Mat
