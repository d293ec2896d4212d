import Mathlib.Algebra.Order.Ring.Unbundled.Rat
import Mathlib.Data.Rat.Defs
import Verif.Model.Connect

/-!
# Model: recognition of stable regions

`img_fast_mser_v2::recognize_mser` and what it calls, /repo/basicimg/src/img_fast_mser_v2.cpp 657–1333
and 2053–2114.

* A region pointer is an element of `ι`; `pidx` is `m_patch_index`; `regs k` lists the regions of
  `m_pinfo[k].m_mser_regions` in creation order, which is the order in which
  `basicmath_block_memory_visit` yields them (that it does is property C32).
* The outcome `none` stands for a null pointer dereference, an endless pointer chase, or a write outside
  an array; the theorems show that it does not occur.
* Floating point numbers are rationals; `r32` and `r64` round to `f32` and `double`.  The theorems ask
  of them only what IEEE rounding satisfies (`Spec.Rounding`).
* `u32` counters are integers.  The unions of `mser_region` (img_fast_mser_v2.h 38–52) are separate fields:
  in this stage `m_size` and `m_var` are the members in use.
-/

namespace Verif.Recog

open Function (update)
open Verif.Connect (Forest)

/-- `m_region_flag` (img_fast_mser_v2.h 24–27). -/
inductive Flag where
  | unknown
  | invalid
  | valid
  | merged
deriving DecidableEq, Repr

/-- The fields of `mser_region` used by recognition (img_fast_mser_v2.h 33–56); `counted` is
`m_calculated_var`. -/
structure RNode (ι : Type) where
  gray : Nat
  parent : Option ι
  flag : Flag
  size : Nat
  var : ℚ
  counted : Bool

abbrev RForest (ι : Type) := ι → RNode ι

/-- Parameters (img_mser_base.h 145–160) and rounding. -/
structure Cfg where
  /-- `m_delta` -/
  delta : Int
  /-- `m_min_point` -/
  minPoint : Int
  /-- `m_max_point` -/
  maxPoint : Int
  /-- `m_stable_variation` -/
  stable : ℚ
  /-- `m_nms_similarity` -/
  nms : ℚ
  /-- `m_duplicated_variation` -/
  dup : ℚ
  /-- rounding to `f32` -/
  r32 : ℚ → ℚ
  /-- rounding to `double` -/
  r64 : ℚ → ℚ

variable {ι : Type} [DecidableEq ι]

/-- The part of a region that `connect` knows. -/
def toForest (R : RForest ι) : Forest ι := fun r =>
  { gray := (R r).gray, parent := (R r).parent, merged := decide ((R r).flag = .merged), size := (R r).size }

/-- The regions as `build_tree` leaves them: `Flag_Unknow` unless merged, `m_calculated_var = 0`
(img_fast_mser_v2.cpp 477–500); `v` is whatever `m_var` contains. -/
def ofForest (F : Forest ι) (v : ι → ℚ) : RForest ι := fun r =>
  { gray := (F r).gray, parent := (F r).parent, flag := if (F r).merged then .merged else .unknown
    size := (F r).size, var := v r, counted := false }

def setParent (R : RForest ι) (r : ι) (p : Option ι) : RForest ι := update R r { R r with parent := p }
def setFlag (R : RForest ι) (r : ι) (f : Flag) : RForest ι := update R r { R r with flag := f }
def setVar (R : RForest ι) (r : ι) (v : ℚ) : RForest ι := update R r { R r with var := v }
def setCalc (R : RForest ι) (r : ι) : RForest ι := update R r { R r with counted := true }

/-- The loop of the parent macros (img_fast_mser_v2.cpp 7–13). -/
def realParent (R : RForest ι) (fuel : Nat) (r : ι) : Option (Option ι) :=
  Connect.chase (toForest R) fuel (R r).parent

/-! ### Stability value -/

/-- The loop over ancestors, img_fast_mser_v2.cpp 2063–2069 and 1034–1045.  `own p` says whether the
shortened link of `p` is stored: always in `calculate_variation`, only for regions of the thread's own
patch in the parallel code.  At most `n` iterations.  (The `u32` threshold of line 2054 and the `i32` one of
1030 agree as `m_delta` is not negative where the former is used.) -/
def climb (own : ι → Bool) (fuel : Nat) (thr : Int) :
    Nat → RForest ι → ι → Option ι → Option (RForest ι × ι × Option ι)
  | _, R, start, none => some (R, start, none)
  | n, R, start, some p =>
    if ((R p).gray : Int) ≤ thr then
      match n with
      | 0 => none
      | n + 1 =>
        match realParent R fuel p with
        | none => none
        | some q => climb own fuel thr n (if own p then setParent R p q else R) p q
    else some (R, start, some p)

/-- `(start->m_size - region->m_size) / (f32)region->m_size`: the integer difference is converted to `f32`
(img_fast_mser_v2.cpp 2072, 1048). -/
def ratio32 (cfg : Cfg) (a b : Nat) : ℚ :=
  cfg.r32 (cfg.r32 (((a : Int) - (b : Int) : Int) : ℚ) / cfg.r32 ((b : Int) : ℚ))

/-- `calculate_variation` (img_fast_mser_v2.cpp 2053–2077) and the same lines in the parallel code
(1030–1051, 1093–1114). -/
def calcVar (cfg : Cfg) (own : ι → Bool) (fuel : Nat) (R : RForest ι) (r : ι) : Option (RForest ι) :=
  let thr : Int := (R r).gray + cfg.delta
  match realParent R fuel r with
  | none => none
  | some p =>
    match climb own fuel thr 256 (setParent R r p) r p with
    | none => none
    | some (R, start, top) =>
      some (setVar R r
        (if top.isSome ∨ ((R start).gray : Int) = thr then ratio32 cfg (R start).size (R r).size else -1))

/-- `m_size < m_min_point || m_size > m_max_point || NULL == m_parent` (690, 1056, 1119). -/
def badSize (cfg : Cfg) (x : RNode ι) : Bool :=
  decide ((x.size : Int) < cfg.minPoint) || decide (cfg.maxPoint < (x.size : Int)) || x.parent.isNone

/-! ### One thread -/

/-- Regions and the counters `m_region_level_size`, `totalUnkonwSize`. -/
structure RSt (ι : Type) where
  R : RForest ι
  lev : Nat → Int
  total : Int

/-- Counting a region in or out. -/
def RSt.count (s : RSt ι) (g : Nat) (d : Int) : RSt ι :=
  { s with lev := update s.lev g (s.lev g + d), total := s.total + d }

/-- Body of the first loop of `recognize_mser_serial` (img_fast_mser_v2.cpp 689–716). -/
def serialVisit (cfg : Cfg) (fuel : Nat) (s : RSt ι) (r : ι) : Option (RSt ι) :=
  if (s.R r).flag = .unknown then
    match (if 0 < cfg.delta then calcVar cfg (fun _ => true) fuel s.R r else some s.R) with
    | none => none
    | some R =>
      if 0 < cfg.delta ∧ cfg.stable < (R r).var then some { s with R := setFlag R r .invalid }
      else if badSize cfg (R r) then some { s with R := setFlag R r .invalid }
      else
        match (if cfg.delta ≤ 0 then (realParent R fuel r).map (setParent R r) else some R) with
        | none => none
        | some R => some ({ s with R := R }.count (R r).gray 1)
  else some s

/-- Body of the second loop of `recognize_mser_serial` (img_fast_mser_v2.cpp 728–755): suppression of
less stable regions. -/
def serialNms (cfg : Cfg) (s : RSt ι) (r : ι) : RSt ι :=
  let x := s.R r
  if x.flag = .merged then s
  else
    match x.parent with
    | none => s
    | some p =>
      let y := s.R p
      if 0 ≤ x.var ∧ 0 ≤ y.var ∧ y.gray = x.gray + 1 then
        let sub := cfg.r32 (y.var - x.var)
        if cfg.nms < sub then
          if y.flag ≠ .invalid then { s with R := setFlag s.R p .invalid }.count y.gray (-1) else s
        else if cfg.nms < -sub then
          if x.flag ≠ .invalid then { s with R := setFlag s.R r .invalid }.count x.gray (-1) else s
        else s
      else s

/-- The selection of `recognize_mser_serial` (665–757) before ordering; `order` is the list of all
regions, patch by patch. -/
def selectSerial (cfg : Cfg) (fuel : Nat) (order : List ι) (R : RForest ι) : Option (RSt ι) :=
  match order.foldlM (serialVisit cfg fuel) ⟨R, fun _ => 0, 0⟩ with
  | none => none
  | some s => some (if 0 < cfg.delta ∧ 0 ≤ cfg.nms then order.foldl (serialNms cfg) s else s)

/-! ### Several threads -/

/-- Body of the loop of `recognize_mser_parallel_worker` for patch `k` (img_fast_mser_v2.cpp 1024–1060), the
same as the first loop of `recognize_mser_parallel_4_acceleration` (1087–1124). -/
def workerVisit (cfg : Cfg) (pidx : ι → Nat) (k fuel : Nat) (R : RForest ι) (r : ι) : Option (RForest ι) :=
  if (R r).flag ≠ .merged then
    match calcVar cfg (fun x => pidx x == k) fuel R r with
    | none => none
    | some R =>
      if cfg.stable < (R r).var then some (setFlag R r .invalid)
      else if badSize cfg (R r) then some (setFlag R r .invalid)
      else some R
  else some R

/-- `recognize_mser_parallel_worker` (1016–1061). -/
def worker (cfg : Cfg) (pidx : ι → Nat) (fuel : Nat) (regs : Nat → List ι) (R : RForest ι) (k : Nat) :
    Option (RForest ι) :=
  (regs k).foldlM (workerVisit cfg pidx k fuel) R

/-- The comparison of a region `r` with its parent `p` in the parallel code (893–911, 1155–1177,
1214–1234): the less stable one is marked, and counted out if it had been counted in. -/
def nmsPair (cfg : Cfg) (s : RSt ι) (r p : ι) : RSt ι :=
  let x := s.R r
  let y := s.R p
  let sub := cfg.r32 (y.var - x.var)
  if cfg.nms < sub then
    if y.flag = .unknown then
      let s' : RSt ι := if y.counted then s.count y.gray (-1) else s
      { s' with R := setFlag s'.R p .invalid }
    else s
  else if cfg.nms < -sub then
    if x.flag = .unknown then
      let s' : RSt ι := if x.counted then s.count x.gray (-1) else s
      { s' with R := setFlag s'.R r .invalid }
    else s
  else s

/-- Body of the second loop of `recognize_mser_parallel` (img_fast_mser_v2.cpp 874–916). -/
def parallelNms (cfg : Cfg) (s : RSt ι) (r : ι) : Option (RSt ι) :=
  let x := s.R r
  if x.flag = .merged then some s
  else
    let go (s : RSt ι) : Option (RSt ι) :=
      match x.parent with
      | none => none                                                  -- null dereference at 890/892
      | some p =>
        if 0 ≤ cfg.nms ∧ 0 ≤ x.var ∧ 0 ≤ (s.R p).var ∧ (s.R p).gray = x.gray + 1 then
          some (nmsPair cfg s r p)
        else some s
    if x.flag = .unknown then
      go ({ s with R := setCalc s.R r }.count x.gray 1)
    else
      match x.parent with
      | none => some s
      | some p => if (s.R p).flag = .invalid then some s else go s

/-- The selection of `recognize_mser_parallel` for 32 threads (845–917) before ordering.  The workers run
one after the other here; that their interleaving does not matter is property C24. -/
def selectParallel (cfg : Cfg) (pidx : ι → Nat) (fuel n : Nat) (regs : Nat → List ι) (R : RForest ι) :
    Option (RSt ι) :=
  match (List.range n).foldlM (worker cfg pidx fuel regs) R with
  | none => none
  | some R => ((List.range n).flatMap regs).foldlM (parallelNms cfg) ⟨R, fun _ => 0, 0⟩

/-! ### Four threads -/

/-- A patch's share of the state in `recognize_mser_parallel_4_acceleration`: regions, the thread's
`region_level_size` (in `st.lev`; `st.total` is not a variable of this function and only mirrors it), and
the regions written to the patch's heap memory (1080, 1144) because their parent is in another patch. -/
structure AccSt (ι : Type) where
  st : RSt ι
  deferred : List ι

/-- Body of the second loop of a thread (img_fast_mser_v2.cpp 1128–1179); `cap` is the number of cells of
the patch's heap memory. -/
def accelVisit (cfg : Cfg) (pidx : ι → Nat) (k cap : Nat) (a : AccSt ι) (r : ι) : Option (AccSt ι) :=
  let x := a.st.R r
  if x.flag = .merged then some a
  else
    let go (a : AccSt ι) : Option (AccSt ι) :=
      match x.parent with
      | none => none                                                  -- null dereference at 1142
      | some p =>
        let y := a.st.R p
        if pidx p ≠ k then
          if y.gray = x.gray + 1 then
            if a.deferred.length < cap then some { a with deferred := a.deferred ++ [r] } else none
          else some a
        else if cfg.nms < 0 ∨ x.var < 0 then some a
        else if 0 ≤ y.var ∧ y.gray = x.gray + 1 then some { a with st := nmsPair cfg a.st r p }
        else some a
    if x.flag = .unknown then
      go { a with st := { a.st with R := setCalc a.st.R r }.count x.gray 1 }
    else
      match x.parent with
      | none => some a
      | some p => if badSize cfg (a.st.R p) then some a else go a

/-- One thread (img_fast_mser_v2.cpp 1075–1188). -/
def accelThread (cfg : Cfg) (pidx : ι → Nat) (fuel : Nat) (cap : Nat → Nat) (regs : Nat → List ι) (k : Nat)
    (R : RForest ι) : Option (AccSt ι) :=
  match worker cfg pidx fuel regs R k with
  | none => none
  | some R => (regs k).foldlM (accelVisit cfg pidx k (cap k)) ⟨⟨R, fun _ => 0, 0⟩, []⟩

/-- Body of the loop over deferred regions (img_fast_mser_v2.cpp 1205–1236). -/
def deferredNms (cfg : Cfg) (s : RSt ι) (r : ι) : Option (RSt ι) :=
  match (s.R r).parent with
  | none => none                                                      -- null dereference at 1209/1215
  | some p =>
    if (s.R r).flag = .invalid ∧ (s.R p).flag = .invalid then some s
    else if 0 ≤ (s.R p).var then some (nmsPair cfg s r p)
    else some s

/-- All threads one after the other, with the sum of their counters (1191–1193) and the deferred regions of
all patches. -/
def accelThreads (cfg : Cfg) (pidx : ι → Nat) (fuel : Nat) (cap : Nat → Nat) (regs : Nat → List ι) :
    List Nat → AccSt ι → Option (AccSt ι)
  | [], a => some a
  | k :: ks, a =>
    match accelThread cfg pidx fuel cap regs k a.st.R with
    | none => none
    | some b =>
      accelThreads cfg pidx fuel cap regs ks
        ⟨⟨b.st.R, fun g => a.st.lev g + b.st.lev g, a.st.total + b.st.total⟩, a.deferred ++ b.deferred⟩

/-- The selection of `recognize_mser_parallel_4_acceleration` (1063–1241) before ordering. -/
def selectAccel (cfg : Cfg) (pidx : ι → Nat) (fuel n : Nat) (cap : Nat → Nat) (regs : Nat → List ι)
    (R : RForest ι) : Option (RSt ι) :=
  match accelThreads cfg pidx fuel cap regs (List.range n) ⟨⟨R, fun _ => 0, 0⟩, []⟩ with
  | none => none
  | some a => if 0 ≤ cfg.nms then a.deferred.foldlM (deferredNms cfg) a.st else some a.st

/-! ### Ordering -/

/-- `integral_array` (/repo/basicmath/include/mt_helper.h 336–343) on the 256 counters
(img_fast_mser_v2.cpp 761, 920, 1244). -/
def startIndex (lev : Nat → Int) : Nat → Int
  | 0 => 0
  | i + 1 => startIndex lev i + lev i

/-- The order array under construction: `m_start_indexes` and the cells written so far. -/
structure Ord (ι : Type) where
  pos : Nat → Int
  cells : Nat → Option ι

/-- `m_gray_order_regions[m_start_indexes[gray]++] = region` (img_fast_mser_v2.cpp 793, 950, 1275) into an
array of `msize` cells. -/
def place (R : RForest ι) (msize : Nat) (o : Ord ι) (r : ι) : Option (Ord ι) :=
  if (R r).flag = .unknown then
    let i := o.pos (R r).gray
    if 0 ≤ i ∧ i < (msize : Int) then
      some { pos := update o.pos (R r).gray (i + 1), cells := update o.cells i.toNat (some r) }
    else none
  else some o

/-- `m_gray_order_regions_memory_size` after the reallocation rule (img_fast_mser_v2.cpp 767–785, 926–944,
1248–1264); returns the new size and `m_exceed_times`. -/
def reserve (msize total exceed : Nat) : Nat × Nat :=
  if total * 5 < msize then
    if 10 < exceed + 1 then (total, exceed + 1) else (msize, exceed + 1)
  else (total, 0)

/-- Reading cells `0 … n-1`; `none` if one was never written. -/
def readCells (cells : Nat → Option ι) (n : Nat) : Option (List ι) := (List.range n).mapM cells

/-- Ordering by gray level: the contents of `m_gray_order_regions` (759–795, 918–952, 1242–1277). -/
def grayOrder (s : RSt ι) (order : List ι) (msize : Nat) : Option (List ι) :=
  match order.foldlM (place s.R msize) ⟨startIndex s.lev, fun _ => none⟩ with
  | none => none
  | some o => readCells o.cells (startIndex s.lev 256).toNat

/-! ### Duplicate removal -/

/-- `get_duplicated_regions` (img_fast_mser_v2.cpp 2079–2114) from the parent `p` on; at most `n` iterations.
The regions found are returned in order. -/
def dupLoop (cfg : Cfg) (R : RForest ι) (stable : ι) : Nat → Option ι → Option (List ι)
  | _, none => some []
  | 0, some _ => none
  | n + 1, some p =>
    if cfg.maxPoint < ((R p).size : Int) then some []
    else if cfg.dup < cfg.r64 ((((R p).size : Int) - ((R stable).size : Int) : Int) / ((R stable).size : Int)) then
      some []
    else if (R p).flag = .valid ∨ (R p).flag = .invalid then dupLoop cfg R stable n (R p).parent
    else (dupLoop cfg R stable n (R p).parent).map (p :: ·)

/-- `get_duplicated_regions(v, stable, begin)`. -/
def getDuplicated (cfg : Cfg) (R : RForest ι) (stable begin_ : ι) : Option (List ι) :=
  dupLoop cfg R stable 256 (R begin_).parent

/-- The group of a region and the index of the member to keep (img_fast_mser_v2.cpp 808–817, 965–974,
1290–1299). -/
def group (cfg : Cfg) (R : RForest ι) (r : ι) : Option (List ι × Nat) :=
  match getDuplicated cfg R r r with
  | none => none
  | some l =>
    let g := r :: l
    let mid := g.length / 2
    if 0 < mid then
      match g[mid]?, g.getLast? with
      | some m, some e =>
        match getDuplicated cfg R m e with
        | none => none
        | some l' => some (g ++ l', mid)
      | _, _ => none
    else some (g, mid)

/-- Marking the group (819–826, 976–983, 1301–1308). -/
def markGroup (R : RForest ι) (g : List ι) (mid : Nat) : RForest ι :=
  (List.range g.length).foldl (fun R j =>
    match g[j]? with
    | some x => setFlag R x (if j = mid then .valid else .invalid)
    | none => R) R

/-- State of duplicate removal: regions and `validCount`. -/
structure DSt (ι : Type) where
  R : RForest ι
  valid : Nat

/-- One iteration of duplicate removal (801–827, 958–984, 1283–1309). -/
def dedupStep (cfg : Cfg) (s : DSt ι) (r : ι) : Option (DSt ι) :=
  if (s.R r).flag ≠ .unknown then some s
  else
    match group cfg s.R r with
    | none => none
    | some (g, mid) => some ⟨markGroup s.R g mid, s.valid + 1⟩

/-- What recognition hands to extraction: `m_gray_order_regions[0 … m_gray_order_region_size)`, the
regions with their final flags, and `m_channel_total_pixel_number`. -/
structure Recognized (ι : Type) where
  R : RForest ι
  reported : List ι
  pixels : Nat

/-- Duplicate removal and compaction (797–842, 956–995, 1281–1320).  The compaction loop overwrites the array
in place from the front; a cell is only overwritten after it has been read, so the result is the list
filtered.  `m_gray_order_region_size` becomes `validCount`. -/
def dedup (cfg : Cfg) (R : RForest ι) (arr : List ι) : Option (Recognized ι) :=
  match arr.foldlM (dedupStep cfg) ⟨R, 0⟩ with
  | none => none
  | some s =>
    let kept := arr.filter (fun r => (s.R r).flag = .valid)
    some ⟨s.R, kept.take s.valid, (kept.map fun r => (s.R r).size).sum⟩

/-- The alternative without duplicate removal (996–1002, 1321–1327). -/
def keepAll (R : RForest ι) (arr : List ι) : Recognized ι :=
  let R' := arr.foldl (fun R r => setFlag R r .valid) R
  ⟨R', arr, (arr.map fun r => (R r).size).sum⟩

/-- `recognize_mser_serial` (665–843). -/
def recognizeSerial (cfg : Cfg) (fuel : Nat) (order : List ι) (msize exceed : Nat) (R : RForest ι) :
    Option (Recognized ι) :=
  match selectSerial cfg fuel order R with
  | none => none
  | some s =>
    match grayOrder s order (reserve msize s.total.toNat exceed).1 with
    | none => none
    | some arr => dedup cfg s.R arr

/-- `recognize_mser_parallel` (845–1014) for 32 threads. -/
def recognizeParallel (cfg : Cfg) (pidx : ι → Nat) (fuel n : Nat) (regs : Nat → List ι) (msize exceed : Nat)
    (R : RForest ι) : Option (Recognized ι) :=
  match selectParallel cfg pidx fuel n regs R with
  | none => none
  | some s =>
    match grayOrder s ((List.range n).flatMap regs) (reserve msize s.total.toNat exceed).1 with
    | none => none
    | some arr => if 0 < cfg.dup then dedup cfg s.R arr else some (keepAll s.R arr)

/-- `recognize_mser_parallel_4_acceleration` (1063–1333); `m_start_indexes[256]` is the array size. -/
def recognizeAccel (cfg : Cfg) (pidx : ι → Nat) (fuel n : Nat) (cap : Nat → Nat) (regs : Nat → List ι)
    (msize exceed : Nat) (R : RForest ι) : Option (Recognized ι) :=
  match selectAccel cfg pidx fuel n cap regs R with
  | none => none
  | some s =>
    match grayOrder s ((List.range n).flatMap regs) (reserve msize (startIndex s.lev 256).toNat exceed).1 with
    | none => none
    | some arr => if 0 < cfg.dup then dedup cfg s.R arr else some (keepAll s.R arr)

end Verif.Recog
