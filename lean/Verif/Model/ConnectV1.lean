import Verif.Model.Connect
import Verif.Model.FloodV1

/-!
# Model: joining trees in Fast MSER V1

Models `img_fast_mser_v1::connect` and `img_fast_mser_v1::disconnect`, /repo/basicimg/src/img_fast_mser_v1.cpp
2229–2366 and 2370–2410, with the macros of lines 4–30.  Unless another file is named, line numbers refer to that
file.

Conventions:
* a region pointer is an element of `ι`, `NULL` is `none`; an index −1 in a linked point is `none`;
* the pointer-chasing loops of the macros are given a bound `fuel`; running out of it is the outcome `none`
  (endless loop), which the theorems exclude;
* `m_size` (`i32`) and `m_unmerged_size` (`u32`) are integers: `disconnect` subtracts from `m_size`;
* `m_merged_points` is a list with the newest entry first.  The array is doubled as soon as it is full
  (2395–2403), so writing to it never leaves it;
* `m_merged_number` (2284, "for debug") is kept, it bounds the length of merged chains.
-/

namespace Verif.V1

open Function (update)
open Verif.Connect (Forest chase)

variable {ι : Type} [DecidableEq ι]

/-- The fields of `mser_region` used by `connect` (img_fast_mser_v1.h 32–78); `merged` is
`m_region_flag == Flag_Merged`. -/
structure CReg (ι : Type) where
  gray : Nat
  parent : Option ι
  merged : Bool
  patch : Nat
  size : Int
  unmerged : Int
  head : Nat
  tail : Nat
  rect : Rect

/-- All regions, the array `m_linked_points`, `m_merged_points` and `m_merged_number`. -/
structure Mem (ι : Type) where
  regs : ι → CReg ι
  pts : Nat → Point
  mp : List Nat
  merges : Nat

/-- What the macros of lines 4–13 look at. -/
def Mem.forest (M : Mem ι) : Forest ι := fun r =>
  { gray := (M.regs r).gray, parent := (M.regs r).parent, merged := (M.regs r).merged, size := (M.regs r).size.toNat }

/-- `get_set_real_parent_for_merged(r, p)` (10–12). -/
def getSetParent (fuel : Nat) (M : Mem ι) (r : ι) : Option (Mem ι × Option ι) :=
  match chase M.forest fuel (M.regs r).parent with
  | none => none
  | some p => some ({ M with regs := update M.regs r { M.regs r with parent := p } }, p)

/-- The loop of `get_real_tail` (15–18). -/
def followRef (pts : Nat → Point) : Nat → Nat → Option Nat
  | k, t =>
    match (pts t).ref with
    | none => some t
    | some t' =>
      match k with
      | 0 => none
      | k + 1 => followRef pts k t'

/-- `get_real_tail(tail, real_tail)` (14–21). -/
def getRealTail (fuel : Nat) (pts : Nat → Point) (t : Nat) : Option ((Nat → Point) × Nat) :=
  match followRef pts fuel t with
  | none => none
  | some u => some (if u ≠ t then update pts t { pts t with ref := some u } else pts, u)

/-- `if (a != -1) m_linked_points[a].m_next = v;` -/
def setNext (pts : Nat → Point) (a v : Option Nat) : Nat → Point :=
  match a with
  | none => pts
  | some a => update pts a { pts a with next := v }

/-- `if (a != -1) m_linked_points[a].m_prev = v;` -/
def setPrev (pts : Nat → Point) (a v : Option Nat) : Nat → Point :=
  match a with
  | none => pts
  | some a => update pts a { pts a with prev := v }

/-- The neighbours of the run from `h` to `t` are linked with each other (2374–2380). -/
def unlink (pts : Nat → Point) (h t : Nat) : Nat → Point :=
  let pts := setNext pts (pts h).prev (pts t).next
  setPrev pts (pts t).next (pts h).prev

/-- `disconnect(r)` (2370–2410). -/
def disconnect (fuel : Nat) (M : Mem ι) (r : ι) : Option (Mem ι) :=
  match getRealTail fuel M.pts (M.regs r).tail with                                      -- 2371–2372
  | none => none
  | some (pts, rt) =>
    let h := (M.regs r).head
    let M := { M with pts := unlink pts h rt }                                           -- 2374–2380
    match getSetParent fuel M r with                                                     -- 2382–2383
    | none => none
    | some (M, parent) =>
      let cut : Option (Mem ι) :=
        match parent with
        | none => some M
        | some q =>
          match getRealTail fuel M.pts (M.regs q).tail with                              -- 2386–2387
          | none => none
          | some (pts, prt) =>
            let regs := update M.regs q { M.regs q with
              size := (M.regs q).size - (M.regs r).unmerged }                            -- 2389
            if (M.regs r).tail = (M.regs q).tail ∨ prt = rt then                         -- 2391
              some { M with regs := regs, pts := update pts rt { pts rt with ref := (pts h).prev }, mp := rt :: M.mp }
            else some { M with regs := regs, pts := pts }
      match cut with
      | none => none
      | some M =>
        let pts := update M.pts h { M.pts h with prev := none }                          -- 2408
        let pts := update pts rt { pts rt with next := none }                            -- 2409
        some { M with regs := update M.regs r { M.regs r with tail := rt }, pts := pts } -- 2407

/-- The list of `s` is put behind the list of `b`, with size and rectangle (2266–2275, 2296–2301 with 2305, 2321–2326 with
2330, 2340–2349). -/
def append (M : Mem ι) (b s : ι) : Mem ι :=
  let B := M.regs b
  let S := M.regs s
  let pts := update M.pts B.tail { M.pts B.tail with next := some S.head }
  let pts := update pts S.head { pts S.head with prev := some B.tail }
  { M with
    regs := update M.regs b { B with
      tail := S.tail, size := B.size + S.size, unmerged := B.size + S.size, rect := B.rect.join S.rect }
    pts := pts }

/-- State of the loop of `connect`; `lb k` is `last_break_regions[k ? 0 : 1]`. -/
structure VSt (ι : Type) where
  M : Mem ι
  smaller : Option ι
  bigger : Option ι
  lb : Bool → Option ι
  changed : Bool

/-- Outcome of one iteration: go on, leave the loop, or an endless pointer chase. -/
inductive VRes (ι : Type) where
  | next (c : VSt ι)
  | stop (c : VSt ι)
  | stuck

/-- `region_index(r)` (2236): `true` is index 0. -/
def slot (split : Nat) (M : Mem ι) (r : ι) : Bool := decide ((M.regs r).patch ≤ split)

/-- `if (last_break_regions[region_index(r)] != r) { disconnect(r); last_break_regions[…] = r; }`
(2286–2289, 2291–2294, 2311–2314, 2316–2319). -/
def breakOff (fuel split : Nat) (M : Mem ι) (lb : Bool → Option ι) (r : ι) : Option (Mem ι × (Bool → Option ι)) :=
  if lb (slot split M r) ≠ some r then
    match disconnect fuel M r with
    | none => none
    | some M' => some (M', update lb (slot split M' r) (some r))
  else some (M, lb)

/-- The branches 2262–2278 and 2336–2352 (the same text): `s = smaller`, `sp = smaller_parent`; the state keeps
`bigger`. -/
def climb (fuel split : Nat) (c : VSt ι) (s : ι) (sp : Option ι) : Option (VSt ι) :=
  match sp with
  | none => some { c with smaller := none }
  | some x =>
    if c.lb (slot split c.M s) = some s then
      match disconnect fuel c.M x with
      | none => none
      | some M =>
        some { c with
          M := append M x s, smaller := some x, lb := update c.lb (slot split M x) (some x), changed := true }
    else some { c with smaller := some x }

/-- The branches 2282–2309 (`m = true`, the grays are equal) and 2310–2334 (`m = false`), which differ in
2283–2284 only. -/
def linkTo (fuel split : Nat) (c : VSt ι) (s b : ι) (sp : Option ι) (m : Bool) : Option (VSt ι) :=
  let M := if m then
      { c.M with
        regs := update c.M.regs s { c.M.regs s with merged := true }                     -- 2283
        merges := c.M.merges + 1 }                                                       -- 2284
    else c.M
  match breakOff fuel split M c.lb s with
  | none => none
  | some (M, lb) =>
    match breakOff fuel split M lb b with
    | none => none
    | some (M, lb) =>
      let M := append M b s
      let M := { M with regs := update M.regs s { M.regs s with parent := some b } }     -- 2303, 2328
      some { M := M, smaller := some b, bigger := sp, lb := lb, changed := true }        -- 2307–2309, 2332–2334

/-- `if (smaller == bigger) bigger = NULL;` (2355–2357). -/
def meet (c : VSt ι) : VSt ι := if c.smaller = c.bigger then { c with bigger := none } else c

/-- The rest of the loop body after the swap (2255–2358); `bigger` in the state is `bg`. -/
def connectBody (fuel split : Nat) (c : VSt ι) (s : ι) (bg : Option ι) : VRes ι :=
  match getSetParent fuel c.M s with                                                     -- 2255
  | none => .stuck
  | some (M, sp) =>
    let c := { c with M := M, smaller := some s, bigger := bg }
    if sp = bg ∧ c.changed = false then .stop c                                          -- 2257–2259
    else
      match bg with
      | none =>
        match climb fuel split c s sp with
        | none => .stuck
        | some c => .next c
      | some b =>
        match getSetParent fuel c.M b with                                               -- 2280
        | none => .stuck
        | some (M, _) =>
          let c := { c with M := M }
          let o :=
            if (M.regs s).gray = (M.regs b).gray then linkTo fuel split c s b sp true    -- 2282
            else
              match sp with
              | none => linkTo fuel split c s b sp false                                 -- 2310
              | some x =>
                if (M.regs b).gray < (M.regs x).gray then linkTo fuel split c s b sp false
                else climb fuel split c s sp
          match o with
          | none => .stuck
          | some c => .next (meet c)

/-- One iteration of the loop (2243–2359). -/
def connectStep (fuel split : Nat) (c : VSt ι) : VRes ι :=
  match c.smaller with
  | none => .stop c                                                                      -- 2244–2247
  | some s =>
    match c.bigger with
    | none => connectBody fuel split c s none
    | some b =>
      if (c.M.regs b).gray < (c.M.regs s).gray then connectBody fuel split c b (some s)  -- 2249–2253
      else connectBody fuel split c s (some b)

/-- At most `n` iterations; `none` if the loop has not ended by then (or is stuck). -/
def connectLoop (fuel split : Nat) : Nat → VSt ι → Option (VSt ι)
  | 0, _ => none
  | n + 1, c =>
    match connectStep fuel split c with
    | .next c' => connectLoop fuel split n c'
    | .stop c' => some c'
    | .stuck => none

/-- `m_linked_points[m_merged_points[i]].m_ref = -1` for all entries, `m_merged_point_index = 0` (2361–2365). -/
def resetRefs (M : Mem ι) : Mem ι :=
  { M with pts := M.mp.foldr (fun a pts => update pts a { pts a with ref := none }) M.pts, mp := [] }

/-- `connect(bigger, smaller, split_patch_index)` (2229–2366) with at most `steps` iterations. -/
def connect (fuel steps split : Nat) (M : Mem ι) (bigger smaller : Option ι) : Option (Mem ι) :=
  if bigger = smaller then some M                                                        -- 2230–2232
  else
    match connectLoop fuel split steps ⟨M, smaller, bigger, fun _ => none, false⟩ with
    | none => none
    | some c => some (resetRefs c.M)

/-- One joined adjacency in `merge_tree_parallel_step` (2153–2162, 2213–2222): `a` and `b` are the entries of the
side tables. -/
def joinAt (fuel steps split : Nat) (M : Mem ι) (a b : ι) : Option (Mem ι) :=
  match chase M.forest fuel (some a), chase M.forest fuel (some b) with
  | some a', some b' => connect fuel steps split M a' b'
  | _, _ => none

/-- A sequence of joins, each with its `split_patch_index`. -/
def joinAll (fuel steps : Nat) : Mem ι → List (ι × ι × Nat) → Option (Mem ι)
  | M, [] => some M
  | M, (a, b, split) :: l =>
    match joinAt fuel steps split M a b with
    | none => none
    | some M' => joinAll fuel steps M' l

end Verif.V1
