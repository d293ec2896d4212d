import Verif.Model.Recognize

/-!
# Model: recognition of stable regions in Fast MSER V1

`img_fast_mser_v1::recognize_mser` and what it calls, /repo/basicimg/src/img_fast_mser_v1.cpp 2412–2643 and
3432–3469.  For every thread number it is `recognize_mser_parallel`, whose first two loops
(`recognize_mser_parallel_worker` 2595–2643, suppression 2460–2508) are the lines of V2 with the same name and are
modelled by `selectParallel`; likewise the counting sort (2510–2530, `grayOrder`) and the alternative without
duplicate removal (2583–2590, `keepAll`).  Different are the array of the ordered regions, which is the heap of
flooding (2517), and `get_duplicated_regions`, which in V1 does not skip the regions already kept (the lines
3455–3456 are comments).
-/

namespace Verif.Recog

variable {ι : Type} [DecidableEq ι]

/-- `get_duplicated_regions` of V1 (img_fast_mser_v1.cpp 3432–3469) from the parent `p` on; at most `n`
iterations.  The regions found are returned in order. -/
def dupLoopV1 (cfg : Cfg) (R : RForest ι) (stable : ι) : Nat → Option ι → Option (List ι)
  | _, none => some []                                                                       -- 3436–3438
  | 0, some _ => none
  | n + 1, some p =>
    if cfg.maxPoint < ((R p).size : Int) then some []                                        -- 3442–3445
    else if cfg.dup < cfg.r64 ((((R p).size : Int) - ((R stable).size : Int) : Int) / ((R stable).size : Int)) then
      some []                                                                                -- 3447–3451
    else if (R p).flag = .invalid then dupLoopV1 cfg R stable n (R p).parent                 -- 3459–3462
    else (dupLoopV1 cfg R stable n (R p).parent).map (p :: ·)                                -- 3464–3465

/-- `get_duplicated_regions(v, stable, begin)` of V1. -/
def getDuplicatedV1 (cfg : Cfg) (R : RForest ι) (stable begin_ : ι) : Option (List ι) :=
  dupLoopV1 cfg R stable 256 (R begin_).parent

/-- The group of a region and the index of the member to keep (img_fast_mser_v1.cpp 2548–2558). -/
def groupV1 (cfg : Cfg) (R : RForest ι) (r : ι) : Option (List ι × Nat) :=
  match getDuplicatedV1 cfg R r r with
  | none => none
  | some l =>
    let g := r :: l
    let mid := g.length / 2
    if 0 < mid then
      match g[mid]?, g.getLast? with
      | some m, some e =>
        match getDuplicatedV1 cfg R m e with
        | none => none
        | some l' => some (g ++ l', mid)
      | _, _ => none
    else some (g, mid)

/-- One iteration of duplicate removal (img_fast_mser_v1.cpp 2541–2568). -/
def dedupStepV1 (cfg : Cfg) (s : DSt ι) (r : ι) : Option (DSt ι) :=
  if (s.R r).flag ≠ .unknown then some s
  else
    match groupV1 cfg s.R r with
    | none => none
    | some (g, mid) => some ⟨markGroup s.R g mid, s.valid + 1⟩

/-- Duplicate removal and compaction (img_fast_mser_v1.cpp 2535–2582).  The compaction loop overwrites the array
from the front; a cell is only overwritten after it has been read.  Behind the cells overwritten the array is as
before; `m_gray_order_region_size` becomes `validCount`, which is not tied to the number of cells overwritten. -/
def dedupV1 (cfg : Cfg) (R : RForest ι) (arr : List ι) : Option (Recognized ι) :=
  match arr.foldlM (dedupStepV1 cfg) ⟨R, 0⟩ with
  | none => none
  | some s =>
    let kept := arr.filter (fun r => (s.R r).flag = .valid)
    some ⟨s.R, (kept ++ arr.drop kept.length).take s.valid, (kept.map fun r => (s.R r).size).sum⟩

/-- `recognize_mser` of V1 with `n` threads (img_fast_mser_v1.cpp 2412–2643); the heap has `hsize` cells. -/
def recognizeV1 (cfg : Cfg) (pidx : ι → Nat) (fuel n : Nat) (regs : Nat → List ι) (hsize : Nat) (R : RForest ι) :
    Option (Recognized ι) :=
  match selectParallel cfg pidx fuel n regs R with
  | none => none
  | some s =>
    match grayOrder s ((List.range n).flatMap regs) hsize with
    | none => none
    | some arr => if 0 < cfg.dup then dedupV1 cfg s.R arr else some (keepAll s.R arr)

end Verif.Recog
