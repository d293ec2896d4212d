/-!
# Model: distributing the outermost regions over threads in V1 (/repo/basicimg/src/img_fast_mser_v1.cpp 2981–3204)

The list `sizes` holds `m_size` of the outermost reported regions in the order of `top_regions` followed by `top_backup`
(3004–3026). What a thread does is listed as pairs of a region's index and the place in `memory` of its first point; the
points themselves are walked along the linked list (C30).
-/

namespace Verif.SplitV1

def upd (f : Nat → Nat) (k v : Nat) : Nat → Nat := fun x => if x = k then v else f x

/-- The loop 3083–3104. `stop` is `parallel_stop_indexes`, `off` is `memory_offsets`. -/
def splitLoop (T Q : Nat) : List Nat → (i cur index par : Nat) → (stop off : Nat → Nat) → (Nat → Nat) × (Nat → Nat)
  | [], _, _, _, _, stop, off => (stop, off)
  | s :: ss, i, cur, index, par, stop, off =>
    let cur' := cur + s
    let stop' := upd stop index i
    if par < cur' then
      if index + 1 = T then (stop', off)
      else splitLoop T Q ss (i + 1) cur' (index + 1) (par + Q) stop' (upd off (index + 1) cur')
    else splitLoop T Q ss (i + 1) cur' index par stop' off

/-- 3038–3104: the arrays are cleared for the supported thread numbers only; otherwise they are `NULL` (`none`). -/
def split (T : Nat) (sizes : List Nat) : Option ((Nat → Nat) × (Nat → Nat)) :=
  if T = 2 ∨ T = 4 ∨ T = 8 ∨ T = 16 ∨ T = 32 then
    let Q := sizes.sum / T
    some (splitLoop T Q sizes 0 0 0 Q (fun _ => 0) (fun _ => 0))
  else none

/-- The loop 3181–3203 over the regions from `i`, `n` of them; an index outside the list is undefined. -/
def walk (sizes : List Nat) : (n i mem : Nat) → Option (List (Nat × Nat))
  | 0, _, _ => some []
  | n + 1, i, mem => sizes[i]?.bind fun s => (walk sizes n (i + 1) (mem + s)).map ((i, mem) :: ·)

/-- `extract_top_pixel_parallel` (3174–3204): `start` 3175, `stop` 3176, `cur_mem` 3177. -/
def work (sizes : List Nat) (stop off : Nat → Nat) (k : Nat) : Option (List (Nat × Nat)) :=
  let start := if k = 0 then 0 else stop (k - 1) + 1
  walk sizes (stop k + 1 - start) start (off k)

/-- All threads (3108–3133), in the order of their numbers. -/
def works (sizes : List Nat) (stop off : Nat → Nat) : Nat → Option (List (Nat × Nat))
  | 0 => some []
  | k + 1 => (works sizes stop off k).bind fun a => (work sizes stop off k).map (a ++ ·)

/-- The whole: no outermost region means no reported region, and the function returns at once (2982–2984). -/
def extractTop (T : Nat) (sizes : List Nat) : Option (List (Nat × Nat)) :=
  if sizes = [] then some [] else (split T sizes).bind fun a => works sizes a.1 a.2 T

end Verif.SplitV1
