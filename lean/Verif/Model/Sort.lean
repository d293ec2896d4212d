/-!
# Sorting helpers and the streaming top-k collector

`basicmath/include/mt_sort.h` and `basicmath/include/mt_top_k.h`. A vector of size `n` is the number `n` with a
function from indexes; reading or writing an index that is not below `n` is the outcome `none`. Elements are of any
type with decidable `<` (floating point NaN is outside of the theorems, which assume a linear order). Sizes are
natural numbers: `i32` overflow of sizes is not considered.
-/

namespace Verif.Sorting

variable {T : Type} [LT T] [DecidableRel (α := T) (· < ·)]

/-- Reading an element of a vector. -/
def rd (n : Nat) (f : Nat → T) (i : Nat) : Option T := if i < n then some (f i) else none

/-- `swap(v[i], v[j])`. -/
def swp (n : Nat) (f : Nat → T) (i j : Nat) : Option (Nat → T) :=
  if i < n ∧ j < n then some (fun x => if x = i then f j else if x = j then f i else f x) else none

/-- The comparison `(increase && a > b) || (!increase && a < b)`, mt_sort.h 20–21, and the nested form 33–41. -/
def out (inc : Bool) (a b : T) : Bool := (inc && decide (b < a)) || (!inc && decide (a < b))

/-- Inner loop of `mt_sort::bubble_sort`, mt_sort.h 32–43, from `j` on while `j < bound`. -/
def bubblePass (n : Nat) (inc : Bool) (bound : Nat) : Nat → Nat → (Nat → T) → Option (Nat → T)
  | 0, _, _ => none
  | fuel + 1, j, f =>
    if j < bound then
      (rd n f j).bind fun a => (rd n f (j + 1)).bind fun b =>
        (if out inc a b then swp n f j (j + 1) else some f).bind (bubblePass n inc bound fuel (j + 1))
    else some f

/-- Outer loop of `mt_sort::bubble_sort`, mt_sort.h 31: `k` further passes from `i` on. -/
def bubbleLoop (n : Nat) (inc : Bool) : Nat → Nat → (Nat → T) → Option (Nat → T)
  | 0, _, f => some f
  | k + 1, i, f => (bubblePass n inc (n - i - 1) (n + 1) 0 f).bind (bubbleLoop n inc k (i + 1))

/-- `mt_sort::bubble_sort`, mt_sort.h 30–45 (for an empty vector the bound is -1: no pass). -/
def bubbleSort (n : Nat) (inc : Bool) (f : Nat → T) : Option (Nat → T) := bubbleLoop n inc (n - 1) 0 f

/-- Inner loop of `mt_sort::sort`, mt_sort.h 19–25: the bound is `size - j - 1`, with `j` itself. -/
def sortPass (n : Nat) (inc : Bool) : Nat → Nat → (Nat → T) → (Nat → Nat) → Option ((Nat → T) × (Nat → Nat))
  | 0, _, _, _ => none
  | fuel + 1, j, f, ix =>
    if (j : Int) < (n : Int) - j - 1 then
      (rd n f j).bind fun a => (rd n f (j + 1)).bind fun b =>
        if out inc a b then
          (swp n f j (j + 1)).bind fun f' => (swp n ix j (j + 1)).bind fun ix' => sortPass n inc fuel (j + 1) f' ix'
        else sortPass n inc fuel (j + 1) f ix
    else some (f, ix)

/-- Outer loop of `mt_sort::sort`, mt_sort.h 18. -/
def sortLoop (n : Nat) (inc : Bool) : Nat → (Nat → T) → (Nat → Nat) → Option ((Nat → T) × (Nat → Nat))
  | 0, f, ix => some (f, ix)
  | k + 1, f, ix => (sortPass n inc (n + 1) 0 f ix).bind fun r => sortLoop n inc k r.1 r.2

/-- `mt_sort::sort`, mt_sort.h 11–28: data and indexes. -/
def indexSort (n : Nat) (inc : Bool) (f : Nat → T) : Option ((Nat → T) × (Nat → Nat)) :=
  sortLoop n inc (n - 1) f (fun i => i)

/-- `mt_sort::heap_adjust`, mt_sort.h 67–91, on a vector of size `N` of which the first `size` elements are used. -/
def heapAdjust (N : Nat) (mh : Bool) (size : Nat) : Nat → Nat → (Nat → T) → Option (Nat → T)
  | 0, _, _ => none
  | fuel + 1, index, f =>
    if index * 2 + 1 ≥ size then some f
    else
      (if index * 2 + 2 < size then
        (rd N f (index * 2 + 2)).bind fun a => (rd N f (index * 2 + 1)).bind fun b =>
          some (if out mh a b then index * 2 + 2 else index * 2 + 1)
        else some (index * 2 + 1)).bind fun sel =>
      (rd N f index).bind fun p => (rd N f sel).bind fun c =>
        if out mh c p then (swp N f index sel).bind (heapAdjust N mh size fuel sel) else some f

/-- `mt_sort::init_heap`, mt_sort.h 60–64: the loop has `k` indexes left, `k - 1, …, 0`. -/
def initLoop (N : Nat) (mh : Bool) : Nat → (Nat → T) → Option (Nat → T)
  | 0, f => some f
  | k + 1, f => (heapAdjust N mh N (N + 1) k f).bind (initLoop N mh k)

/-- `mt_sort::init_heap`, mt_sort.h 60–64. -/
def initHeap (N : Nat) (mh : Bool) (f : Nat → T) : Option (Nat → T) := initLoop N mh (N / 2) f

/-- Loop of `mt_sort::heap_sort`, mt_sort.h 51–56. -/
def heapLoop (N : Nat) (mh : Bool) : Nat → Nat → (Nat → T) → Option (Nat → T)
  | 0, _, f => some f
  | k + 1, i, f =>
    (swp N f 0 (N - 1 - i)).bind fun f' => (heapAdjust N mh (N - 1 - i) (N + 1) 0 f').bind (heapLoop N mh k (i + 1))

/-- `mt_sort::heap_sort`, mt_sort.h 47–57. -/
def heapSort (N : Nat) (inc : Bool) (f : Nat → T) : Option (Nat → T) :=
  (initHeap N inc f).bind (heapLoop N inc (N - 1) 0)

/-- `mt_top_k`, mt_top_k.h 8–69: `m_k`, `m_want_big_data`, `m_datas`. -/
structure TopK (T : Type) where
  k : Nat
  big : Bool
  size : Nat
  data : Nat → T

/-- `mt_top_k::traverse`, mt_top_k.h 19–46. -/
def TopK.traverse (S : TopK T) (v : T) : Option (TopK T) :=
  if S.size < S.k then
    let d := fun x => if x = S.size then v else S.data x
    if S.size + 1 = S.k then (initHeap (S.size + 1) (!S.big) d).bind fun d' => some { S with size := S.size + 1, data := d' }
    else some { S with size := S.size + 1, data := d }
  else
    (rd S.size S.data 0).bind fun r =>
      if (S.big && decide (r < v)) || (!S.big && decide (v < r)) then
        (heapAdjust S.size (!S.big) S.k (S.k + 1) 0 (fun x => if x = 0 then v else S.data x)).bind fun d' =>
          some { S with data := d' }
      else some S

/-- A stream of values. -/
def TopK.stream : TopK T → List T → Option (TopK T)
  | S, [] => some S
  | S, v :: vs => (S.traverse v).bind fun S' => S'.stream vs

/-- `mt_top_k::mt_top_k`, mt_top_k.h 11–17. -/
def TopK.new [Inhabited T] (k : Nat) (big : Bool) : TopK T := ⟨k, big, 0, fun _ => default⟩

end Verif.Sorting
