import Verif.Spec.MatCache

/-!
# The cache of arrays

`mt_mat_cache`, /repo/basicmath/src/mt_mat_cache.cpp, for one thread.  A memory is a number; `mt_mat` objects outside the cache that refer to a memory
(also sub-arrays) are the occurrences of its number in `held`.
-/

namespace Verif.MatCache

open Verif.Spec

/-- An element of `m_caches`: its memory, sizes and type (`depth_channel`). -/
structure Entry where
  mem : Nat
  sizes : List Nat
  type : Nat
deriving DecidableEq

/-- `enabled` is `m_enable` of the thread, `limit` is `m_memory_size`, `made` are the sizes and types of all `mt_mat::create`. -/
structure State where
  enabled : Bool
  limit : Int
  caches : List Entry
  held : List Nat
  made : List (List Nat × Nat)

/-- The constructor, 19–23. -/
def start : State := ⟨false, 1073741824, [], [], []⟩

/-- `reference_number()`, mt_mat.h 95–101: cached and held references. -/
def refs (s : State) (m : Nat) : Nat := (s.caches.map Entry.mem).count m + s.held.count m

/-- A value of `i32`, or undefined behaviour. -/
def fits (x : Int) : Option Int := if -2147483648 ≤ x ∧ x ≤ 2147483647 then some x else none

/-- `element_size() * element_number()` (the product of the sizes is computed in `int` as well, its overflow is that of the whole product unless a
size or the element size is zero). -/
def entryBytes (elem : Nat → Nat) (e : Entry) : Int := arrayBytes elem (e.sizes, e.type)

/-- Lines 130–141: `total_memory` and `used_memory`. -/
def sums (elem : Nat → Nat) (s : State) : List Entry → Int → Int → Option (Int × Int)
  | [], t, u => some (t, u)
  | e :: l, t, u =>
    (fits (entryBytes elem e)).bind fun b =>
    (if refs s e.mem > 1 then fits (u + b) else some u).bind fun u' =>
    (fits (t + b)).bind fun t' => sums elem s l t' u'

/-- The loop of lines 150–163.  Erasing an element changes the reference number of no other one, because a memory is cached once (`Inv`). -/
def release (elem : Nat → Nat) (s : State) (retain : Int) : List Entry → Int → List Entry
  | [], _ => []
  | e :: l, t =>
    if refs s e.mem = 1 then
      if t - entryBytes elem e ≤ retain then l else release elem s retain l (t - entryBytes elem e)
    else e :: release elem s retain l t

/-- `statistic_memory`, 129–167. -/
def statistic (elem : Nat → Nat) (s : State) : Option State :=
  (sums elem s s.caches 0 0).bind fun r =>
  if r.1 > s.limit then
    (fits (r.2 * 2)).map fun d => if r.1 > d then { s with caches := release elem s d s.caches r.1 } else s
  else some s

/-- Lines 95–111: the first cached array that nobody else holds and that has the sizes and the type. -/
def look (s : State) (sizes : List Nat) (type : Nat) : Option Entry :=
  s.caches.find? fun e => refs s e.mem == 1 && e.type == type && e.sizes.length == sizes.length && e.sizes == sizes

/-- Line 108: a reference to a cached array is given. -/
def take (s : State) (e : Entry) : State := { s with held := e.mem :: s.held }

/-- `mt_mat::create` of a new memory, which the result refers to. -/
def create (s : State) (sizes : List Nat) (type : Nat) : State :=
  { s with held := s.made.length :: s.held, made := s.made ++ [(sizes, type)] }

/-- `get`, 77–127, with the memory of the result. -/
def get (elem : Nat → Nat) (s : State) (sizes : List Nat) (type : Nat) : Option (State × Nat) :=
  if s.enabled then
    match look s sizes type with
    | some e => some (take s e, e.mem)
    | none =>
      let s' := create s sizes type
      (statistic elem { s' with caches := s'.caches ++ [⟨s.made.length, sizes, type⟩] }).map fun s'' => (s'', s.made.length)
  else some (create s sizes type, s.made.length)

/-- One operation: `get`; a copy or a destruction of an `mt_mat`; `enable_cache`, 46–65 (switching off clears the cache only if the thread is known;
for a single unknown thread the cache is empty); `set_memory_size`, 29–36. -/
def step (elem : Nat → Nat) (s : State) : ArrayOp → Option State
  | .get sizes type => (get elem s sizes type).map Prod.fst
  | .copy m => if m ∈ s.held then some { s with held := m :: s.held } else none
  | .drop m => if m ∈ s.held then some { s with held := s.held.erase m } else none
  | .enable on => some { s with enabled := on, caches := if on then s.caches else [] }
  | .limit b => statistic elem { s with limit := b }

/-- Operations one after another. -/
def run (elem : Nat → Nat) : State → List ArrayOp → Option State
  | s, [] => some s
  | s, o :: l => (step elem s o).bind fun s' => run elem s' l

/-- Two threads in `get`: the states, the array found by each thread in lines 95–105 and not yet given, the memories given. -/
structure Threads where
  s : State
  found : Bool → Option Entry
  got : List Nat

/-- A step of a thread in `get` for a fixed request, between 95 and 108, where no mutex is held: it searches the cache, or it gives what it has
found.  Searches without success are repeated (the creation of an array is not modelled). -/
def threadStep (sizes : List Nat) (type : Nat) (p : Threads) (t : Bool) : Threads :=
  match p.found t with
  | none => { p with found := fun x => if x = t then look p.s sizes type else p.found x }
  | some e => ⟨take p.s e, fun x => if x = t then none else p.found x, p.got ++ [e.mem]⟩

end Verif.MatCache
