import Mathlib.Logic.Function.Basic
import Mathlib.Data.Nat.Bitwise

/-!
# Model: `mt_block_memory` (/repo/basicmath/include/mt_block_memory.h)

An address is a block and a position in it. The C++ code turns a recycled address into its distance from the
first block and back (8, 49); here the address itself is kept. `m_begin`, `m_cur_data` and
`m_cur_block_end` are `(0, 0)`, `(cur, off)` and `(cur, size)`. `int` overflow of the number of elements is not
modelled.
-/

namespace Verif.Block

/-- An element address. -/
abbrev Ptr := Nat × Nat

/-- How the machine shifts an `int` by too large an amount. -/
inductive Shift
  /-- as the C++ standard has it: undefined -/
  | standard
  /-- as x86 does it: by the amount modulo 32 -/
  | masked
  deriving DecidableEq

/-- `1 << b` for an `i32` `b ≥ 0` (127): `none` is undefined behaviour. -/
def shl1 : Shift → Nat → Option Nat
  | .standard, b => if b < 31 then some (2 ^ b) else none
  | .masked, b => if b % 32 < 31 then some (2 ^ (b % 32)) else none

/-- `index >> b` for a non-negative `index` (155). -/
def shr : Shift → Nat → Nat → Option Nat
  | .standard, i, b => if b < 32 then some (i / 2 ^ b) else none
  | .masked, i, b => some (i / 2 ^ (b % 32))

/-- The members of `mt_block_memory` (217–235); `blocks` is `m_datas.size()`, `reuse` lists the recycled
addresses, last one first. `mem` is what the cells contain (`none`: nothing was written). -/
structure BM (T : Type) where
  base : Nat
  size : Nat
  useNew : Bool
  blocks : Nat
  cur : Nat
  off : Nat
  count : Nat
  maxReuse : Nat
  reuse : List Ptr
  mem : Ptr → Option T

variable {T : Type}

/-- `default_param` (238–254). `m_cur_block` is −1 there; it is not read before `init` sets it. -/
def fresh : BM T := ⟨0, 0, false, 0, 0, 0, 0, 0, [], fun _ => none⟩

/-- `next_block` (196–215), entering block `c`. -/
def enter (S : BM T) (c : Nat) : BM T :=
  if S.blocks ≤ c then
    { S with cur := c, off := 0, blocks := S.blocks + 1, mem := fun p => if p.1 = S.blocks then none else S.mem p }
  else { S with cur := c, off := 0 }

/-- `init` (108–152). The first branch calls `front()` of `m_datas`, which is undefined if that is empty. -/
def init (m : Shift) (S : BM T) (base : Nat) (useNew : Bool) (maxReuse : Nat) : Option (BM T) :=
  (if base = S.base ∧ S.useNew = useNew then
    if S.blocks = 0 then none else some { S with cur := 0, off := 0 }
  else
    (shl1 m base).bind fun size =>
      some (enter { S with base := base, size := size, useNew := useNew, blocks := 0, mem := fun _ => none } 0)).bind
  fun S' => some { S' with maxReuse := maxReuse, count := 0, reuse := [] }

/-- `basicmath_block_memory_get` (6–11). -/
def get (S : BM T) : Ptr :=
  match S.reuse with
  | p :: _ => p
  | [] => (S.cur, S.off)

/-- `basicmath_block_memory_add` (14–23). -/
def add (S : BM T) : BM T :=
  match S.reuse with
  | [] =>
    let S' := { S with off := S.off + 1, count := S.count + 1 }
    if S.size ≤ S.off + 1 then enter S' (S.cur + 1) else S'
  | _ :: l => { S with reuse := l }

/-- `basicmath_block_memory_reuse` (47–50). -/
def recycle (S : BM T) (p : Ptr) : BM T :=
  if S.reuse.length < S.maxReuse then { S with reuse := p :: S.reuse } else S

/-- An access to the address `p` is valid if `p` lies in a block. -/
def Valid (S : BM T) (p : Ptr) : Prop := p.1 < S.blocks ∧ p.2 < S.size

instance (S : BM T) (p : Ptr) : Decidable (Valid S p) := inferInstanceAs (Decidable (_ ∧ _))

/-- The user writes an element. -/
def store (S : BM T) (p : Ptr) (v : T) : Option (BM T) :=
  if Valid S p then some { S with mem := Function.update S.mem p (some v) } else none

/-- The user reads an element. -/
def load (S : BM T) (p : Ptr) : Option T := if Valid S p then S.mem p else none

/-- The address of `at(index)` (154–160); `m_block_size_mask` is `m_block_size - 1`. -/
def atAddr (m : Shift) (S : BM T) (i : Nat) : Option Ptr :=
  (shr m i S.base).bind fun b => if b < S.blocks then some (b, i &&& (S.size - 1)) else none

/-- The members of `block_pos` (58–72). -/
structure Pos where
  data : Ptr
  block : Nat
  index : Nat
  visited : Nat

/-- The position a visit starts with (61–66); `m_data` is `NULL`, which is not read. -/
def Pos.start : Pos := ⟨(0, 0), 0, 0, 0⟩

/-- Outcome of `basicmath_block_memory_visit`. -/
inductive Visit
  /-- `break` -/
  | stop
  | crash
  | elem (p : Pos)

/-- `basicmath_block_memory_visit` (25–45). -/
def visit (S : BM T) (p : Pos) : Visit :=
  if S.count ≤ p.visited then .stop
  else
    let b := if p.index = S.size then p.block + 1 else p.block
    let i := if p.index = S.size then 0 else p.index
    if i = 0 then
      if b < S.blocks then .elem ⟨(b, 0), b, i + 1, p.visited + 1⟩ else .crash
    else .elem ⟨(p.data.1, p.data.2 + 1), b, i + 1, p.visited + 1⟩

/-- The loop `while (true) { visit; … }`: the addresses it sees, `none` if it does not end in `n` turns. -/
def visits (S : BM T) : Nat → Pos → Option (List Ptr)
  | 0, _ => none
  | n + 1, p =>
    match visit S p with
    | .stop => some []
    | .crash => none
    | .elem q => (visits S n q).bind fun l => some (q.data :: l)

end Verif.Block
