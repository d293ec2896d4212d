import Mathlib.Algebra.Order.Ring.Int

/-!
# Byte buffers and text buffers in memory

`sys_byte_buffer_writer`, `sys_byte_buffer_reader`, `sys_string_buffer_writer`, `sys_string_buffer_reader`, /repo/basicsys/src/sys_buffer.cpp.
A byte or character is a number below 256.  An access outside of the memory and an exception are the outcome `none`; a failed
assertion only writes to the log, as in the rest of the library.
-/

namespace Verif.SysBuffer

/-- `sys_byte_buffer_writer`: `*m_buffer`, `m_position`, /repo/basicsys/include/sys_buffer.h 157–158. -/
structure Writer where
  buf : List Nat
  pos : Int

/-- `expand_buffer`, 109–116. -/
def expand (w : Writer) (size : Nat) : Writer :=
  let append := w.pos + size - w.buf.length
  if append > 0 then { w with buf := w.buf ++ List.replicate append.toNat 0 } else w

/-- The loop 95–97. -/
def put : List Nat → Writer → Option Writer
  | [], w => some w
  | b :: l, w => if 0 ≤ w.pos ∧ w.pos < w.buf.length then put l { buf := w.buf.set w.pos.toNat b, pos := w.pos + 1 } else none

/-- `write(const u8*, const u8*)`, 91–100. -/
def write (w : Writer) (data : List Nat) : Option Writer := put data (expand w data.length)

/-- The bytes of an unsigned number in memory, lowest first (the machines of the library). -/
def toBytes : Nat → Nat → List Nat
  | 0, _ => []
  | k + 1, v => v % 256 :: toBytes k (v / 256)

/-- The number of bytes in memory. -/
def fromBytes : List Nat → Nat
  | [] => 0
  | b :: l => b + 256 * fromBytes l

/-- `write` of an unsigned number of `k` bytes, 21–33, 42–47, 56–61. -/
def writeU (w : Writer) (k v : Nat) : Option Writer := write w (toBytes k v)

/-- `write` of a signed number of `k` bytes in two's complement, 14–19, 35–40, 49–54, 63–68. -/
def writeI (w : Writer) (k : Nat) (v : Int) : Option Writer := write w (toBytes k (v % (256 ^ k : Nat)).toNat)

/-- `sys_File_Seek`. -/
inductive Seek
  | set
  | cur
  | fromEnd

/-- `seek`, 118–128 and 280–290. -/
def seekTo (size : Nat) (pos offset : Int) : Seek → Int
  | .set => offset
  | .cur => pos + offset
  | .fromEnd => (size : Int) - offset

/-- `sys_byte_buffer_reader`: the bytes from `m_begin` to `m_end`, `m_position`, and whether the status is `sys_IO_Status_OK`. -/
structure Reader where
  data : List Nat
  pos : Int
  ok : Bool

/-- The loop 275–277. -/
def get : Nat → Reader → Option (List Nat × Reader)
  | 0, r => some ([], r)
  | n + 1, r =>
    if 0 ≤ r.pos ∧ r.pos < r.data.length then
      (get n { r with pos := r.pos + 1 }).map fun s => (r.data.getD r.pos.toNat 0 :: s.1, s.2)
    else none

/-- `read(u8*, i32)`, 266–278; `remain_size`, sys_buffer.h 89–91.  No bytes are returned at the end of the file. -/
def read (r : Reader) (size : Nat) : Option (Option (List Nat) × Reader) :=
  if (r.data.length : Int) - r.pos < size then some (none, { r with ok := false })
  else (get size r).map fun s => (some s.1, s.2)

/-- `read_u8` … `read_u64`, 150–157, 159–166, 177–184, 195–202.  Without bytes the value is not initialised: `none` inside. -/
def readU (r : Reader) (k : Nat) : Option (Option Nat × Reader) := (read r k).map fun s => (s.1.map fromBytes, s.2)

/-- `read_c8` … `read_i64`, 141–148, 168–175, 186–193, 204–211. -/
def readI (r : Reader) (k : Nat) : Option (Option Int × Reader) :=
  (read r k).map fun s => (s.1.map fun l => if 2 * fromBytes l < 256 ^ k then (fromBytes l : Int) else (fromBytes l : Int) - (256 ^ k : Nat), s.2)

/-- `read_str`, 231–250: `string(buffer)` ends at the first character 0. -/
def readStr (r : Reader) (size : Nat) : Option (Option (List Nat) × Reader) :=
  (read r size).map fun s => (s.1.map fun l => l.takeWhile fun b => b ≠ 0, s.2)

/-- The first loop of `sys_string_buffer_writer::write`, 585–587, then the second, 589–592: overwrites up to the end, then appends. -/
def textWrite : List Nat → Writer → Option Writer
  | [], w => some w
  | b :: l, w =>
    if w.pos < w.buf.length then
      if 0 ≤ w.pos then textWrite l { buf := w.buf.set w.pos.toNat b, pos := w.pos + 1 } else none
    else textWrite l { buf := w.buf ++ [b], pos := w.pos + 1 }

/-- `sys_string_buffer_reader::read_str`, 680–694: `substr` throws beyond the end. -/
def textRead (r : Reader) (size : Nat) : Option (Option (List Nat) × Reader) :=
  if (r.data.length : Int) - r.pos < size then some (none, { r with ok := false })
  else if 0 ≤ r.pos ∧ r.pos ≤ r.data.length then some (some ((r.data.drop r.pos.toNat).take size), { r with pos := r.pos + size })
  else none

/-- `sys_string_buffer_reader::read_char`, 670–678: the statement 677 that moves the position comes after the return.  The comparison of 671 is
one of unsigned numbers, so only a remaining size of 0 is below 1. -/
def readChar (r : Reader) : Option (Nat × Reader) :=
  if (r.data.length : Int) - r.pos = 0 then some (0, { r with ok := false })
  else if 0 ≤ r.pos ∧ r.pos < r.data.length then some (r.data.getD r.pos.toNat 0, r)
  else none

/-- The loop of `sys_string_buffer_reader::read_line`, 702–708; `none` inside when it has not ended after `n` steps. -/
def lineLoop : Nat → Reader → List Nat → Option (Option (List Nat) × Reader)
  | 0, r, _ => some (none, r)
  | n + 1, r, str =>
    if (r.data.length : Int) - r.pos = 0 then some (some str, r)
    else (readChar r).bind fun s => lineLoop n s.2 (if s.1 ≠ 10 then str ++ [s.1] else str)

end Verif.SysBuffer
