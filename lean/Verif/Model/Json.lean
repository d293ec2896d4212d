/-!
# `sys_json`: the binary form

Writer and reader over a byte buffer (`sys_byte_buffer_writer`, `sys_byte_buffer_reader`).  A byte is a number below 256, a string
a list of bytes.  The assertions of the code print a message only.
-/

namespace Verif.Json

abbrev Bytes := List Nat

/-- The four bytes of an `i32` that is not negative (little endian). -/
def le32 (n : Nat) : Bytes := [n % 256, n / 256 % 256, n / 65536 % 256, n / 16777216 % 256]

/-- `sys_json_writer` (sys_json.h 90–98) with its buffer; `name`: a name is expected, otherwise a value; `envs`: inside of a map
(true) or sequence (false), the innermost first; `marks`: `m_data_size_positions`, the last first. -/
structure Writer where
  buf : Bytes
  pos : Nat
  name : Bool
  envs : List Bool
  marks : List Nat

/-- The constructor (sys_json.cpp 5–18) with an empty buffer. -/
def start (inMap : Bool) : Writer := ⟨[], 0, inMap, [inMap], []⟩

/-- `write` of some bytes (sys_buffer.cpp 91–116). -/
def put (w : Writer) (bs : Bytes) : Writer :=
  let b := w.buf ++ List.replicate (w.pos + bs.length - w.buf.length) 0
  { w with buf := b.take w.pos ++ bs ++ b.drop (w.pos + bs.length), pos := w.pos + bs.length }

/-- What is written by one `<<`: a string, or a number of the given node type by its bytes. -/
inductive Tok
  | str (s : Bytes)
  | num (type : Nat) (bs : Bytes)

/-- `if (m_envs.back() == sys_Node_Type_Map) m_json_expected = sys_Json_Expected_Name` (e.g. 45–47, 411–413). -/
def afterValue (w : Writer) : Option Writer :=
  match w.envs with
  | [] => none
  | e :: _ => some { w with name := if e then true else w.name }

/-- `pre_process_map_seq` (sys_json.cpp 306–323) after the environment is set (372–382). -/
def openGroup (w : Writer) (isMap : Bool) : Writer :=
  let w1 := put { w with envs := isMap :: w.envs, name := isMap } [if isMap then 0 else 1]
  put { w1 with marks := w1.pos :: w1.marks } (le32 0)

/-- `m_envs.pop_back()` and `post_process_map_seq` (sys_json.cpp 393–394, 325–346).  `none`: an empty vector is used. -/
def closeGroup (w : Writer) : Option Writer :=
  match w.envs, w.marks with
  | _ :: e :: es, m :: ms =>
    let stop := w.pos
    let w1 := put { w with pos := m } (le32 (stop - m - 4))
    some { w1 with pos := stop, envs := e :: es, marks := ms, name := e }
  | _, _ => none

/-- `binary_write_str` (sys_json.cpp 371–416) and `operator<<` of numbers (35–231). -/
def step (w : Writer) : Tok → Option Writer
  | .str s =>
    if s = [123] then some (openGroup w true)
    else if s = [91] then some (openGroup w false)
    else if s = [125] ∨ s = [93] then closeGroup w
    else if w.name then some { put (put w (le32 s.length)) s with name := false }
    else afterValue (put (put (put w [2]) (le32 s.length)) s)
  | .num type bs => afterValue (put (put (put w [type]) (le32 bs.length)) bs)

/-- A sequence of `<<`. -/
def run (w : Writer) : List Tok → Option Writer
  | [] => some w
  | t :: ts => (step w t).bind fun w' => run w' ts

/-- The next `n` bytes at `off`; `none`: end of the buffer (sys_buffer.cpp 266–278). -/
def slice (buf : Bytes) (off n : Nat) : Option Bytes :=
  if off + n ≤ buf.length then some ((buf.drop off).take n) else none

/-- The bytes of a number that is not negative. -/
def leNat : Bytes → Nat
  | [] => 0
  | b :: bs => b + 256 * leNat bs

/-- `read_str` (sys_buffer.cpp 231–250): the string ends at a zero byte. -/
def readStr (buf : Bytes) (off n : Nat) : Option Bytes := (slice buf off n).map fun (s : Bytes) => s.takeWhile fun (b : Nat) => b ≠ 0

/-- A node as it is known after loading the one above it (sys_json.h 246–252). -/
structure Entry where
  name : Bytes
  type : Nat
  off : Nat
  size : Nat

/-- The loops of `binary_load_struct_info` (sys_json.cpp 843–885), at most `f` rounds.  `none`: behind the end of the buffer.  The
nodes of a map are kept in order of insertion. -/
def loadLoop (buf : Bytes) (stop : Nat) (isMap : Bool) : Nat → Nat → Option (List Entry)
  | 0, _ => none
  | f + 1, pos =>
    if stop ≤ pos then some []
    else
      let named : Option (Bytes × Nat) :=
        if isMap then (slice buf pos 4).bind fun n => (readStr buf (pos + 4) (leNat n)).map fun s => (s, pos + 4 + leNat n)
        else some ([], pos)
      named.bind fun p => (slice buf p.2 1).bind fun t => (slice buf (p.2 + 1) 4).bind fun n =>
        (loadLoop buf stop isMap f (p.2 + 5 + leNat n)).map fun l => ⟨p.1, leNat t, p.2 + 5, leNat n⟩ :: l

/-- `load` (sys_json.cpp 709–733); `loaded` is what `m_loaded` holds, which no constructor sets (418–428). -/
def load (buf : Bytes) (loaded : Bool) (isMap : Bool) (off size : Nat) : Option (List Entry) :=
  if loaded then some [] else if size = 0 then some [] else loadLoop buf (off + size) isMap (size + 1) off

/-- `operator[](name)` (sys_json.cpp 661–671): `insert` keeps the first of equal names. -/
def named (es : List Entry) (name : Bytes) : Option Entry := es.find? fun (e : Entry) => decide (e.name = name)

/-- The `n` bytes of an integer (two's complement, little endian) as `write` puts them (sys_buffer.cpp 11–69). -/
def bytesOf : Nat → Int → Bytes
  | 0, _ => []
  | n + 1, v => (v % 256).toNat :: bytesOf n (v / 256)

/-- `read_c8`, `read_i16`, `read_i32`, `read_i64`: the bytes as a signed integer. -/
def signedOf (bs : Bytes) : Int :=
  if 2 * leNat bs < 256 ^ bs.length then (leNat bs : Int) else (leNat bs : Int) - 256 ^ bs.length

/-- Conversion of an integer to `f64`: the nearest one with 53 binary digits, of two the even one. -/
def toF64 (v : Int) : Int :=
  let a := v.natAbs
  let e := Nat.log2 a - 52
  let q := a / 2 ^ e
  let r := a % 2 ^ e
  let up := 2 ^ e < 2 * r ∨ 2 * r = 2 ^ e ∧ q % 2 = 1
  v.sign * ((if up then q + 1 else q) * 2 ^ e : Nat)

/-- `operator>>` for an integer of `n` bytes, binary (sys_json.cpp 469–603, 626–638): the bytes are read as a signed number, made
a `f64`, and that is cast.  `none`: the cast of a `f64` outside of the range of the type, which is undefined. -/
def readInt (n : Nat) (signed : Bool) (bs : Bytes) : Option Int :=
  let v := toF64 (signedOf bs)
  let lo : Int := if signed then -(2 ^ (8 * n - 1)) else 0
  let hi : Int := if signed then 2 ^ (8 * n - 1) else 2 ^ (8 * n)
  if lo ≤ v ∧ v < hi then some v else none

end Verif.Json
