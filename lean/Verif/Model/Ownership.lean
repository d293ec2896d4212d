/-!
# Model: copying, assigning and destroying results (/repo/basicimg/src/img_mser_base.cpp 15–72, /repo/basicimg/include/img_mser_base.h 7–62)

Memory is a set of blocks of points, each allocated by `malloc` or by `new[]`. Releasing a block the wrong way or twice,
and reading a released block, is undefined behaviour: outcome `none`. `m_gray_level`, `m_rect` and the kinds of
`m_memory_type` other than "self" are one `tag`. A region is read as `m_size` points from `m_points` on; the decoders of
the nested layouts (C25) read the same block. Assigning a `std::vector` may reuse the old elements or make new ones,
depending on its capacity: both are modelled.
-/

namespace Verif.Ownership

abbrev Pt := Int × Int

/-- How a block was allocated. -/
inductive Kind
  | malloc
  | new
  deriving DecidableEq

/-- All blocks; `next` was never used. -/
structure Heap where
  next : Nat
  blocks : Nat → Option (Kind × List Pt)

def Heap.set (h : Heap) (b : Nat) (x : Option (Kind × List Pt)) : Heap :=
  { h with blocks := fun c => if c = b then x else h.blocks c }

/-- `malloc` or `new[]` followed by writing the points. -/
def Heap.alloc (h : Heap) (k : Kind) (d : List Pt) : Heap := { (h.set h.next (some (k, d))) with next := h.next + 1 }

/-- `basicsys_free` (/repo/basicsys/include/sys_basic_define.h 19–20) and `basicsys_delete_array` (6–7): nothing for `NULL`, otherwise the pointer
must be the begin of a block allocated that way. -/
def Heap.release (h : Heap) (k : Kind) : Option (Nat × Nat) → Option Heap
  | none => some h
  | some (b, o) =>
    match h.blocks b with
    | some (k', _) => if k' = k ∧ o = 0 then some (h.set b none) else none
    | none => none

/-- Reading `n` points. -/
def Heap.read (h : Heap) (p : Option (Nat × Nat)) (n : Nat) : Option (List Pt) :=
  if n = 0 then some [] else
    match p with
    | none => none
    | some (b, o) =>
      match h.blocks b with
      | none => none
      | some (_, d) => if o + n ≤ d.length then some ((d.drop o).take n) else none

/-- `img_mser` (img_mser_base.h 7–39). -/
structure Reg where
  self : Bool
  tag : Nat
  size : Nat
  points : Option (Nat × Nat)

/-- `img_mser::operator=` (img_mser_base.cpp 26–44). -/
def assignReg (h : Heap) (d s : Reg) : Option (Heap × Reg) :=
  if s.self then
    (h.release .new d.points).bind fun h1 =>
      if 0 < s.size then
        (h1.read s.points s.size).bind fun l => some (h1.alloc .new l, { s with points := some (h1.next, 0) })
      else some (h1, { s with points := none })
  else some (h, s)

/-- The copy constructor 21–24. -/
def copyReg (h : Heap) (s : Reg) : Option (Heap × Reg) := assignReg h { s with points := none } s

/-- The destructor 15–19. -/
def destroyReg (h : Heap) (r : Reg) : Option Heap := if r.self then h.release .new r.points else some h

def copyRegs : Heap → List Reg → Option (Heap × List Reg)
  | h, [] => some (h, [])
  | h, s :: ss => (copyReg h s).bind fun a => (copyRegs a.1 ss).bind fun b => some (b.1, a.2 :: b.2)

def destroyRegs : Heap → List Reg → Option Heap
  | h, [] => some h
  | h, r :: rs => (destroyReg h r).bind fun h' => destroyRegs h' rs

/-- Assigning a vector that has room enough. -/
def assignEach : Heap → List Reg → List Reg → Option (Heap × List Reg)
  | h, [], ss => copyRegs h ss
  | h, d :: ds, [] => (destroyRegs h (d :: ds)).bind fun h' => some (h', [])
  | h, d :: ds, s :: ss => (assignReg h d s).bind fun a => (assignEach a.1 ds ss).bind fun b => some (b.1, a.2 :: b.2)

/-- Assigning a vector. -/
def assignRegs (h : Heap) (room : Bool) (ds ss : List Reg) : Option (Heap × List Reg) :=
  if room then assignEach h ds ss
  else (copyRegs h ss).bind fun a => (destroyRegs a.1 ds).bind fun h' => some (h', a.2)

/-- `img_multi_msers` (img_mser_base.h 41–62): regions, memory and its size for both polarities. -/
structure Res where
  regs0 : List Reg
  regs1 : List Reg
  mem0 : Option (Nat × Nat)
  mem1 : Option (Nat × Nat)
  size0 : Nat
  size1 : Nat

/-- A new object (43–48). -/
def Res.empty : Res := ⟨[], [], none, none, 0, 0⟩

/-- 63–66 and 68–71. -/
def copyMem (h : Heap) (p : Option (Nat × Nat)) (n : Nat) : Option (Heap × Option (Nat × Nat)) :=
  if 0 < n then (h.read p n).bind fun l => some (h.alloc .new l, some (h.next, 0)) else some (h, none)

/-- `img_multi_msers::operator=` (53–72) between different objects. -/
def assignRes (h : Heap) (room0 room1 : Bool) (d s : Res) : Option (Heap × Res) :=
  (assignRegs h room0 d.regs0 s.regs0).bind fun a =>
  (assignRegs a.1 room1 d.regs1 s.regs1).bind fun b =>
  (b.1.release .new d.mem0).bind fun h1 =>
  (h1.release .new d.mem1).bind fun h2 =>
  (copyMem h2 s.mem0 s.size0).bind fun m0 =>
  (copyMem m0.1 s.mem1 s.size1).bind fun m1 =>
  some (m1.1, ⟨a.2, b.2, m0.2, m1.2, s.size0, s.size1⟩)

/-- The same from an object to itself: assigning a vector to itself does nothing; the memory is released, and new memory
is copied onto itself, which reads what was never written. -/
def assignSelf (h : Heap) (d : Res) : Option (Heap × Res) :=
  (h.release .new d.mem0).bind fun h1 =>
  (h1.release .new d.mem1).bind fun h2 =>
  if 0 < d.size0 ∨ 0 < d.size1 then none else some (h2, { d with mem0 := none, mem1 := none })

/-- The copy constructor 46–51. -/
def copyRes (h : Heap) (s : Res) : Option (Heap × Res) := assignRes h false false .empty s

/-- The destructor (img_mser_base.h 52–55) and those of the members. -/
def destroyRes (h : Heap) (r : Res) : Option Heap :=
  (h.release .malloc r.mem0).bind fun h1 =>
  (h1.release .malloc r.mem1).bind fun h2 =>
  (destroyRegs h2 r.regs1).bind fun h3 => destroyRegs h3 r.regs0

/-- The value of a region: tag and points. -/
abbrev Val := Nat × List Pt

/-- A region with its own points: `m_points = new mt_point[m_size]` (img_opencv_mser.cpp 159, img_fast_mser_v2.cpp 1379). -/
def makeOwn : Heap → List Val → Heap × List Reg
  | h, [] => (h, [])
  | h, v :: vs =>
    let b := makeOwn (h.alloc .new v.2) vs
    (b.1, ⟨true, v.1, v.2.length, some (h.next, 0)⟩ :: b.2)

/-- Regions in one common block, one after the other. -/
def inBlock (b : Option Nat) : Nat → List Val → List Reg
  | _, [] => []
  | o, v :: vs => ⟨false, v.1, v.2.length, b.map fun c => (c, o)⟩ :: inBlock b (o + v.2.length) vs

/-- Common memory from `malloc` (img_fast_mser_v2.cpp 1367, 1478, 1813, img_fast_mser_v1.cpp 2913, 3033). For no points
`malloc` may return `NULL`; this is modelled, the other choice is one more block to release. -/
def makeShared (h : Heap) (vs : List Val) : Heap × List Reg × Option (Nat × Nat) × Nat :=
  let d := (vs.map Prod.snd).flatten
  if d = [] then (h, inBlock none 0 vs, none, 0)
  else (h.alloc .malloc d, inBlock (some h.next) 0 vs, some (h.next, 0), d.length)

/-- The program: results with names. -/
structure Sys where
  heap : Heap
  objs : Nat → Option Res

def Sys.init : Sys := ⟨⟨0, fun _ => none⟩, fun _ => none⟩

inductive Op
  /-- a new object -/
  | create (n : Nat)
  /-- `extract` (img_mser_base.cpp 74–) of an algorithm whose regions own their points -/
  | extractOwn (n : Nat) (room0 room1 : Bool) (vs0 vs1 : List Val)
  /-- `extract` of an algorithm with common memory -/
  | extractShared (n : Nat) (room0 room1 : Bool) (vs0 vs1 : List Val)
  | copy (n m : Nat)
  | assign (n m : Nat) (room0 room1 : Bool)
  | destroy (n : Nat)

def Sys.put (S : Sys) (h : Heap) (n : Nat) (r : Option Res) : Sys := ⟨h, fun k => if k = n then r else S.objs k⟩

/-- One operation. What cannot be written (no such object, name in use) does nothing. Extraction begins with
`res = img_multi_msers()` (img_mser_base.cpp 82); destroying the empty temporary does nothing. -/
def Op.run (S : Sys) : Op → Option Sys
  | .create n =>
    match S.objs n with
    | some _ => some S
    | none => some (S.put S.heap n (some .empty))
  | .extractOwn n room0 room1 vs0 vs1 =>
    match S.objs n with
    | none => some S
    | some d => (assignRes S.heap room0 room1 d .empty).bind fun e =>
      let a := makeOwn e.1 vs0
      let b := makeOwn a.1 vs1
      some (S.put b.1 n (some { e.2 with regs0 := a.2, regs1 := b.2 }))
  | .extractShared n room0 room1 vs0 vs1 =>
    match S.objs n with
    | none => some S
    | some d => (assignRes S.heap room0 room1 d .empty).bind fun e =>
      let a := makeShared e.1 vs0
      let b := makeShared a.1 vs1
      some (S.put b.1 n (some ⟨a.2.1, b.2.1, a.2.2.1, b.2.2.1, a.2.2.2, b.2.2.2⟩))
  | .copy n m =>
    match S.objs n, S.objs m with
    | none, some s => (copyRes S.heap s).bind fun a => some (S.put a.1 n (some a.2))
    | _, _ => some S
  | .assign n m room0 room1 =>
    match S.objs n, S.objs m with
    | some d, some s =>
      if n = m then (assignSelf S.heap d).bind fun a => some (S.put a.1 n (some a.2))
      else (assignRes S.heap room0 room1 d s).bind fun a => some (S.put a.1 n (some a.2))
    | _, _ => some S
  | .destroy n =>
    match S.objs n with
    | some r => (destroyRes S.heap r).bind fun h => some (S.put h n none)
    | none => some S

def runs (S : Sys) : List Op → Option Sys
  | [] => some S
  | o :: os => (o.run S).bind fun S' => runs S' os

/-- What a region shows. -/
def readReg (h : Heap) (r : Reg) : Option Val := (h.read r.points r.size).map fun l => (r.tag, l)

/-- What a result shows. -/
def readRes (h : Heap) (r : Res) : Option (List Val × List Val) :=
  (r.regs0.mapM (readReg h)).bind fun a => (r.regs1.mapM (readReg h)).map fun b => (a, b)

end Verif.Ownership
