import Verif.Model.Mat

/-!
# Specification: indices of an `mt_mat`

The vocabulary of the properties of `mt_mat` (C97 and later): which indices an array has, in which order a row-major
enumeration visits them, and what it means that memory is not shared.  Nothing here refers to the functions of the model but
`ptr`, the address the user gets from `mt_mat::ptr` and `mt_mat::at`.
-/

namespace Verif.Spec

open Verif.Mat (Dim Mat)

/-- `idx` names an element of an array with these sizes. -/
def MatIndex (sizes idx : List Int) : Prop := List.Forall₂ (fun n i => 0 ≤ i ∧ i < n) sizes idx

/-- The sizes of an array. -/
def matSizes (m : Mat) : List Int := m.dims.map Dim.size

/-- The number of elements of an array with these sizes. -/
def matCount : List Int → Int
  | [] => 1
  | n :: ns => n * matCount ns

/-- The place of an index in row-major order: the last index runs fastest. -/
def matRank : List Int → List Int → Int
  | _ :: ns, i :: is => i * matCount ns + matRank ns is
  | _, _ => 0

/-- All indices in row-major order. -/
def matAll : List Int → List (List Int)
  | [] => [[]]
  | n :: ns => (List.range n.toNat).flatMap fun (i : Nat) => (matAll ns).map fun is => (i : Int) :: is

/-- The address of byte `b` of channel `c` of an element. -/
def matByte (m : Mat) (idx : List Int) (c b : Int) : Int := Verif.Mat.ptr m idx c + b

/-- A byte address belongs to the array. -/
def MatHas (m : Mat) (a : Int) : Prop :=
  ∃ idx c b, MatIndex (matSizes m) idx ∧ 0 ≤ c ∧ c < m.chan ∧ 0 ≤ b ∧ b < m.unit ∧ a = matByte m idx c b

/-- Different bytes of the array have different addresses. -/
def MatApart (m : Mat) : Prop :=
  ∀ idx c b idx' c' b', MatIndex (matSizes m) idx → MatIndex (matSizes m) idx' →
    0 ≤ c → c < m.chan → 0 ≤ c' → c' < m.chan → 0 ≤ b → b < m.unit → 0 ≤ b' → b' < m.unit →
    matByte m idx c b = matByte m idx' c' b' → idx = idx' ∧ c = c' ∧ b = b'

/-- `v` shows elements of `m`: index `idx` of `v` is index `f idx` of `m`, channel `c` of `v` is channel `s + c` of `m`.
Different elements of `v` are different elements of `m`. -/
structure MatView (v m : Mat) (f : List Int → List Int) (s : Int) : Prop where
  depth : v.depth = m.depth
  chan : 0 ≤ s ∧ s + v.chan ≤ m.chan
  index : ∀ idx, MatIndex (matSizes v) idx → MatIndex (matSizes m) (f idx)
  inj : ∀ idx idx', MatIndex (matSizes v) idx → MatIndex (matSizes v) idx' → f idx = f idx' → idx = idx'
  addr : ∀ idx c, MatIndex (matSizes v) idx → Verif.Mat.ptr v idx c = Verif.Mat.ptr m (f idx) (s + c)

/-- All bytes of the array are allocated. -/
def MatLive (H : Int → Option Nat) (m : Mat) : Prop := ∀ a, MatHas m a → H a ≠ none

/-- The two arrays share no byte. -/
def MatDisjoint (m s : Mat) : Prop := ∀ a, MatHas m a → ¬ MatHas s a

/-- The number held by `n` bytes, lowest first. -/
def bytesNat (H : Int → Option Nat) (a : Int) : Nat → Option Nat
  | 0 => some 0
  | n + 1 =>
    match H a, bytesNat H (a + 1) n with
    | some v, some r => some (v + 256 * r)
    | _, _ => none

/-- The number in channel `c` of an element (unsigned depths). -/
def matNat (H : Int → Option Nat) (m : Mat) (idx : List Int) (c : Int) : Option Nat :=
  bytesNat H (Verif.Mat.ptr m idx c) m.unit.toNat

end Verif.Spec
