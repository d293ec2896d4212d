import Verif.Model.Json

/-!
# What a tree of named and unnamed values is read back as
-/

namespace Verif.Spec
open Verif.Json

/-- A sequence of values (with names that matter in a map only): numbers and texts by node type and bytes, and groups. -/
inductive Nodes
  | nil
  | leaf (name : List Nat) (type : Nat) (bytes : List Nat) (rest : Nodes)
  | group (name : List Nat) (isMap : Bool) (inner rest : Nodes)

/-- The calls of `<<` that write them. -/
def tokens (inMap : Bool) : Nodes → List Tok
  | .nil => []
  | .leaf name type bytes rest =>
    (if inMap then [Tok.str name] else []) ++ (if type = 2 then Tok.str bytes else Tok.num type bytes) :: tokens inMap rest
  | .group name isMap inner rest =>
    (if inMap then [Tok.str name] else []) ++ Tok.str (if isMap then [123] else [91]) :: (tokens isMap inner ++
      Tok.str (if isMap then [125] else [93]) :: tokens inMap rest)

/-- A string that is not one of the four brackets and contains no zero. -/
def Plain (s : List Nat) : Prop := s ≠ [123] ∧ s ≠ [91] ∧ s ≠ [125] ∧ s ≠ [93] ∧ 0 ∉ s

/-- The names, and the texts among the values, are plain; the types are those of numbers and texts. -/
def PlainNodes (inMap : Bool) : Nodes → Prop
  | .nil => True
  | .leaf name type bytes rest =>
    (inMap = true → Plain name) ∧ (type = 2 ∧ Plain bytes ∨ type = 3 ∨ type = 4) ∧ PlainNodes inMap rest
  | .group name isMap inner rest => (inMap = true → Plain name) ∧ PlainNodes isMap inner ∧ PlainNodes inMap rest

/-- The bytes of names and values, with a bound for the structure around them. -/
def treeBytes : Nodes → Nat
  | .nil => 0
  | .leaf name _ bytes rest => name.length + bytes.length + 9 + treeBytes rest
  | .group name _ inner rest => name.length + treeBytes inner + 9 + treeBytes rest

/-- The nodes found, and everything below them, are those of the tree: in the same order, with the names (in a map), the same
types, and the same bytes; texts as strings. -/
def ReadBack (buf : List Nat) (inMap : Bool) : Nodes → List Entry → Prop
  | .nil, es => es = []
  | .leaf name type bytes rest, es => ∃ e l, es = e :: l ∧ (inMap = true → e.name = name) ∧ e.type = type ∧
      slice buf e.off e.size = some bytes ∧ (type = 2 → readStr buf e.off e.size = some bytes) ∧ ReadBack buf inMap rest l
  | .group name isMap inner rest, es => ∃ e l es', es = e :: l ∧ (inMap = true → e.name = name) ∧
      e.type = (if isMap then 0 else 1) ∧ load buf false isMap e.off e.size = some es' ∧ ReadBack buf isMap inner es' ∧
      ReadBack buf inMap rest l

/-- The nodes from the first of the given name on. -/
def firstNamed (name : List Nat) : Nodes → Option Nodes
  | .nil => none
  | .leaf n t b r => if n = name then some (.leaf n t b r) else firstNamed name r
  | .group n m i r => if n = name then some (.group n m i r) else firstNamed name r

end Verif.Spec
