/-!
# Specification of string functions

A string is a list of characters.
-/

namespace Verif.Spec

/-- `ps` are the pieces of a text between the occurrences of `tag`, looked for from the left and not overlapping. -/
inductive Pieces (tag : List Char) : List (List Char) → List Char → Prop
  | last (text : List Char) : (¬ ∃ pre suf, text = pre ++ tag ++ suf) → Pieces tag [text] text
  | next (p rest : List Char) (ps : List (List Char)) :
      (∀ pre suf, p ++ tag ++ rest = pre ++ tag ++ suf → p.length ≤ pre.length) → Pieces tag ps rest →
      Pieces tag (p :: ps) (p ++ tag ++ rest)

/-- The pieces with `sep` between them. -/
def joined (sep : List Char) : List (List Char) → List Char
  | [] => []
  | [p] => p
  | p :: ps => p ++ sep ++ joined sep ps

/-- One text can be turned into the other for `n` by inserting, replacing and deleting characters. -/
inductive Edit (ins rep del : Nat) : List Char → List Char → Nat → Prop
  | done : Edit ins rep del [] [] 0
  | keep (c : Char) (a b : List Char) (n : Nat) : Edit ins rep del a b n → Edit ins rep del (c :: a) (c :: b) n
  | replace (c d : Char) (a b : List Char) (n : Nat) : Edit ins rep del a b n → Edit ins rep del (c :: a) (d :: b) (n + rep)
  | insert (d : Char) (a b : List Char) (n : Nat) : Edit ins rep del a b n → Edit ins rep del a (d :: b) (n + ins)
  | delete (c : Char) (a b : List Char) (n : Nat) : Edit ins rep del a b n → Edit ins rep del (c :: a) b (n + del)

/-- The least price. -/
def EditDistance (ins rep del : Nat) (a b : List Char) (n : Nat) : Prop :=
  Edit ins rep del a b n ∧ ∀ k, Edit ins rep del a b k → n ≤ k

end Verif.Spec
