/-!
# `sys_strhelper` and `sys_path`

Strings are lists of characters.  `npos` is `none`.  Case conversion (`towupper`, `towlower`) is that of the "C" locale.
-/

namespace Verif.Str

abbrev Text := List Char

/-- `std::string::find` in the text from some position on. -/
def findIn (tag : Text) : Text → Option Nat
  | [] => if tag = [] then some 0 else none
  | c :: cs => if tag.isPrefixOf (c :: cs) then some 0 else (findIn tag cs).map (fun (i : Nat) => i + 1)

/-- `text.find(tag, pos)`. -/
def find (text tag : Text) (pos : Nat) : Option Nat :=
  if pos ≤ text.length then (findIn tag (text.drop pos)).map (fun (i : Nat) => i + pos) else none

/-- The loop of `split` (sys_strhelper.cpp 40–51).  `none`: not yet ended. -/
def splitLoop (text tag : Text) : Nat → Nat → Option (List Text)
  | 0, _ => none
  | f + 1, index =>
    match find text tag index with
    | none => some [text.drop index]
    | some k => (splitLoop text tag f (k + 1)).map fun (l : List Text) => (text.drop index).take (k - index) :: l

/-- `split` (sys_strhelper.cpp 27–52). -/
def split (text tag : Text) : Option (List Text) :=
  if text = [] then some []
  else if tag = [] then some [tag]
  else splitLoop text tag (text.length + 1) 0

/-- The loop of `replace` (sys_strhelper.cpp 54–62), at most `f` rounds.  `none`: not yet ended. -/
def replaceLoop (new old : Text) : Nat → Text → Nat → Option Text
  | 0, _, _ => none
  | f + 1, text, pos =>
    match find text old pos with
    | none => some text
    | some k => replaceLoop new old f (text.take k ++ new ++ text.drop (k + old.length)) (k + new.length)

/-- `replace` (sys_strhelper.cpp 54–62), as far as it ends within `f` rounds. -/
def replace (f : Nat) (text new old : Text) : Option Text := replaceLoop new old f text 0

/-- `find_first_not_of(c)`. -/
def firstNot (c : Char) : Text → Option Nat
  | [] => none
  | d :: ds => if d = c then (firstNot c ds).map (fun (i : Nat) => i + 1) else some 0

/-- `trim_left` (sys_strhelper.cpp 64–72). -/
def trimLeft (text : Text) (c : Char) : Text :=
  match firstNot c text with
  | none => []
  | some pos => if 0 < pos then text.drop pos else text

/-- The inner loop of `STRING_DEFINE_CALCULATE_DIST` (sys_strhelper.cpp 125–136): `small` from character `j - 1` on, `ps` from
`p[j - 1]` on, `q` is `q[j - 1]`.  `m` is the number of values of the element type. -/
def levRow (m ins rep del : Nat) (x : Char) : Text → List Nat → Nat → List Nat
  | c :: cs, p0 :: p1 :: ps, q =>
    let dDel := (p1 + del) % m
    let dIns := (q + ins) % m
    let dRep := (p0 + if x = c then 0 else rep) % m
    let q1 := if dIns < dDel then dIns else dDel
    let q2 := if dRep < q1 then dRep else q1
    q2 :: levRow m ins rep del x cs (p1 :: ps) q2
  | _, _, _ => []

/-- The loop over the larger string (sys_strhelper.cpp 123–138). -/
def levRows (m ins rep del : Nat) (small : Text) : Text → List Nat → List Nat
  | [], ps => ps
  | x :: xs, ps =>
    let q0 := (ps.headD 0 + del) % m
    levRows m ins rep del small xs (q0 :: levRow m ins rep del x small ps q0)

/-- `p` before the loop (sys_strhelper.cpp 119–122), from `p[j]` on. -/
def levStart (m ins : Nat) : Nat → Nat → List Nat
  | 0, p => [p]
  | n + 1, p => p :: levStart m ins n ((p + ins) % m)

/-- The element type by the length of the smaller string (sys_strhelper.cpp 141–166): `uint8_t`, `uint16_t`, `uint32_t`. -/
def levMod (n : Nat) : Nat := if n < 256 then 2 ^ 8 else if n < 32767 then 2 ^ 16 else 2 ^ 32

/-- `levenshtein_distance` (sys_strhelper.cpp 74–169) for costs that are not negative. -/
def levenshtein (w1 w2 : Text) (ins rep del : Nat) (ignoreCase : Bool) : Nat :=
  if w1 = [] then w2.length
  else if w2 = [] then w1.length
  else
    let a := if ignoreCase then w1.map Char.toUpper else w1
    let b := if ignoreCase then w2.map Char.toUpper else w2
    let small := if w1.length > w2.length then b else a
    let large := if w1.length > w2.length then a else b
    let m := levMod small.length
    (levRows m (ins % m) (rep % m) (del % m) small large (levStart m (ins % m) small.length 0)).getLastD 0

/-- `text.rfind(c)`. -/
def rfind (c : Char) : Text → Option Nat
  | [] => none
  | d :: ds =>
    match rfind c ds with
    | some k => some (k + 1)
    | none => if d = c then some 0 else none

/-- `replace(temp, "/", "\\")` (sys_path.cpp 264, 306), with enough rounds. -/
def slashes (path : Text) : Text := (replace (path.length + 1) path ['/'] ['\\']).getD []

/-- `get_file_name` (sys_path.cpp 258–267). -/
def fileName (path : Text) : Text :=
  if path = [] then []
  else
    let temp := slashes path
    match rfind '/' temp with
    | none => temp
    | some k => temp.drop (k + 1)

/-- `get_dir_name` (sys_path.cpp 247–256). -/
def dirName (path : Text) : Text := if path = [] then [] else fileName path.dropLast

/-- `get_file_title` (sys_path.cpp 269–282). -/
def fileTitle (path : Text) : Text :=
  if path = [] then []
  else
    let temp := fileName path
    match rfind '.' temp with
    | some k => temp.take k
    | none => temp

/-- `get_file_extend_name` (sys_path.cpp 284–298). -/
def extendName (path : Text) : Text :=
  if path = [] then []
  else
    match rfind '.' path with
    | some k => (path.drop k).map Char.toLower
    | none => []

/-- `get_dir_path` (sys_path.cpp 300–314). -/
def dirPath (path : Text) : Text :=
  if path = [] then []
  else
    let temp := slashes path
    match rfind '/' temp with
    | none => temp
    | some k => if temp.length - 1 = k then temp else temp.take (k + 1)

end Verif.Str
