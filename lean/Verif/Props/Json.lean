import Verif.Spec.Json
import Mathlib.Data.List.Basic
import Mathlib.Tactic.Linarith
import Mathlib.Tactic.LinearCombination
import Mathlib.Tactic.Positivity

/-!
# Binary JSON: what is written is read back
-/

namespace Verif.Props
open Verif.Json Verif.Spec

/-- The bytes of a tree. -/
def encode (inMap : Bool) : Nodes → List Nat
  | .nil => []
  | .leaf name type bytes rest =>
    (if inMap then le32 name.length ++ name else []) ++ type :: (le32 bytes.length ++ bytes ++ encode inMap rest)
  | .group name isMap inner rest =>
    (if inMap then le32 name.length ++ name else []) ++ (if isMap then 0 else 1) :: (le32 (encode isMap inner).length ++
      encode isMap inner ++ encode inMap rest)

theorem le32_length (n : Nat) : (le32 n).length = 4 := rfl

theorem encode_length (inMap : Bool) (ns : Nodes) : (encode inMap ns).length ≤ treeBytes ns := by
  induction ns generalizing inMap with
  | nil => simp [encode]
  | leaf name type bytes rest ih =>
    have := ih inMap
    cases inMap <;> simp [encode, treeBytes, le32_length] <;> omega
  | group name isMap inner rest ih1 ih2 =>
    have := ih1 isMap
    have := ih2 inMap
    cases inMap <;> simp [encode, treeBytes, le32_length] <;> omega

theorem put_end (w : Writer) (bs : List Nat) (h : w.pos = w.buf.length) :
    put w bs = { w with buf := w.buf ++ bs, pos := (w.buf ++ bs).length } := by
  rw [put, h]
  simp

theorem put_two (w : Writer) (a b : List Nat) (h : w.pos = w.buf.length) :
    put (put w a) b = { w with buf := w.buf ++ (a ++ b), pos := (w.buf ++ (a ++ b)).length } := by
  rw [put_end w a h]
  refine (put_end _ b rfl).trans ?_
  simp

theorem put_three (w : Writer) (a b c : List Nat) (h : w.pos = w.buf.length) :
    put (put (put w a) b) c = { w with buf := w.buf ++ (a ++ (b ++ c)), pos := (w.buf ++ (a ++ (b ++ c))).length } := by
  rw [put_two w a b h]
  refine (put_end _ c rfl).trans ?_
  simp

theorem put_inside (w : Writer) (pre mid post bs : List Nat) (h : w.buf = pre ++ mid ++ post) (hp : w.pos = pre.length)
    (hl : bs.length = mid.length) : (put w bs).buf = pre ++ bs ++ post := by
  simp only [put]
  rw [h, hp, hl]
  have : pre.length + mid.length - (pre ++ mid ++ post).length = 0 := by simp
  rw [this, List.replicate_zero, List.append_nil]
  congr 1
  · congr 1
    rw [List.append_assoc, List.take_left]
  · rw [show pre.length + mid.length = (pre ++ mid).length by simp, List.drop_left]

theorem run_append (w : Writer) (a b : List Tok) : run w (a ++ b) = (run w a).bind fun w' => run w' b := by
  induction a generalizing w with
  | nil => rfl
  | cons t ts ih =>
    rw [List.cons_append, run, run]
    cases step w t with
    | none => rfl
    | some w' => exact ih w'

/-- A writer at the end of its buffer, ready for the next name or value. -/
def Ready (w : Writer) (inMap : Bool) : Prop := w.pos = w.buf.length ∧ w.name = inMap ∧ ∃ es, w.envs = inMap :: es

theorem name_step (w : Writer) (name : List Nat) (h : Plain name) (hn : w.name = true) (hp : w.pos = w.buf.length) :
    step w (Tok.str name) = some { w with
      buf := w.buf ++ (le32 name.length ++ name), pos := (w.buf ++ (le32 name.length ++ name)).length, name := false } := by
  obtain ⟨h1, h2, h3, h4, _⟩ := h
  rw [step, if_neg h1, if_neg h2, if_neg (by rintro (h | h); exact h3 h; exact h4 h), if_pos hn, put_two w _ _ hp]

theorem value_step (w : Writer) (type : Nat) (bytes : List Nat) (inMap : Bool) (es : List Bool)
    (h : type = 2 ∧ Plain bytes ∨ type = 3 ∨ type = 4) (hn : w.name = false) (he : w.envs = inMap :: es)
    (hp : w.pos = w.buf.length) :
    step w (if type = 2 then Tok.str bytes else Tok.num type bytes) = some { w with
      buf := w.buf ++ type :: (le32 bytes.length ++ bytes), pos := (w.buf ++ type :: (le32 bytes.length ++ bytes)).length,
      name := inMap } := by
  by_cases ht : type = 2
  · rw [if_pos ht]
    have hpl : Plain bytes := by rcases h with h | h | h; exact h.2; omega; omega
    obtain ⟨h1, h2, h3, h4, _⟩ := hpl
    rw [step, if_neg h1, if_neg h2, if_neg (by rintro (h | h); exact h3 h; exact h4 h), if_neg (by rw [hn]; simp), put_three w _ _ _ hp,
      afterValue, ht]
    simp only [he, hn]
    cases inMap <;> simp [he]
  · rw [if_neg ht, step, put_three w _ _ _ hp, afterValue]
    simp only [he, hn]
    cases inMap <;> simp [he]

theorem open_step (w : Writer) (isMap : Bool) (hp : w.pos = w.buf.length) :
    step w (Tok.str (if isMap then [123] else [91])) = some { w with
      buf := w.buf ++ (if isMap then 0 else 1) :: le32 0, pos := (w.buf ++ (if isMap then 0 else 1) :: le32 0).length,
      name := isMap, envs := isMap :: w.envs, marks := (w.buf.length + 1) :: w.marks } := by
  have : step w (Tok.str (if isMap then [123] else [91])) = some (openGroup w isMap) := by cases isMap <;> rfl
  rw [this, openGroup, put_end { w with envs := isMap :: w.envs, name := isMap } [if isMap then 0 else 1] hp]
  simp only
  rw [Option.some.injEq]
  refine (put_end _ _ rfl).trans ?_
  simp

theorem close_step (w : Writer) (pre body : List Nat) (isMap e : Bool) (es : List Bool) (ms : List Nat)
    (hb : w.buf = pre ++ (le32 0 ++ body)) (hp : w.pos = w.buf.length) (he : w.envs = isMap :: e :: es)
    (hm : w.marks = pre.length :: ms) :
    step w (Tok.str (if isMap then [125] else [93])) = some { w with
      buf := pre ++ (le32 body.length ++ body), pos := w.pos, name := e, envs := e :: es, marks := ms } := by
  have : step w (Tok.str (if isMap then [125] else [93])) = closeGroup w := by cases isMap <;> rfl
  rw [this, closeGroup, he, hm]
  simp only
  have hbuf := put_inside { w with pos := pre.length } pre (le32 0) body (le32 (w.pos - pre.length - 4))
    (by simp [hb]) rfl rfl
  have hlen : w.pos - pre.length - 4 = body.length := by rw [hp, hb]; simp [le32_length]
  rw [hlen] at hbuf ⊢
  rw [Option.some.injEq]
  have hb2 : (put { w with pos := pre.length } (le32 body.length)).buf = pre ++ (le32 body.length ++ body) := by
    rw [hbuf]; simp
  simp only [put] at hb2 ⊢
  rw [hb2]

/-- The writer before a value. -/
theorem name_part (w : Writer) (name : List Nat) (inMap : Bool) (hp : w.pos = w.buf.length) (hn : w.name = inMap)
    (v1 : inMap = true → Plain name) : ∃ w1, run w (if inMap then [Tok.str name] else []) = some w1 ∧
      w1.buf = w.buf ++ (if inMap then le32 name.length ++ name else []) ∧ w1.pos = w1.buf.length ∧ w1.name = false ∧
      w1.envs = w.envs ∧ w1.marks = w.marks := by
  cases inMap with
  | false => exact ⟨w, rfl, by simp, hp, hn, rfl, rfl⟩
  | true =>
    refine ⟨{ w with
      buf := w.buf ++ (le32 name.length ++ name), pos := (w.buf ++ (le32 name.length ++ name)).length, name := false }, ?_, ?_, rfl, rfl, rfl, rfl⟩
    · simp only [if_true, run]; rw [name_step w name (v1 rfl) hn hp]; rfl
    · simp

theorem run_spec (inMap : Bool) (ns : Nodes) (w : Writer) (hw : Ready w inMap) (hv : PlainNodes inMap ns) :
    ∃ w', run w (tokens inMap ns) = some w' ∧ w'.buf = w.buf ++ encode inMap ns ∧ Ready w' inMap ∧ w'.envs = w.envs ∧
      w'.marks = w.marks := by
  induction ns generalizing inMap w with
  | nil => exact ⟨w, rfl, by simp [encode], hw, rfl, rfl⟩
  | leaf name type bytes rest ih =>
    obtain ⟨hp, hn, es, he⟩ := hw
    obtain ⟨v1, v2, v3⟩ := hv
    obtain ⟨w1, r1, b1, p1, n1, e1, m1⟩ := name_part w name inMap hp hn v1
    obtain ⟨w2, r2, b2, hr, e2, m2⟩ := ih inMap { w1 with
      buf := w1.buf ++ type :: (le32 bytes.length ++ bytes), pos := (w1.buf ++ type :: (le32 bytes.length ++ bytes)).length,
      name := inMap } ⟨rfl, rfl, es, by simp only; rw [e1, he]⟩ v3
    refine ⟨w2, ?_, ?_, hr, by rw [e2]; exact e1, by rw [m2]; exact m1⟩
    · rw [tokens, run_append, r1, Option.bind_some, run, value_step w1 type bytes inMap es v2 n1 (by rw [e1, he]) p1,
        Option.bind_some, r2]
    · rw [b2]
      simp only [b1, encode]
      simp
  | group name isMap inner rest ih1 ih2 =>
    obtain ⟨hp, hn, es, he⟩ := hw
    obtain ⟨v1, v2, v3⟩ := hv
    obtain ⟨w1, r1, b1, p1, n1, e1, m1⟩ := name_part w name inMap hp hn v1
    obtain ⟨w2, r2, b2, hr2, e2, m2⟩ := ih1 isMap { w1 with
      buf := w1.buf ++ (if isMap then 0 else 1) :: le32 0, pos := (w1.buf ++ (if isMap then 0 else 1) :: le32 0).length,
      name := isMap, envs := isMap :: w1.envs, marks := (w1.buf.length + 1) :: w1.marks } ⟨rfl, rfl, _, rfl⟩ v2
    simp only at b2 e2 m2
    have hclose := close_step w2 (w1.buf ++ [if isMap then 0 else 1]) (encode isMap inner) isMap inMap es w1.marks
      (by rw [b2]; simp) hr2.1 (by rw [e2, e1, he]) (by rw [m2]; simp)
    obtain ⟨w3, r3, b3, hr3, e3, m3⟩ := ih2 inMap { w2 with
      buf := (w1.buf ++ [if isMap then 0 else 1]) ++ (le32 (encode isMap inner).length ++ encode isMap inner), pos := w2.pos,
      name := inMap, envs := inMap :: es, marks := w1.marks } ⟨by
        simp only; rw [hr2.1, b2]; simp [le32_length], rfl, es, rfl⟩ v3
    refine ⟨w3, ?_, ?_, hr3, by rw [e3, he], by rw [m3]; exact m1⟩
    · rw [tokens, run_append, r1, Option.bind_some, run, open_step w1 isMap p1, Option.bind_some, run_append, r2,
        Option.bind_some, run, hclose, Option.bind_some, r3]
    · rw [b3]
      simp only [b1, encode]
      simp

theorem leNat_le32 (n : Nat) (h : n < 4294967296) : leNat (le32 n) = n := by
  simp only [le32, leNat]
  omega

theorem slice_mid (pre mid post : List Nat) : slice (pre ++ (mid ++ post)) pre.length mid.length = some mid := by
  rw [slice, if_pos (by simp), List.drop_left, List.take_left]

theorem slice_at (buf pre mid post : List Nat) (off n : Nat) (h : buf = pre ++ (mid ++ post)) (ho : off = pre.length)
    (hn : n = mid.length) : slice buf off n = some mid := by
  subst h; subst ho; subst hn; exact slice_mid _ _ _

theorem readStr_at (buf pre mid post : List Nat) (off n : Nat) (h : buf = pre ++ (mid ++ post)) (ho : off = pre.length)
    (hn : n = mid.length) (hz : 0 ∉ mid) : readStr buf off n = some mid := by
  rw [readStr, slice_at buf pre mid post off n h ho hn, Option.map_some, Option.some.injEq]
  clear h ho hn
  induction mid with
  | nil => rfl
  | cons b bs ih =>
    rw [List.mem_cons, not_or] at hz
    rw [List.takeWhile_cons, if_pos (by simp; omega), ih hz.2]

/-- A name in front of a value. -/
def head (inMap : Bool) (name : List Nat) : List Nat := if inMap then le32 name.length ++ name else []

theorem encode_leaf (inMap : Bool) (name : List Nat) (type : Nat) (bytes : List Nat) (rest : Nodes) :
    encode inMap (.leaf name type bytes rest) = head inMap name ++ type :: (le32 bytes.length ++ bytes ++ encode inMap rest) := rfl

theorem encode_group (inMap : Bool) (name : List Nat) (isMap : Bool) (inner rest : Nodes) :
    encode inMap (.group name isMap inner rest) = head inMap name ++ (if isMap then 0 else 1) :: (le32 (encode isMap inner).length ++
      encode isMap inner ++ encode inMap rest) := rfl

theorem named_part (buf pre post name : List Nat) (inMap : Bool) (hz : inMap = true → 0 ∉ name)
    (hb : buf = pre ++ (head inMap name ++ post)) (hs : name.length < 4294967296) :
    ∃ nm, (if inMap then (slice buf pre.length 4).bind fun n => (readStr buf (pre.length + 4) (leNat n)).map fun s =>
        (s, pre.length + 4 + leNat n) else some (([] : Bytes), pre.length)) = some (nm, pre.length + (head inMap name).length) ∧
      (inMap = true → nm = name) := by
  cases inMap with
  | false => exact ⟨[], by simp [head], by simp⟩
  | true =>
    refine ⟨name, ?_, fun _ => rfl⟩
    rw [if_pos rfl, slice_at buf pre (le32 name.length) (name ++ post) _ 4 (by rw [hb]; simp [head]) rfl rfl]
    simp only [Option.bind_some]
    rw [leNat_le32 _ hs, readStr_at buf (pre ++ le32 name.length) name post _ _ (by rw [hb]; simp [head])
      (by simp [le32_length]) rfl (hz rfl)]
    simp [head, le32_length]
    omega

theorem load_spec (inMap : Bool) (ns : Nodes) (buf pre post : List Nat) (hb : buf = pre ++ (encode inMap ns ++ post))
    (hv : PlainNodes inMap ns) (hs : treeBytes ns < 2147483648) (f : Nat) (hf : (encode inMap ns).length < f) :
    ∃ es, loadLoop buf (pre.length + (encode inMap ns).length) inMap f pre.length = some es ∧ ReadBack buf inMap ns es := by
  induction ns generalizing inMap pre post f with
  | nil =>
    obtain ⟨f, rfl⟩ : ∃ g, f = g + 1 := ⟨f - 1, by simp [encode] at hf; omega⟩
    exact ⟨[], by rw [loadLoop, if_pos (by simp [encode])], rfl⟩
  | leaf name type bytes rest ih =>
    obtain ⟨v1, v2, v3⟩ := hv
    rw [treeBytes] at hs
    obtain ⟨f, rfl⟩ : ∃ g, f = g + 1 := ⟨f - 1, by omega⟩
    have hlen : (encode inMap (.leaf name type bytes rest)).length =
        (head inMap name).length + 5 + bytes.length + (encode inMap rest).length := by
      rw [encode_leaf]; simp [le32_length]; omega
    have hb1 : buf = pre ++ (head inMap name ++ (type :: (le32 bytes.length ++ bytes) ++ (encode inMap rest ++ post))) := by
      rw [hb, encode_leaf]; simp
    have hb2 : buf = (pre ++ head inMap name) ++ ([type] ++ (le32 bytes.length ++ bytes ++ (encode inMap rest ++ post))) := by
      rw [hb1]; simp
    have hb3 : buf = (pre ++ head inMap name ++ [type]) ++ (le32 bytes.length ++ (bytes ++ (encode inMap rest ++ post))) := by
      rw [hb1]; simp
    have hb4 : buf = (pre ++ head inMap name ++ [type] ++ le32 bytes.length) ++ (bytes ++ (encode inMap rest ++ post)) := by
      rw [hb1]; simp
    have hb5 : buf = (pre ++ head inMap name ++ [type] ++ le32 bytes.length ++ bytes) ++ (encode inMap rest ++ post) := by
      rw [hb1]; simp
    obtain ⟨es, hl, hr⟩ := ih inMap _ post hb5 v3 (by omega) f (by omega)
    obtain ⟨nm, hnm, hn1⟩ := named_part buf pre _ name inMap (fun h => (v1 h).2.2.2.2) hb1 (by omega)
    refine ⟨⟨nm, type, pre.length + (head inMap name).length + 5, bytes.length⟩ :: es, ?_, _, es, rfl, hn1, rfl, ?_, ?_, hr⟩
    · rw [loadLoop, if_neg (by omega), hnm]
      simp only [Option.bind_some]
      rw [slice_at buf _ [type] _ _ 1 hb2 (by simp) rfl, Option.bind_some,
        slice_at buf _ (le32 bytes.length) _ _ 4 hb3 (by simp; omega) rfl, Option.bind_some, leNat_le32 _ (by omega)]
      have e1 : (pre ++ head inMap name ++ [type] ++ le32 bytes.length ++ bytes).length =
          pre.length + (head inMap name).length + 5 + bytes.length := by simp [le32_length]; omega
      have e2 : pre.length + (encode inMap (.leaf name type bytes rest)).length =
          pre.length + (head inMap name).length + 5 + bytes.length + (encode inMap rest).length := by omega
      rw [e1] at hl
      rw [e2, hl]
      simp [leNat]
    · exact slice_at buf _ bytes _ _ _ hb4 (by simp [le32_length]; omega) rfl
    · intro ht
      refine readStr_at buf _ bytes _ _ _ hb4 (by simp [le32_length]; omega) rfl ?_
      rcases v2 with h | h | h
      · exact h.2.2.2.2.2
      · omega
      · omega
  | group name isMap inner rest ih1 ih2 =>
    obtain ⟨v1, v2, v3⟩ := hv
    rw [treeBytes] at hs
    have hvol := encode_length isMap inner
    obtain ⟨f, rfl⟩ : ∃ g, f = g + 1 := ⟨f - 1, by omega⟩
    generalize ht : (if isMap then 0 else 1 : Nat) = type
    generalize hy : encode isMap inner = bytes at hvol
    have henc : encode inMap (.group name isMap inner rest) = head inMap name ++ type :: (le32 bytes.length ++ bytes ++
        encode inMap rest) := by rw [encode_group, ht, hy]
    have hlen : (encode inMap (.group name isMap inner rest)).length =
        (head inMap name).length + 5 + bytes.length + (encode inMap rest).length := by
      rw [henc]; simp [le32_length]; omega
    have hb1 : buf = pre ++ (head inMap name ++ (type :: (le32 bytes.length ++ bytes) ++ (encode inMap rest ++ post))) := by
      rw [hb, henc]; simp
    have hb2 : buf = (pre ++ head inMap name) ++ ([type] ++ (le32 bytes.length ++ bytes ++ (encode inMap rest ++ post))) := by
      rw [hb1]; simp
    have hb3 : buf = (pre ++ head inMap name ++ [type]) ++ (le32 bytes.length ++ (bytes ++ (encode inMap rest ++ post))) := by
      rw [hb1]; simp
    have hb4 : buf = (pre ++ head inMap name ++ [type] ++ le32 bytes.length) ++ (encode isMap inner ++ (encode inMap rest ++ post)) := by
      rw [hb1, hy]; simp
    have hb5 : buf = (pre ++ head inMap name ++ [type] ++ le32 bytes.length ++ bytes) ++ (encode inMap rest ++ post) := by
      rw [hb1]; simp
    obtain ⟨es, hl, hr⟩ := ih2 inMap _ post hb5 v3 (by omega) f (by omega)
    obtain ⟨es', hl', hr'⟩ := ih1 isMap _ _ hb4 v2 (by omega) ((encode isMap inner).length + 1) (by omega)
    obtain ⟨nm, hnm, hn1⟩ := named_part buf pre _ name inMap (fun h => (v1 h).2.2.2.2) hb1 (by omega)
    have e0 : (pre ++ head inMap name ++ [type] ++ le32 bytes.length).length = pre.length + (head inMap name).length + 5 := by
      simp [le32_length]; omega
    rw [e0] at hl'
    refine ⟨⟨nm, type, pre.length + (head inMap name).length + 5, bytes.length⟩ :: es, ?_, _, es, es', rfl, hn1, ht.symm,
      ?_, hr', hr⟩
    · rw [loadLoop, if_neg (by omega), hnm]
      simp only [Option.bind_some]
      rw [slice_at buf _ [type] _ _ 1 hb2 (by simp) rfl, Option.bind_some,
        slice_at buf _ (le32 bytes.length) _ _ 4 hb3 (by simp; omega) rfl, Option.bind_some, leNat_le32 _ (by omega)]
      have e1 : (pre ++ head inMap name ++ [type] ++ le32 bytes.length ++ bytes).length =
          pre.length + (head inMap name).length + 5 + bytes.length := by simp [le32_length]; omega
      have e2 : pre.length + (encode inMap (.group name isMap inner rest)).length =
          pre.length + (head inMap name).length + 5 + bytes.length + (encode inMap rest).length := by omega
      rw [e1] at hl
      rw [e2, hl]
      simp [leNat]
    · rw [hy] at hl'
      simp only [load]
      rw [if_neg (by simp)]
      by_cases hz : bytes.length = 0
      · rw [if_pos hz]
        rw [hz, loadLoop, if_pos (by omega)] at hl'
        exact hl'
      · rw [if_neg hz, hl']

/-- What is written in the binary form is read back: a tree of maps, sequences, texts and numbers is written without failure, and
loading it, from the top and at every group, finds the nodes of the tree. -/
def JsonRight (inMap : Bool) (ns : Nodes) (junk : Bool) : Prop :=
  ∃ w es, run (start inMap) (tokens inMap ns) = some w ∧ load w.buf junk inMap 0 w.buf.length = some es ∧
    ReadBack w.buf inMap ns es

/-- C125: for names and texts that are not brackets and contain no zero, less than two gigabytes, and a reader whose flag happens
to be false. -/
theorem C125_json_partial (inMap : Bool) (ns : Nodes) (hv : PlainNodes inMap ns) (hs : treeBytes ns < 2147483648) :
    JsonRight inMap ns false := by
  obtain ⟨w, hw, hb, _⟩ := run_spec inMap ns (start inMap) ⟨rfl, rfl, [], rfl⟩ hv
  have hb' : w.buf = [] ++ (encode inMap ns ++ []) := by rw [hb]; simp [start]
  obtain ⟨es, hl, hr⟩ := load_spec inMap ns w.buf [] [] hb' hv hs ((encode inMap ns).length + 1) (by omega)
  refine ⟨w, es, hw, ?_, hr⟩
  have hbe : w.buf.length = (encode inMap ns).length := by rw [hb']; simp
  rw [load, if_neg (by simp), hbe]
  simp only [List.length_nil, Nat.zero_add] at hl ⊢
  by_cases hz : (encode inMap ns).length = 0
  · rw [if_pos hz]
    rw [hz, loadLoop, if_pos (by omega)] at hl
    exact hl
  · rw [if_neg hz, hl]

/-- Asking for a name finds the first node of that name, and nothing if there is none. -/
theorem C125_named (buf : List Nat) (ns : Nodes) (es : List Entry) (h : ReadBack buf true ns es) (name : List Nat) :
    (∀ ns', firstNamed name ns = some ns' → ∃ e l, named es name = some e ∧ ReadBack buf true ns' (e :: l)) ∧
      (firstNamed name ns = none → named es name = none) := by
  induction ns generalizing es with
  | nil =>
    rw [show es = [] from h]
    exact ⟨fun _ hh => (by cases hh), fun _ => rfl⟩
  | leaf n t b r ih =>
    have h0 := h
    obtain ⟨e, l, rfl, h1, h2, h3, h4, h5⟩ := h
    rw [firstNamed]
    by_cases hn : n = name
    · rw [if_pos hn]
      refine ⟨?_, fun hh => by cases hh⟩
      rintro ns' hh
      cases hh
      exact ⟨e, l, by rw [named, List.find?_cons, h1 rfl, hn]; simp, h0⟩
    · rw [if_neg hn]
      have : named (e :: l) name = named l name := by
        rw [named, List.find?_cons, h1 rfl, decide_eq_false hn]; rfl
      rw [this]
      exact ih l h5
  | group n m i r _ ih =>
    have h0 := h
    obtain ⟨e, l, es', rfl, h1, h2, h3, h4, h5⟩ := h
    rw [firstNamed]
    by_cases hn : n = name
    · rw [if_pos hn]
      refine ⟨?_, fun hh => by cases hh⟩
      rintro ns' hh
      cases hh
      exact ⟨e, l, by rw [named, List.find?_cons, h1 rfl, hn]; simp, h0⟩
    · rw [if_neg hn]
      have : named (e :: l) name = named l name := by
        rw [named, List.find?_cons, h1 rfl, decide_eq_false hn]; rfl
      rw [this]
      exact ih l h5

/-- A map with the number 5, a sequence with a text and an empty sequence, and an empty text. -/
def sampleTree : Nodes :=
  .leaf [97] 3 [5, 0, 0, 0] (.group [98] false (.leaf [] 2 [120, 121] (.group [] false .nil .nil)) (.leaf [99] 2 [] .nil))

example : PlainNodes true sampleTree ∧ treeBytes sampleTree < 2147483648 := by
  simp [PlainNodes, Plain, sampleTree, treeBytes]

example : ((run (start true) (tokens true sampleTree)).map (·.buf)) =
    some [1, 0, 0, 0, 97, 3, 4, 0, 0, 0, 5, 0, 0, 0, 1, 0, 0, 0, 98, 1, 12, 0, 0, 0, 2, 2, 0, 0, 0, 120, 121, 1, 0, 0, 0, 0,
      1, 0, 0, 0, 99, 2, 0, 0, 0, 0] := by decide +kernel

example : firstNamed [98] sampleTree =
    some (.group [98] false (.leaf [] 2 [120, 121] (.group [] false .nil .nil)) (.leaf [99] 2 [] .nil)) := by rfl

/-- The flag of a new reader is never set: if it happens to be true, nothing is found in a map that is not empty. -/
theorem not_C125_flag : ¬ ∀ inMap ns junk, PlainNodes inMap ns → treeBytes ns < 2147483648 → JsonRight inMap ns junk := by
  intro h
  obtain ⟨w, es, h1, h2, h3⟩ := h true (.leaf [97] 3 [5] .nil) true (by simp [PlainNodes, Plain]) (by decide)
  rw [load, if_pos rfl, Option.some.injEq] at h2
  subst h2
  obtain ⟨e, l, h4, _⟩ := h3
  cases h4

/-- A text that is a bracket is taken for the beginning of a group. -/
theorem not_C125_bracket : ¬ ∀ inMap ns, treeBytes ns < 2147483648 → JsonRight inMap ns false := by
  intro h
  obtain ⟨w, es, h1, h2, h3⟩ := h true (.leaf [97] 2 [91] .nil) (by decide)
  have hw : w = ⟨[1, 0, 0, 0, 97, 1, 0, 0, 0, 0], 10, false, [false, true], [6]⟩ := by
    have : run (start true) (tokens true (.leaf [97] 2 [91] .nil)) =
      some ⟨[1, 0, 0, 0, 97, 1, 0, 0, 0, 0], 10, false, [false, true], [6]⟩ := by rfl
    rw [this, Option.some.injEq] at h1
    exact h1.symm
  subst hw
  have : load [1, 0, 0, 0, 97, 1, 0, 0, 0, 0] false true 0 10 = some [⟨[97], 1, 10, 0⟩] := by rfl
  rw [show ([1, 0, 0, 0, 97, 1, 0, 0, 0, 0] : List Nat).length = 10 from rfl, this, Option.some.injEq] at h2
  subst h2
  obtain ⟨e, l, h4, _, h5, _⟩ := h3
  rw [List.cons.injEq] at h4
  rw [← h4.1] at h5
  cases h5

/-! ## Numbers -/

theorem bytesOf_length (n : Nat) (v : Int) : (bytesOf n v).length = n := by
  induction n generalizing v with
  | zero => rfl
  | succ n ih => rw [bytesOf, List.length_cons, ih]

theorem leNat_bytesOf (n : Nat) (v : Int) : (leNat (bytesOf n v) : Int) = v % 256 ^ n := by
  induction n generalizing v with
  | zero => simp [bytesOf, leNat]
  | succ n ih =>
    rw [bytesOf, leNat]
    push_cast
    rw [ih, Int.toNat_of_nonneg (Int.emod_nonneg _ (by norm_num)), pow_succ']
    have h1 := Int.mul_ediv_add_emod v 256
    have h2 := Int.mul_ediv_add_emod (v / 256) (256 ^ n)
    have h3 := Int.emod_nonneg v (show (256 : Int) ≠ 0 by norm_num)
    have h4 := Int.emod_lt_of_pos v (show (0 : Int) < 256 by norm_num)
    have hp : (0 : Int) < 256 ^ n := by positivity
    have h5 := Int.emod_nonneg (v / 256) (show (256 : Int) ^ n ≠ 0 by positivity)
    have h6 := Int.emod_lt_of_pos (v / 256) hp
    have hv : v = (v % 256 + 256 * (v / 256 % 256 ^ n)) + 256 * 256 ^ n * (v / 256 / 256 ^ n) := by
      linear_combination -h1 - 256 * h2
    conv_rhs => rw [hv]
    rw [Int.add_mul_emod_self_left]
    exact (Int.emod_eq_of_lt (show 0 ≤ v % 256 + 256 * (v / 256 % 256 ^ n) by omega) (by omega)).symm

theorem signedOf_bytesOf (n : Nat) (hn : 1 ≤ n) (v : Int) (h1 : -(2 ^ (8 * n - 1)) ≤ v) (h2 : v < 2 ^ (8 * n - 1)) :
    signedOf (bytesOf n v) = v := by
  have hp : (256 : Int) ^ n = 2 * 2 ^ (8 * n - 1) := by
    rw [← pow_succ', show (256 : Int) = 2 ^ 8 by norm_num, ← pow_mul]
    congr 1
    omega
  have hl := leNat_bytesOf n v
  rw [signedOf, bytesOf_length]
  have hc : (2 * leNat (bytesOf n v) < 256 ^ n) ↔ 2 * (leNat (bytesOf n v) : Int) < 256 ^ n := by
    constructor
    · intro h; exact_mod_cast h
    · intro h; exact_mod_cast h
  rw [hl] at hc ⊢
  by_cases hv : 0 ≤ v
  · have : v % 256 ^ n = v := Int.emod_eq_of_lt hv (by omega)
    rw [if_pos (by rw [hc, this]; omega), this]
  · have : v % 256 ^ n = v + 256 ^ n := by
      rw [← Int.add_emod_right, Int.emod_eq_of_lt (by omega) (by omega)]
    rw [if_neg (by rw [hc, this]; omega), this]
    omega

theorem toF64_small (v : Int) (h : v.natAbs ≤ 2 ^ 53) : toF64 v = v := by
  by_cases hv : v.natAbs < 2 ^ 53
  · have he : Nat.log2 v.natAbs - 52 = 0 := by
      have : Nat.log2 v.natAbs < 53 := by
        by_cases h0 : v.natAbs = 0
        · rw [h0]; decide
        · exact (Nat.log2_lt h0).2 hv
      omega
    simp only [toF64, he]
    simp only [pow_zero, Nat.div_one, Nat.mod_one]
    rw [if_neg (by omega), Nat.mul_one]
    exact Int.sign_mul_natAbs v
  · have : v.natAbs = 2 ^ 53 := by omega
    rcases Int.natAbs_eq v with h' | h' <;> rw [this] at h' <;> subst h' <;> decide +kernel

/-- An integer of `n` bytes that is written is read back. -/
def NumberRight (n : Nat) (signed : Bool) (v : Int) : Prop := readInt n signed (bytesOf n v) = some v

/-- C126: for values that a signed type of the size can hold and whose size is at most 2^53. -/
theorem C126_number_partial (n : Nat) (hn : 1 ≤ n) (signed : Bool) (v : Int)
    (h1 : if signed then -(2 ^ (8 * n - 1)) ≤ v else 0 ≤ v) (h2 : v < 2 ^ (8 * n - 1)) (h3 : v.natAbs ≤ 2 ^ 53) :
    NumberRight n signed v := by
  have hpos : (0 : Int) < 2 ^ (8 * n - 1) := by positivity
  have hlow : -(2 ^ (8 * n - 1)) ≤ v := by
    cases signed
    · simp only [Bool.false_eq_true, if_false] at h1; omega
    · exact h1
  have hp : (2 : Int) ^ (8 * n) = 2 * 2 ^ (8 * n - 1) := by
    rw [← pow_succ']; congr 1; omega
  rw [NumberRight, readInt]
  rw [signedOf_bytesOf n hn v hlow h2, toF64_small v h3]
  cases signed
  · simp only [Bool.false_eq_true, if_false] at h1 ⊢
    rw [if_pos ⟨h1, by omega⟩]
  · simp only [if_true] at h1 ⊢
    rw [if_pos ⟨h1, h2⟩]

example : NumberRight 4 true (-7) ∧ NumberRight 1 false 100 ∧ NumberRight 8 true (2 ^ 53) := by
  refine ⟨?_, ?_, ?_⟩ <;> unfold NumberRight <;> decide +kernel

/-- A `u8` of 200 is read as -56, and the cast of that to `u8` is not defined. -/
theorem not_C126_unsigned : ¬ ∀ v : Int, 0 ≤ v → v < 256 → NumberRight 1 false v := by
  intro h
  have := h 200 (by norm_num) (by norm_num)
  unfold NumberRight at this
  revert this
  decide +kernel

/-- An `i64` beyond 53 digits is rounded. -/
theorem not_C126_wide : ¬ ∀ v : Int, -(2 ^ 63) ≤ v → v < 2 ^ 63 → NumberRight 8 true v := by
  intro h
  have := h (2 ^ 53 + 1) (by norm_num) (by norm_num)
  unfold NumberRight at this
  revert this
  decide +kernel

end Verif.Props
