import Verif.Props.Strings

/-!
# Parts of a path
-/

namespace Verif.Props
open Verif.Str Verif.Spec

/-- The path with every backslash turned into a slash. -/
def normal (path : List Char) : List Char := path.map fun (c : Char) => if c = '\\' then '/' else c

theorem pieces_normal {ps : List (List Char)} {text : List Char} (h : Pieces ['\\'] ps text) :
    joined ['/'] ps = normal text := by
  induction h with
  | last text hn =>
    show text = _
    rw [normal]
    conv_lhs => rw [← List.map_id text]
    apply List.map_congr_left
    intro c hc
    rw [if_neg]
    · rfl
    · rintro rfl
      obtain ⟨a, b, e⟩ := List.append_of_mem hc
      exact hn ⟨a, b, by rw [e]; simp⟩
  | next p rest ps hp hr ih =>
    rw [joined_cons _ _ _ (pieces_joined hr).1, ih, normal, normal, List.map_append, List.map_append]
    congr 2
    conv_lhs => rw [← List.map_id p]
    apply List.map_congr_left
    intro c hc
    rw [if_neg]
    · rfl
    · rintro rfl
      obtain ⟨a, b, e⟩ := List.append_of_mem hc
      have := hp a (b ++ ['\\'] ++ rest) (by rw [e]; simp)
      rw [e] at this
      simp at this

theorem slashes_eq (path : List Char) : slashes path = normal path := by
  obtain ⟨ps, hps⟩ := pieces_exist ['\\'] path (by simp)
  obtain ⟨r, hr, h⟩ := C117_replace_partial path ['/'] ['\\'] (by simp)
  rw [slashes, hr, Option.getD_some, h ps hps, pieces_normal hps]

theorem rfind_none {c : Char} {t : Text} (h : rfind c t = none) : c ∉ t := by
  induction t with
  | nil => simp
  | cons d ds ih =>
    rw [rfind] at h
    cases hk : rfind c ds with
    | some k => rw [hk] at h; simp at h
    | none =>
      rw [hk] at h
      simp only at h
      split at h
      · simp at h
      · rename_i hd
        intro hm
        rcases List.mem_cons.1 hm with e | e
        · exact hd e.symm
        · exact ih hk e

theorem rfind_some {c : Char} {t : Text} {k : Nat} (h : rfind c t = some k) :
    t = t.take k ++ c :: t.drop (k + 1) ∧ k < t.length ∧ c ∉ t.drop (k + 1) := by
  induction t generalizing k with
  | nil => simp [rfind] at h
  | cons d ds ih =>
    rw [rfind] at h
    cases hk : rfind c ds with
    | some j =>
      rw [hk] at h
      obtain rfl : j + 1 = k := Option.some.inj h
      obtain ⟨h1, h2, h3⟩ := ih hk
      exact ⟨by rw [List.take_succ_cons, List.drop_succ_cons, List.cons_append, ← h1], by rw [List.length_cons]; omega,
        by rw [List.drop_succ_cons]; exact h3⟩
    | none =>
      rw [hk] at h
      simp only at h
      split at h
      · rename_i hd
        obtain rfl : 0 = k := Option.some.inj h
        exact ⟨by simp [hd], by simp, by simpa using rfind_none hk⟩
      · simp at h

/-- `rfind` finds the last occurrence. -/
theorem rfind_last (c : Char) (a b : Text) (h : c ∉ b) : rfind c (a ++ c :: b) = some a.length := by
  cases hk : rfind c (a ++ c :: b) with
  | none => exact absurd (by simp) (rfind_none hk)
  | some k =>
    obtain ⟨h1, h2, h3⟩ := rfind_some hk
    rcases Nat.lt_trichotomy k a.length with hl | rfl | hl
    · exfalso
      apply h3
      rw [List.drop_append_of_le_length (by omega)]
      simp
    · rfl
    · exfalso
      apply h
      rw [List.length_append, List.length_cons] at h2
      have : (a ++ c :: b)[k]? = some c := by
        conv_lhs => rw [h1]
        rw [List.getElem?_append_right (by rw [List.length_take]; omega), List.length_take, List.length_append, List.length_cons,
          show k - min k (a.length + (b.length + 1)) = 0 by omega]
        rfl
      rw [List.getElem?_append_right (by omega), show k - a.length = (k - a.length - 1) + 1 by omega, List.getElem?_cons_succ] at this
      exact List.mem_of_getElem? this

/-- The name of a file: what comes behind the last separator. -/
theorem C120_name (path dir name : List Char) (h : normal path = dir ++ '/' :: name) (hn : '/' ∉ name) :
    fileName path = name := by
  have hp : path ≠ [] := by rintro rfl; simp [normal] at h
  rw [fileName, if_neg hp]
  simp only [slashes_eq, h, rfind_last _ _ _ hn]
  rw [show dir.length + 1 = (dir ++ ['/']).length by simp, show dir ++ '/' :: name = (dir ++ ['/']) ++ name by simp, List.drop_left]

/-- Without a separator it is the path. -/
theorem C120_plain (path : List Char) (h : '/' ∉ normal path) : fileName path = normal path := by
  rw [fileName]
  split
  · rename_i h; subst h; rfl
  · simp only [slashes_eq]
    cases hk : rfind '/' (normal path) with
    | none => rfl
    | some k =>
      exfalso; apply h
      rw [(rfind_some hk).1]; simp

/-- The property: directory and name together are the path, and the directory ends with a separator or is empty. -/
def PathSplit : Prop :=
  ∀ path : List Char, dirPath path ++ fileName path = normal path ∧ '/' ∉ fileName path

/-- C120: for a path with a separator. -/
theorem C120_path_partial (path : List Char) (h : '/' ∈ normal path) :
    dirPath path ++ fileName path = normal path ∧ '/' ∉ fileName path ∧ (dirPath path).getLast? = some '/' := by
  have hp : path ≠ [] := by rintro rfl; simp [normal] at h
  cases hk : rfind '/' (normal path) with
  | none => exact absurd h (rfind_none hk)
  | some k =>
    obtain ⟨h1, h2, h3⟩ := rfind_some hk
    have hname := C120_name path _ _ h1 h3
    have hdir : dirPath path = (normal path).take k ++ ['/'] := by
      have ht : (normal path).take (k + 1) = (normal path).take k ++ ['/'] := by
        conv_lhs => rw [h1]
        rw [show k + 1 = ((normal path).take k ++ ['/']).length by rw [List.length_append, List.length_take]; simp; omega,
          show (normal path).take k ++ '/' :: (normal path).drop (((normal path).take k ++ ['/']).length) =
            ((normal path).take k ++ ['/']) ++ (normal path).drop (((normal path).take k ++ ['/']).length) by simp, List.take_left]
      rw [dirPath, if_neg hp]
      simp only [slashes_eq, hk]
      split
      · rw [← ht, List.take_of_length_le (by omega)]
      · exact ht
    refine ⟨?_, by rw [hname]; exact h3, by rw [hdir]; simp⟩
    rw [hdir, hname]
    conv_rhs => rw [h1]
    simp

example : '/' ∈ normal ['d', '\\', 'e', '/', 'f', '.', 'x'] ∧ dirPath ['d', '\\', 'e', '/', 'f', '.', 'x'] = ['d', '/', 'e', '/'] := by decide

/-- Without a separator the whole name is called the directory. -/
theorem not_C120_path : ¬ PathSplit := by
  intro h
  have := (h ['f']).1
  revert this
  decide

/-- C121 (name of a directory): of a path that ends with a separator. -/
theorem C121_dir_partial (path dir name : List Char) (c : Char) (h : normal path = dir ++ '/' :: name) (hn : '/' ∉ name) :
    dirName (path ++ [c]) = name := by
  rw [dirName, if_neg (by simp), List.dropLast_concat]
  exact C120_name path dir name h hn

/-- Title and extension: the name is the title with the extension behind it, in lower case. -/
def TitleRight : Prop :=
  ∀ path : List Char, ∃ ext, fileName path = fileTitle path ++ ext ∧ extendName path = ext.map Char.toLower

theorem toLower_dot (c : Char) (h : c = '/' ∨ c = '\\' ∨ c = '.') : c.toLower = c := by
  rcases h with rfl | rfl | rfl <;> decide

/-- C121: if there is no separator behind the last dot. -/
theorem C121_title_partial (path : List Char)
    (h : ∀ a b, path = a ++ '.' :: b → '.' ∉ b → '/' ∉ b ∧ '\\' ∉ b) :
    ∃ ext, fileName path = fileTitle path ++ ext ∧ extendName path = ext.map Char.toLower ∧
      (ext = [] ∧ '.' ∉ fileName path ∨ ∃ b, ext = '.' :: b ∧ '.' ∉ b) := by
  by_cases hp : path = []
  · subst hp; exact ⟨[], rfl, rfl, Or.inl ⟨rfl, by decide⟩⟩
  cases hk : rfind '.' path with
  | none =>
    have hno := rfind_none hk
    have hnn : '.' ∉ normal path := by
      intro hm
      obtain ⟨c, hc, e⟩ := List.mem_map.1 hm
      split at e
      · exact absurd e (by decide)
      · subst e; exact hno hc
    have hfn : '.' ∉ fileName path := by
      rw [fileName, if_neg hp]
      simp only [slashes_eq]
      cases rfind '/' (normal path) with
      | none => exact hnn
      | some k => exact fun hm => hnn (List.mem_of_mem_drop hm)
    refine ⟨[], ?_, ?_, Or.inl ⟨rfl, hfn⟩⟩
    · rw [fileTitle, if_neg hp, List.append_nil]
      simp only
      cases hr : rfind '.' (fileName path) with
      | none => rfl
      | some k => exact absurd (by rw [(rfind_some hr).1]; simp) hfn
    · rw [extendName, if_neg hp, hk]; rfl
  | some k =>
    obtain ⟨h1, h2, h3⟩ := rfind_some hk
    obtain ⟨s1, s2⟩ := h _ _ h1 h3
    generalize ha : path.take k = a at h1
    generalize hb : path.drop (k + 1) = b at h1 h3 s1 s2
    have hnb : normal b = b := by
      rw [normal]
      conv_rhs => rw [← List.map_id b]
      apply List.map_congr_left
      intro c hc
      rw [if_neg]
      · rfl
      · rintro rfl; exact s2 hc
    have hn : normal path = normal a ++ '.' :: b := by
      rw [h1]
      show List.map _ _ = _
      rw [List.map_append, List.map_cons]
      rw [show b.map (fun (c : Char) => if c = '\\' then '/' else c) = b from hnb]
      rfl
    have hfile : ∃ t, fileName path = t ++ '.' :: b := by
      rw [fileName, if_neg hp]
      simp only [slashes_eq, hn]
      cases hr : rfind '/' (normal a ++ '.' :: b) with
      | none => exact ⟨_, rfl⟩
      | some j =>
        obtain ⟨r1, r2, r3⟩ := rfind_some hr
        by_cases hj : j < (normal a).length
        · exact ⟨(normal a).drop (j + 1), by simp only; rw [List.drop_append_of_le_length (by omega)]⟩
        · exfalso
          have : (normal a ++ '.' :: b)[j]? = some '/' := by
            conv_lhs => rw [r1]
            rw [List.getElem?_append_right (by rw [List.length_take]; omega), List.length_take,
              show j - min j (normal a ++ '.' :: b).length = 0 by omega]
            rfl
          rw [List.getElem?_append_right (by omega)] at this
          rcases List.mem_cons.1 (List.mem_of_getElem? this) with e | e
          · exact absurd e (by decide)
          · exact s1 e
    obtain ⟨t, ht⟩ := hfile
    refine ⟨'.' :: b, ?_, ?_, Or.inr ⟨b, rfl, h3⟩⟩
    · rw [fileTitle, if_neg hp]
      simp only [ht, rfind_last _ _ _ h3]
      rw [List.take_left]
    · rw [extendName, if_neg hp, hk]
      simp only
      have : path.drop k = '.' :: b := by
        have hl : a.length = k := by rw [← ha, List.length_take]; omega
        rw [h1, ← hl, List.drop_left]
      rw [this]

example : fileTitle ['d', '.', 'e', '/', 'f', '.', 'X'] = ['f'] ∧ extendName ['d', '.', 'e', '/', 'f', '.', 'X'] = ['.', 'x'] := by decide

/-- The dot of a directory is taken for that of the file. -/
theorem not_C121_title : ¬ TitleRight := by
  intro h
  obtain ⟨ext, h1, h2⟩ := h ['d', '.', 'e', '/', 'f']
  have e1 : fileName ['d', '.', 'e', '/', 'f'] = ['f'] := by decide
  have e2 : fileTitle ['d', '.', 'e', '/', 'f'] = ['f'] := by decide
  have e3 : extendName ['d', '.', 'e', '/', 'f'] = ['.', 'e', '/', 'f'] := by decide
  rw [e1, e2] at h1
  have he : ext = [] := by simpa using h1
  rw [e3, he] at h2
  simp at h2

end Verif.Props
