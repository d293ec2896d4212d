import Verif.Model.Strings
import Verif.Spec.Strings
import Mathlib.Data.List.Basic
import Mathlib.Tactic.Linarith
import Mathlib.Tactic.Ring

/-!
# Splitting, replacing, trimming
-/

namespace Verif.Props
open Verif.Str Verif.Spec

theorem findIn_none {tag text : Text} (h : findIn tag text = none) : ¬ ∃ pre suf, text = pre ++ tag ++ suf := by
  rintro ⟨pre, suf, e⟩
  induction text generalizing pre with
  | nil =>
    have : tag = [] := by
      have := congrArg List.length e
      simp only [List.length_nil, List.length_append] at this
      exact List.eq_nil_of_length_eq_zero (by omega)
    rw [findIn, if_pos this] at h
    simp at h
  | cons c cs ih =>
    rw [findIn] at h
    split at h
    · simp at h
    · rename_i hp
      cases pre with
      | nil => exact hp (by rw [e]; simp)
      | cons d pre =>
        rw [List.cons_append, List.cons_append] at e
        exact ih (by simpa using h) pre (List.cons.inj e).2

theorem findIn_some {tag text : Text} {k : Nat} (h : findIn tag text = some k) :
    text = text.take k ++ tag ++ text.drop (k + tag.length) ∧ k + tag.length ≤ text.length ∧
      ∀ pre suf, text = pre ++ tag ++ suf → k ≤ pre.length := by
  induction text generalizing k with
  | nil =>
    rw [findIn] at h
    split at h
    · rename_i ht
      obtain rfl : 0 = k := Option.some.inj h
      subst ht
      simp
    · simp at h
  | cons c cs ih =>
    rw [findIn] at h
    split at h
    · rename_i hp
      obtain rfl : 0 = k := Option.some.inj h
      obtain ⟨r, hr⟩ := List.isPrefixOf_iff_prefix.1 hp
      refine ⟨?_, ?_, fun _ _ _ => Nat.zero_le _⟩
      · rw [← hr]; simp
      · rw [← hr]; simp
    · rename_i hp
      obtain ⟨j, hj, rfl⟩ := Option.map_eq_some_iff.1 h
      obtain ⟨h1, h2, h3⟩ := ih hj
      refine ⟨?_, by rw [List.length_cons]; omega, ?_⟩
      · rw [List.take_succ_cons, show j + 1 + tag.length = j + tag.length + 1 by omega, List.drop_succ_cons, List.cons_append,
          List.cons_append, ← h1]
      · intro pre suf e
        cases pre with
        | nil => exact absurd (by rw [e]; simp) hp
        | cons d pre =>
          rw [List.cons_append, List.cons_append] at e
          have := h3 pre suf (List.cons.inj e).2
          rw [List.length_cons]; omega

/-- The pieces of a text are determined. -/
theorem pieces_unique {tag : List Char} {ps ps' : List (List Char)} {text : List Char} (h : Pieces tag ps text)
    (h' : Pieces tag ps' text) : ps = ps' := by
  induction h generalizing ps' with
  | last text hn =>
    cases h' with
    | last _ _ => rfl
    | next p rest ps' _ _ => exact absurd ⟨p, rest, rfl⟩ hn
  | next p rest ps hp hr ih =>
    generalize ht : p ++ tag ++ rest = t at h'
    cases h' with
    | last _ hn => exact absurd ⟨p, rest, ht.symm⟩ hn
    | next p' rest' ps' hp' hr' =>
      have l : p.length = p'.length := le_antisymm (hp p' rest' ht) (hp' p rest ht.symm)
      rw [List.append_assoc, List.append_assoc] at ht
      obtain ⟨rfl, e⟩ := List.append_inj ht l
      rw [List.append_cancel_left e] at ih
      rw [ih hr']

/-- Every text has them, for a tag that is not empty. -/
theorem pieces_exist (tag text : List Char) (ht : tag ≠ []) : ∃ ps, Pieces tag ps text := by
  induction hn : text.length using Nat.strongRecOn generalizing text with
  | ind n ih =>
    cases hf : findIn tag text with
    | none => exact ⟨_, Pieces.last _ (findIn_none hf)⟩
    | some k =>
      obtain ⟨h1, h2, h3⟩ := findIn_some hf
      have hl : 0 < tag.length := List.length_pos_iff.2 ht
      obtain ⟨ps, hps⟩ := ih (text.drop (k + tag.length)).length (by rw [List.length_drop]; omega) _ rfl
      refine ⟨text.take k :: ps, ?_⟩
      rw [h1]
      have hk : (text.take k).length = k := by rw [List.length_take]; omega
      have hc : List.take k (text.take k ++ tag ++ text.drop (k + tag.length)) = text.take k := by rw [← h1]
      rw [hc]
      refine Pieces.next _ _ _ (fun pre suf e => ?_) hps
      rw [← h1] at e
      rw [hk]
      exact h3 pre suf e

theorem joined_cons (sep p : List Char) (ps : List (List Char)) (h : ps ≠ []) : joined sep (p :: ps) = p ++ sep ++ joined sep ps := by
  cases ps with
  | nil => exact absurd rfl h
  | cons q qs => rfl

/-- The pieces with the tag between them are the text. -/
theorem pieces_joined {tag : List Char} {ps : List (List Char)} {text : List Char} (h : Pieces tag ps text) :
    ps ≠ [] ∧ joined tag ps = text := by
  induction h with
  | last text _ => exact ⟨by simp, rfl⟩
  | next p rest ps _ _ ih =>
    refine ⟨by simp, ?_⟩
    rw [joined_cons _ _ _ ih.1, ih.2]

/-- The property of `split`: the pieces between the tags, and the special cases as documented. -/
def SplitRight : Prop :=
  ∀ text tag : List Char, ∃ ps, split text tag = some ps ∧ (text = [] → ps = []) ∧ (text ≠ [] → tag = [] → ps = [text]) ∧
    (text ≠ [] → tag ≠ [] → Pieces tag ps text)

theorem splitLoop_spec (text : Text) (c : Char) (f index : Nat) (hf : text.length < f + index) (hi : index ≤ text.length) :
    ∃ ps, splitLoop text [c] f index = some ps ∧ Pieces [c] ps (text.drop index) := by
  induction f generalizing index with
  | zero => omega
  | succ f ih =>
    rw [splitLoop, find, if_pos hi]
    cases hk : findIn [c] (text.drop index) with
    | none => exact ⟨_, rfl, Pieces.last _ (findIn_none hk)⟩
    | some k =>
      obtain ⟨h1, h2, h3⟩ := findIn_some hk
      rw [List.length_drop, List.length_singleton] at h2
      obtain ⟨ps, e, hps⟩ := ih (k + index + 1) (by omega) (by omega)
      simp only [Option.map_some]
      rw [e]
      refine ⟨_, rfl, ?_⟩
      rw [show k + index - index = k by omega]
      rw [List.length_singleton, List.drop_drop, show index + (k + 1) = k + index + 1 by omega] at h1
      have hkl : ((text.drop index).take k).length = k := by rw [List.length_take, List.length_drop]; omega
      have := Pieces.next ((text.drop index).take k) (text.drop (k + index + 1)) ps (by
        intro pre suf e
        rw [← h1] at e
        rw [hkl]
        exact h3 pre suf e) hps
      rw [← h1] at this
      exact this

/-- C116: for a tag of one character, and the empty text. -/
theorem C116_split_partial (text : List Char) (c : Char) :
    (text ≠ [] → ∃ ps, split text [c] = some ps ∧ Pieces [c] ps text) ∧ ∀ tag, split [] tag = some [] := by
  refine ⟨fun h => ?_, fun tag => rfl⟩
  rw [split, if_neg h, if_neg (by simp)]
  obtain ⟨ps, e, hp⟩ := splitLoop_spec text c (text.length + 1) 0 (by omega) (by omega)
  exact ⟨ps, e, by simpa using hp⟩

example : split ['a', ',', 'b', ',', ','] [','] = some [['a'], ['b'], [], []] := by decide

/-- A longer tag is skipped by one character only. -/
theorem not_C116_long : ¬ SplitRight := by
  intro h
  obtain ⟨ps, e, _, _, h3⟩ := h ['a', '-', '-', 'b'] ['-', '-']
  have e' : split ['a', '-', '-', 'b'] ['-', '-'] = some [['a'], ['-', 'b']] := by decide
  rw [e'] at e
  obtain rfl := Option.some.inj e
  have := (pieces_joined (h3 (by simp) (by simp))).2
  revert this
  decide

/-- An empty tag gives an empty string instead of the text. -/
theorem not_C116_empty : ∃ text : List Char, text ≠ [] ∧ split text [] = some [[]] := ⟨['a', 'b'], by decide, by decide⟩

/-- The property of `replace`: it ends, and the pieces between the old value have the new value between them. -/
def ReplaceRight : Prop :=
  ∀ text new old : List Char, ∃ f r, replace f text new old = some r ∧ (old ≠ [] → ∀ ps, Pieces old ps text → r = joined new ps)

theorem replaceLoop_spec (new old : Text) (ho : old ≠ []) (f : Nat) (pre rest : Text) (ps : List Text) (hf : rest.length < f)
    (hp : Pieces old ps rest) : replaceLoop new old f (pre ++ rest) pre.length = some (pre ++ joined new ps) := by
  induction f generalizing pre rest ps with
  | zero => omega
  | succ f ih =>
    rw [replaceLoop, find, if_pos (by simp), List.drop_left]
    cases hp with
    | last _ hn =>
      cases hk : findIn old rest with
      | none => rfl
      | some k => exact absurd ⟨_, _, (findIn_some hk).1⟩ hn
    | next p rest ps h1 h2 =>
      cases hk : findIn old (p ++ old ++ rest) with
      | none => exact absurd ⟨p, rest, rfl⟩ (findIn_none hk)
      | some k =>
        obtain ⟨e1, e2, e3⟩ := findIn_some hk
        have hkp : k = p.length := by
          have a := e3 p rest rfl
          have b := h1 _ _ e1
          rw [List.length_take] at b
          omega
        subst hkp
        simp only [Option.map_some]
        have hl : 0 < old.length := List.length_pos_iff.2 ho
        have t1 : (pre ++ (p ++ old ++ rest)).take (p.length + pre.length) = pre ++ p := by
          rw [Nat.add_comm, List.take_length_add_append, List.append_assoc, List.take_left']
          rfl
        have t2 : (pre ++ (p ++ old ++ rest)).drop (p.length + pre.length + old.length) = rest := by
          rw [show pre ++ (p ++ old ++ rest) = (pre ++ p ++ old) ++ rest by simp]
          rw [List.drop_left']
          simp; omega
        rw [t1, t2, show p.length + pre.length + new.length = (pre ++ p ++ new).length by simp; omega]
        rw [ih (pre ++ p ++ new) rest ps (by simp only [List.length_append] at hf; omega) h2]
        rw [joined_cons _ _ _ (pieces_joined h2).1]
        simp

/-- C117: `replace` ends after at most as many rounds as the text has characters, plus one, for an old value that is not
empty. -/
theorem C117_replace_partial (text new old : List Char) (ho : old ≠ []) :
    ∃ r, replace (text.length + 1) text new old = some r ∧ ∀ ps, Pieces old ps text → r = joined new ps := by
  obtain ⟨ps, hps⟩ := pieces_exist old text ho
  have := replaceLoop_spec new old ho (text.length + 1) [] text ps (by omega) hps
  refine ⟨joined new ps, by simpa [replace] using this, fun ps' h => ?_⟩
  rw [pieces_unique hps h]

example : replace 9 ['a', 'a', 'b', 'a', 'a'] ['a'] ['a', 'a'] = some ['a', 'b', 'a'] := by decide

/-- Further rounds do not matter. -/
theorem replaceLoop_more (new old : Text) (f : Nat) (text r : Text) (pos : Nat) (h : replaceLoop new old f text pos = some r) :
    replaceLoop new old (f + 1) text pos = some r := by
  induction f generalizing text pos with
  | zero => simp [replaceLoop] at h
  | succ f ih =>
    rw [replaceLoop] at h ⊢
    cases hk : find text old pos with
    | none => rw [hk] at h; exact h
    | some k => rw [hk] at h; exact ih _ _ h

theorem findIn_empty (text : Text) : findIn [] text = some 0 := by cases text <;> simp [findIn]

theorem replace_endless (new : Text) (f : Nat) (text : Text) (pos : Nat) (h : pos ≤ text.length) :
    replaceLoop new [] f text pos = none := by
  induction f generalizing text pos with
  | zero => rfl
  | succ f ih =>
    rw [replaceLoop, find, if_pos h, findIn_empty]
    simp only [Option.map_some, Nat.zero_add]
    apply ih
    simp only [List.length_append, List.length_take, List.length_nil, Nat.add_zero, List.length_drop]
    omega

/-- Replacing the empty string never ends. -/
theorem not_C117_replace : ¬ ReplaceRight := by
  intro h
  obtain ⟨f, r, e, _⟩ := h ['a'] ['b'] []
  rw [replace, replace_endless _ _ _ _ (by simp)] at e
  simp at e

/-- C118: `trim_left` removes exactly the characters equal to `c` at the beginning. -/
theorem C118_trim (text : List Char) (c : Char) :
    ∃ n, text = List.replicate n c ++ trimLeft text c ∧ (trimLeft text c).head? ≠ some c := by
  have key : ∀ t : Text, match firstNot c t with
      | none => t = List.replicate t.length c
      | some k => t = List.replicate k c ++ t.drop k ∧ (t.drop k).head? ≠ some c := by
    intro t
    induction t with
    | nil => rfl
    | cons d ds ih =>
      rw [firstNot]
      by_cases hd : d = c
      · rw [if_pos hd]
        cases hk : firstNot c ds with
        | none =>
          rw [hk] at ih
          simp only [Option.map_none]
          rw [List.length_cons, List.replicate_succ, ← ih, hd]
        | some k =>
          rw [hk] at ih
          simp only [Option.map_some]
          exact ⟨by rw [List.replicate_succ, List.drop_succ_cons, List.cons_append, ← ih.1, hd], by
            rw [List.drop_succ_cons]; exact ih.2⟩
      · rw [if_neg hd]
        simp [hd]
  have := key text
  rw [trimLeft]
  cases hk : firstNot c text with
  | none => rw [hk] at this; exact ⟨text.length, by simpa using this, by simp⟩
  | some k =>
    rw [hk] at this
    simp only
    split
    · exact ⟨k, this⟩
    · obtain rfl : k = 0 := by omega
      exact ⟨0, by simp, by simpa using this.2⟩

end Verif.Props
