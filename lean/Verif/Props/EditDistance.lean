import Verif.Model.Strings
import Verif.Spec.Strings
import Mathlib.Data.List.Basic
import Mathlib.Tactic.Linarith
import Mathlib.Tactic.Ring

/-!
# `levenshtein_distance`
-/

namespace Verif.Props
open Verif.Str Verif.Spec

/-- The recursion behind the table. -/
def ed (ins rep del : Nat) : List Char → List Char → Nat
  | [], b => ins * b.length
  | _ :: a, [] => ed ins rep del a [] + del
  | c :: a, d :: b =>
    min (min (ed ins rep del a (d :: b) + del) (ed ins rep del (c :: a) b + ins))
      (ed ins rep del a b + if c = d then 0 else rep)
  termination_by a b => a.length + b.length

theorem ed_nil (ins rep del : Nat) (a : List Char) : ed ins rep del a [] = del * a.length := by
  induction a with
  | nil => simp [ed]
  | cons c a ih => rw [ed, ih, List.length_cons]; ring

theorem ed_edit (ins rep del : Nat) (a b : List Char) : Edit ins rep del a b (ed ins rep del a b) := by
  induction a, b using ed.induct with
  | case1 b =>
    induction b with
    | nil => simp only [ed, List.length_nil, Nat.mul_zero]; exact Edit.done
    | cons d b ih =>
      have := Edit.insert d _ _ _ ih
      simp only [ed] at this ⊢
      rw [List.length_cons, show ins * (b.length + 1) = ins * b.length + ins by ring]
      exact this
  | case2 c a ih => rw [ed]; exact Edit.delete _ _ _ _ ih
  | case3 c a d b h1 h2 h3 =>
    rw [ed]
    rcases min_choice (min (ed ins rep del a (d :: b) + del) (ed ins rep del (c :: a) b + ins))
      (ed ins rep del a b + if c = d then 0 else rep) with h | h
    · rw [h]
      rcases min_choice (ed ins rep del a (d :: b) + del) (ed ins rep del (c :: a) b + ins) with h | h
      · rw [h]; exact Edit.delete _ _ _ _ h1
      · rw [h]; exact Edit.insert _ _ _ _ h2
    · rw [h]
      split
      · rename_i e; subst e; exact Edit.keep _ _ _ _ h3
      · exact Edit.replace _ _ _ _ _ h3

theorem ed_step_del (ins rep del : Nat) (c : Char) (a b : List Char) : ed ins rep del (c :: a) b ≤ ed ins rep del a b + del := by
  cases b with
  | nil => rw [ed]
  | cons d b => rw [ed]; exact le_trans (min_le_left _ _) (min_le_left _ _)

theorem ed_step_ins (ins rep del : Nat) (d : Char) (a b : List Char) : ed ins rep del a (d :: b) ≤ ed ins rep del a b + ins := by
  cases a with
  | nil => rw [ed, ed, List.length_cons]; apply le_of_eq; ring
  | cons c a => rw [ed]; exact le_trans (min_le_left _ _) (min_le_right _ _)

theorem ed_le (ins rep del : Nat) (a b : List Char) (n : Nat) (h : Edit ins rep del a b n) : ed ins rep del a b ≤ n := by
  induction h with
  | done => simp [ed]
  | keep c a b n _ ih => rw [ed]; exact le_trans (min_le_right _ _) (by simpa using ih)
  | replace c d a b n _ ih => rw [ed]; refine le_trans (min_le_right _ _) ?_; split <;> omega
  | insert d a b n _ ih => exact le_trans (ed_step_ins _ _ _ _ _ _) (by omega)
  | delete c a b n _ ih => exact le_trans (ed_step_del _ _ _ _ _ _) (by omega)

theorem ed_distance (ins rep del : Nat) (a b : List Char) : EditDistance ins rep del a b (ed ins rep del a b) :=
  ⟨ed_edit _ _ _ _ _, fun _ h => ed_le _ _ _ _ _ _ h⟩

theorem edit_append {ins rep del : Nat} {a b a' b' : List Char} {n m : Nat} (h : Edit ins rep del a b n)
    (h' : Edit ins rep del a' b' m) : Edit ins rep del (a ++ a') (b ++ b') (n + m) := by
  induction h with
  | done => simpa using h'
  | keep c a b n _ ih => exact Edit.keep _ _ _ _ ih
  | replace c d a b n _ ih => rw [show n + rep + m = n + m + rep by omega]; exact Edit.replace _ _ _ _ _ ih
  | insert d a b n _ ih => rw [show n + ins + m = n + m + ins by omega]; exact Edit.insert _ _ _ _ ih
  | delete c a b n _ ih => rw [show n + del + m = n + m + del by omega]; exact Edit.delete _ _ _ _ ih

theorem edit_reverse {ins rep del : Nat} {a b : List Char} {n : Nat} (h : Edit ins rep del a b n) :
    Edit ins rep del a.reverse b.reverse n := by
  induction h with
  | done => exact Edit.done
  | keep c a b n _ ih =>
    rw [List.reverse_cons, List.reverse_cons]
    exact edit_append ih (Edit.keep c [] [] 0 Edit.done)
  | replace c d a b n _ ih =>
    rw [List.reverse_cons, List.reverse_cons]
    have := edit_append ih (Edit.replace c d [] [] 0 Edit.done)
    rwa [Nat.zero_add] at this
  | insert d a b n _ ih =>
    rw [List.reverse_cons]
    have := edit_append ih (Edit.insert d [] [] 0 Edit.done)
    rwa [Nat.zero_add, List.append_nil] at this
  | delete c a b n _ ih =>
    rw [List.reverse_cons]
    have := edit_append ih (Edit.delete c [] [] 0 Edit.done)
    rwa [Nat.zero_add, List.append_nil] at this

theorem distance_reverse {ins rep del : Nat} {a b : List Char} {n : Nat} (h : EditDistance ins rep del a.reverse b.reverse n) :
    EditDistance ins rep del a b n := by
  refine ⟨by simpa using edit_reverse h.1, fun k hk => h.2 k (edit_reverse hk)⟩

/-- Turned around, insertions become deletions. -/
theorem edit_symm {ins rep del : Nat} {a b : List Char} {n : Nat} (h : Edit ins rep del a b n) : Edit del rep ins b a n := by
  induction h with
  | done => exact Edit.done
  | keep c a b n _ ih => exact Edit.keep _ _ _ _ ih
  | replace c d a b n _ ih => exact Edit.replace _ _ _ _ _ ih
  | insert d a b n _ ih => exact Edit.delete _ _ _ _ ih
  | delete c a b n _ ih => exact Edit.insert _ _ _ _ ih

/-- With exchanged prices. -/
theorem edit_exchange {ins rep del : Nat} {a b : List Char} {n : Nat} (h : Edit ins rep del a b n) :
    ∃ k, Edit del rep ins a b k ∧ n + del * b.length + ins * a.length = k + ins * b.length + del * a.length := by
  induction h with
  | done => exact ⟨0, Edit.done, rfl⟩
  | keep c a b n _ ih =>
    obtain ⟨k, h, e⟩ := ih
    exact ⟨k, Edit.keep _ _ _ _ h, by simp only [List.length_cons]; linarith⟩
  | replace c d a b n _ ih =>
    obtain ⟨k, h, e⟩ := ih
    exact ⟨k + rep, Edit.replace _ _ _ _ _ h, by simp only [List.length_cons]; linarith⟩
  | insert d a b n _ ih =>
    obtain ⟨k, h, e⟩ := ih
    exact ⟨k + del, Edit.insert _ _ _ _ h, by simp only [List.length_cons]; linarith⟩
  | delete c a b n _ ih =>
    obtain ⟨k, h, e⟩ := ih
    exact ⟨k + ins, Edit.delete _ _ _ _ h, by simp only [List.length_cons]; linarith⟩

theorem distance_symm {ins rep del : Nat} {a b : List Char} {n : Nat} (h : EditDistance ins rep del a b n) :
    EditDistance del rep ins b a n := ⟨edit_symm h.1, fun k hk => h.2 k (edit_symm hk)⟩

theorem distance_exchange {ins rep del : Nat} {a b : List Char} {n : Nat} (h : EditDistance ins rep del a b n)
    (hl : a.length = b.length) : EditDistance del rep ins a b n := by
  obtain ⟨k, hk, e⟩ := edit_exchange h.1
  have hkn : n = k := by rw [hl] at e; omega
  refine ⟨hkn ▸ hk, fun j hj => ?_⟩
  obtain ⟨i, hi, e'⟩ := edit_exchange hj
  have := h.2 i hi
  rw [hl] at e'; omega

theorem ed_bound (ins rep del : Nat) (a b : List Char) : ed ins rep del a b ≤ del * a.length + ins * b.length := by
  induction a with
  | nil => rw [ed]; simp
  | cons c a ih =>
    have := ed_step_del ins rep del c a b
    rw [List.length_cons, show del * (a.length + 1) = del * a.length + del by ring]
    omega

/-- The values a row of the table should have, for the rest of the smaller string. -/
def edRow (ins rep del : Nat) (r : List Char) : List Char → List Char → List Nat
  | s, [] => [ed ins rep del r s]
  | s, c :: cs => ed ins rep del r s :: edRow ins rep del r (c :: s) cs

theorem edRow_cons (ins rep del : Nat) (r s cs : List Char) : ∃ l, edRow ins rep del r s cs = ed ins rep del r s :: l := by
  cases cs <;> exact ⟨_, rfl⟩

theorem edRow_last (ins rep del : Nat) (r s cs : List Char) (d : Nat) :
    (edRow ins rep del r s cs).getLastD d = ed ins rep del r (cs.reverse ++ s) := by
  induction cs generalizing s d with
  | nil => rfl
  | cons c cs ih =>
    rw [edRow, List.getLastD_cons, ih, List.reverse_cons, List.append_assoc]; rfl

theorem levStart_spec (m ins rep del : Nat) (s cs : List Char) (hm : ins * (s.length + cs.length) < m) :
    levStart m ins cs.length (ed ins rep del [] s) = edRow ins rep del [] s cs := by
  induction cs generalizing s with
  | nil => rfl
  | cons c cs ih =>
    rw [List.length_cons, levStart, edRow, ← ih (c :: s) (by
      rw [List.length_cons] at hm ⊢
      rw [show s.length + 1 + cs.length = s.length + (cs.length + 1) by omega]; exact hm)]
    congr 2
    rw [ed, ed, List.length_cons, Nat.mod_eq_of_lt]
    · ring
    · refine lt_of_le_of_lt ?_ hm
      rw [List.length_cons, show ins * s.length + ins = ins * (s.length + 1) by ring]
      exact Nat.mul_le_mul_left _ (by omega)

theorem levRow_spec (m ins rep del : Nat) (x : Char) (r s cs : List Char)
    (hm : del * (r.length + 1) + ins * (s.length + cs.length) + rep < m) :
    ed ins rep del (x :: r) s :: levRow m ins rep del x cs (edRow ins rep del r s cs) (ed ins rep del (x :: r) s) =
      edRow ins rep del (x :: r) s cs := by
  induction cs generalizing s with
  | nil => rfl
  | cons c cs ih =>
    rw [List.length_cons] at hm
    have ih' := ih (c :: s) (by
      rw [List.length_cons, show s.length + 1 + cs.length = s.length + (cs.length + 1) by omega]; exact hm)
    obtain ⟨l, hl⟩ := edRow_cons ins rep del r (c :: s) cs
    have b1 : ed ins rep del r (c :: s) + del ≤ del * (r.length + 1) + ins * (s.length + (cs.length + 1)) := by
      have h1 := ed_bound ins rep del r (c :: s)
      have h2 : ins * (c :: s).length ≤ ins * (s.length + (cs.length + 1)) :=
        Nat.mul_le_mul_left _ (by rw [List.length_cons]; omega)
      have h3 : del * (r.length + 1) = del * r.length + del := by ring
      omega
    have b2 : ed ins rep del (x :: r) s + ins ≤ del * (r.length + 1) + ins * (s.length + (cs.length + 1)) := by
      have h1 := ed_bound ins rep del (x :: r) s
      rw [List.length_cons] at h1
      have h2 : ins * s.length + ins ≤ ins * (s.length + (cs.length + 1)) := by
        rw [show ins * s.length + ins = ins * (s.length + 1) by ring]
        exact Nat.mul_le_mul_left _ (by omega)
      omega
    have b3 : ed ins rep del r s ≤ del * (r.length + 1) + ins * (s.length + (cs.length + 1)) := by
      have h1 := ed_bound ins rep del r s
      have h2 : ins * s.length ≤ ins * (s.length + (cs.length + 1)) := Nat.mul_le_mul_left _ (by omega)
      have h3 : del * (r.length + 1) = del * r.length + del := by ring
      omega
    rw [edRow, hl, levRow]
    rw [Nat.mod_eq_of_lt (by omega : ed ins rep del r (c :: s) + del < m), Nat.mod_eq_of_lt (by omega : ed ins rep del (x :: r) s + ins < m),
      Nat.mod_eq_of_lt (by split <;> omega : (ed ins rep del r s + if x = c then 0 else rep) < m)]
    have key : (if (ed ins rep del r s + if x = c then 0 else rep) <
          (if ed ins rep del (x :: r) s + ins < ed ins rep del r (c :: s) + del then ed ins rep del (x :: r) s + ins
            else ed ins rep del r (c :: s) + del) then (ed ins rep del r s + if x = c then 0 else rep)
          else if ed ins rep del (x :: r) s + ins < ed ins rep del r (c :: s) + del then ed ins rep del (x :: r) s + ins
            else ed ins rep del r (c :: s) + del) = ed ins rep del (x :: r) (c :: s) := by
      rw [ed]
      generalize (ed ins rep del r s + if x = c then 0 else rep) = u
      generalize ed ins rep del (x :: r) s + ins = v
      generalize ed ins rep del r (c :: s) + del = w
      split <;> split <;> omega
    rw [key, ← hl, ih', edRow]

theorem levRows_spec (m ins rep del : Nat) (small large r : List Char)
    (hm : del * (r.length + large.length) + ins * small.length + rep < m) :
    levRows m ins rep del small large (edRow ins rep del r [] small) = edRow ins rep del (large.reverse ++ r) [] small := by
  induction large generalizing r with
  | nil => rfl
  | cons x xs ih =>
    rw [List.length_cons] at hm
    rw [levRows]
    obtain ⟨l, hl⟩ := edRow_cons ins rep del r [] small
    have b : del * (r.length + 1) ≤ del * (r.length + (xs.length + 1)) := Nat.mul_le_mul_left _ (by omega)
    have h0 : (List.headD (edRow ins rep del r [] small) 0 + del) % m = ed ins rep del (x :: r) [] := by
      rw [hl, List.headD_cons, ed_nil, ed_nil, List.length_cons, Nat.mod_eq_of_lt]
      · ring
      · rw [show del * r.length + del = del * (r.length + 1) by ring]; omega
    simp only [h0]
    rw [levRow_spec m ins rep del x r [] small (by rw [List.length_nil, Nat.zero_add]; omega), ih (x :: r) (by
      rw [List.length_cons, show r.length + 1 + xs.length = r.length + (xs.length + 1) by omega]; exact hm)]
    rw [List.reverse_cons, List.append_assoc]; rfl

/-- The property: the result is the least price of turning the first word into the second. -/
def EditRight : Prop :=
  ∀ (w1 w2 : List Char) (ins rep del : Nat), EditDistance ins rep del w1 w2 (levenshtein w1 w2 ins rep del false)

theorem lev_table (small large : List Char) (ins rep del m : Nat) (hi : ins < m) (hr : rep < m) (hd : del < m)
    (hm : del * large.length + ins * small.length + rep < m) :
    EditDistance ins rep del large small
      ((levRows m (ins % m) (rep % m) (del % m) small large (levStart m (ins % m) small.length 0)).getLastD 0) := by
  rw [Nat.mod_eq_of_lt hi, Nat.mod_eq_of_lt hr, Nat.mod_eq_of_lt hd]
  have h1 := levStart_spec m ins rep del [] small (by rw [List.length_nil, Nat.zero_add]; omega)
  rw [show ed ins rep del [] [] = 0 by simp [ed]] at h1
  rw [h1, levRows_spec m ins rep del small large [] (by rw [List.length_nil, Nat.zero_add]; exact hm), edRow_last]
  apply distance_reverse
  simp only [List.append_nil]
  exact ed_distance _ _ _ _ _

/-- C119: the distance, when insertion and deletion have the same price or the second word is not longer than the first, an
empty word costs its length, and the values fit into the type chosen by the length of the shorter word.  With `ignoreCase` it
is the distance of the words in upper case. -/
theorem C119_distance_partial (w1 w2 : List Char) (ins rep del : Nat) (ic : Bool) (hc : ins = del ∨ w2.length ≤ w1.length)
    (h1 : w1 = [] → ins = 1) (h2 : w2 = [] → del = 1)
    (hm : (max ins del) * (w1.length + w2.length) + rep <
      (if min w1.length w2.length < 256 then 2 ^ 8 else if min w1.length w2.length < 32767 then 2 ^ 16 else 2 ^ 32)) :
    EditDistance ins rep del (if ic then w1.map Char.toUpper else w1) (if ic then w2.map Char.toUpper else w2)
      (levenshtein w1 w2 ins rep del ic) := by
  have hm : (max ins del) * (w1.length + w2.length) + rep < levMod (min w1.length w2.length) := hm
  have la : (if ic then w1.map Char.toUpper else w1).length = w1.length := by split <;> simp
  have lb : (if ic then w2.map Char.toUpper else w2).length = w2.length := by split <;> simp
  rw [levenshtein]
  by_cases e1 : w1 = []
  · rw [if_pos e1]
    have := ed_distance ins rep del [] (if ic then w2.map Char.toUpper else w2)
    rw [ed, lb, h1 e1, Nat.one_mul] at this
    subst e1
    rw [h1 rfl]
    simpa using this
  rw [if_neg e1]
  by_cases e2 : w2 = []
  · rw [if_pos e2]
    have := ed_distance ins rep del (if ic then w1.map Char.toUpper else w1) []
    rw [ed_nil, la, h2 e2, Nat.one_mul] at this
    subst e2
    rw [h2 rfl]
    simpa using this
  rw [if_neg e2]
  simp only
  generalize (if ic then w1.map Char.toUpper else w1) = a at *
  generalize (if ic then w2.map Char.toUpper else w2) = b at *
  have p1 : 0 < w1.length := List.length_pos_iff.2 e1
  have p2 : 0 < w2.length := List.length_pos_iff.2 e2
  have hsum : ins * w1.length ≤ max ins del * w1.length ∧ ins * w2.length ≤ max ins del * w2.length ∧
      del * w1.length ≤ max ins del * w1.length ∧ del * w2.length ≤ max ins del * w2.length :=
    ⟨Nat.mul_le_mul_right _ (le_max_left _ _), Nat.mul_le_mul_right _ (le_max_left _ _),
      Nat.mul_le_mul_right _ (le_max_right _ _), Nat.mul_le_mul_right _ (le_max_right _ _)⟩
  rw [Nat.mul_add] at hm
  have hi : ins ≤ ins * w1.length := Nat.le_mul_of_pos_right _ p1
  have hd : del ≤ del * w1.length := Nat.le_mul_of_pos_right _ p1
  by_cases hw : w1.length > w2.length
  · rw [if_pos hw, if_pos hw]
    rw [show min w1.length w2.length = b.length by omega] at hm
    have e1 : del * a.length = del * w1.length := by rw [la]
    have e2 : ins * b.length = ins * w2.length := by rw [lb]
    exact lev_table b a ins rep del _ (by omega) (by omega) (by omega) (by omega)
  · rw [if_neg hw, if_neg hw]
    rw [show min w1.length w2.length = a.length by omega] at hm
    have e1 : del * b.length = del * w2.length := by rw [lb]
    have e2 : ins * a.length = ins * w1.length := by rw [la]
    have := distance_symm (lev_table a b ins rep del (levMod a.length) (by omega) (by omega) (by omega) (by omega))
    rcases hc with rfl | hc
    · exact this
    · exact distance_exchange this (by omega)

example : levenshtein ['k', 'i', 't', 't', 'e', 'n'] ['s', 'i', 't', 't', 'i', 'n', 'g'] 1 1 1 false = 3 := by decide

example : ∃ (w1 w2 : List Char) (ins rep del : Nat), ins ≠ del ∧ (ins = del ∨ w2.length ≤ w1.length) ∧ w1 ≠ [] ∧ w2 ≠ [] ∧
    (max ins del) * (w1.length + w2.length) + rep <
      (if min w1.length w2.length < 256 then 2 ^ 8 else if min w1.length w2.length < 32767 then 2 ^ 16 else 2 ^ 32) :=
  ⟨['a', 'b', 'c'], ['a', 'd'], 2, 3, 5, by decide, by decide, by decide, by decide, by decide⟩

theorem edit_length {rep : Nat} {ins del : Nat} {a b : List Char} {n : Nat} (hi : 1 ≤ ins) (h : Edit ins rep del a b n) :
    b.length ≤ a.length + n := by
  induction h <;> simp only [List.length_cons, List.length_nil] at * <;> omega

/-- Insertion is charged as deletion when the first word is the shorter one. -/
theorem not_C119_price : ¬ EditRight := by
  intro h
  have := (h ['a'] ['a', 'b'] 5 1 1).1
  have e : levenshtein ['a'] ['a', 'b'] 5 1 1 false = 1 := by decide
  rw [e] at this
  have h2 := ed_le _ _ _ _ _ _ this
  have : ed 5 1 1 ['a'] ['a', 'b'] = 5 := by simp [ed]
  omega

/-- An empty word costs the length of the other, whatever the prices. -/
theorem not_C119_empty : levenshtein [] ['a'] 5 1 1 false = 1 ∧ ¬ EditDistance 5 1 1 [] ['a'] 1 := by
  refine ⟨by decide, fun h => ?_⟩
  have h2 := ed_le _ _ _ _ _ _ h.1
  have : ed 5 1 1 [] ['a'] = 5 := by simp [ed]
  omega

/-- With all prices 1, the distance of a short word and one of 300 letters is wrong: the element type has one byte. -/
theorem not_C119_long : levenshtein ['a'] (List.replicate 300 'b') 1 1 1 false = 44 ∧
    ¬ EditDistance 1 1 1 ['a'] (List.replicate 300 'b') 44 := by
  refine ⟨by decide +kernel, fun h => ?_⟩
  have := edit_length (le_refl 1) h.1
  rw [List.length_replicate, List.length_singleton] at this
  omega

end Verif.Props
