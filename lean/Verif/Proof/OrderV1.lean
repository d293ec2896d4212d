import Verif.Model.MergeV1
import Mathlib.Data.List.Perm.Subperm
import Mathlib.Data.List.Nodup

/-!
# Fast MSER V1: the order of joins is a permutation
-/

namespace Verif.V1

open Function (update)

theorem grayNumber_succ (key : Nat → Nat) (n g : Nat) :
    grayNumber key (n + 1) g = grayNumber key n g + if key n = g then 1 else 0 := by
  show update (grayNumber key n) (key n) (grayNumber key n (key n) + 1) g = _
  by_cases e : key n = g
  · subst e; rw [Function.update_self, if_pos rfl]
  · rw [Function.update_of_ne (fun k => e k.symm), if_neg e]; rfl

theorem grayNumber_mono (key : Nat → Nat) {i j : Nat} (h : i ≤ j) (g : Nat) : grayNumber key i g ≤ grayNumber key j g := by
  induction h with
  | refl => exact le_refl _
  | step _ ih => rw [grayNumber_succ]; omega

theorem grayNumber_lt (key : Nat → Nat) {i j : Nat} (h : i < j) : grayNumber key i (key i) < grayNumber key j (key i) := by
  have h1 := grayNumber_mono key (show i + 1 ≤ j by omega) (key i)
  rw [grayNumber_succ, if_pos rfl] at h1
  omega

theorem grayIntegral_mono (num : Nat → Nat) {a b : Nat} (h : a ≤ b) : grayIntegral num a ≤ grayIntegral num b := by
  induction h with
  | refl => exact le_refl _
  | step _ ih => exact le_trans ih (by show _ ≤ grayIntegral num _ + num _; omega)

theorem grayIntegral_total (key : Nat → Nat) (G : Nat) : ∀ n, (∀ i < n, key i < G) → grayIntegral (grayNumber key n) G = n := by
  have key1 : ∀ n G, grayIntegral (grayNumber key (n + 1)) G = grayIntegral (grayNumber key n) G + if key n < G then 1 else 0 := by
    intro n G
    induction G with
    | zero => rfl
    | succ g ih =>
      show grayIntegral (grayNumber key (n + 1)) g + grayNumber key (n + 1) g = grayIntegral (grayNumber key n) g + grayNumber key n g + _
      rw [ih, grayNumber_succ]
      by_cases h1 : key n < g
      · rw [if_pos h1, if_neg (by omega), if_pos (by omega)]; omega
      · rw [if_neg h1]
        by_cases h2 : key n = g
        · rw [if_pos h2, if_pos (by omega)]; omega
        · rw [if_neg h2, if_neg (by omega)]; omega
  intro n
  induction n with
  | zero =>
    intro _
    have : ∀ G, grayIntegral (grayNumber key 0) G = 0 := by
      intro G
      induction G with
      | zero => rfl
      | succ g ih => show grayIntegral (grayNumber key 0) g + 0 = 0; rw [ih]
    exact this G
  | succ n ih =>
    intro h
    rw [key1, ih (fun i hi => h i (by omega)), if_pos (h n (by omega))]

/-- Where row `i` is put. -/
def placeOf (key : Nat → Nat) (n i : Nat) : Nat := grayIntegral (grayNumber key n) (key i) + grayNumber key i (key i)

theorem placeOf_lt {key : Nat → Nat} {n i : Nat} (hk : ∀ i < n, key i < 256) (hi : i < n) : placeOf key n i < n := by
  have h1 := grayNumber_lt key hi
  have h2 := grayIntegral_mono (grayNumber key n) (show key i + 1 ≤ 256 from hk i hi)
  have h3 := grayIntegral_total key 256 n hk
  have h4 : grayIntegral (grayNumber key n) (key i + 1) =
    grayIntegral (grayNumber key n) (key i) + grayNumber key n (key i) := rfl
  unfold placeOf; omega

theorem placeOf_lt_of_key {key : Nat → Nat} {n i j : Nat} (hi : i < n) (h : key i < key j) : placeOf key n i < placeOf key n j := by
  have h1 := grayNumber_lt key hi
  have h2 := grayIntegral_mono (grayNumber key n) (show key i + 1 ≤ key j from h)
  have h4 : grayIntegral (grayNumber key n) (key i + 1) =
    grayIntegral (grayNumber key n) (key i) + grayNumber key n (key i) := rfl
  unfold placeOf; omega

theorem placeOf_ne {key : Nat → Nat} {n i j : Nat} (hi : i < n) (hj : j < n) (h : i < j) : placeOf key n i ≠ placeOf key n j := by
  rcases Nat.lt_trichotomy (key i) (key j) with e | e | e
  · have := placeOf_lt_of_key hi e; omega
  · have := grayNumber_lt key h
    unfold placeOf; rw [← e]; omega
  · have := placeOf_lt_of_key hj e; omega

theorem placeAll_spec {key : Nat → Nat} {n : Nat} : ∀ m ≤ n,
    (∀ g, (placeAll key (grayIntegral (grayNumber key n)) m).2 g = grayIntegral (grayNumber key n) g + grayNumber key m g) ∧
    ∀ i < m, (placeAll key (grayIntegral (grayNumber key n)) m).1 (placeOf key n i) = i := by
  intro m
  induction m with
  | zero => intro _; exact ⟨fun g => rfl, fun i hi => absurd hi (by omega)⟩
  | succ m ih =>
    intro hm
    obtain ⟨h1, h2⟩ := ih (by omega)
    rw [placeAll]
    dsimp only
    constructor
    · intro g
      rw [grayNumber_succ]
      by_cases e : key m = g
      · subst e; rw [Function.update_self, h1, if_pos rfl]; omega
      · rw [Function.update_of_ne (fun k => e k.symm), h1, if_neg e]; omega
    · intro i hi
      have e : (placeAll key (grayIntegral (grayNumber key n)) m).2 (key m) = placeOf key n m := h1 (key m)
      rw [e]
      by_cases k : i = m
      · subst k; rw [Function.update_self]
      · rw [Function.update_of_ne (placeOf_ne (by omega) (by omega) (by omega)), h2 i (by omega)]

/-- The order contains every row once. -/
theorem orderIndexes_perm {key : Nat → Nat} {n : Nat} (hk : ∀ i < n, key i < 256) : (orderIndexes key n).Perm (List.range n) := by
  symm
  refine List.Subperm.perm_of_length_le (List.subperm_of_subset List.nodup_range ?_) (by simp [orderIndexes])
  intro i hi
  rw [List.mem_range] at hi
  exact List.mem_map.2 ⟨placeOf key n i, List.mem_range.2 (placeOf_lt hk hi), (placeAll_spec n (le_refl _)).2 i hi⟩

theorem keyLR_lt (img : Nat → Nat → Nat) (gm x row : Nat) : keyLR img gm x row < 256 := by
  have h : ∀ a b, byteAt img a b < 256 := fun a b => Nat.mod_lt _ (by omega)
  unfold keyLR
  repeat' split
  all_goals exact h _ _

theorem keyUD_lt (img : Nat → Nat → Nat) (gm y col : Nat) : keyUD img gm y col < 256 := by
  have h : ∀ a b, byteAt img a b < 256 := fun a b => Nat.mod_lt _ (by omega)
  unfold keyUD
  repeat' split
  all_goals exact h _ _

end Verif.V1
