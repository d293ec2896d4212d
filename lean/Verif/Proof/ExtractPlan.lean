import Verif.Model.Extract
import Mathlib.Algebra.BigOperators.Group.List.Basic
import Mathlib.Data.List.Perm.Basic

/-!
# The layout of the point array

`Plan` collects what the loops of `extract_pixel_parallel_4_acceleration` need to know: which record
is the nearest reported ancestor of which, which records share memory, and the own pixels of every
record in every block. All areas of the point array are computed from it, and shown to be disjoint.
-/

namespace Verif.Extract

abbrev Pt := Int × Int

structure Plan where
  N : Nat
  up : Nat → Option Nat
  sh : Nat → Bool
  own : Nat → Nat → List Pt

namespace Plan

variable (P : Plan)

/-- The pixels of the children of `j` among the first `t` records, in the order of copying. -/
def accs : Nat → Nat → List Pt
  | 0 => fun _ => []
  | t + 1 => fun j =>
    if P.up t = some j then
      accs t j ++ (P.own 0 t ++ accs t t ++ P.own 1 t ++ P.own 2 t ++ P.own 3 t)
    else accs t j

/-- All pixels of record `i`. -/
def full (i : Nat) : List Pt :=
  P.own 0 i ++ P.accs i i ++ P.own 1 i ++ P.own 2 i ++ P.own 3 i

/-- The children of `j` among the first `t` records. -/
def kids : Nat → Nat → List Nat
  | 0 => fun _ => []
  | t + 1 => fun j => if P.up t = some j then kids t j ++ [t] else kids t j

structure Ok : Prop where
  up_lt : ∀ i j, i < P.N → P.up i = some j → i < j ∧ j < P.N
  sh_up : ∀ i j, i < P.N → P.up i = some j → P.sh j = true → P.sh i = true

/-- Number of points of the child table. -/
def ci (i : Nat) : Nat := if P.sh i then 0 else (2 + (P.kids i i).length) / 2

/-- Number of points of the children in range 0. -/
def ch (i : Nat) : Nat := if P.sh i then (P.accs i i).length else 0

/-- Room of range `k` of record `i`. -/
def cap (k i : Nat) : Nat := (P.own k i).length + if k = 0 then P.ch i else 0

def blk (i : Nat) : Nat := 4 + P.ci i + P.cap 0 i

def off : Nat → Nat
  | 0 => 0
  | i + 1 => off i + P.blk i

def cum (k : Nat) : Nat → Nat
  | 0 => 0
  | i + 1 => cum k i + (P.own k i).length

def base (k : Nat) : Nat :=
  P.off P.N + (if 2 ≤ k then P.cum 1 P.N else 0) + (if 3 ≤ k then P.cum 2 P.N else 0)

/-- Start of range `k` of record `i`. -/
def sec (k i : Nat) : Nat := if k = 0 then P.off i + 4 + P.ci i else P.base k + P.cum k i

/-- Size of the whole array. -/
def size : Nat := P.off P.N + P.cum 1 P.N + P.cum 2 P.N + P.cum 3 P.N

variable {P}

theorem off_le {i j : Nat} (h : i < j) : P.off i + P.blk i ≤ P.off j := by
  induction j with
  | zero => omega
  | succ j ih =>
    rcases Nat.lt_succ_iff_lt_or_eq.mp h with h' | h'
    · have := ih h'; simp only [off]; omega
    · subst h'; simp only [off]; omega

theorem cum_le {k i j : Nat} (h : i < j) : P.cum k i + (P.own k i).length ≤ P.cum k j := by
  induction j with
  | zero => omega
  | succ j ih =>
    rcases Nat.lt_succ_iff_lt_or_eq.mp h with h' | h'
    · have := ih h'; simp only [cum]; omega
    · subst h'; simp only [cum]; omega

theorem head_head {i j : Nat} (h : i ≠ j) :
    P.off i + 4 + P.ci i ≤ P.off j ∨ P.off j + 4 + P.ci j ≤ P.off i := by
  rcases Nat.lt_or_gt_of_ne h with h | h
  · have := P.off_le h; simp only [blk] at this; omega
  · have := P.off_le h; simp only [blk] at this; omega

theorem head_lt {i : Nat} (hi : i < P.N) : P.off i + 4 + P.ci i ≤ P.off P.N := by
  have := P.off_le hi; simp only [blk] at this; omega

theorem off_N_le_base (k : Nat) : P.off P.N ≤ P.base k := by
  simp only [base]; omega

theorem sec_lt {k i : Nat} (hi : i < P.N) (hk : k < 4) : P.sec k i + P.cap k i ≤ P.size := by
  have h0 := P.off_le hi
  simp only [blk] at h0
  simp only [sec, size]
  by_cases h : k = 0
  · subst h; simp only [if_true]; omega
  · have h1 := P.cum_le (k := k) hi
    have hc : P.cap k i = (P.own k i).length := by simp [cap, h]
    rw [if_neg h, hc]
    simp only [base]
    have : k = 1 ∨ k = 2 ∨ k = 3 := by omega
    rcases this with rfl | rfl | rfl <;> simp <;> omega

theorem head_sec {i j k : Nat} (hi : i < P.N) (hj : j < P.N) :
    P.off i + 4 + P.ci i ≤ P.sec k j ∨ P.sec k j + P.cap k j ≤ P.off i := by
  by_cases h : k = 0
  · subst h
    simp only [sec, if_true]
    rcases Nat.lt_trichotomy i j with hh | hh | hh
    · have := P.off_le hh; simp only [blk] at this; omega
    · subst hh; omega
    · have := P.off_le hh; simp only [blk] at this; omega
  · left
    simp only [sec, if_neg h]
    have := P.head_lt hi
    have := P.off_N_le_base k
    omega

theorem base_mono {k l : Nat} (h : k < l) (hk : 0 < k) (hl : l < 4) :
    P.base k + P.cum k P.N ≤ P.base l := by
  have : (k = 1 ∧ l = 2) ∨ (k = 1 ∧ l = 3) ∨ (k = 2 ∧ l = 3) := by omega
  simp only [base]
  rcases this with ⟨rfl, rfl⟩ | ⟨rfl, rfl⟩ | ⟨rfl, rfl⟩ <;> simp <;> omega

private theorem sec_sec_lt {i j k l : Nat} (hi : i < P.N) (hj : j < P.N) (hl : l < 4)
    (h : k < l) : P.sec k i + P.cap k i ≤ P.sec l j := by
  have hl0 : l ≠ 0 := by omega
  by_cases hk : k = 0
  · subst hk
    have h1 := P.off_le hi
    have h2 := P.off_N_le_base l
    simp only [blk] at h1
    simp only [sec, if_true, if_neg hl0]
    omega
  · have h1 := P.cum_le (k := k) hi
    have h2 := P.base_mono h (by omega) hl
    have hc : P.cap k i = (P.own k i).length := by simp [cap, hk]
    simp only [sec, if_neg hk, if_neg hl0, hc]
    omega

theorem sec_sec {i j k l : Nat} (hi : i < P.N) (hj : j < P.N) (hk : k < 4) (hl : l < 4)
    (h : ¬ (k = l ∧ i = j)) :
    P.sec k i + P.cap k i ≤ P.sec l j ∨ P.sec l j + P.cap l j ≤ P.sec k i := by
  rcases Nat.lt_trichotomy k l with hkl | hkl | hkl
  · exact Or.inl (sec_sec_lt hi hj hl hkl)
  · subst hkl
    have hij : i ≠ j := fun e => h ⟨rfl, e⟩
    by_cases hk0 : k = 0
    · subst hk0
      simp only [sec, if_true]
      rcases Nat.lt_or_gt_of_ne hij with hh | hh
      · have := P.off_le hh; simp only [blk] at this; omega
      · have := P.off_le hh; simp only [blk] at this; omega
    · have hc : ∀ x, P.cap k x = (P.own k x).length := fun x => by simp [cap, hk0]
      simp only [sec, if_neg hk0, hc]
      rcases Nat.lt_or_gt_of_ne hij with hh | hh
      · have := P.cum_le (k := k) hh; omega
      · have := P.cum_le (k := k) hh; omega
  · exact Or.inr (sec_sec_lt hj hi hk hkl)

theorem head_size {i : Nat} (hi : i < P.N) : P.off i + 4 + P.ci i ≤ P.size := by
  have := P.head_lt hi
  simp only [size]; omega

theorem off_lt_sec {i : Nat} : P.off i + 4 + P.ci i = P.sec 0 i := by simp [sec]

/-! ### Children -/

theorem accs_up (ok : P.Ok) {t i : Nat} (h : i ≤ t) (ht : t ≤ P.N) : P.accs t i = P.accs i i := by
  induction t with
  | zero => obtain rfl : i = 0 := by omega
            rfl
  | succ t ih =>
    rcases Nat.lt_or_ge t i with h' | h'
    · obtain rfl : i = t + 1 := by omega
      rfl
    · rw [← ih h' (by omega)]
      simp only [accs]
      rw [if_neg]
      intro e
      have := (ok.up_lt t i (by omega) e).1
      omega

theorem kids_up (ok : P.Ok) {t i : Nat} (h : i ≤ t) (ht : t ≤ P.N) : P.kids t i = P.kids i i := by
  induction t with
  | zero => obtain rfl : i = 0 := by omega
            rfl
  | succ t ih =>
    rcases Nat.lt_or_ge t i with h' | h'
    · obtain rfl : i = t + 1 := by omega
      rfl
    · rw [← ih h' (by omega)]
      simp only [kids]
      rw [if_neg]
      intro e
      have := (ok.up_lt t i (by omega) e).1
      omega

theorem accs_mono {t u : Nat} (h : t ≤ u) (i : Nat) :
    (P.accs t i).length ≤ (P.accs u i).length := by
  induction u with
  | zero => obtain rfl : t = 0 := by omega
            rfl
  | succ u ih =>
    rcases Nat.lt_or_ge u t with h' | h'
    · obtain rfl : t = u + 1 := by omega
      rfl
    · refine le_trans (ih h') ?_
      simp only [accs]
      split
      · simp
      · exact le_rfl

theorem kids_mono {t u : Nat} (h : t ≤ u) (i : Nat) :
    (P.kids t i).length ≤ (P.kids u i).length := by
  induction u with
  | zero => obtain rfl : t = 0 := by omega
            rfl
  | succ u ih =>
    rcases Nat.lt_or_ge u t with h' | h'
    · obtain rfl : t = u + 1 := by omega
      rfl
    · refine le_trans (ih h') ?_
      simp only [kids]
      split
      · simp
      · exact le_rfl

theorem accs_succ {t j : Nat} (h : P.up t = some j) : P.accs (t + 1) j = P.accs t j ++ P.full t := by
  simp [accs, full, h]

theorem accs_succ_ne {t j : Nat} (h : P.up t ≠ some j) : P.accs (t + 1) j = P.accs t j := by
  simp [accs, h]

theorem kids_succ {t j : Nat} (h : P.up t = some j) : P.kids (t + 1) j = P.kids t j ++ [t] := by
  simp [kids, h]

theorem kids_succ_ne {t j : Nat} (h : P.up t ≠ some j) : P.kids (t + 1) j = P.kids t j := by
  simp [kids, h]

theorem mem_kids {t j c : Nat} : c ∈ P.kids t j ↔ c < t ∧ P.up c = some j := by
  induction t with
  | zero => simp [kids]
  | succ t ih =>
    by_cases h : P.up t = some j
    · rw [kids_succ h, List.mem_append, ih]
      simp only [List.mem_singleton]
      constructor
      · rintro (⟨a, b⟩ | rfl)
        · exact ⟨by omega, b⟩
        · exact ⟨by omega, h⟩
      · rintro ⟨a, b⟩
        by_cases e : c = t
        · exact Or.inr e
        · exact Or.inl ⟨by omega, b⟩
    · rw [kids_succ_ne h, ih]
      constructor
      · rintro ⟨a, b⟩; exact ⟨by omega, b⟩
      · rintro ⟨a, b⟩
        refine ⟨?_, b⟩
        rcases Nat.lt_succ_iff_lt_or_eq.mp a with e | e
        · exact e
        · subst e; exact absurd b h

theorem accs_eq (t j : Nat) : P.accs t j = (P.kids t j).flatMap P.full := by
  induction t with
  | zero => simp [accs, kids]
  | succ t ih =>
    by_cases h : P.up t = some j
    · rw [accs_succ h, kids_succ h, ih]; simp
    · rw [accs_succ_ne h, kids_succ_ne h, ih]

end Plan

end Verif.Extract
