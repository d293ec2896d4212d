import Verif.Props.MatShape

/-!
# C113: from the address of an element back to its index
-/

namespace Verif.Props

open Verif.Spec Verif.Mat

/-- What the dimensions that come after dimension `k` with absolute step `a` can add to an address at most: those with a
smaller step, and those with the same step further back. -/
def laterSum : List Dim → Nat → Int → Nat → Int
  | d :: ds, j, a, k =>
    (if (d.step.natAbs : Int) < a ∨ ((d.step.natAbs : Int) = a ∧ k < j) then (d.size - 1) * d.step.natAbs else 0) +
      laterSum ds (j + 1) a k
  | [], _, _, _ => 0

/-- Within one step of a dimension there is room for all dimensions with smaller steps. -/
def MatNested (m : Mat) : Prop :=
  ∀ k d, m.dims[k]? = some d → d.step ≠ 0 ∧ laterSum m.dims 0 d.step.natAbs k < d.step.natAbs

/-- What `get_index` is for. -/
def IndexFound : Prop :=
  ∀ (m : Mat), m.dims ≠ [] → 0 < m.chan → (∀ n ∈ matSizes m, 1 ≤ n) → MatApart m →
    ∀ idx, MatIndex (matSizes m) idx → getIndex m (ptr m idx 0) = some idx

theorem pick_spec (ds : List Dim) (fs : List Bool) (i : Nat) (b : Int × Option Nat) (h : fs.length = ds.length) :
    (pickLoop ds fs i b = b ∧ ∀ (j : Nat) (e : Dim), ds[j]? = some e → fs[j]? = some false → (e.step.natAbs : Int) ≤ b.1) ∨
    ∃ (k : Nat) (d : Dim), ds[k]? = some d ∧ fs[k]? = some false ∧ pickLoop ds fs i b = ((d.step.natAbs : Int), some (i + k)) ∧
      b.1 < d.step.natAbs ∧ ∀ (j : Nat) (e : Dim), ds[j]? = some e → fs[j]? = some false →
        (e.step.natAbs ≤ d.step.natAbs ∧ (j < k → e.step.natAbs < d.step.natAbs)) := by
  induction ds generalizing fs i b with
  | nil =>
    left
    cases fs <;> simp [pickLoop]
  | cons d ds ih =>
    cases fs with
    | nil => simp at h
    | cons f fs =>
      have hl : fs.length = ds.length := by simpa using h
      rw [pickLoop]
      by_cases hc : f = false ∧ b.1 < (d.step.natAbs : Int)
      · rw [if_pos hc]
        obtain ⟨rfl, hlt⟩ := hc
        right
        rcases ih fs (i + 1) ((d.step.natAbs : Int), some i) hl with ⟨e, hall⟩ | ⟨k, d', hk, hf, e, hb, hall⟩
        · refine ⟨0, d, by simp, by simp, by rw [e]; simp, hlt, ?_⟩
          intro j e' hj hfj
          cases j with
          | zero => simp only [List.getElem?_cons_zero, Option.some.injEq] at hj; subst hj; omega
          | succ j =>
            have := hall j e' (by simpa using hj) (by simpa using hfj)
            simp only at this
            omega
        · simp only at hb
          refine ⟨k + 1, d', by simpa using hk, by simpa using hf, by rw [e]; simp; omega, by omega, ?_⟩
          intro j e' hj hfj
          cases j with
          | zero => simp only [List.getElem?_cons_zero, Option.some.injEq] at hj; subst hj; omega
          | succ j =>
            have := hall j e' (by simpa using hj) (by simpa using hfj)
            omega
      · rw [if_neg hc]
        rcases ih fs (i + 1) b hl with ⟨e, hall⟩ | ⟨k, d', hk, hf, e, hb, hall⟩
        · left
          refine ⟨e, ?_⟩
          intro j e' hj hfj
          cases j with
          | zero =>
            simp only [List.getElem?_cons_zero, Option.some.injEq] at hj hfj
            subst hj
            by_contra hh
            exact hc ⟨hfj, by omega⟩
          | succ j => exact hall j e' (by simpa using hj) (by simpa using hfj)
        · right
          refine ⟨k + 1, d', by simpa using hk, by simpa using hf, by rw [e]; simp; omega, hb, ?_⟩
          intro j e' hj hfj
          cases j with
          | zero =>
            simp only [List.getElem?_cons_zero, Option.some.injEq] at hj hfj
            subst hj
            have : ¬ b.1 < (d.step.natAbs : Int) := fun hh => hc ⟨hfj, hh⟩
            omega
          | succ j =>
            have := hall j e' (by simpa using hj) (by simpa using hfj)
            omega

/-- What the dimensions without a flag contribute to an address. -/
def openSum : List Dim → List Bool → List Int → Int
  | d :: ds, f :: fs, i :: is => (if f then 0 else i * d.step) + openSum ds fs is
  | _, _, _ => 0

theorem openSum_set (ds : List Dim) (fs : List Bool) (is : List Int) (k : Nat) (d : Dim) (i : Int) (hd : ds[k]? = some d)
    (hf : fs[k]? = some false) (hi : is[k]? = some i) : openSum ds fs is = i * d.step + openSum ds (fs.set k true) is := by
  induction ds generalizing fs is k with
  | nil => simp at hd
  | cons e ds ih =>
    cases fs with
    | nil => simp at hf
    | cons f fs =>
      cases is with
      | nil => simp at hi
      | cons i' is =>
        cases k with
        | zero =>
          simp only [List.getElem?_cons_zero, Option.some.injEq] at hd hf hi
          subst hd hf hi
          simp [openSum]
        | succ k =>
          rw [List.set_cons_succ, openSum, openSum, ih fs is k (by simpa using hd) (by simpa using hf) (by simpa using hi)]
          ring

theorem openSum_none (ds : List Dim) (is : List Int) (h : ds.length = is.length) :
    openSum ds (ds.map fun _ => false) is = off ds is := by
  induction ds generalizing is with
  | nil => cases is <;> simp [openSum, off]
  | cons d ds ih =>
    cases is with
    | nil => simp at h
    | cons i is => rw [List.map_cons, openSum, off, ih is (by simpa using h)]; simp

theorem laterSum_nonneg {ds : List Dim} (h1 : ∀ d ∈ ds, 1 ≤ d.size) (j : Nat) (a : Int) (k : Nat) : 0 ≤ laterSum ds j a k := by
  induction ds generalizing j with
  | nil => simp [laterSum]
  | cons d l ih =>
    rw [laterSum]
    have h2 := ih (fun d hd => h1 d (by simp [hd])) (j + 1)
    have h3 : 0 ≤ (d.size - 1) * (d.step.natAbs : Int) := mul_nonneg (by have := h1 d (by simp); omega) (by omega)
    split <;> omega

/-- The bound on what is left; `g` is the common sign of the steps. -/
theorem openSum_bound (g : Int) (ds : List Dim) (fs : List Bool) (is : List Int) (j : Nat) (a : Int) (k : Nat)
    (hg : ∀ d ∈ ds, g * d.step = d.step.natAbs) (h1 : ∀ d ∈ ds, 1 ≤ d.size) (hi : MatIndex (ds.map Dim.size) is)
    (hf : ∀ (t : Nat) (d : Dim), ds[t]? = some d → fs[t]? = some false →
      (d.step.natAbs : Int) < a ∨ ((d.step.natAbs : Int) = a ∧ k < j + t)) :
    0 ≤ g * openSum ds fs is ∧ g * openSum ds fs is ≤ laterSum ds j a k := by
  induction ds generalizing fs is j with
  | nil => simp [openSum, laterSum]
  | cons d ds ih =>
    have hlater : 0 ≤ laterSum (d :: ds) j a k := laterSum_nonneg h1 j a k
    cases fs with
    | nil => simp [openSum, hlater]
    | cons f fs =>
      cases is with
      | nil => simp [openSum, hlater]
      | cons i is =>
        rw [List.map_cons, matIndex_cons] at hi
        have h2 := ih fs is (j + 1) (fun d hd => hg d (by simp [hd])) (fun d hd => h1 d (by simp [hd])) hi.2 (by
          intro t d' hd' hf'
          have := hf (t + 1) d' (by simpa using hd') (by simpa using hf')
          omega)
        have h3 : 0 ≤ (d.size - 1) * (d.step.natAbs : Int) := mul_nonneg (by have := h1 d (by simp); omega) (by omega)
        rw [openSum, laterSum, mul_add]
        cases f with
        | true =>
          rw [if_pos rfl, mul_zero, zero_add]
          split <;> omega
        | false =>
          rw [if_neg (by simp), if_pos (by have := hf 0 d (by simp) (by simp); simpa using this)]
          have e : g * (i * d.step) = i * d.step.natAbs := by rw [← hg d (by simp)]; ring
          have h4 : 0 ≤ i * (d.step.natAbs : Int) := mul_nonneg hi.1.1 (by omega)
          have h5 : i * (d.step.natAbs : Int) ≤ (d.size - 1) * d.step.natAbs :=
            mul_le_mul_of_nonneg_right (by omega) (by omega)
          rw [e]
          omega

/-- The division that finds one index. -/
theorem quotient (g s i r : Int) (hg : g * s = s.natAbs) (hg2 : g * g = 1) (hs : s ≠ 0) (hi : 0 ≤ i) (h0 : 0 ≤ g * r)
    (h1 : g * r < s.natAbs) : (i * s + r).tdiv s = i := by
  have hgg : g = 1 ∨ g = -1 := by
    have : (g - 1) * (g + 1) = 0 := by ring_nf; rw [pow_two]; omega
    rcases mul_eq_zero.1 this with h | h <;> omega
  rcases hgg with rfl | rfl
  · have hsp : 0 < s := by omega
    rw [Int.tdiv_eq_ediv_of_nonneg (add_nonneg (mul_nonneg hi hsp.le) (by omega)), add_comm, Int.add_mul_ediv_right _ _ hs,
      Int.ediv_eq_zero_of_lt (by omega) (by omega), zero_add]
  · have hsp : 0 < -s := by omega
    have : (i * s + r).tdiv s = (i * -s + -r).tdiv (-s) := by
      rw [show i * -s + -r = -(i * s + r) by ring, Int.neg_tdiv_neg]
    rw [this, Int.tdiv_eq_ediv_of_nonneg (add_nonneg (mul_nonneg hi hsp.le) (by omega)), add_comm,
      Int.add_mul_ediv_right _ _ (by omega), Int.ediv_eq_zero_of_lt (by omega) (by omega), zero_add]

theorem indexLoop_spec (g : Int) (hg2 : g * g = 1) (dims : List Dim) (is : List Int)
    (hg : ∀ d ∈ dims, g * d.step = d.step.natAbs) (h1 : ∀ d ∈ dims, 1 ≤ d.size) (hi : MatIndex (dims.map Dim.size) is)
    (hn : ∀ (k : Nat) (d : Dim), dims[k]? = some d → d.step ≠ 0 ∧ laterSum dims 0 d.step.natAbs k < d.step.natAbs)
    (n : Nat) (fs : List Bool) (acc : List Int) (hfl : fs.length = dims.length) (hal : acc.length = is.length)
    (hcount : fs.count false = n) (hacc : ∀ j : Nat, fs[j]? = some true → acc[j]? = is[j]?) :
    indexLoop dims n fs acc (openSum dims fs is) = some is := by
  have hil : is.length = dims.length := by rw [← MatIndex.length hi, List.length_map]
  induction n generalizing fs acc with
  | zero =>
    rw [indexLoop]
    congr 1
    apply List.ext_getElem?
    intro j
    by_cases hj : j < fs.length
    · apply hacc
      rw [List.getElem?_eq_getElem hj]
      congr 1
      by_contra hh
      have : false ∈ fs := by
        rw [Bool.not_eq_true] at hh
        rw [← hh]; exact List.getElem_mem hj
      exact (List.count_eq_zero.1 hcount) this
    · rw [List.getElem?_eq_none (by omega), List.getElem?_eq_none (by omega)]
  | succ n ih =>
    have hmem : false ∈ fs := List.count_pos_iff.1 (by omega)
    obtain ⟨t, ht, hft⟩ := List.getElem_of_mem hmem
    rw [indexLoop]
    rcases pick_spec dims fs 0 (0, none) hfl with ⟨_, hall⟩ | ⟨k, d, hk, hf, e, _, hall⟩
    · exfalso
      have htd : t < dims.length := by omega
      have := hall t dims[t] (List.getElem?_eq_getElem htd) (by rw [List.getElem?_eq_getElem ht, hft])
      have := (hn t _ (List.getElem?_eq_getElem htd)).1
      simp only at *
      omega
    · rw [e, zero_add]
      simp only [hk]
      have hkl := some_lt hk
      have hik : is[k]? = some is[k] := List.getElem?_eq_getElem (by omega)
      rw [openSum_set dims fs is k d is[k] hk hf hik]
      have hb := openSum_bound g dims (fs.set k true) is 0 d.step.natAbs k hg h1 hi (by
        intro t d' hd' hf'
        rw [List.getElem?_set] at hf'
        split at hf'
        · split at hf' <;> simp at hf'
        · rename_i hne
          have := hall t d' hd' hf'
          omega)
      have hnk := hn k d hk
      have hi0 : 0 ≤ is[k] := by
        exact (matIndex_get hi k d.size is[k] (by rw [List.getElem?_map, hk]; rfl) hik).1
      rw [quotient g d.step is[k] _ (hg d (List.mem_of_getElem? hk)) hg2 hnk.1 hi0 hb.1 (by omega), add_sub_cancel_left]
      apply ih
      · rw [List.length_set]; exact hfl
      · rw [List.length_set]; exact hal
      · have hkf : k < fs.length := by omega
        have hfk : fs[k] = false := by rw [List.getElem?_eq_getElem hkf] at hf; exact Option.some.inj hf
        rw [List.count_set hkf, hfk, hcount]
        simp
      · intro j hj
        rw [List.getElem?_set] at hj ⊢
        split
        · rename_i hkj
          subst hkj
          rw [if_pos (by omega), hik]
        · rename_i hkj
          rw [if_neg hkj] at hj
          exact hacc j hj

theorem posCount_spec (ds : List Dim) (k : Nat) :
    (posCount ds k = 0 ↔ k = 0 ∧ ∀ d ∈ ds, ¬ 0 < d.step) ∧ (posCount ds k = k + ds.length ↔ ∀ d ∈ ds, 0 < d.step) ∧
      posCount ds k ≤ k + ds.length := by
  induction ds generalizing k with
  | nil => simp [posCount]
  | cons d ds ih =>
    rw [posCount]
    simp only [List.forall_mem_cons, List.length_cons]
    split
    · rename_i h
      obtain ⟨a, b, c⟩ := ih (k + 1)
      refine ⟨?_, ?_, by omega⟩
      · rw [a]; constructor <;> rintro ⟨x, y⟩ <;> first | omega | exact absurd h y.1
      · rw [show k + (ds.length + 1) = k + 1 + ds.length by omega, b]
        exact ⟨fun x => ⟨h, x⟩, fun x => x.2⟩
    · rename_i h
      split
      · refine ⟨⟨fun x => by omega, fun x => by omega⟩, ⟨fun x => by omega, fun x => absurd x.1 h⟩, by omega⟩
      · obtain ⟨a, b, c⟩ := ih k
        refine ⟨?_, ⟨fun x => by omega, fun x => absurd x.1 h⟩, by omega⟩
        rw [a]
        exact ⟨fun x => ⟨x.1, h, x.2⟩, fun x => ⟨x.1, x.2.2⟩⟩

theorem indexSame_spec (m : Mat) (idx : List Int) (h1 : ∀ n ∈ matSizes m, 1 ≤ n) (hn : MatNested m)
    (hi : MatIndex (matSizes m) idx) (hs : sameSign m = true) : indexSame m (ptr m idx 0) = some idx := by
  have hil : idx.length = m.dims.length := by rw [← MatIndex.length hi, matSizes, List.length_map]
  have hsg : ∃ g : Int, g * g = 1 ∧ ∀ d ∈ m.dims, g * d.step = d.step.natAbs := by
    rw [sameSign, decide_eq_true_eq] at hs
    obtain ⟨a, b, _⟩ := posCount_spec m.dims 0
    rcases hs with h | h
    · refine ⟨-1, by decide, fun d hd => ?_⟩
      have := (a.1 h).2 d hd
      omega
    · refine ⟨1, by decide, fun d hd => ?_⟩
      have := (b.1 (by omega)) d hd
      omega
  obtain ⟨g, hg2, hg⟩ := hsg
  have := indexLoop_spec g hg2 m.dims idx hg (fun d hd => h1 _ (List.mem_map.2 ⟨d, hd, rfl⟩)) hi hn m.dims.length
    (m.dims.map fun _ => false) (m.dims.map fun _ => -1) (by simp) (by simp [hil])
    (by rw [List.map_const', List.count_replicate_self]) (by
      intro j hj
      rw [List.map_const', List.getElem?_replicate] at hj
      split at hj <;> simp at hj)
  rw [openSum_none _ _ (by omega)] at this
  rw [indexSame, ptr_off]
  simp only [zero_mul, add_zero]
  rw [add_sub_cancel_left]
  exact this

theorem flipLoop_abs (ds : List Dim) (p : Int) :
    (flipLoop ds (ds.map fun d => !decide (0 < d.step)) p).2 = ds.map fun (d : Dim) => (⟨d.size, d.step.natAbs⟩ : Dim) := by
  induction ds generalizing p with
  | nil => simp [flipLoop]
  | cons d ds ih =>
    rw [List.map_cons, List.map_cons]
    by_cases h : 0 < d.step
    · rw [decide_eq_true h, Bool.not_true, flipLoop]
      simp only
      rw [ih, show (d.step.natAbs : Int) = d.step by omega]
    · rw [decide_eq_false h, Bool.not_false, flipLoop]
      simp only
      rw [ih, show (d.step.natAbs : Int) = -d.step by omega]

theorem laterSum_abs (ds : List Dim) (j : Nat) (a : Int) (k : Nat) :
    laterSum (ds.map fun (d : Dim) => (⟨d.size, d.step.natAbs⟩ : Dim)) j a k = laterSum ds j a k := by
  induction ds generalizing j with
  | nil => rfl
  | cons d ds ih => rw [List.map_cons, laterSum, laterSum, ih]; simp

theorem turn_twice (ds : List Dim) (idx : List Int) (h0 : ∀ d ∈ ds, d.step ≠ 0) (h : idx.length = ds.length) :
    turnBack ds (ds.map fun (d : Dim) => (⟨d.size, d.step.natAbs⟩ : Dim))
      (turnFlags (ds.map Dim.size) (ds.map fun d => !decide (0 < d.step)) idx) = idx := by
  induction ds generalizing idx with
  | nil => cases idx <;> simp_all [turnBack, turnFlags]
  | cons d ds ih =>
    cases idx with
    | nil => simp at h
    | cons i idx =>
      simp only [List.map_cons, turnFlags, turnBack]
      rw [ih idx (fun d hd => h0 d (by simp [hd])) (by simpa using h)]
      have := h0 d (by simp)
      by_cases hp : 0 < d.step
      · rw [if_neg (by omega), decide_eq_true hp]; simp
      · rw [if_pos (by omega), decide_eq_false hp]; simp

theorem turnFlags_twice (ns : List Int) (fs : List Bool) (idx : List Int) (h : fs.length = ns.length) (hi : idx.length = ns.length) :
    turnFlags ns fs (turnFlags ns fs idx) = idx := by
  induction ns generalizing fs idx with
  | nil => cases idx <;> simp_all [turnFlags]
  | cons n ns ih =>
    cases fs with
    | nil => simp at h
    | cons f fs =>
      cases idx with
      | nil => simp at hi
      | cons i idx =>
        rw [turnFlags, turnFlags, ih fs idx (by simpa using h) (by simpa using hi)]
        cases f <;> simp

/-- C113: `get_index` of the address of an element is the index of the element, in any array in which smaller steps fit
into larger ones, with any dimensions counted backwards. -/
theorem C113_index_partial (m : Mat) (idx : List Int) (h1 : ∀ n ∈ matSizes m, 1 ≤ n) (hn : MatNested m)
    (hi : MatIndex (matSizes m) idx) : getIndex m (ptr m idx 0) = some idx := by
  have hil : idx.length = m.dims.length := by rw [← MatIndex.length hi, matSizes, List.length_map]
  rw [getIndex]
  by_cases hs : sameSign m = true
  · rw [if_pos hs]; exact indexSame_spec m idx h1 hn hi hs
  · rw [if_neg hs]
    obtain ⟨v, hv, hsz, hview⟩ := C99_flags m (m.dims.map fun (d : Dim) => !decide (0 < d.step)) (by simp)
    have hvd : v.dims = m.dims.map fun (d : Dim) => (⟨d.size, d.step.natAbs⟩ : Dim) := by
      rw [flipFlags, if_neg (by simp)] at hv
      rw [← Option.some.inj hv]
      exact flipLoop_abs m.dims m.data
    rw [hv]
    have h0 : ∀ d ∈ m.dims, d.step ≠ 0 := by
      intro d hd
      obtain ⟨k, hk⟩ := List.getElem?_of_mem hd
      exact (hn k d hk).1
    have hvs : sameSign v = true := by
      rw [sameSign, decide_eq_true_eq]
      right
      have := (posCount_spec v.dims 0).2.1
      rw [zero_add] at this
      rw [this, hvd]
      intro d hd
      obtain ⟨e, he, rfl⟩ := List.mem_map.1 hd
      have := h0 e he
      simp only
      omega
    have hvn : MatNested v := by
      intro k d hk
      rw [hvd, List.getElem?_map] at hk
      obtain ⟨e, he, rfl⟩ := Option.map_eq_some_iff.1 hk
      have := hn k e he
      rw [hvd]
      simp only
      rw [laterSum_abs, Int.natAbs_natCast]
      exact ⟨by omega, this.2⟩
    simp only
    rw [if_pos hvs]
    have hti : MatIndex (matSizes v) (turnFlags (matSizes m) (m.dims.map fun d => !decide (0 < d.step)) idx) := by
      rw [hsz]; exact hview.index idx (by rw [hsz]; exact hi)
    have hp := hview.addr _ 0 hti
    rw [turnFlags_twice _ _ _ (by simp [matSizes]) (by simp [matSizes, hil]), zero_add] at hp
    rw [← hp, indexSame_spec v _ (by rw [hsz]; exact h1) hvn hti hvs, Option.map_some, hvd]
    congr 1
    exact turn_twice m.dims idx h0 hil

theorem laterSum_le (ds : List Dim) (j : Nat) (a : Int) (k : Nat) (h1 : ∀ d ∈ ds, 1 ≤ d.size) :
    laterSum ds j a k ≤ off (ds.map fun (d : Dim) => (⟨d.size, d.step.natAbs⟩ : Dim)) (ds.map fun (d : Dim) => d.size - 1) := by
  induction ds generalizing j with
  | nil => simp [laterSum, off]
  | cons d ds ih =>
    have := ih (j + 1) (fun d hd => h1 d (by simp [hd]))
    have h3 : 0 ≤ (d.size - 1) * (d.step.natAbs : Int) := mul_nonneg (by have := h1 d (by simp); omega) (by omega)
    rw [laterSum, List.map_cons, List.map_cons, off]
    simp only
    split <;> omega

theorem laterSum_auto (s : Int) (hs : 0 < s) (ns : List Int) (h1 : ∀ n ∈ ns, 1 ≤ n) (j k : Nat) (d : Dim)
    (hd : (autoStep s ns)[k]? = some d) : laterSum (autoStep s ns) j d.step.natAbs (j + k) < d.step.natAbs := by
  have hmem : ∀ (ns : List Int), (∀ n ∈ ns, 1 ≤ n) → ∀ d ∈ autoStep s ns, 0 < d.step ∧ 1 ≤ d.size ∧ d.step * d.size ≤ s * matCount ns := by
    intro ns
    induction ns with
    | nil => intro _ d hd; simp [autoStep] at hd
    | cons n ns ih =>
      intro h1 d hd
      have hc := matCount_pos (fun n hn => h1 n (by simp [hn]) : ∀ n ∈ ns, 1 ≤ n)
      have hn := h1 n (by simp)
      rw [autoStep_cons] at hd
      rcases List.mem_cons.1 hd with rfl | hd
      · exact ⟨mul_pos hs (by omega), hn, by rw [matCount]; simp only; apply le_of_eq; ring⟩
      · have := ih (fun n hn => h1 n (by simp [hn])) d hd
        refine ⟨this.1, this.2.1, this.2.2.trans ?_⟩
        rw [matCount]
        have : matCount ns ≤ n * matCount ns := by nlinarith
        exact mul_le_mul_of_nonneg_left this hs.le
  induction ns generalizing j k with
  | nil => simp [autoStep] at hd
  | cons n ns ih =>
    have h1' : ∀ n ∈ ns, 1 ≤ n := fun n hn => h1 n (by simp [hn])
    have hc := matCount_pos h1'
    rw [autoStep_cons] at hd ⊢
    have hsp : 0 < s * matCount ns := mul_pos hs (by omega)
    cases k with
    | zero =>
      simp only [List.getElem?_cons_zero, Option.some.injEq] at hd
      subst hd
      rw [laterSum]
      simp only
      rw [if_neg (by omega), zero_add]
      refine (laterSum_le _ _ _ _ (fun d hd => (hmem ns h1' d hd).2.1)).trans_lt ?_
      have e1 : ((autoStep s ns).map fun (d : Dim) => (⟨d.size, d.step.natAbs⟩ : Dim)) = autoStep s ns := by
        conv_rhs => rw [← List.map_id (autoStep s ns)]
        apply List.map_congr_left
        intro d hd
        have := (hmem ns h1' d hd).1
        rw [show (d.step.natAbs : Int) = d.step by omega]; rfl
      have e2 : ((autoStep s ns).map fun (d : Dim) => d.size - 1) = ns.map fun (n : Int) => n - 1 := by
        conv_rhs => rw [← autoStep_sizes s ns, List.map_map]
        rfl
      rw [e1, e2, off_autoStep _ _ _ (by simp)]
      have hr : MatIndex ns (ns.map fun (n : Int) => n - 1) := by
        clear hmem ih h1 hc hsp e1 e2
        induction ns with
        | nil => exact List.Forall₂.nil
        | cons n ns ih =>
          have := h1' n (by simp)
          exact matIndex_cons.2 ⟨by simp only; omega, ih (fun n hn => h1' n (by simp [hn]))⟩
      have := matRank_bound hr
      have h3 : matRank ns (ns.map fun (n : Int) => n - 1) * s ≤ (matCount ns - 1) * s :=
        mul_le_mul_of_nonneg_right (by omega) hs.le
      have : (matCount ns - 1) * s = s * matCount ns - s := by ring
      have h4 := mul_comm s (matRank ns (ns.map fun (n : Int) => n - 1))
      omega
    | succ k =>
      have hd' : (autoStep s ns)[k]? = some d := by simpa using hd
      have := ih h1' (j + 1) k hd'
      rw [laterSum, show j + (k + 1) = j + 1 + k by omega]
      obtain ⟨p, q, r⟩ := hmem ns h1' d (List.mem_of_getElem? hd')
      have : d.step ≤ d.step * d.size := by nlinarith
      simp only
      rw [if_neg (by omega), zero_add]
      assumption

/-- C113: a new array is of that kind. -/
theorem C113_created (a : Int) (sizes : List Int) (depth : Fin 10) (chan : Int) (hc : 0 < chan) (h1 : ∀ n ∈ sizes, 1 ≤ n) :
    MatNested (create a sizes depth chan) := by
  intro k d hk
  have hE : 0 < depthSize depth * chan := elemSize_pos (m := create a sizes depth chan) hc
  have := laterSum_auto _ hE sizes h1 0 k d hk
  rw [zero_add] at this
  refine ⟨?_, this⟩
  have h0 := laterSum_nonneg (ds := (create a sizes depth chan).dims) (by
    intro d hd
    apply h1
    rw [← autoStep_sizes (depthSize depth * chan) sizes]
    exact List.mem_map.2 ⟨d, hd, rfl⟩) 0 d.step.natAbs k
  simp only [create] at h0
  omega

/-- C113: and so is an array with the same steps up to sign and smaller sizes: a part, or flipped. -/
theorem C113_parts (m v : Mat) (hn : MatNested m)
    (h : List.Forall₂ (fun (d e : Dim) => d.step.natAbs = e.step.natAbs ∧ d.size ≤ e.size) v.dims m.dims) : MatNested v := by
  have mono : ∀ (l l' : List Dim) (j : Nat) (a : Int) (k : Nat),
      List.Forall₂ (fun (d e : Dim) => d.step.natAbs = e.step.natAbs ∧ d.size ≤ e.size) l l' →
        laterSum l j a k ≤ laterSum l' j a k := by
    intro l l' j a k h
    induction h generalizing j with
    | nil => exact le_refl _
    | @cons d e l l' hde _ ih =>
      have := ih (j + 1)
      have h2 : (d.size - 1) * (d.step.natAbs : Int) ≤ (e.size - 1) * e.step.natAbs := by
        rw [hde.1]; exact mul_le_mul_of_nonneg_right (by omega) (by omega)
      rw [laterSum, laterSum, hde.1]
      rw [hde.1] at h2
      split <;> omega
  intro k d hk
  have hkl := some_lt hk
  have hlen := h.length_eq
  have he := List.getElem?_eq_getElem (l := m.dims) (i := k) (by omega)
  have hde := (List.forall₂_iff_get.1 h).2 k hkl (by omega)
  have hd : v.dims[k] = d := by rw [List.getElem?_eq_getElem hkl] at hk; exact Option.some.inj hk
  simp only [List.get_eq_getElem, hd] at hde
  have h2 := hn k _ he
  have := mono v.dims m.dims 0 d.step.natAbs k h
  rw [hde.1] at this ⊢
  exact ⟨by omega, by omega⟩

example : ∃ (m : Mat) (idx : List Int), (∀ n ∈ matSizes m, 1 ≤ n) ∧ MatNested m ∧ MatIndex (matSizes m) idx ∧ m.dims.length = 3 :=
  ⟨create 0 [3, 4, 5] 2 3, [2, 1, 4], by decide, C113_created _ _ _ _ (by decide) (by decide),
    by simp only [matSizes, MatIndex]; decide, by decide⟩

example : ∃ (m v : Mat), MatNested m ∧
    List.Forall₂ (fun (d e : Dim) => d.step.natAbs = e.step.natAbs ∧ d.size ≤ e.size) v.dims m.dims ∧ v.dims ≠ m.dims :=
  ⟨create 0 [3, 4] 0 1, ⟨4, [⟨2, 4⟩, ⟨2, -1⟩], 0, 1⟩, C113_created _ _ _ _ (by decide) (by decide), by decide, by decide⟩

example : transpose (create 0 [3, 1] 0 1) = some ⟨0, [⟨1, 1⟩, ⟨3, 1⟩], 0, 1⟩ := by decide

/-- A column vector turned into a row: the first dimension, of size 1, takes the whole offset. -/
theorem not_C113_index : ¬ IndexFound := by
  intro h
  have := h ⟨0, [⟨1, 1⟩, ⟨3, 1⟩], 0, 1⟩ (by decide) (by decide) (by decide) (by
    intro i c b i' c' b' hi hi' c0 c1 c0' c1' b0 b1 b0' b1' e
    obtain ⟨x, y, rfl, x0, x1, y0, y1⟩ := matIndex2 hi
    obtain ⟨x', y', rfl, x0', x1', y0', y1'⟩ := matIndex2 hi'
    simp only [byte_ptr, ptr_off, off, Mat.unit, show depthSize 0 = 1 from rfl] at *
    obtain ⟨rfl, rfl, rfl, rfl⟩ : x = x' ∧ y = y' ∧ c = c' ∧ b = b' := by omega
    exact ⟨rfl, rfl, rfl⟩) [0, 2] (by simp only [matSizes, MatIndex]; decide)
  revert this
  decide

end Verif.Props
