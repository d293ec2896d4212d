import Verif.Spec.Mat
import Mathlib.Data.List.Forall2
import Mathlib.Tactic.Ring
import Mathlib.Tactic.Linarith

/-!
# Addresses in views of an `mt_mat`
-/

namespace Verif.Mat

open Verif.Spec

/-- The distance of an element from the start. -/
def off : List Dim → List Int → Int
  | d :: ds, i :: is => i * d.step + off ds is
  | _, _ => 0

theorem ptrLoop_off (ds : List Dim) (idx : List Int) (p : Int) : ptrLoop ds idx p = p + off ds idx := by
  induction ds generalizing idx p with
  | nil => cases idx <;> simp [ptrLoop, off]
  | cons d ds ih =>
    cases idx with
    | nil => simp [ptrLoop, off]
    | cons i is => rw [ptrLoop, ih, off]; ring

theorem ptr_off (m : Mat) (idx : List Int) (c : Int) : ptr m idx c = m.data + off m.dims idx + c * m.unit := by
  rw [ptr, ptrLoop_off]

theorem depthSize_pos (d : Fin 10) : 0 < depthSize d := by revert d; decide

theorem unit_pos (m : Mat) : 0 < m.unit := depthSize_pos _

theorem MatIndex.length {ns idx : List Int} (h : MatIndex ns idx) : ns.length = idx.length := List.Forall₂.length_eq h

theorem matIndex_cons {n i : Int} {ns is : List Int} :
    MatIndex (n :: ns) (i :: is) ↔ (0 ≤ i ∧ i < n) ∧ MatIndex ns is := List.forall₂_cons

theorem matIndex_nil : MatIndex [] [] := List.Forall₂.nil

/-! ### sub -/

theorem subLoop_off (ds : List Dim) (rs : List Range) (p : Int) (h : rs.length = ds.length) (idx : List Int)
    (hi : idx.length = ds.length) :
    (subLoop ds rs p).1 + off (subLoop ds rs p).2 idx = p + off ds (List.zipWith (fun r i => r.start + i) rs idx) := by
  induction ds generalizing rs p idx with
  | nil => cases rs <;> cases idx <;> simp_all [subLoop, off]
  | cons d ds ih =>
    cases rs with
    | nil => simp at h
    | cons r rs =>
      cases idx with
      | nil => simp at hi
      | cons i is =>
        have := ih rs (p + r.start * d.step) (by simpa using h) is (by simpa using hi)
        simp only [subLoop, off, List.zipWith_cons_cons]
        linarith [this, add_mul r.start i d.step]

theorem subLoop_length (ds : List Dim) (rs : List Range) (p : Int) (h : rs.length = ds.length) :
    (subLoop ds rs p).2.length = ds.length := by
  induction ds generalizing rs p with
  | nil => cases rs <;> simp [subLoop]
  | cons d ds ih =>
    cases rs with
    | nil => simp at h
    | cons r rs => simp [subLoop, ih rs _ (by simpa using h)]

theorem subLoop_sizes (ds : List Dim) (rs : List Range) (p : Int) (h : rs.length = ds.length) :
    (subLoop ds rs p).2.map Dim.size =
      List.zipWith (fun (d : Dim) (r : Range) => if r.stop = -1 then d.size - r.start else r.stop - r.start) ds rs := by
  induction ds generalizing rs p with
  | nil => cases rs <;> simp [subLoop]
  | cons d ds ih =>
    cases rs with
    | nil => simp at h
    | cons r rs => simp [subLoop, ih rs _ (by simpa using h)]

/-! ### flip -/

theorem flipLoop_off (ds : List Dim) (fs : List Bool) (p : Int) (h : fs.length = ds.length) (idx : List Int)
    (hi : idx.length = ds.length) :
    (flipLoop ds fs p).1 + off (flipLoop ds fs p).2 idx =
      p + off ds (List.zipWith (fun (df : Dim × Bool) i => if df.2 then df.1.size - 1 - i else i) (ds.zip fs) idx) := by
  induction ds generalizing fs p idx with
  | nil => cases fs <;> cases idx <;> simp_all [flipLoop, off]
  | cons d ds ih =>
    cases fs with
    | nil => simp at h
    | cons f fs =>
      cases idx with
      | nil => simp at hi
      | cons i is =>
        cases f with
        | true =>
          have := ih fs (p + (d.size - 1) * d.step) (by simpa using h) is (by simpa using hi)
          simp only [flipLoop, off, List.zip_cons_cons, List.zipWith_cons_cons, if_true]
          linarith [this, show (d.size - 1 - i) * d.step = (d.size - 1) * d.step - i * d.step by ring,
            show i * -d.step = -(i * d.step) by ring]
        | false =>
          have := ih fs p (by simpa using h) is (by simpa using hi)
          simp only [flipLoop, off, List.zip_cons_cons, List.zipWith_cons_cons]
          simp only [Bool.false_eq_true, if_false]
          linarith [this]

theorem flipLoop_sizes (ds : List Dim) (fs : List Bool) (p : Int) (h : fs.length = ds.length) :
    (flipLoop ds fs p).2.map Dim.size = ds.map Dim.size := by
  induction ds generalizing fs p with
  | nil => cases fs <;> simp [flipLoop]
  | cons d ds ih =>
    cases fs with
    | nil => simp at h
    | cons f fs => cases f <;> simp [flipLoop, ih fs _ (by simpa using h)]

/-! ### changing one dimension -/

theorem off_set_dim (ds : List Dim) (k : Nat) (d e : Dim) (idx : List Int) (i : Int) (h : ds[k]? = some d)
    (hi : idx[k]? = some i) : off (ds.set k e) idx = off ds idx + i * (e.step - d.step) := by
  induction ds generalizing k idx with
  | nil => simp at h
  | cons x ds ih =>
    cases idx with
    | nil => simp at hi
    | cons j is =>
      cases k with
      | zero =>
        simp only [List.getElem?_cons_zero, Option.some.injEq] at h hi
        subst h hi
        simp only [List.set_cons_zero, off]
        ring
      | succ k =>
        simp only [List.getElem?_cons_succ] at h hi
        simp only [List.set_cons_succ, off, ih k is h hi]
        ring

theorem off_set_idx (ds : List Dim) (k : Nat) (d : Dim) (idx : List Int) (i j : Int) (h : ds[k]? = some d)
    (hi : idx[k]? = some i) : off ds (idx.set k j) = off ds idx + (j - i) * d.step := by
  induction ds generalizing k idx with
  | nil => simp at h
  | cons x ds ih =>
    cases idx with
    | nil => simp at hi
    | cons y is =>
      cases k with
      | zero =>
        simp only [List.getElem?_cons_zero, Option.some.injEq] at h hi
        subst h hi
        simp only [List.set_cons_zero, off]
        ring
      | succ k =>
        simp only [List.getElem?_cons_succ] at h hi
        simp only [List.set_cons_succ, off, ih k is h hi]
        ring

theorem matIndex_set {ns idx : List Int} (h : MatIndex ns idx) (k : Nat) (n j : Int) (hj : 0 ≤ j ∧ j < n) :
    MatIndex (ns.set k n) (idx.set k j) := by
  induction h generalizing k with
  | nil => simpa using matIndex_nil
  | cons hx _ ih =>
    cases k with
    | zero => exact List.Forall₂.cons hj (by assumption)
    | succ k => exact List.Forall₂.cons hx (ih k)

theorem matIndex_get {ns idx : List Int} (h : MatIndex ns idx) (k : Nat) (n i : Int) (hn : ns[k]? = some n)
    (hi : idx[k]? = some i) : 0 ≤ i ∧ i < n := by
  induction h generalizing k with
  | nil => simp at hn
  | cons hx _ ih =>
    cases k with
    | zero =>
      simp only [List.getElem?_cons_zero, Option.some.injEq] at hn hi
      subst hn hi
      exact hx
    | succ k => exact ih k (by simpa using hn) (by simpa using hi)

/-! ### row-major steps -/

theorem autoStep_cons (s n : Int) (ns : List Int) : autoStep s (n :: ns) = ⟨n, s * matCount ns⟩ :: autoStep s ns := by
  induction ns generalizing n with
  | nil => simp [autoStep, matCount]
  | cons k ns ih =>
    rw [autoStep, ih]
    simp only [matCount]
    congr 2
    ring

theorem autoStep_sizes (s : Int) (ns : List Int) : (autoStep s ns).map Dim.size = ns := by
  induction ns with
  | nil => rfl
  | cons n ns ih => rw [autoStep_cons, List.map_cons, ih]

theorem off_autoStep (s : Int) (ns idx : List Int) (h : ns.length = idx.length) :
    off (autoStep s ns) idx = s * matRank ns idx := by
  induction ns generalizing idx with
  | nil => cases idx <;> simp [autoStep, off, matRank]
  | cons n ns ih =>
    cases idx with
    | nil => simp at h
    | cons i is =>
      rw [autoStep_cons, off, matRank, ih is (by simpa using h)]
      ring

theorem matCount_nonneg {ns : List Int} (h : ∀ n ∈ ns, 0 ≤ n) : 0 ≤ matCount ns := by
  induction ns with
  | nil => simp [matCount]
  | cons n ns ih =>
    rw [matCount]
    exact mul_nonneg (h n (by simp)) (ih fun x hx => h x (by simp [hx]))

theorem matRank_bound {ns idx : List Int} (h : MatIndex ns idx) : 0 ≤ matRank ns idx ∧ matRank ns idx < matCount ns := by
  induction h with
  | nil => simp [matRank, matCount]
  | @cons n i ns is hx _ ih =>
    rw [matRank, matCount]
    constructor
    · have := mul_nonneg hx.1 (le_trans ih.1 ih.2.le)
      omega
    · nlinarith [ih.1, ih.2, hx.1, hx.2]

theorem matRank_inj {ns idx idx' : List Int} (h : MatIndex ns idx) (h' : MatIndex ns idx')
    (e : matRank ns idx = matRank ns idx') : idx = idx' := by
  induction h generalizing idx' with
  | nil => cases h'; rfl
  | @cons n i ns is hx hs ih =>
    cases h' with
    | @cons _ j _ js hy ht =>
      have b := matRank_bound hs
      have b' := matRank_bound ht
      rw [matRank, matRank] at e
      have hij : i = j := by
        by_contra hne
        rcases lt_or_gt_of_ne hne with l | l
        · nlinarith [b.1, b.2, b'.1, b'.2]
        · nlinarith [b.1, b.2, b'.1, b'.2]
      subst hij
      rw [ih ht (by omega)]

/-- The index at a row-major place. -/
def unrank : List Int → Int → List Int
  | [], _ => []
  | _ :: ns, r => r / matCount ns :: unrank ns (r % matCount ns)

theorem unrank_spec {ns : List Int} (h : ∀ n ∈ ns, 0 ≤ n) {r : Int} (h0 : 0 ≤ r) (h1 : r < matCount ns) :
    MatIndex ns (unrank ns r) ∧ matRank ns (unrank ns r) = r := by
  induction ns generalizing r with
  | nil =>
    simp only [matCount] at h1
    exact ⟨matIndex_nil, by simp only [matRank]; omega⟩
  | cons n ns ih =>
    have hn := h n (by simp)
    have hc := matCount_nonneg (ns := ns) fun x hx => h x (by simp [hx])
    rw [matCount] at h1
    have hp : 0 < matCount ns := by
      rcases lt_or_eq_of_le hc with l | e
      · exact l
      · rw [← e] at h1; omega
    have := ih (fun x hx => h x (by simp [hx])) (Int.emod_nonneg r hp.ne') (Int.emod_lt_of_pos r hp)
    refine ⟨List.Forall₂.cons ⟨Int.ediv_nonneg h0 hp.le, Int.ediv_lt_of_lt_mul hp h1⟩ this.1, ?_⟩
    rw [unrank, matRank, this.2]
    have := Int.emod_add_mul_ediv r (matCount ns)
    linarith [mul_comm (matCount ns) (r / matCount ns)]

end Verif.Mat
