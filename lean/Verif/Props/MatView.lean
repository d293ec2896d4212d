import Verif.Proof.MatView

/-!
# Properties C97 to C102: views of an `mt_mat`
-/

namespace Verif.Props

open Verif.Spec Verif.Mat

theorem unit_of_depth {v m : Mat} (h : v.depth = m.depth) : v.unit = m.unit := by rw [Mat.unit, Mat.unit, h]

/-- A view reads and writes only memory of the array it shows. -/
theorem matView_inside {v m : Mat} {f : List Int → List Int} {s : Int} (h : MatView v m f s) (a : Int) (ha : MatHas v a) :
    MatHas m a := by
  obtain ⟨idx, c, b, hi, c0, c1, b0, b1, e⟩ := ha
  have hu := unit_of_depth h.depth
  have hc := h.chan
  refine ⟨f idx, s + c, b, h.index idx hi, by omega, by omega, b0, by omega, ?_⟩
  rw [e, matByte, matByte, h.addr idx c hi]

/-- A view of an array whose bytes are apart has its bytes apart. -/
theorem matView_apart {v m : Mat} {f : List Int → List Int} {s : Int} (h : MatView v m f s) (ha : MatApart m) :
    MatApart v := by
  intro idx c b idx' c' b' hi hi' c0 c1 c0' c1' b0 b1 b0' b1' e
  have hu := unit_of_depth h.depth
  have hc := h.chan
  rw [matByte, matByte, h.addr idx c hi, h.addr idx' c' hi'] at e
  have := ha (f idx) (s + c) b (f idx') (s + c') b' (h.index idx hi) (h.index idx' hi') (by omega) (by omega)
    (by omega) (by omega) b0 (by omega) b0' (by omega) e
  exact ⟨h.inj idx idx' hi hi' this.1, by omega, this.2.2⟩

/-! ### C97: parts of an array -/

/-- Adding the starts of the ranges. -/
def addStarts (rs : List Range) (idx : List Int) : List Int := List.zipWith (fun r i => r.start + i) rs idx

/-- The property: whenever `sub` has nothing to complain about, the result shows the elements asked for. -/
def SubShows : Prop :=
  ∀ (m v : Mat) (rs : List Range), rs ≠ [] → subCheck m.dims rs = true → Verif.Mat.sub m rs = some v →
    MatView v m (addStarts rs) 0

theorem sub_index (ds : List Dim) (rs : List Range) (hl : rs.length = ds.length) (hc : subCheck ds rs = true)
    (h0 : ∀ r ∈ rs, 0 ≤ r.start) (idx : List Int)
    (hi : MatIndex (List.zipWith (fun (d : Dim) (r : Range) => if r.stop = -1 then d.size - r.start
      else r.stop - r.start) ds rs) idx) : MatIndex (ds.map Dim.size) (addStarts rs idx) := by
  induction ds generalizing rs idx with
  | nil =>
    cases rs with
    | nil => cases hi; exact matIndex_nil
    | cons _ _ => simp at hl
  | cons d ds ih =>
    cases rs with
    | nil => simp at hl
    | cons r rs =>
      cases idx with
      | nil => cases hi
      | cons i is =>
        rw [List.zipWith_cons_cons, matIndex_cons] at hi
        simp only [subCheck, Bool.and_eq_true, decide_eq_true_eq] at hc
        have hr := h0 r (by simp)
        rw [if_neg (by omega)] at hi
        rw [List.map_cons, addStarts, List.zipWith_cons_cons, matIndex_cons]
        exact ⟨by omega, ih rs (by simpa using hl) hc.2 (fun x hx => h0 x (by simp [hx])) is hi.2⟩

theorem addStarts_inj (rs : List Range) (idx idx' : List Int) (h : idx.length = rs.length) (h' : idx'.length = rs.length)
    (e : addStarts rs idx = addStarts rs idx') : idx = idx' := by
  induction rs generalizing idx idx' with
  | nil =>
    rw [List.length_nil, List.length_eq_zero_iff] at h h'
    rw [h, h']
  | cons r rs ih =>
    cases idx with
    | nil => simp at h
    | cons i is =>
      cases idx' with
      | nil => simp at h'
      | cons j js =>
        simp only [addStarts, List.zipWith_cons_cons, List.cons.injEq] at e
        rw [ih is js (by simpa using h) (by simpa using h') e.2, show i = j by omega]

/-- C97: `sub` shows the elements asked for when no range starts before 0. -/
theorem C97_sub_partial (m v : Mat) (rs : List Range) (hne : rs ≠ []) (hc : subCheck m.dims rs = true)
    (h : Verif.Mat.sub m rs = some v) (h0 : ∀ r ∈ rs, 0 ≤ r.start) :
    MatView v m (addStarts rs) 0 ∧ matSizes v = rs.map (fun r => r.stop - r.start) := by
  rw [Verif.Mat.sub, if_neg hne] at h
  by_cases hl : rs.length = m.dims.length
  · rw [if_neg (by simpa using hl)] at h
    injection h with h
    subst h
    have hsz := subLoop_sizes m.dims rs m.data hl
    have hlen : ∀ idx, MatIndex (List.zipWith (fun (d : Dim) (r : Range) => if r.stop = -1 then d.size - r.start
        else r.stop - r.start) m.dims rs) idx → idx.length = rs.length := by
      intro idx hi
      rw [← MatIndex.length hi, List.length_zipWith, hl, min_self]
    refine ⟨⟨rfl, by simp, ?_, ?_, ?_⟩, ?_⟩
    · intro idx hi
      rw [matSizes, hsz] at hi
      exact sub_index m.dims rs hl hc h0 idx hi
    · intro idx idx' hi hi' e
      rw [matSizes, hsz] at hi hi'
      exact addStarts_inj rs idx idx' (hlen idx hi) (hlen idx' hi') e
    · intro idx c hi
      rw [matSizes, hsz] at hi
      have := subLoop_off m.dims rs m.data hl idx (by rw [hlen idx hi, hl])
      rw [ptr_off, ptr_off]
      simp only [addStarts, zero_add, Mat.unit] at this ⊢
      linarith
    · rw [matSizes, hsz]
      clear hsz hlen hne
      generalize m.dims = ds at *
      induction rs generalizing ds with
      | nil => simp
      | cons r rs ih =>
        cases ds with
        | nil => simp at hl
        | cons d ds =>
          simp only [subCheck, Bool.and_eq_true, decide_eq_true_eq] at hc
          have hr := h0 r (by simp)
          rw [List.zipWith_cons_cons, List.map_cons, if_neg (by omega),
            ih (fun x hx => h0 x (by simp [hx])) ds hc.2 (by simpa using hl)]
  · rw [if_pos hl] at h; cases h

example : ∃ m v rs, rs ≠ [] ∧ subCheck m.dims rs = true ∧ Verif.Mat.sub m rs = some v ∧ ∀ r ∈ rs, 0 ≤ r.start :=
  ⟨create 0 [4, 5] 0 1, ⟨7, [⟨2, 5⟩, ⟨3, 1⟩], 0, 1⟩, [⟨1, 3⟩, ⟨2, 5⟩], by decide, by decide, by decide, by decide⟩

/-- The rectangle form for a picture: pixel `(i, j)` of the part is pixel `(top + i, left + j)`. -/
theorem C97_rect_partial (m : Mat) (h w a b left top width height : Int) (hd : m.dims = [⟨h, a⟩, ⟨w, b⟩])
    (h1 : 0 ≤ left) (h2 : 0 ≤ top) (h3 : 0 < width) (h4 : 0 < height) (h5 : left + width ≤ w) (h6 : top + height ≤ h) :
    ∃ v, subRect m left top width height = some v ∧ matSizes v = [height, width] ∧ MatView v m (addStarts [⟨top, top + height⟩, ⟨left, left + width⟩]) 0 ∧
      ∀ i j c, ptr v [i, j] c = ptr m [top + i, left + j] c := by
  have hs : Verif.Mat.sub m [⟨top, top + height⟩, ⟨left, left + width⟩] =
      some { m with data := m.data + top * a + left * b, dims := [⟨height, a⟩, ⟨width, b⟩] } := by
    rw [Verif.Mat.sub, if_neg (by simp), if_neg (by simp [hd]), hd]
    simp only [subLoop]
    rw [if_neg (by omega), if_neg (by omega), show top + height - top = height by omega,
      show left + width - left = width by omega]
  have hp := C97_sub_partial m _ _ (by simp) (by simp [hd, subCheck]; omega) hs (by simp; omega)
  refine ⟨_, hs, by simp [matSizes], hp.1, ?_⟩
  intro i j c
  simp only [ptr_off, off, hd, Mat.unit]
  ring

example : ∃ v, subRect (create 100 [6, 8] 0 3) 2 1 4 3 = some v := ⟨_, rfl⟩

theorem oneRange_loop (ds : List Dim) (r : Range) (k : Nat) (d : Dim) (hk : ds[k]? = some d) (hs : ∀ e ∈ ds, 0 ≤ e.size)
    (p : Int) (hr : r.stop ≠ -1) :
    subLoop ds (oneRange ds r k) p = (p + r.start * d.step, ds.set k ⟨r.stop - r.start, d.step⟩) ∧
      (oneRange ds r k).length = ds.length := by
  have all : ∀ (es : List Dim) (p : Int), (∀ e ∈ es, 0 ≤ e.size) →
      subLoop es (es.map fun d => ⟨0, d.size⟩) p = (p, es) := by
    intro es
    induction es with
    | nil => intro p _; rfl
    | cons e es ih =>
      intro p he
      have h0 := he e (by simp)
      simp only [List.map_cons, subLoop, zero_mul, add_zero, sub_zero, ih p fun x hx => he x (by simp [hx])]
      rw [if_neg (by omega)]
  induction ds generalizing k p with
  | nil => simp at hk
  | cons e ds ih =>
    cases k with
    | zero =>
      simp only [List.getElem?_cons_zero, Option.some.injEq] at hk
      subst hk
      refine ⟨?_, by simp [oneRange]⟩
      simp only [oneRange, subLoop, all ds _ fun x hx => hs x (by simp [hx]), List.set_cons_zero]
      rw [if_neg hr]
    | succ k =>
      have h0 := hs e (by simp)
      have := ih k (by simpa using hk) (fun x hx => hs x (by simp [hx])) p
      refine ⟨?_, by simp [oneRange, this.2]⟩
      simp only [oneRange, subLoop, zero_mul, add_zero, sub_zero, this.1, List.set_cons_succ]
      rw [if_neg (by omega)]

/-- Adding to one index. -/
def addAt (k : Nat) (s : Int) (idx : List Int) : List Int := idx.modify k (s + ·)

theorem modify_set (idx : List Int) (k : Nat) (f : Int → Int) (i : Int) (h : idx[k]? = some i) :
    idx.modify k f = idx.set k (f i) := by
  induction idx generalizing k with
  | nil => simp at h
  | cons j is ih =>
    cases k with
    | zero =>
      simp only [List.getElem?_cons_zero, Option.some.injEq] at h
      subst h
      rfl
    | succ k => simpa using ih k (by simpa using h)

theorem get_of_length {α : Type} (l : List α) (k : Nat) (h : k < l.length) : ∃ a, l[k]? = some a :=
  ⟨l[k], List.getElem?_eq_getElem h⟩

theorem some_lt {α : Type} {l : List α} {k : Nat} {a : α} (h : l[k]? = some a) : k < l.length := by
  by_contra hn
  rw [List.getElem?_eq_none (by omega)] at h
  cases h

/-- C97: a range of one dimension; `front`, `back`, `index`, `row` and `col` are cases of it. -/
theorem C97_range_partial (m : Mat) (r : Range) (k : Nat) (d : Dim) (hk : m.dims[k]? = some d)
    (hs : ∀ e ∈ m.dims, 0 ≤ e.size) (h4 : m.dims.length ≤ 4) (h0 : 0 ≤ r.start) (h1 : r.start < r.stop)
    (h2 : r.stop ≤ d.size) :
    ∃ v, subRange m r k = some v ∧ matSizes v = (matSizes m).set k (r.stop - r.start) ∧
      MatView v m (addAt k r.start) 0 := by
  have hl := oneRange_loop m.dims r k d hk hs m.data (by omega)
  have hlt := some_lt hk
  have hne : oneRange m.dims r k ≠ [] := by
    intro e
    have := hl.2
    rw [e] at this
    simp at this
    omega
  have hsz : matSizes { m with data := m.data + r.start * d.step, dims := m.dims.set k ⟨r.stop - r.start, d.step⟩ } =
      (matSizes m).set k (r.stop - r.start) := by simp [matSizes, List.map_set]
  have hn : (matSizes m)[k]? = some d.size := by simp [matSizes, hk]
  refine ⟨_, by rw [subRange, if_neg (by omega), Verif.Mat.sub, if_neg hne, if_neg (by simp [hl.2]), hl.1], hsz, ?_⟩
  have key : ∀ idx, MatIndex ((matSizes m).set k (r.stop - r.start)) idx →
      ∃ i, idx[k]? = some i ∧ (0 ≤ i ∧ i < r.stop - r.start) := by
    intro idx hi
    have hll := MatIndex.length hi
    obtain ⟨i, e⟩ := get_of_length idx k (by rw [← hll]; simp [matSizes]; omega)
    exact ⟨i, e, matIndex_get hi k _ i (by simp [matSizes, hlt]) e⟩
  refine ⟨rfl, by simp, ?_, ?_, ?_⟩
  · intro idx hi
    rw [hsz] at hi
    obtain ⟨i, e, b⟩ := key idx hi
    rw [addAt, modify_set idx k _ i e]
    have := matIndex_set hi k d.size (r.start + i) (by omega)
    rwa [List.set_set, show (matSizes m).set k d.size = matSizes m from by
      apply List.ext_getElem?
      intro j
      rw [List.getElem?_set]
      split
      · rename_i ej; subst ej; rw [hn]; simp [matSizes, hlt]
      · rfl] at this
  · intro idx idx' hi hi' e
    rw [hsz] at hi hi'
    obtain ⟨i, ei, _⟩ := key idx hi
    obtain ⟨j, ej, _⟩ := key idx' hi'
    have hinj : Function.Injective (r.start + · : Int → Int) := fun x y hxy => by simpa using hxy
    apply List.ext_getElem?
    intro q
    have hq : (addAt k r.start idx)[q]? = (addAt k r.start idx')[q]? := by rw [e]
    simp only [addAt, List.getElem?_modify] at hq
    by_cases hkq : k = q
    · simp only [hkq, if_true] at hq
      exact (Option.map_injective hinj) hq
    · simpa [hkq] using hq
  · intro idx c hi
    rw [hsz] at hi
    obtain ⟨i, e, _⟩ := key idx hi
    rw [addAt, modify_set idx k _ i e, ptr_off, ptr_off, off_set_idx m.dims k d idx i _ hk e]
    simp only [off_set_dim m.dims k d ⟨r.stop - r.start, d.step⟩ idx i hk e, Mat.unit, zero_add]
    ring

example : ∃ (m : Mat) (r : Range) (k : Nat) (d : Dim), m.dims[k]? = some d ∧ (∀ e ∈ m.dims, 0 ≤ e.size) ∧
    m.dims.length ≤ 4 ∧ 0 ≤ r.start ∧ r.start < r.stop ∧ r.stop ≤ d.size :=
  ⟨create 0 [4, 5] 0 1, ⟨1, 3⟩, 1, ⟨5, 1⟩, by decide, by decide, by decide, by decide, by decide, by decide⟩

/-- `row`, `col` of a picture. -/
theorem C97_row_col_partial (m : Mat) (h w a b : Int) (hd : m.dims = [⟨h, a⟩, ⟨w, b⟩]) (hh : 0 ≤ h) (hw : 0 ≤ w) :
    (∀ i, 0 ≤ i → i < h → ∃ v, row m i = some v ∧ matSizes v = [1, w] ∧ ∀ j c, ptr v [0, j] c = ptr m [i, j] c) ∧
      ∀ j, 0 ≤ j → j < w → ∃ v, col m j = some v ∧ matSizes v = [h, 1] ∧ ∀ i c, ptr v [i, 0] c = ptr m [i, j] c := by
  constructor
  · intro i h0 h1
    refine ⟨{ m with data := m.data + i * a, dims := [⟨1, a⟩, ⟨w, b⟩] }, ?_, by simp [matSizes], ?_⟩
    · rw [row, index, subRange, if_neg (by simp [hd]), hd, Verif.Mat.sub, if_neg (by simp [oneRange]),
        if_neg (by simp [oneRange, hd]), hd]
      simp only [oneRange, List.map_cons, List.map_nil, subLoop, zero_mul, add_zero, sub_zero]
      rw [if_neg (by omega), if_neg (by omega), show i + 1 - i = 1 by omega]
    · intro j c; simp only [ptr_off, off, hd, Mat.unit]; ring
  · intro j h0 h1
    refine ⟨{ m with data := m.data + j * b, dims := [⟨h, a⟩, ⟨1, b⟩] }, ?_, by simp [matSizes], ?_⟩
    · rw [col, index, subRange, if_neg (by simp [hd]), hd, Verif.Mat.sub, if_neg (by simp [oneRange]),
        if_neg (by simp [oneRange, hd]), hd]
      simp only [oneRange, List.map_cons, List.map_nil, subLoop, zero_mul, add_zero, sub_zero]
      rw [if_neg (by omega), if_neg (by omega), show j + 1 - j = 1 by omega]
    · intro i c; simp only [ptr_off, off, hd, Mat.unit]; ring

example : (create 0 [4, 5] 0 1).dims = [⟨4, 5⟩, ⟨5, 1⟩] ∧ (0 : Int) ≤ 4 ∧ (0 : Int) ≤ 5 := by decide

/-- A range that starts before 0 is accepted: the first row of the result is memory before the array. -/
theorem not_C97_sub : ¬ SubShows := by
  intro h
  have := (h (create 0 [3, 3] 0 1) ⟨-3, [⟨3, 3⟩, ⟨3, 1⟩], 0, 1⟩ [⟨-1, 2⟩, ⟨0, 3⟩] (by decide) (by decide)
    (by decide)).index [0, 0] (by simp only [matSizes, MatIndex]; decide)
  simp only [addStarts, matSizes, MatIndex] at this
  revert this
  decide

/-- `back` of more rows than there are is not noticed either. -/
theorem not_C97_back : ∃ m v, back m 4 0 = some v ∧ subCheck m.dims (oneRange m.dims ⟨3 - 4, 3⟩ 0) = true ∧
    MatIndex (matSizes v) [0, 0] ∧ ¬ MatHas m (ptr v [0, 0] 0) := by
  refine ⟨create 0 [3, 3] 0 1, ⟨-3, [⟨4, 3⟩, ⟨3, 1⟩], 0, 1⟩, by decide, by decide, by simp only [matSizes, MatIndex]; decide, ?_⟩
  rintro ⟨idx, c, b, hi, c0, _, b0, _, e⟩
  have h1 : matSizes (create 0 [3, 3] 0 1) = [3, 3] := rfl
  rw [h1] at hi
  have h2 : matByte (create 0 [3, 3] 0 1) idx c b = matRank [3, 3] idx + c + b := by
    rw [matByte, ptr_off, create, off_autoStep _ _ _ (MatIndex.length hi)]
    simp [Mat.unit, depthSize]
  have h3 : ptr (⟨-3, [⟨4, 3⟩, ⟨3, 1⟩], 0, 1⟩ : Mat) [0, 0] 0 = -3 := by decide
  have := matRank_bound hi
  omega

/-- Above four dimensions `sub(range, dim)`, and with it `row`, `index`, `front`, `back`, reads a freed array. -/
theorem not_C97_five (m : Mat) (r : Range) (k : Nat) (h : 4 < m.dims.length) : subRange m r k = none := by
  rw [subRange, if_pos h]

example : 4 < (create 0 [1, 2, 3, 2, 1] 0 1).dims.length := by decide

/-! ### C98: planes -/

/-- The property: `plane(p)` of a stack of pictures is picture `p`. -/
def PlaneShows : Prop :=
  ∀ (m v : Mat) (P R C p : Int), matSizes m = [P, R, C] → 0 ≤ p → p < P → plane m p = some v →
    matSizes v = [1, R, C] ∧ ∀ i j c, ptr v [0, i, j] c = ptr m [p, i, j] c

theorem not_C98_plane : ¬ PlaneShows := by
  intro h
  have := (h (create 0 [2, 3, 4] 0 1) ⟨1, [⟨2, 12⟩, ⟨3, 4⟩, ⟨1, 1⟩], 0, 1⟩ 2 3 4 1 (by decide) (by decide) (by decide)
    (by decide)).1
  revert this
  decide

/-- C98: `plane(p)` shows the elements whose last index is `p`; `index(p, 0)` is the picture `p`. -/
theorem C98_plane_partial (m : Mat) (P R C a b s : Int) (hd : m.dims = [⟨P, a⟩, ⟨R, b⟩, ⟨C, s⟩]) (hP : 0 ≤ P) (hR : 0 ≤ R)
    (hC : 0 ≤ C) :
    (∀ p, 0 ≤ p → p < C → ∃ v, plane m p = some v ∧ matSizes v = [P, R, 1] ∧
      ∀ i j c, ptr v [i, j, 0] c = ptr m [i, j, p] c) ∧
    ∀ p, 0 ≤ p → p < P → ∃ v, index m p 0 = some v ∧ matSizes v = [1, R, C] ∧
      ∀ i j c, ptr v [0, i, j] c = ptr m [p, i, j] c := by
  constructor
  · intro p h0 h1
    refine ⟨{ m with data := m.data + p * s, dims := [⟨P, a⟩, ⟨R, b⟩, ⟨1, s⟩] }, ?_, by simp [matSizes], ?_⟩
    · rw [plane, index, subRange, if_neg (by simp [hd]), hd, Verif.Mat.sub, if_neg (by simp [oneRange]),
        if_neg (by simp [oneRange, hd]), hd]
      simp only [oneRange, List.map_nil, subLoop, zero_mul, add_zero, sub_zero]
      rw [if_neg (by omega), if_neg (by omega), if_neg (by omega), show p + 1 - p = 1 by omega]
    · intro i j c; simp only [ptr_off, off, hd, Mat.unit]; ring
  · intro p h0 h1
    refine ⟨{ m with data := m.data + p * a, dims := [⟨1, a⟩, ⟨R, b⟩, ⟨C, s⟩] }, ?_, by simp [matSizes], ?_⟩
    · rw [index, subRange, if_neg (by simp [hd]), hd, Verif.Mat.sub, if_neg (by simp [oneRange]),
        if_neg (by simp [oneRange, hd]), hd]
      simp only [oneRange, List.map_cons, List.map_nil, subLoop, zero_mul, add_zero, sub_zero]
      rw [if_neg (by omega), if_neg (by omega), if_neg (by omega), show p + 1 - p = 1 by omega]
    · intro i j c; simp only [ptr_off, off, hd, Mat.unit]; ring

example : (create 0 [2, 3, 4] 0 1).dims = [⟨2, 12⟩, ⟨3, 4⟩, ⟨4, 1⟩] ∧ (0 : Int) ≤ 2 ∧ (0 : Int) ≤ 3 ∧ (0 : Int) ≤ 4 := by decide

/-! ### C99: flipping -/

/-- The index with one coordinate counted from the other end. -/
def turnAt (k : Nat) (n : Int) (idx : List Int) : List Int := idx.modify k fun i => n - 1 - i

/-- C99: `flip(dim)` counts one index from the other end. -/
theorem C99_flip (m : Mat) (k : Nat) (d : Dim) (hk : m.dims[k]? = some d) :
    ∃ v, Verif.Mat.flip m k = some v ∧ matSizes v = matSizes m ∧ MatView v m (turnAt k d.size) 0 := by
  have hlt := some_lt hk
  have hn : (matSizes m)[k]? = some d.size := by simp [matSizes, hk]
  have hset : (matSizes m).set k d.size = matSizes m := by
    apply List.ext_getElem?
    intro j
    rw [List.getElem?_set]
    split
    · rename_i ej; subst ej; rw [hn]; simp [matSizes, hlt]
    · rfl
  have hsz : matSizes { m with data := m.data + (d.size - 1) * d.step, dims := m.dims.set k ⟨d.size, -d.step⟩ } =
      matSizes m := by
    rw [← hset]; simp [matSizes, List.map_set]
  refine ⟨_, by rw [Verif.Mat.flip, hk], hsz, ?_⟩
  have key : ∀ idx, MatIndex (matSizes m) idx → ∃ i, idx[k]? = some i ∧ (0 ≤ i ∧ i < d.size) := by
    intro idx hi
    have hll := MatIndex.length hi
    obtain ⟨i, e⟩ := get_of_length idx k (by rw [← hll]; simpa [matSizes] using hlt)
    exact ⟨i, e, matIndex_get hi k _ i hn e⟩
  refine ⟨rfl, by simp, ?_, ?_, ?_⟩
  · intro idx hi
    rw [hsz] at hi
    obtain ⟨i, e, b⟩ := key idx hi
    rw [turnAt, modify_set idx k _ i e]
    have := matIndex_set hi k d.size (d.size - 1 - i) (by omega)
    rwa [hset] at this
  · intro idx idx' hi hi' e
    have hinj : Function.Injective (fun i : Int => d.size - 1 - i) := fun x y hxy => by
      simp only at hxy; omega
    apply List.ext_getElem?
    intro q
    have hq : (turnAt k d.size idx)[q]? = (turnAt k d.size idx')[q]? := by rw [e]
    simp only [turnAt, List.getElem?_modify] at hq
    by_cases hkq : k = q
    · simp only [hkq, if_true] at hq
      exact (Option.map_injective hinj) hq
    · simpa [hkq] using hq
  · intro idx c hi
    rw [hsz] at hi
    obtain ⟨i, e, _⟩ := key idx hi
    rw [turnAt, modify_set idx k _ i e, ptr_off, ptr_off, off_set_idx m.dims k d idx i _ hk e]
    simp only [off_set_dim m.dims k d ⟨d.size, -d.step⟩ idx i hk e, Mat.unit, zero_add]
    ring

example : (create 0 [4, 5] 0 1).dims[1]? = some ⟨5, 1⟩ := by decide

/-- Flipping twice gives the array back. -/
theorem C99_twice (m v : Mat) (k : Nat) (h : Verif.Mat.flip m k = some v) : Verif.Mat.flip v k = some m := by
  rw [Verif.Mat.flip] at h
  cases hk : m.dims[k]? with
  | none => rw [hk] at h; cases h
  | some d =>
    rw [hk] at h
    injection h with h
    subst h
    have hlt := some_lt hk
    rw [Verif.Mat.flip]
    simp only [List.getElem?_set_self hlt, List.set_set]
    rw [show m.dims.set k ⟨d.size, - -d.step⟩ = m.dims by
      rw [neg_neg]
      apply List.ext_getElem?
      intro j
      rw [List.getElem?_set]
      split
      · rename_i ej; subst ej; rw [hk]
      · rfl]
    congr 2
    ring

example : ∃ v, Verif.Mat.flip (create 0 [4, 5] 0 1) 0 = some v := ⟨_, rfl⟩

/-- Counting the flagged indices from the other end. -/
def turnFlags : List Int → List Bool → List Int → List Int
  | n :: ns, f :: fs, i :: is => (if f then n - 1 - i else i) :: turnFlags ns fs is
  | _, _, _ => []

/-- C99: `flip(flags)` and `flip_all_dim` count the flagged indices from the other end. -/
theorem C99_flags (m : Mat) (fs : List Bool) (hl : fs.length = m.dims.length) :
    ∃ v, flipFlags m fs = some v ∧ matSizes v = matSizes m ∧ MatView v m (turnFlags (matSizes m) fs) 0 := by
  have hsz : matSizes { m with data := (flipLoop m.dims fs m.data).1, dims := (flipLoop m.dims fs m.data).2 } =
      matSizes m := flipLoop_sizes m.dims fs m.data hl
  have tf : ∀ (ds : List Dim) (fs : List Bool) (idx : List Int), fs.length = ds.length → idx.length = ds.length →
      turnFlags (ds.map Dim.size) fs idx =
        List.zipWith (fun (df : Dim × Bool) i => if df.2 then df.1.size - 1 - i else i) (ds.zip fs) idx := by
    intro ds
    induction ds with
    | nil => intro fs idx h1 h2; cases fs <;> cases idx <;> simp_all [turnFlags]
    | cons d ds ih =>
      intro fs idx h1 h2
      cases fs with
      | nil => simp at h1
      | cons f fs =>
        cases idx with
        | nil => simp at h2
        | cons i is =>
          simp only [List.map_cons, turnFlags, List.zip_cons_cons, List.zipWith_cons_cons]
          rw [ih fs is (by simpa using h1) (by simpa using h2)]
  refine ⟨_, by rw [flipFlags, if_neg (by simpa using hl)], hsz, rfl, by simp, ?_, ?_, ?_⟩
  · intro idx hi
    rw [hsz] at hi
    have hl' : fs.length = (matSizes m).length := by simp [matSizes, hl]
    clear hsz tf hl
    generalize matSizes m = ns at *
    induction hi generalizing fs with
    | nil => cases fs <;> exact matIndex_nil
    | @cons n i ns is hx _ ih =>
      cases fs with
      | nil => simp at hl'
      | cons f fs =>
        rw [turnFlags, matIndex_cons]
        exact ⟨by cases f <;> simp <;> omega, ih fs (by simpa using hl')⟩
  · intro idx idx' hi hi' e
    rw [hsz] at hi hi'
    have hl' : fs.length = (matSizes m).length := by simp [matSizes, hl]
    clear hsz tf hl
    generalize matSizes m = ns at *
    induction hi generalizing fs idx' with
    | nil => cases hi'; rfl
    | @cons n i ns is hx _ ih =>
      cases fs with
      | nil => simp at hl'
      | cons f fs =>
        cases hi' with
        | @cons _ j _ js hy ht =>
          simp only [turnFlags, List.cons.injEq] at e
          rw [ih fs js ht e.2 (by simpa using hl')]
          cases f
          · simp only [Bool.false_eq_true, if_false] at e; rw [e.1]
          · simp only [if_true] at e; rw [show i = j by omega]
  · intro idx c hi
    rw [hsz] at hi
    have hil : idx.length = m.dims.length := by rw [← MatIndex.length hi]; simp [matSizes]
    rw [ptr_off, ptr_off, matSizes, tf m.dims fs idx hl hil]
    have := flipLoop_off m.dims fs m.data hl idx hil
    simp only [Mat.unit, zero_add] at this ⊢
    linarith

example : [true, false].length = (create 0 [4, 5] 0 1).dims.length := by decide

/-- `flip(size, dims)` when all dimensions are listed. -/
theorem C99_list_partial (junk : List Bool) (m : Mat) (ks : List Nat) (hj : junk.length = m.dims.length)
    (hk : ks.length = m.dims.length) :
    flipList junk m ks = flipFlags m (ks.foldl (fun fs k => fs.set k true) (List.replicate m.dims.length false)) := by
  rw [flipList, listFlags, hk, List.drop_eq_nil_of_le (by omega), List.append_nil]

example : [true, true].length = (create 0 [4, 5] 0 1).dims.length ∧ [1, 0].length = (create 0 [4, 5] 0 1).dims.length := by decide

/-- The property of `flip(size, dims)`: the listed dimensions are flipped and no others, whatever the memory of the flags
held before. -/
def FlipListShows : Prop :=
  ∀ (junk : List Bool) (m : Mat) (ks : List Nat), junk.length = m.dims.length → (∀ k ∈ ks, k < m.dims.length) →
    ks.Nodup → flipList junk m ks =
      flipFlags m (ks.foldl (fun fs k => fs.set k true) (List.replicate m.dims.length false))

/-- The flags behind the first `size` are never cleared. -/
theorem not_C99_list : ¬ FlipListShows := by
  intro h
  have := h [true, true] (create 0 [2, 2] 0 1) [0] (by decide) (by decide) (by decide)
  revert this
  decide

/-! ### C100: exchanging dimensions -/

/-- The index with two coordinates exchanged. -/
def swapIdx (a b : Nat) (idx : List Int) : List Int :=
  match idx[a]?, idx[b]? with
  | some x, some y => (idx.set a y).set b x
  | _, _ => idx

theorem swapIdx_twice (a b : Nat) (idx : List Int) : swapIdx a b (swapIdx a b idx) = idx := by
  rw [swapIdx.eq_def (idx := idx)]
  cases ha : idx[a]? with
  | none => simp [swapIdx, ha]
  | some x =>
    cases hb : idx[b]? with
    | none => simp [swapIdx, hb]
    | some y =>
      have la := some_lt ha
      have lb := some_lt hb
      simp only []
      rw [swapIdx]
      by_cases e : a = b
      · subst e
        rw [ha] at hb
        injection hb with hb
        subst hb
        simp only [List.set_set, List.getElem?_set_self la]
        apply List.ext_getElem?
        intro j
        rw [List.getElem?_set]
        split
        · rename_i ej; subst ej; rw [ha]
        · rfl
      · have h1 : ((idx.set a y).set b x)[a]? = some y := by
          rw [List.getElem?_set_ne (by omega), List.getElem?_set_self la]
        have h2 : ((idx.set a y).set b x)[b]? = some x := by
          rw [List.getElem?_set_self (by simpa using lb)]
        rw [h1, h2]
        simp only []
        apply List.ext_getElem?
        intro j
        by_cases ja : b = j
        · subst ja
          rw [List.getElem?_set_self (by simpa using lb), hb]
        · rw [List.getElem?_set_ne ja]
          by_cases jb : a = j
          · subst jb
            rw [List.getElem?_set_self (by simpa using la), ha]
          · rw [List.getElem?_set_ne jb, List.getElem?_set_ne ja, List.getElem?_set_ne jb]

/-- C100: `swap_dim` exchanges two indices. -/
theorem C100_swap (m : Mat) (a b : Nat) (ha : a < m.dims.length) (hb : b < m.dims.length) :
    ∃ v, swapDim m a b = some v ∧ matSizes v = swapIdx a b (matSizes m) ∧ MatView v m (swapIdx a b) 0 := by
  obtain ⟨x, ex⟩ := get_of_length m.dims a ha
  obtain ⟨y, ey⟩ := get_of_length m.dims b hb
  have hsx : (matSizes m)[a]? = some x.size := by simp [matSizes, ex]
  have hsy : (matSizes m)[b]? = some y.size := by simp [matSizes, ey]
  have hsz : matSizes { m with dims := (m.dims.set a y).set b x } = swapIdx a b (matSizes m) := by
    rw [swapIdx, hsx, hsy]
    simp [matSizes, List.map_set]
  refine ⟨_, by rw [swapDim, ex, ey], hsz, rfl, by simp, ?_, ?_, ?_⟩
  · intro idx hi
    rw [hsz] at hi
    have hl := MatIndex.length hi
    have : ∀ ns is : List Int, MatIndex ns is → MatIndex (swapIdx a b ns) (swapIdx a b is) := by
      intro ns is h
      have hl := MatIndex.length h
      cases h1 : is[a]? with
      | none =>
        have : ns[a]? = none := by
          rw [List.getElem?_eq_none_iff] at h1 ⊢; omega
        simpa [swapIdx, h1, this] using h
      | some i =>
        cases h2 : is[b]? with
        | none =>
          have : ns[b]? = none := by
            rw [List.getElem?_eq_none_iff] at h2 ⊢; omega
          simpa [swapIdx, h2, this] using h
        | some j =>
          obtain ⟨p, ep⟩ := get_of_length ns a (by have := some_lt h1; omega)
          obtain ⟨q, eq⟩ := get_of_length ns b (by have := some_lt h2; omega)
          rw [swapIdx, swapIdx, ep, eq, h1, h2]
          exact matIndex_set (matIndex_set h a q j (matIndex_get h b q j eq h2)) b p i (matIndex_get h a p i ep h1)
    have h := this _ _ hi
    rwa [swapIdx_twice] at h
  · intro idx idx' _ _ e
    rw [← swapIdx_twice a b idx, e, swapIdx_twice]
  · intro idx c hi
    rw [hsz] at hi
    have hl := MatIndex.length hi
    have hll : idx.length = m.dims.length := by
      rw [← hl, swapIdx, hsx, hsy]; simp [matSizes]
    obtain ⟨i, ei⟩ := get_of_length idx a (by omega)
    obtain ⟨j, ej⟩ := get_of_length idx b (by omega)
    rw [ptr_off, ptr_off, swapIdx, ei, ej]
    simp only [Mat.unit, zero_add]
    by_cases e : a = b
    · subst e
      rw [ei] at ej; injection ej with ej; subst ej
      rw [ex] at ey; injection ey with ey; subst ey
      rw [List.set_set, List.set_set, off_set_dim m.dims a x x idx i ex ei, off_set_idx m.dims a x idx i i ex ei]
      ring
    · rw [off_set_dim (m.dims.set a y) b y x idx j (by rw [List.getElem?_set_ne e, ey]) ej,
        off_set_dim m.dims a x y idx i ex ei,
        off_set_idx m.dims b y (idx.set a j) j i ey (by rw [List.getElem?_set_ne e, ej]),
        off_set_idx m.dims a x idx i j ex ei]
      ring

example : 0 < (create 0 [4, 5] 0 1).dims.length ∧ 1 < (create 0 [4, 5] 0 1).dims.length := by decide

/-- `t` of a picture: pixel `(i, j)` of the transpose is pixel `(j, i)`; transposing twice gives the picture back. -/
theorem C100_transpose (m : Mat) (h w : Dim) (hd : m.dims = [h, w]) :
    ∃ v, transpose m = some v ∧ matSizes v = [w.size, h.size] ∧ (∀ i j c, ptr v [i, j] c = ptr m [j, i] c) ∧
      transpose v = some m := by
  refine ⟨{ m with dims := [w, h] }, by simp [transpose, swapDim, hd], by simp [matSizes], ?_, ?_⟩
  · intro i j c
    simp only [ptr_off, off, hd, Mat.unit]
    ring
  · simp [transpose, swapDim, ← hd]

example : (create 0 [4, 5] 0 1).dims = [⟨4, 5⟩, ⟨5, 1⟩] := by decide

/-! ### C101: channels -/

/-- C101: `sub_channel` and `channel_at` show the channels asked for. -/
theorem C101_channels (m : Mat) (s e : Int) (h0 : 0 ≤ s) (h2 : e ≤ m.chan) :
    MatView (subChannel m s e) m id s ∧ (subChannel m s e).chan = e - s ∧ matSizes (subChannel m s e) = matSizes m := by
  rw [subChannel]
  split
  · rename_i h
    refine ⟨⟨rfl, by omega, fun _ h => h, fun _ _ _ _ h => h, ?_⟩, by omega, rfl⟩
    intro idx c _
    rw [h.1, zero_add]; rfl
  · refine ⟨⟨rfl, by simp only; omega, fun _ h => h, fun _ _ _ _ h => h, ?_⟩, rfl, rfl⟩
    intro idx c _
    simp only [ptr_off, Mat.unit, id]
    ring

example : (0 : Int) ≤ 1 ∧ (3 : Int) ≤ (create 0 [4, 5] 0 3).chan := by decide

/-- C101: `channel_as_last_dim` makes the channel the last index, and `last_dim_as_channel` undoes it. -/
theorem C101_last (m : Mat) :
    (channelAsLastDim m).chan = 1 ∧ matSizes (channelAsLastDim m) = matSizes m ++ [m.chan] ∧
      (∀ idx c, idx.length = m.dims.length → ptr (channelAsLastDim m) (idx ++ [c]) 0 = ptr m idx c) ∧
      lastDimAsChannel (channelAsLastDim m) = some m := by
  have hoff : ∀ (ds : List Dim) (d : Dim) (idx : List Int) (c : Int), idx.length = ds.length →
      off (ds ++ [d]) (idx ++ [c]) = off ds idx + c * d.step := by
    intro ds
    induction ds with
    | nil => intro d idx c h; cases idx <;> simp_all [off]
    | cons e ds ih =>
      intro d idx c h
      cases idx with
      | nil => simp at h
      | cons i is =>
        simp only [List.cons_append, off, ih d is c (by simpa using h)]
        ring
  refine ⟨rfl, by simp [matSizes, channelAsLastDim], ?_, ?_⟩
  · intro idx c h
    rw [ptr_off, ptr_off]
    simp only [channelAsLastDim, Mat.unit, hoff m.dims _ idx c h]
    ring
  · simp [lastDimAsChannel, channelAsLastDim]

/-! ### C102: new arrays -/

theorem foldl_count (ns : List Int) (k : Int) : ns.foldl (fun r n => r * n) k = k * matCount ns := by
  induction ns generalizing k with
  | nil => simp [matCount]
  | cons n ns ih => rw [List.foldl_cons, ih, matCount]; ring

/-- C102: the bytes of a new array are apart and are exactly the bytes allocated for it. -/
theorem C102_create (a : Int) (sizes : List Int) (depth : Fin 10) (chan : Int) (hn : ∀ n ∈ sizes, 0 ≤ n) :
    matSizes (create a sizes depth chan) = sizes ∧ MatApart (create a sizes depth chan) ∧
      ∀ x, MatHas (create a sizes depth chan) x ↔ a ≤ x ∧ x < a + allocSize sizes depth chan := by
  have hsz : matSizes (create a sizes depth chan) = sizes := autoStep_sizes _ _
  have hu : 0 < depthSize depth := depthSize_pos depth
  have hb : ∀ idx c b, MatIndex sizes idx → matByte (create a sizes depth chan) idx c b =
      a + depthSize depth * (chan * matRank sizes idx + c) + b := by
    intro idx c b h
    rw [matByte, ptr_off]
    simp only [create, off_autoStep _ _ _ (MatIndex.length h), Mat.unit]
    ring
  refine ⟨hsz, ?_, ?_⟩
  · intro idx c b idx' c' b' hi hi' c0 c1 c0' c1' b0 b1 b0' b1' e
    rw [hsz] at hi hi'
    rw [hb idx c b hi, hb idx' c' b' hi'] at e
    simp only [create, Mat.unit] at c1 c1' b1 b1'
    have e1 : chan * matRank sizes idx + c = chan * matRank sizes idx' + c' := by
      by_contra hne
      rcases lt_or_gt_of_ne hne with l | l <;> nlinarith
    have e2 : matRank sizes idx = matRank sizes idx' := by
      by_contra hne
      rcases lt_or_gt_of_ne hne with l | l <;> nlinarith
    refine ⟨matRank_inj hi hi' e2, ?_, ?_⟩
    · rw [e2] at e1; omega
    · rw [e1] at e; omega
  · intro x
    rw [allocSize, foldl_count]
    constructor
    · rintro ⟨idx, c, b, hi, c0, c1, b0, b1, e⟩
      rw [hsz] at hi
      rw [hb idx c b hi] at e
      simp only [create, Mat.unit] at c1 b1
      have := matRank_bound hi
      have g1 : chan * matRank sizes idx + c + 1 ≤ chan * matCount sizes := by nlinarith
      have g2 : 0 ≤ chan * matRank sizes idx := mul_nonneg (by omega) this.1
      constructor
      · nlinarith
      · nlinarith
    · rintro ⟨x0, x1⟩
      have hq : 0 ≤ (x - a) / depthSize depth := Int.ediv_nonneg (by omega) hu.le
      have hq1 : (x - a) / depthSize depth < chan * matCount sizes :=
        Int.ediv_lt_of_lt_mul hu (by linarith [mul_comm (depthSize depth) (chan * matCount sizes), mul_assoc (depthSize depth) chan (matCount sizes)])
      have hcnt := matCount_nonneg hn
      have hc : 0 < chan := by
        by_contra hc
        have := mul_nonneg (show 0 ≤ -chan by omega) hcnt
        linarith [neg_mul chan (matCount sizes)]
      have hr1 : (x - a) / depthSize depth / chan < matCount sizes :=
        Int.ediv_lt_of_lt_mul hc (by linarith [mul_comm chan (matCount sizes)])
      have sp := unrank_spec hn (Int.ediv_nonneg hq hc.le) hr1
      refine ⟨unrank sizes ((x - a) / depthSize depth / chan), (x - a) / depthSize depth % chan,
        (x - a) % depthSize depth, by rw [hsz]; exact sp.1, Int.emod_nonneg _ hc.ne', Int.emod_lt_of_pos _ hc,
        Int.emod_nonneg _ hu.ne', Int.emod_lt_of_pos _ hu, ?_⟩
      rw [hb _ _ _ sp.1, sp.2]
      have e1 := Int.emod_add_mul_ediv ((x - a) / depthSize depth) chan
      have e2 := Int.emod_add_mul_ediv (x - a) (depthSize depth)
      rw [show chan * ((x - a) / depthSize depth / chan) + (x - a) / depthSize depth % chan =
        (x - a) / depthSize depth by linarith]
      linarith

example : ∀ n ∈ [4, 5], (0 : Int) ≤ n := by decide

end Verif.Props
