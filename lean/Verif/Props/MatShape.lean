import Verif.Proof.MatEq

/-!
# C111, C112: other shapes of the same elements
-/

namespace Verif.Props

open Verif.Spec Verif.Mat

/-! ### C111: `reshape` -/

/-- Channel `c` of element `idx` of `v` and channel `c'` of element `idx'` of `m` are the same whenever they have the same
place in row-major order, channels counted. -/
def SameFlat (v m : Mat) : Prop :=
  ∀ idx c idx' c', MatIndex (matSizes v) idx → MatIndex (matSizes m) idx' →
    matRank (matSizes v) idx * v.chan + c = matRank (matSizes m) idx' * m.chan + c' → ptr v idx c = ptr m idx' c'

/-- The property of `reshape`: an array that passes the check keeps its elements in order, and no other memory is reached. -/
def ReshapeKeeps : Prop :=
  ∀ (m : Mat) (sizes : List Int) (ch : Int), m.dims ≠ [] → 0 < m.chan → (ch = -1 ∨ 0 < ch) → (∀ n ∈ matSizes m, 1 ≤ n) →
    (∀ n ∈ sizes, 1 ≤ n) → reshapeCheck m sizes ch = true →
    matSizes (reshape m sizes ch) = sizes ∧ SameFlat (reshape m sizes ch) m ∧
      ∀ a, MatHas (reshape m sizes ch) a ↔ MatHas m a

/-- C111: when no dimension is flipped. -/
theorem C111_reshape_partial (m : Mat) (sizes : List Int) (ch : Int) (hne : m.dims ≠ []) (hc : 0 < m.chan)
    (hch : ch = -1 ∨ 0 < ch) (h1 : ∀ n ∈ matSizes m, 1 ≤ n) (h1' : ∀ n ∈ sizes, 1 ≤ n) (hcheck : reshapeCheck m sizes ch = true)
    (hpos : ∀ d ∈ m.dims, 0 < d.step) :
    matSizes (reshape m sizes ch) = sizes ∧ SameFlat (reshape m sizes ch) m ∧
      ∀ a, MatHas (reshape m sizes ch) a ↔ MatHas m a := by
  rw [reshapeCheck, Bool.and_eq_true] at hcheck
  obtain ⟨hcon, hcnt⟩ := hcheck
  have hp := elemSize_pos hc
  have hu := unit_pos m
  obtain ⟨s, hs, hd⟩ := (isContinuous_iff hne).1 hcon
  have hse : s = m.elemSize := by
    have hl := List.getLast?_eq_some_getLast hne
    have := autoStep_last s (matSizes m) _ (by rw [← hd]; exact hl)
    have := hpos _ (List.getLast_mem hne)
    omega
  subst hse
  generalize hcc : (if ch = -1 then m.chan else ch) = C at *
  have hC : 0 < C := by
    rw [← hcc]; split
    · exact hc
    · omega
  have hcount : matCount (matSizes m) * m.chan = matCount sizes * C := by
    rw [elementNumber_eq, foldl_count, one_mul] at hcnt
    by_cases h : ch = -1
    · rw [if_neg (by simpa using h)] at hcnt
      rw [← hcc, if_pos h, of_decide_eq_true hcnt]
    · rw [if_pos h] at hcnt
      rw [← hcc, if_neg h, of_decide_eq_true hcnt]
  have hr : reshape m sizes ch = { m with dims := autoStep (m.unit * C) sizes, chan := C } := by rw [reshape, hcc]
  have hsz : matSizes (reshape m sizes ch) = sizes := by rw [hr]; exact autoStep_sizes _ _
  have hpv : ∀ idx c, MatIndex sizes idx → ptr (reshape m sizes ch) idx c = m.data + m.unit * (matRank sizes idx * C + c) := by
    intro idx c hi
    rw [hr, ptr_off]
    simp only [off_autoStep _ _ _ (MatIndex.length hi), Mat.unit]
    ring
  have hpm : ∀ idx c, MatIndex (matSizes m) idx → ptr m idx c = m.data + m.unit * (matRank (matSizes m) idx * m.chan + c) := by
    intro idx c hi
    rw [ptr_off]
    have := off_autoStep m.elemSize (matSizes m) idx (MatIndex.length hi)
    rw [← hd] at this
    rw [this, Mat.elemSize]; ring
  have hsame : SameFlat (reshape m sizes ch) m := by
    intro idx c idx' c' hi hi' e
    rw [hsz] at hi e
    have hvc : (reshape m sizes ch).chan = C := by rw [hr]
    rw [hvc] at e
    rw [hpv idx c hi, hpm idx' c' hi', e]
  have hunit : (reshape m sizes ch).unit = m.unit := by rw [hr]; rfl
  have hvc : (reshape m sizes ch).chan = C := by rw [hr]
  refine ⟨hsz, hsame, fun a => ?_⟩
  -- both are the flat places 0 … count * channels - 1
  have hflat : ∀ (ns : List Int) (K : Int), 0 < K → (∀ n ∈ ns, 1 ≤ n) → ∀ f, (0 ≤ f ∧ f < matCount ns * K) ↔
      ∃ idx c, MatIndex ns idx ∧ 0 ≤ c ∧ c < K ∧ f = matRank ns idx * K + c := by
    intro ns K hK hn f
    constructor
    · rintro ⟨f0, f1⟩
      have sp := unrank_spec (ns := ns) (fun n h => by have := hn n h; omega) (r := f / K) (Int.ediv_nonneg f0 hK.le)
        (Int.ediv_lt_of_lt_mul hK f1)
      refine ⟨_, f % K, sp.1, Int.emod_nonneg _ hK.ne', Int.emod_lt_of_pos _ hK, ?_⟩
      rw [sp.2]
      have := Int.emod_add_mul_ediv f K
      linarith [mul_comm K (f / K)]
    · rintro ⟨idx, c, hi, c0, c1, rfl⟩
      have := matRank_bound hi
      constructor <;> nlinarith
  constructor
  · rintro ⟨idx, c, b, hi, c0, c1, b0, b1, rfl⟩
    rw [hsz] at hi
    rw [hvc] at c1
    have := (hflat sizes C hC h1' _).2 ⟨idx, c, hi, c0, c1, rfl⟩
    rw [← hcount] at this
    obtain ⟨idx', c', hi', c0', c1', e⟩ := (hflat (matSizes m) m.chan hc h1 _).1 this
    refine ⟨idx', c', b, hi', c0', c1', b0, by rw [hunit] at b1; exact b1, ?_⟩
    rw [matByte, matByte, hpv idx c hi, hpm idx' c' hi', e]
  · rintro ⟨idx, c, b, hi, c0, c1, b0, b1, rfl⟩
    have := (hflat (matSizes m) m.chan hc h1 _).2 ⟨idx, c, hi, c0, c1, rfl⟩
    rw [hcount] at this
    obtain ⟨idx', c', hi', c0', c1', e⟩ := (hflat sizes C hC h1' _).1 this
    refine ⟨idx', c', b, by rw [hsz]; exact hi', c0', by rw [hvc]; exact c1', b0, by rw [hunit]; exact b1, ?_⟩
    rw [matByte, matByte, hpv idx' c' hi', hpm idx c hi, e]

example : ∃ (m : Mat) (sizes : List Int) (ch : Int), m.dims ≠ [] ∧ 0 < m.chan ∧ (ch = -1 ∨ 0 < ch) ∧ (∀ n ∈ matSizes m, 1 ≤ n) ∧
    (∀ n ∈ sizes, 1 ≤ n) ∧ reshapeCheck m sizes ch = true ∧ ∀ d ∈ m.dims, 0 < d.step :=
  ⟨create 0 [4, 6] 2 1, [2, 3, 2], 2, by decide, by decide, by decide, by decide, by decide, by decide, by decide⟩

/-- A flipped array passes the check, but the steps of the result are positive: it runs out of the memory. -/
theorem not_C111_reshape : ¬ ReshapeKeeps := by
  intro h
  have := ((h ⟨3, [⟨2, -2⟩, ⟨2, -1⟩], 0, 1⟩ [4] (-1) (by decide) (by decide) (by decide) (by decide) (by decide) (by decide)).2.2 4).1
    ⟨[1], 0, 0, by simp only [matSizes, MatIndex, reshape]; decide, by decide, by decide, by decide, by decide, by decide⟩
  obtain ⟨idx, c, b, hi, c0, c1, b0, b1, e⟩ := this
  obtain ⟨i, j, rfl, i0, i1, j0, j1⟩ := matIndex2 hi
  simp only [byte_ptr, ptr_off, off, Mat.unit, show depthSize 0 = 1 from rfl] at *
  omega

/-- C111: `reshape_channel` moves elements between the last index and the channel. -/
theorem C111_channel_partial (m : Mat) (ch : Int) (d : Dim) (hd : m.dims.getLast? = some d) (hc : 0 < m.chan) (hch : 0 < ch)
    (hdvd : ch ∣ d.size * m.chan) (h1 : ∀ n ∈ matSizes m, 1 ≤ n) (hcon : isContinuous m = true)
    (hpos : ∀ d ∈ m.dims, 0 < d.step) :
    ∃ v, reshapeChannel m ch = some v ∧ v.chan = ch ∧
      matSizes v = m.dims.dropLast.map Dim.size ++ [d.size * m.chan / ch] ∧ SameFlat v m ∧ ∀ a, MatHas v a ↔ MatHas m a := by
  have hne : m.dims ≠ [] := by intro h; rw [h] at hd; simp at hd
  have hdl : m.dims = m.dims.dropLast ++ [d] := by
    have := List.dropLast_append_getLast hne
    rw [List.getLast?_eq_some_getLast hne] at hd
    rw [← Option.some.inj hd]; exact this.symm
  have hsz : matSizes m = m.dims.dropLast.map Dim.size ++ [d.size] := by
    rw [matSizes]; conv_lhs => rw [hdl]
    simp
  have hds : 1 ≤ d.size := h1 _ (by rw [hsz]; simp)
  obtain ⟨q, hq⟩ := hdvd
  have hqd : d.size * m.chan / ch = q := by rw [hq]; exact Int.mul_ediv_cancel_left _ hch.ne'
  have hqp : 1 ≤ q := by
    by_contra h
    have : 0 < d.size * m.chan := mul_pos (by omega) hc
    nlinarith
  have hcnt : ∀ (l : List Int) (x : Int), matCount (l ++ [x]) = matCount l * x := by
    intro l x
    induction l with
    | nil => simp [matCount]
    | cons y l ih => rw [List.cons_append, matCount, matCount, ih]; ring
  rw [reshapeChannel]
  by_cases hsame : ch = m.chan
  · rw [if_pos hsame]
    have : q = d.size := by
      rw [hsame] at hq
      have : (q - d.size) * m.chan = 0 := by linarith [mul_comm m.chan q]
      rcases mul_eq_zero.1 this with h | h <;> omega
    refine ⟨m, rfl, hsame.symm, by rw [hqd, this]; exact hsz, ?_, fun _ => Iff.rfl⟩
    intro idx c idx' c' hi hi' e
    have hd2 := (isContinuous_iff hne).1 hcon
    obtain ⟨s, hs, hdd⟩ := hd2
    have hse : s = m.elemSize := by
      have hl := List.getLast?_eq_some_getLast hne
      have := autoStep_last s (matSizes m) _ (by rw [← hdd]; exact hl)
      have := hpos _ (List.getLast_mem hne)
      have := elemSize_pos hc
      omega
    have hpm : ∀ idx c, MatIndex (matSizes m) idx → ptr m idx c = m.data + m.unit * (matRank (matSizes m) idx * m.chan + c) := by
      intro idx c hi
      rw [ptr_off]
      have := off_autoStep s (matSizes m) idx (MatIndex.length hi)
      rw [← hdd] at this
      rw [this, hse, Mat.elemSize]; ring
    rw [hpm idx c hi, hpm idx' c' hi', e]
  · rw [if_neg hsame, if_neg (by omega), hd]
    simp only
    rw [Int.tdiv_eq_ediv_of_nonneg (mul_nonneg (by omega) hc.le), hqd]
    have := C111_reshape_partial m (m.dims.dropLast.map Dim.size ++ [q]) ch hne hc (Or.inr hch) h1 (by
      intro n hn
      rcases List.mem_append.1 hn with h | h
      · exact h1 n (by rw [hsz]; exact List.mem_append_left _ h)
      · rw [List.mem_singleton.1 h]; exact hqp) (by
      rw [reshapeCheck, hcon, if_pos (by omega), elementNumber_eq, foldl_count, one_mul, hsz, hcnt, hcnt]
      simp only [Bool.true_and, decide_eq_true_eq]
      rw [mul_assoc, hq]; ring) hpos
    exact ⟨_, rfl, by simp only [reshape]; rw [if_neg (by omega)], this.1, this.2⟩

example : ∃ (m : Mat) (ch : Int) (d : Dim), m.dims.getLast? = some d ∧ 0 < m.chan ∧ 0 < ch ∧ ch ∣ d.size * m.chan ∧
    (∀ n ∈ matSizes m, 1 ≤ n) ∧ isContinuous m = true ∧ ∀ d ∈ m.dims, 0 < d.step :=
  ⟨create 0 [4, 6] 2 2, 3, ⟨6, 4⟩, by decide, by decide, by decide, by decide, by decide, by decide, by decide⟩

/-! ### C112: splitting and combining dimensions -/

/-- The sub-indices of dimension `k` replaced by their place. -/
def joinIdx (k : Nat) (sizes idx : List Int) : List Int :=
  idx.take k ++ matRank sizes ((idx.drop k).take sizes.length) :: idx.drop (k + sizes.length)

theorem joinIdx_append (k : Nat) (sizes x y z : List Int) (hx : x.length = k) (hy : y.length = sizes.length) :
    joinIdx k sizes (x ++ (y ++ z)) = x ++ matRank sizes y :: z := by
  subst hx
  rw [joinIdx, List.take_left, List.drop_left, ← hy, List.take_left, ← List.drop_drop, List.drop_left, List.drop_left]

/-- C112: `split_dim` into sizes whose product is the size of the dimension. -/
theorem C112_split (m : Mat) (k : Nat) (d : Dim) (sizes : List Int) (hk : m.dims[k]? = some d)
    (hn : matCount sizes = d.size) :
    ∃ v, splitDim m k sizes = some v ∧ v.chan = m.chan ∧
      matSizes v = (matSizes m).take k ++ (sizes ++ (matSizes m).drop (k + 1)) ∧ MatView v m (joinIdx k sizes) 0 := by
  have hkl := some_lt hk
  have hdims : m.dims = m.dims.take k ++ d :: m.dims.drop (k + 1) := by
    have := List.take_append_drop k m.dims
    rw [List.drop_eq_getElem_cons hkl] at this
    rw [List.getElem?_eq_getElem hkl] at hk
    rw [← Option.some.inj hk]; exact this.symm
  have hsm : matSizes m = (m.dims.take k).map Dim.size ++ d.size :: (m.dims.drop (k + 1)).map Dim.size := by
    rw [matSizes]; conv_lhs => rw [hdims]
    simp
  rw [splitDim, hk]
  have hsv : matSizes ({ m with dims := m.dims.take k ++ (autoStep d.step sizes ++ m.dims.drop (k + 1)) } : Mat) =
      (m.dims.take k).map Dim.size ++ (sizes ++ (m.dims.drop (k + 1)).map Dim.size) := by
    simp [matSizes, autoStep_sizes]
  have hlk : (m.dims.take k).length = k := by rw [List.length_take]; omega
  refine ⟨_, rfl, rfl, by rw [hsv]; simp [matSizes, List.map_take, List.map_drop], rfl, ⟨le_refl _, by simp⟩, ?_, ?_, ?_⟩
  · intro idx hi
    rw [hsv] at hi
    obtain ⟨x, w, rfl, hx, hw⟩ := matIndex_append.1 hi
    obtain ⟨y, z, rfl, hy, hz⟩ := matIndex_append.1 hw
    rw [joinIdx_append k sizes x y z (by rw [← MatIndex.length hx, List.length_map, hlk]) (MatIndex.length hy).symm, hsm]
    have := matRank_bound hy
    exact matIndex_append.2 ⟨x, _, rfl, hx, matIndex_cons.2 ⟨⟨this.1, by omega⟩, hz⟩⟩
  · intro idx idx' hi hi' e
    rw [hsv] at hi hi'
    obtain ⟨x, w, rfl, hx, hw⟩ := matIndex_append.1 hi
    obtain ⟨y, z, rfl, hy, hz⟩ := matIndex_append.1 hw
    obtain ⟨x', w', rfl, hx', hw'⟩ := matIndex_append.1 hi'
    obtain ⟨y', z', rfl, hy', hz'⟩ := matIndex_append.1 hw'
    have lx : x.length = k := by rw [← MatIndex.length hx, List.length_map, hlk]
    have lx' : x'.length = k := by rw [← MatIndex.length hx', List.length_map, hlk]
    rw [joinIdx_append k sizes x y z lx (MatIndex.length hy).symm,
      joinIdx_append k sizes x' y' z' lx' (MatIndex.length hy').symm] at e
    obtain ⟨e1, e2⟩ := List.append_inj e (by omega)
    obtain ⟨e3, e4⟩ := List.cons.inj e2
    rw [e1, e4, matRank_inj hy hy' e3]
  · intro idx c hi
    rw [hsv] at hi
    obtain ⟨x, w, rfl, hx, hw⟩ := matIndex_append.1 hi
    obtain ⟨y, z, rfl, hy, hz⟩ := matIndex_append.1 hw
    have lx : x.length = k := by rw [← MatIndex.length hx, List.length_map, hlk]
    rw [joinIdx_append k sizes x y z lx (MatIndex.length hy).symm, ptr_off, ptr_off]
    simp only
    rw [off_append _ _ _ _ (by omega), off_append _ _ _ _ (by
      have := congrArg List.length (autoStep_sizes d.step sizes)
      rw [List.length_map] at this
      rw [this, MatIndex.length hy]), off_autoStep _ _ _ (MatIndex.length hy)]
    conv_rhs => rw [hdims]
    rw [off_append _ _ _ _ (by omega), off]
    simp only [Mat.unit]
    ring

example : ∃ (m : Mat) (k : Nat) (d : Dim) (sizes : List Int), m.dims[k]? = some d ∧ matCount sizes = d.size :=
  ⟨create 0 [4, 6] 2 2, 1, ⟨6, 4⟩, [2, 3], by decide, by decide⟩

/-- C112: `increase_dim` adds a dimension of size 1 at `k` and changes nothing else. -/
theorem C112_increase (m : Mat) (k : Nat) (hk : k ≤ m.dims.length) (hne : m.dims ≠ []) :
    ∃ v, increaseDim m k = some v ∧ v.chan = m.chan ∧ v.depth = m.depth ∧
      matSizes v = (matSizes m).take k ++ 1 :: (matSizes m).drop k ∧
      ∀ x y c, x.length = k → y.length = m.dims.length - k → ptr v (x ++ 0 :: y) c = ptr m (x ++ y) c := by
  have hpos := List.length_pos_iff.2 hne
  rw [increaseDim]
  split
  · rename_i hkl
    have hl : k - 1 < m.dims.length := by omega
    rw [List.getElem?_eq_getElem hl]
    simp only [splitDim, List.getElem?_eq_getElem hl]
    have hdims : m.dims = m.dims.take (k - 1) ++ [m.dims[k - 1]] := by
      have := List.take_append_drop (k - 1) m.dims
      rw [List.drop_eq_getElem_cons hl, show k - 1 + 1 = k by omega, List.drop_eq_nil_of_le (by omega)] at this
      exact this.symm
    have hv : m.dims.take (k - 1) ++ (autoStep m.dims[k - 1].step [m.dims[k - 1].size, 1] ++ m.dims.drop (k - 1 + 1)) =
        m.dims ++ [⟨1, m.dims[k - 1].step⟩] := by
      rw [show k - 1 + 1 = k by omega, List.drop_eq_nil_of_le (by omega : m.dims.length ≤ k), List.append_nil]
      have : autoStep m.dims[k - 1].step [m.dims[k - 1].size, 1] = [m.dims[k - 1]] ++ [⟨1, m.dims[k - 1].step⟩] := by
        simp [autoStep]
      rw [this, ← List.append_assoc, ← hdims]
    rw [hv]
    refine ⟨_, rfl, rfl, rfl, ?_, ?_⟩
    · simp only [matSizes, List.map_append, List.map_cons, List.map_nil]
      rw [List.take_of_length_le (by rw [List.length_map]; omega), List.drop_eq_nil_of_le (by rw [List.length_map]; omega)]
    · intro x y c hx hy
      have : y = [] := List.length_eq_zero_iff.1 (by omega)
      subst this
      rw [ptr_off, ptr_off]
      simp only
      rw [off_append _ _ _ _ (by omega)]
      simp [off, Mat.unit]
  · rename_i hkl
    have hl : k < m.dims.length := by omega
    rw [List.getElem?_eq_getElem hl]
    simp only [splitDim, List.getElem?_eq_getElem hl]
    have hdims : m.dims = m.dims.take k ++ m.dims[k] :: m.dims.drop (k + 1) := by
      have := List.take_append_drop k m.dims
      rw [List.drop_eq_getElem_cons hl] at this
      exact this.symm
    have hdk : m.dims.drop k = m.dims[k] :: m.dims.drop (k + 1) := List.drop_eq_getElem_cons hl
    have hv : autoStep m.dims[k].step [1, m.dims[k].size] ++ m.dims.drop (k + 1) =
        ⟨1, m.dims[k].step * m.dims[k].size⟩ :: m.dims.drop k := by
      rw [hdk]
      rfl
    rw [hv]
    refine ⟨_, rfl, rfl, rfl, ?_, ?_⟩
    · simp [matSizes, List.map_take, List.map_drop]
    · intro x y c hx hy
      rw [ptr_off, ptr_off]
      simp only
      rw [off_append _ _ _ _ (by rw [List.length_take]; omega), off]
      have := off_append (m.dims.take k) (m.dims.drop k) x y (by rw [List.length_take]; omega)
      rw [List.take_append_drop] at this
      rw [this]
      simp [Mat.unit]

example : ∃ (m : Mat) (k : Nat), k ≤ m.dims.length ∧ m.dims ≠ [] := ⟨create 0 [4, 6] 2 2, 2, by decide, by decide⟩

theorem autoStep_append (s : Int) (xs ys : List Int) :
    autoStep s (xs ++ ys) = autoStep (s * matCount ys) xs ++ autoStep s ys := by
  have hcnt : ∀ (l : List Int), matCount (l ++ ys) = matCount ys * matCount l := by
    intro l
    induction l with
    | nil => simp [matCount]
    | cons y l ih => rw [List.cons_append, matCount, matCount, ih]; ring
  induction xs with
  | nil => simp [autoStep]
  | cons n xs ih => rw [List.cons_append, autoStep_cons, autoStep_cons, List.cons_append, ih, hcnt, mul_assoc]

/-- The index with place `idx[k]` replaced by the indices of the combined dimensions. -/
def parted (k : Nat) (sizes idx : List Int) : List Int :=
  idx.take k ++ (unrank sizes (idx.getD k 0) ++ idx.drop (k + 1))

theorem parted_append (k : Nat) (sizes x z : List Int) (i : Int) (hx : x.length = k) :
    parted k sizes (x ++ i :: z) = x ++ (unrank sizes i ++ z) := by
  subst hx
  rw [parted, List.take_left, List.getD_eq_getElem?_getD, List.getElem?_append_right (le_refl _)]
  simp

/-- Dimensions `s` to `s + n - 1` follow each other without gaps. -/
def Gapless (m : Mat) (s n : Nat) : Prop :=
  ∃ e, (m.dims.drop s).take n = autoStep e (((m.dims.drop s).take n).map Dim.size)

/-- C112: `combine_dim` of dimensions without gaps, as a view. -/
theorem combineView_gapless (m : Mat) (s n : Nat) (hn : 0 < n) (hl : s + n ≤ m.dims.length) (h0 : ∀ x ∈ matSizes m, 0 ≤ x)
    (hg : Gapless m s n) :
    ∃ v, combineView m s n = some v ∧ v.chan = m.chan ∧ matSizes v = (matSizes m).take s ++
        matCount (((matSizes m).drop s).take n) :: (matSizes m).drop (s + n) ∧
      MatView v m (parted s (((matSizes m).drop s).take n)) 0 := by
  obtain ⟨e, he⟩ := hg
  have hS : ((matSizes m).drop s).take n = ((m.dims.drop s).take n).map Dim.size := by
    rw [matSizes, List.map_take, List.map_drop]
  have hlen : ((m.dims.drop s).take n).length = n := by rw [List.length_take, List.length_drop]; omega
  have hdims : m.dims = m.dims.take s ++ ((m.dims.drop s).take n ++ m.dims.drop (s + n)) := by
    rw [← List.drop_drop, List.take_append_drop, List.take_append_drop]
  have hls : (m.dims.take s).length = s := by rw [List.length_take]; omega
  rw [hS]
  generalize hSg : (m.dims.drop s).take n = S at *
  have hsm : matSizes m = (m.dims.take s).map Dim.size ++ (S.map Dim.size ++ (m.dims.drop (s + n)).map Dim.size) := by
    rw [matSizes]; conv_lhs => rw [hdims]
    simp
  have hS0 : ∀ x ∈ S.map Dim.size, 0 ≤ x := fun x hx => h0 x (by rw [hsm]; simp only [List.mem_append]; right; left; exact hx)
  rw [combineView, hSg]
  cases S with
  | nil => simp at hlen; omega
  | cons d ds =>
    simp only
    rw [if_neg (by simp only [hlen, ne_eq, not_true_eq_false, not_false_eq_true])]
    have hlast : ((d :: ds).getLast (by simp)).step = e :=
      autoStep_last e ((d :: ds).map Dim.size) _ (by rw [← he]; exact List.getLast?_eq_some_getLast (by simp))
    have hsize : ds.foldl (fun r e => r * e.size) d.size = matCount ((d :: ds).map Dim.size) := by
      rw [foldl_size, List.map_cons, matCount]
    rw [hlast, hsize]
    clear hlast hsize
    generalize d :: ds = T at *
    have hsv : matSizes ({ m with dims := m.dims.take s ++ ⟨matCount (T.map Dim.size), e⟩ :: m.dims.drop (s + n) } : Mat) =
        (m.dims.take s).map Dim.size ++ matCount (T.map Dim.size) :: (m.dims.drop (s + n)).map Dim.size := by
      simp [matSizes]
    refine ⟨_, rfl, rfl, by rw [hsv]; simp [matSizes, List.map_take, List.map_drop], rfl, ⟨le_refl _, by simp⟩, ?_, ?_, ?_⟩
    · intro idx hi
      rw [hsv] at hi
      obtain ⟨x, w, rfl, hx, hw⟩ := matIndex_append.1 hi
      cases hw with
      | @cons _ i _ z hii hz =>
        rw [parted_append _ _ _ _ _ (by rw [← MatIndex.length hx, List.length_map, hls]), hsm]
        exact matIndex_append.2 ⟨x, _, rfl, hx, matIndex_append.2 ⟨_, z, rfl, (unrank_spec hS0 hii.1 hii.2).1, hz⟩⟩
    · intro idx idx' hi hi' eq
      rw [hsv] at hi hi'
      obtain ⟨x, w, rfl, hx, hw⟩ := matIndex_append.1 hi
      obtain ⟨x', w', rfl, hx', hw'⟩ := matIndex_append.1 hi'
      cases hw with
      | @cons _ i _ z hii hz =>
        cases hw' with
        | @cons _ i' _ z' hii' hz' =>
          have lx : x.length = s := by rw [← MatIndex.length hx, List.length_map, hls]
          have lx' : x'.length = s := by rw [← MatIndex.length hx', List.length_map, hls]
          rw [parted_append _ _ _ _ _ lx, parted_append _ _ _ _ _ lx'] at eq
          obtain ⟨e1, e2⟩ := List.append_inj eq (by omega)
          obtain ⟨e3, e4⟩ := List.append_inj e2 (by rw [unrank_length, unrank_length])
          have := congrArg (matRank (T.map Dim.size)) e3
          rw [(unrank_spec hS0 hii.1 hii.2).2, (unrank_spec hS0 hii'.1 hii'.2).2] at this
          rw [e1, e4, this]
    · intro idx c hi
      rw [hsv] at hi
      obtain ⟨x, w, rfl, hx, hw⟩ := matIndex_append.1 hi
      cases hw with
      | @cons _ i _ z hii hz =>
        have lx : x.length = s := by rw [← MatIndex.length hx, List.length_map, hls]
        rw [parted_append _ _ _ _ _ lx, ptr_off, ptr_off]
        simp only
        rw [off_append _ _ _ _ (by omega), off]
        conv_rhs => rw [hdims]
        rw [off_append _ _ _ _ (by omega), off_append _ _ _ _ (by rw [unrank_length, List.length_map])]
        have := off_autoStep e (T.map Dim.size) (unrank (T.map Dim.size) i) (by rw [unrank_length])
        rw [← he, (unrank_spec hS0 hii.1 hii.2).2] at this
        rw [this]
        simp only [Mat.unit]
        ring

/-- What `combine_dim` is for: element `idx` of the result holds what the element with the parted index held. -/
def CombineShows (H H' : Heap) (m v : Mat) (s n : Nat) : Prop :=
  v.chan = m.chan ∧ v.depth = m.depth ∧
    matSizes v = (matSizes m).take s ++ matCount (((matSizes m).drop s).take n) :: (matSizes m).drop (s + n) ∧
    ∀ idx c b, MatIndex (matSizes v) idx → 0 ≤ c → c < m.chan → 0 ≤ b → b < m.unit →
      H' (matByte v idx c b) = H (matByte m (parted s (((matSizes m).drop s).take n) idx) c b)

/-- C112: `combine_dim` is right when the steps are in the wrong order (it clones), or in the right order without gaps. -/
theorem C112_combine_partial (H : Heap) (m : Mat) (s n : Nat) (a : Int) (junk : Int → Nat) (hn : 0 < n)
    (hl : s + n ≤ m.dims.length) (hc : 0 < m.chan) (h1 : ∀ x ∈ matSizes m, 1 ≤ x) (am : Aligned m) (lm : MatLive H m)
    (fresh : ∀ x, a ≤ x → x < a + memorySize m → H x = none)
    (hg : combineOrdered ((m.dims.drop s).take n) = true → Gapless m s n) :
    ∃ H' v, combineDim H m s n a junk = some (H', v) ∧ CombineShows H H' m v s n := by
  have h0 : ∀ x ∈ matSizes m, 0 ≤ x := fun x hx => by have := h1 x hx; omega
  have hne : m.dims ≠ [] := by intro h; rw [h] at hl; simp at hl; omega
  rw [combineDim, if_neg (by omega)]
  by_cases ho : combineOrdered ((m.dims.drop s).take n) = true
  · rw [if_pos ho]
    obtain ⟨v, hv, hch, hsz, hview⟩ := combineView_gapless m s n hn hl h0 (hg ho)
    refine ⟨H, v, by rw [hv]; rfl, hch, hview.depth, hsz, ?_⟩
    intro idx c b hi _ _ _ _
    rw [matByte, hview.addr idx c hi, zero_add]; rfl
  · rw [if_neg ho]
    obtain ⟨H', r, hr, rs, rd, rc, _, _, rcon, rcopy, _⟩ := C107_clone H m a junk hne hc h1 am lm fresh
    have hrl : r.dims.length = m.dims.length := by
      have := congrArg List.length rs; simpa [matSizes] using this
    have hrne : r.dims ≠ [] := by intro h; rw [h] at hrl; exact hne (List.length_eq_zero_iff.1 hrl.symm)
    obtain ⟨e, _, hd⟩ := (isContinuous_iff hrne).1 rcon
    have hgr : Gapless r s n := by
      have hdims : matSizes r = (matSizes r).take s ++ (((matSizes r).drop s).take n ++ (matSizes r).drop (s + n)) := by
        rw [← List.drop_drop, List.take_append_drop, List.take_append_drop]
      rw [hdims, autoStep_append, autoStep_append] at hd
      have hlr : (matSizes r).length = r.dims.length := by simp [matSizes]
      have len : ∀ (s' : Int) (l : List Int), (autoStep s' l).length = l.length := by
        intro s' l
        have := congrArg List.length (autoStep_sizes s' l)
        rwa [List.length_map] at this
      refine ⟨e * matCount ((matSizes r).drop (s + n)), ?_⟩
      have hS : ((matSizes r).drop s).take n = ((r.dims.drop s).take n).map Dim.size := by
        rw [matSizes, List.map_take, List.map_drop]
      rw [← hS]
      conv_lhs => rw [hd]
      have l1 : ∀ s', (autoStep s' ((matSizes r).take s)).length = s := by
        intro s'; rw [len, List.length_take]; omega
      rw [List.drop_append, List.drop_eq_nil_of_le (by rw [l1]), l1, Nat.sub_self, List.drop_zero, List.nil_append,
        List.take_append, List.take_of_length_le (by rw [len, List.length_take]; omega)]
      have : n - (autoStep (e * matCount ((matSizes r).drop (s + n))) (((matSizes r).drop s).take n)).length = 0 := by
        rw [len, List.length_take, List.length_drop]; omega
      rw [this, List.take_zero, List.append_nil]
    obtain ⟨v, hv, hch, hsz, hview⟩ := combineView_gapless r s n hn (by omega) (by rw [rs]; exact h0) hgr
    rw [rs] at hsz hview
    refine ⟨H', v, by rw [hr]; simp [hv], by omega, by rw [hview.depth, rd], hsz, ?_⟩
    intro idx c b hi c0 c1 b0 b1
    rw [matByte, hview.addr idx c hi, zero_add, ← rcopy _ c b (by have := hview.index idx hi; rwa [rs] at this) c0 c1 b0 b1]
    rfl

example : ∃ (H : Heap) (m : Mat) (s n : Nat) (a : Int), 0 < n ∧ s + n ≤ m.dims.length ∧ 0 < m.chan ∧ (∀ x ∈ matSizes m, 1 ≤ x) ∧
    Aligned m ∧ MatLive H m ∧ (∀ x, a ≤ x → x < a + memorySize m → H x = none) ∧
    (combineOrdered ((m.dims.drop s).take n) = true → Gapless m s n) := by
  refine ⟨fun x => if x < 200 then some 0 else none, ⟨0, [⟨5, 2⟩, ⟨4, 10⟩], 2, 1⟩, 0, 2, 300, by decide, by decide, by decide,
    by decide, ⟨⟨4, 10⟩, 5, by decide, by decide⟩, ?_, fun x hx _ => if_neg (by omega), fun h => absurd h (by decide)⟩
  rintro x ⟨idx, c, b, hi, c0, c1, b0, b1, rfl⟩
  obtain ⟨i, j, rfl, i0, i1, j0, j1⟩ := matIndex2 hi
  simp only [byte_ptr, ptr_off, off, Mat.unit, show depthSize 2 = 2 from rfl] at *
  rw [if_pos (by omega)]
  simp

/-- The property of `combine_dim`. -/
def CombineRight : Prop :=
  ∀ (H : Heap) (m : Mat) (s n : Nat) (a : Int) (junk : Int → Nat), 0 < n → s + n ≤ m.dims.length → 0 < m.chan →
    (∀ x ∈ matSizes m, 1 ≤ x) → Aligned m → MatLive H m → (∀ x, a ≤ x → x < a + memorySize m → H x = none) →
    ∃ H' v, combineDim H m s n a junk = some (H', v) ∧ CombineShows H H' m v s n

/-- A part of a picture: combining rows and columns reads the columns to the right of it. -/
theorem not_C112_combine : ¬ CombineRight := by
  intro h
  obtain ⟨H', v, e, _, _, _, hs⟩ := h (fun x => if x < 100 then some x.toNat else none) ⟨0, [⟨2, 4⟩, ⟨2, 1⟩], 0, 1⟩ 0 2 200 (fun _ => 0)
    (by decide) (by decide) (by decide) (by decide) ⟨⟨2, 1⟩, 1, by decide, by decide⟩
    (by
      rintro x ⟨idx, c, b, hi, c0, c1, b0, b1, rfl⟩
      obtain ⟨i, j, rfl, i0, i1, j0, j1⟩ := matIndex2 hi
      simp only [byte_ptr, ptr_off, off, Mat.unit, show depthSize 0 = 1 from rfl] at *
      rw [if_pos (by omega)]
      simp)
    (fun x hx _ => if_neg (by omega))
  have : combineDim (fun x => if x < 100 then some x.toNat else none) ⟨0, [⟨2, 4⟩, ⟨2, 1⟩], 0, 1⟩ 0 2 200 (fun _ => 0) =
      some (fun x => if x < 100 then some x.toNat else none, ⟨0, [⟨4, 1⟩], 0, 1⟩) := by
    simp [combineDim, combineOrdered, combineView]
  rw [this] at e
  have e := Option.some.inj e
  obtain ⟨rfl, rfl⟩ := Prod.mk.inj e
  have := hs [2] 0 0 (by simp only [matSizes, MatIndex]; decide) (by decide) (by decide) (by decide) (by decide)
  revert this
  decide

/-- What `decrease_dim` is for. -/
def DecreaseShows (H H' : Heap) (m v : Mat) (k : Nat) : Prop :=
  matSizes v = (matSizes m).eraseIdx k ∧ ∀ x y c b, MatIndex (matSizes v) (x ++ y) → x.length = k → 0 ≤ c → c < m.chan → 0 ≤ b →
    b < m.unit → H' (matByte v (x ++ y) c b) = H (matByte m (x ++ 0 :: y) c b)

/-- C112: `decrease_dim(0)` when the steps are in order removes the first dimension. -/
theorem C112_decrease_partial (H : Heap) (m : Mat) (d e : Dim) (ds : List Dim) (a : Int) (junk : Int → Nat)
    (hd : m.dims = d :: e :: ds) (h1 : d.size = 1) (ho : e.step ≤ d.step) :
    ∃ v, decreaseDim H m 0 a junk = some (H, v) ∧ DecreaseShows H H m v 0 := by
  refine ⟨{ m with dims := e :: ds }, ?_, ?_, ?_⟩
  · rw [decreaseDim, if_pos rfl, combineDim, if_neg (by rw [hd]; simp), hd]
    simp only [List.drop_zero, List.take_succ_cons, List.take_zero, combineOrdered]
    rw [if_neg (by omega : ¬ d.step < e.step)]
    simp [combineView, hd, h1]
  · simp [matSizes, hd]
  · intro x y c b hi hx _ _ _ _
    have : x = [] := List.length_eq_zero_iff.1 hx
    subst this
    simp only [List.nil_append, matByte, ptr_off, hd, off, Mat.unit]
    congr 1
    ring

example : ∃ (m : Mat) (d e : Dim) (ds : List Dim), m.dims = d :: e :: ds ∧ d.size = 1 ∧ e.step ≤ d.step :=
  ⟨create 0 [1, 4, 6] 2 2, ⟨1, 96⟩, ⟨4, 24⟩, [⟨6, 4⟩], by decide, by decide, by decide⟩

/-- A column of a picture without its second dimension: the result is part of a row. -/
theorem not_C112_decrease : ∃ (H : Heap) (m v : Mat), m.dims.length = 2 ∧ (∀ a, MatHas m a → H a ≠ none) ∧
    (matSizes m)[1]? = some 1 ∧ (∃ p, col p 2 = some m) ∧ decreaseDim H m 1 200 (fun _ => 0) = some (H, v) ∧
    ¬ DecreaseShows H H m v 1 := by
  refine ⟨fun x => some x.toNat, ⟨2, [⟨3, 4⟩, ⟨1, 1⟩], 0, 1⟩, ⟨2, [⟨3, 1⟩], 0, 1⟩, by decide, fun _ _ => by simp, by decide,
    ⟨create 0 [3, 4] 0 1, by decide⟩, ?_, ?_⟩
  · simp [decreaseDim, combineDim, combineOrdered, combineView]
  · intro h
    have := h.2 [1] [] 0 0 (by simp only [matSizes, MatIndex]; decide) rfl (by decide) (by decide) (by decide) (by decide)
    revert this
    decide

end Verif.Props
