import Verif.Props.MatCopy

/-!
# What `operator==` of `mt_mat` compares
-/

namespace Verif.Mat

open Verif.Spec Verif.Props

theorem contRun_take (rest : List Dim) : ∀ (d : Dim) (j : Nat), j ≤ contRun d rest → contRun d (rest.take j) = j := by
  induction rest with
  | nil => intro d j h; simp [contRun] at h; subst h; rfl
  | cons e es ih =>
    intro d j h
    cases j with
    | zero => rfl
    | succ j =>
      rw [contRun] at h
      split at h
      · rename_i he
        rw [List.take_succ_cons, contRun, if_pos he, ih e j (by omega)]
      · omega

/-- From its continuous dimension on an array has row-major steps. -/
theorem continuousDim_drop {ds : List Dim} {n : Int} {k : Nat} (h : continuousDim ds n ≤ k) (hk : k < ds.length) :
    ∃ e : Int, (e.natAbs : Int) = n ∧ ds.drop k = autoStep e ((ds.drop k).map Dim.size) := by
  have hne : ds ≠ [] := by intro e; rw [e] at hk; simp at hk
  obtain ⟨init, d, rfl⟩ : ∃ init d, ds = init ++ [d] := ⟨_, _, (List.dropLast_append_getLast hne).symm⟩
  rw [continuousDim, List.reverse_append, List.reverse_singleton, List.singleton_append] at h
  simp only [List.length_append, List.length_singleton] at h hk
  split at h
  · omega
  · rename_i he
    push Not at he
    refine ⟨d.step, he.symm, ?_⟩
    have hl := contRun_le d init.reverse
    simp only [List.length_reverse] at hl
    have ht := contRun_take init.reverse d (init.length - k) (by omega)
    have hr : (init.reverse.take (init.length - k)).reverse = init.drop k := by
      rw [List.take_reverse, List.reverse_reverse]
      congr 1
      omega
    have := contRun_auto d.step (init.reverse.take (init.length - k)) d [] (by simp [autoStep])
      (by rw [ht, List.length_take, List.length_reverse]; omega)
    rw [hr] at this
    rw [List.drop_append_of_le_length (by omega)]
    exact this

theorem matIndex_append {a b idx : List Int} :
    MatIndex (a ++ b) idx ↔ ∃ x y, idx = x ++ y ∧ MatIndex a x ∧ MatIndex b y := by
  induction a generalizing idx with
  | nil =>
    constructor
    · intro h; exact ⟨[], idx, rfl, matIndex_nil, h⟩
    · rintro ⟨x, y, rfl, hx, hy⟩; cases hx; exact hy
  | cons n a ih =>
    constructor
    · intro h
      cases h with
      | @cons _ i _ is hi hr =>
        obtain ⟨x, y, rfl, hx, hy⟩ := ih.1 hr
        exact ⟨i :: x, y, rfl, matIndex_cons.2 ⟨hi, hx⟩, hy⟩
    · rintro ⟨x, y, rfl, hx, hy⟩
      cases hx with
      | @cons _ i _ is hi hr => exact matIndex_cons.2 ⟨hi, ih.2 ⟨is, y, rfl, hr, hy⟩⟩

theorem off_append (ds es : List Dim) (x y : List Int) (h : x.length = ds.length) :
    off (ds ++ es) (x ++ y) = off ds x + off es y := by
  induction ds generalizing x with
  | nil => cases x <;> simp_all [off]
  | cons d ds ih =>
    cases x with
    | nil => simp at h
    | cons i x => simp only [List.cons_append, off, ih x (by simpa using h)]; ring

/-- Bytes of an element, by place or by channel. -/
theorem bytes_of_channel {u ch t : Int} (hu : 0 < u) :
    (0 ≤ t ∧ t < u * ch) ↔ ∃ c b, 0 ≤ c ∧ c < ch ∧ 0 ≤ b ∧ b < u ∧ t = c * u + b := by
  constructor
  · rintro ⟨t0, t1⟩
    refine ⟨t / u, t % u, Int.ediv_nonneg t0 hu.le, Int.ediv_lt_of_lt_mul hu (by rw [mul_comm]; exact t1),
      Int.emod_nonneg _ hu.ne', Int.emod_lt_of_pos _ hu, ?_⟩
    have := Int.emod_add_mul_ediv t u
    linarith [mul_comm u (t / u)]
  · rintro ⟨c, b, c0, c1, b0, b1, rfl⟩
    constructor <;> nlinarith

/-- A plan that goes through the elements is a plan. -/
theorem isPlan_of_elems {m s : Mat} {l : List (Int × Int)} (hc : 0 < m.chan) (hu : s.unit = m.unit)
    (h : ∀ x, x ∈ l ↔ ∃ idx, MatIndex (matSizes m) idx ∧ x ∈ bytePairs m.elemSize.toNat (ptr m idx 0) (ptr s idx 0)) :
    IsPlan m s l := by
  intro x
  have hp := elemSize_pos hc
  rw [h]
  constructor
  · rintro ⟨idx, hi, hx⟩
    obtain ⟨t, t0, t1, rfl⟩ := (mem_bytePairs _ _ _ _).1 hx
    obtain ⟨c, b, c0, c1, b0, b1, e⟩ := (bytes_of_channel (unit_pos m)).1 ⟨t0, (by
      rw [Int.toNat_of_nonneg hp.le] at t1; exact t1 : t < m.unit * m.chan)⟩
    refine ⟨idx, c, b, hi, c0, c1, b0, b1, ?_⟩
    rw [byte_ptr, byte_ptr, hu, e, add_assoc, add_assoc]
  · rintro ⟨idx, c, b, hi, c0, c1, b0, b1, rfl⟩
    have := (bytes_of_channel (t := c * m.unit + b) (unit_pos m)).2 ⟨c, b, c0, c1, b0, b1, rfl⟩
    refine ⟨idx, hi, (mem_bytePairs _ _ _ _).2 ⟨c * m.unit + b, this.1, by rw [Int.toNat_of_nonneg hp.le]; exact this.2, ?_⟩⟩
    rw [byte_ptr, byte_ptr, hu, add_assoc, add_assoc]

/-- The start of the block in front of which lie the first dimensions. -/
def blockLow (p e cnt : Int) : Int := if e < 0 then p + (cnt - 1) * e else p

theorem blockStarts_eq {p : Int} {ds : List Dim} {k : Nat} {n e : Int} (hk : k < ds.length) (h1 : ∀ d ∈ ds, 1 ≤ d.size)
    (he : (e.natAbs : Int) = n) (hd : ds.drop k = autoStep e ((ds.drop k).map Dim.size)) :
    blockStarts p ds k n = some ((matAll ((ds.take k).map Dim.size)).map
        (fun idx => blockLow p e (matCount ((ds.drop k).map Dim.size)) + off (ds.take k) idx),
      (n * matCount ((ds.drop k).map Dim.size)).toNat) := by
  have hne : ds ≠ [] := by intro e; rw [e] at hk; simp at hk
  have hdne : ds.drop k ≠ [] := by intro e; have := congrArg List.length e; simp at this; omega
  have hl : ds.getLast? = some (ds.getLast hne) := List.getLast?_eq_some_getLast hne
  have hs : (ds.getLast hne).step = e := by
    apply autoStep_last e ((ds.drop k).map Dim.size)
    rw [← hd, List.getLast?_drop, if_neg (by omega), hl]
  rw [blockStarts, hl]
  simp only [hs]
  rw [if_neg (by omega), foldl_size, one_mul]
  have hlow : (if e < 0 then p + (matCount ((ds.drop k).map Dim.size) - 1) * e else p) =
    blockLow p e (matCount ((ds.drop k).map Dim.size)) := rfl
  rw [hlow, he, mul_comm n]
  congr 2
  by_cases hk0 : k = 0
  · subst hk0; simp [matAll, off]
  · rw [if_neg hk0, foldl_size, one_mul]
    have hd1 : ∀ d ∈ ds.take k, 1 ≤ d.size := fun d hd => h1 d (List.mem_of_mem_take hd)
    have := matCount_pos (ns := (ds.take k).map Dim.size) (by
      intro x hx
      obtain ⟨d, hd, rfl⟩ := List.mem_map.1 hx
      exact hd1 d hd)
    rw [iterPtrs_eq _ _ (by simp [hk0, hne]) hd1 _ (by omega)]

theorem sameSymbol_iff {x y : Int} (hx : x ≠ 0) (hy : y ≠ 0) : sameSymbol x y = true ↔ (0 < x ↔ 0 < y) := by
  rw [sameSymbol, decide_eq_true_eq]; omega

/-- The blocks of two arrays that run in the same direction. -/
theorem isPlan_blocks {m o : Mat} {k : Nat} {e : Int} (hsz : matSizes m = matSizes o) (hch : m.chan = o.chan)
    (hdep : m.depth = o.depth) (hc : 0 < o.chan) (h1 : ∀ n ∈ matSizes o, 1 ≤ n)
    (he : (e.natAbs : Int) = o.elemSize)
    (hm : m.dims.drop k = autoStep e ((m.dims.drop k).map Dim.size))
    (ho : o.dims.drop k = autoStep e ((o.dims.drop k).map Dim.size)) :
    IsPlan o m ((matAll ((o.dims.take k).map Dim.size)).flatMap fun idx =>
      bytePairs (o.elemSize * matCount ((o.dims.drop k).map Dim.size)).toNat
        (blockLow o.data e (matCount ((o.dims.drop k).map Dim.size)) + off (o.dims.take k) idx)
        (blockLow m.data e (matCount ((o.dims.drop k).map Dim.size)) + off (m.dims.take k) idx)) := by
  have hp := elemSize_pos hc
  have hu : m.unit = o.unit := unit_of_depth hdep
  have split : ∀ x : Mat, matSizes x = (x.dims.take k).map Dim.size ++ (x.dims.drop k).map Dim.size := by
    intro x; rw [← List.map_append, List.take_append_drop]; rfl
  have ht : (m.dims.take k).map Dim.size = (o.dims.take k).map Dim.size := by
    rw [List.map_take, List.map_take]; exact congrArg _ hsz
  have hdr : (m.dims.drop k).map Dim.size = (o.dims.drop k).map Dim.size := by
    rw [List.map_drop, List.map_drop]; exact congrArg _ hsz
  have hA : ∀ n ∈ (o.dims.take k).map Dim.size, 1 ≤ n := fun n hn => h1 n (by rw [split o]; exact List.mem_append_left _ hn)
  have hB : ∀ n ∈ (o.dims.drop k).map Dim.size, 1 ≤ n := fun n hn => h1 n (by rw [split o]; exact List.mem_append_right _ hn)
  have hA0 : ∀ n ∈ (o.dims.take k).map Dim.size, 0 ≤ n := fun n hn => by have := hA n hn; omega
  have hcnt := matCount_pos hB
  have key : ∀ x : Mat, x.dims.drop k = autoStep e ((x.dims.drop k).map Dim.size) →
      (x.dims.drop k).map Dim.size = (o.dims.drop k).map Dim.size →
      (x.dims.take k).map Dim.size = (o.dims.take k).map Dim.size → ∀ ia ib c b,
      MatIndex ((o.dims.take k).map Dim.size) ia → MatIndex ((o.dims.drop k).map Dim.size) ib →
      matByte x (ia ++ ib) c b = blockLow x.data e (matCount ((o.dims.drop k).map Dim.size)) + off (x.dims.take k) ia +
        (o.elemSize * blockPlace ((o.dims.drop k).map Dim.size) e o.elemSize ib + c * x.unit + b) := by
    intro x hx hxd hxt ia ib c b hia hib
    have hla : ia.length = (x.dims.take k).length := by
      rw [← MatIndex.length hia, ← hxt, List.length_map]
    rw [byte_ptr, ptr_off]
    have := off_append (x.dims.take k) (x.dims.drop k) ia ib hla
    rw [List.take_append_drop] at this
    rw [this]
    have hoff := off_autoStep e ((x.dims.drop k).map Dim.size) ib (by rw [hxd]; exact MatIndex.length hib)
    rw [← hx, hxd] at hoff
    rw [hoff, blockLow, blockPlace]
    by_cases hpos : e = o.elemSize
    · rw [if_neg (by omega), if_pos hpos, ← hpos]; ring
    · have : e = -o.elemSize := by omega
      rw [if_pos (by omega), if_neg hpos, this]; ring
  have hN : 0 ≤ o.elemSize * matCount ((o.dims.drop k).map Dim.size) := mul_nonneg hp.le (by omega)
  intro x
  rw [List.mem_flatMap]
  constructor
  · rintro ⟨ia, hia, hx⟩
    have hia := (mem_matAll hA0).1 hia
    obtain ⟨t, t0, t1, rfl⟩ := (mem_bytePairs _ _ _ _).1 hx
    rw [Int.toNat_of_nonneg hN] at t1
    obtain ⟨ib, c, b, hib, c0, c1, b0, b1, et⟩ := block_split hB e (E := o.elemSize) rfl (unit_pos o) hc t t0 t1
    refine ⟨ia ++ ib, c, b, by rw [split o]; exact matIndex_append.2 ⟨ia, ib, rfl, hia, hib⟩, c0, c1, b0, b1, ?_⟩
    rw [key o ho rfl rfl ia ib c b hia hib, key m hm hdr ht ia ib c b hia hib, hu, et]
  · rintro ⟨idx, c, b, hi, c0, c1, b0, b1, rfl⟩
    rw [split o] at hi
    obtain ⟨ia, ib, rfl, hia, hib⟩ := matIndex_append.1 hi
    have bd := block_bound e (E := o.elemSize) rfl (unit_pos o) hc hib c0 c1 b0 b1
    refine ⟨ia, (mem_matAll hA0).2 hia, (mem_bytePairs _ _ _ _).2 ⟨_, bd.1, by rw [Int.toNat_of_nonneg hN]; exact bd.2, ?_⟩⟩
    rw [key o ho rfl rfl ia ib c b hia hib, key m hm hdr ht ia ib c b hia hib, hu]

theorem matIndex1 {w : Int} {idx : List Int} (hi : MatIndex [w] idx) : ∃ j, idx = [j] ∧ 0 ≤ j ∧ j < w := by
  cases hi with
  | @cons _ i _ is hx hr => cases hr; exact ⟨i, rfl, hx.1, hx.2⟩

/-- The last dimension has no gaps. -/
def LastTight (m : Mat) : Prop := ∃ d, m.dims.getLast? = some d ∧ (d.step.natAbs : Int) = m.elemSize

theorem continuousDim_lt {m : Mat} (h : LastTight m) : continuousDim m.dims m.elemSize < m.dims.length := by
  obtain ⟨d, hd, e⟩ := h
  have hne : m.dims ≠ [] := by intro h; rw [h] at hd; simp at hd
  obtain ⟨init, x, hx⟩ : ∃ init x, m.dims = init ++ [x] := ⟨_, _, (List.dropLast_append_getLast hne).symm⟩
  rw [hx] at hd ⊢
  simp only [List.getLast?_append, List.getLast?_singleton, Option.some_or, Option.some.injEq] at hd
  subst hd
  rw [continuousDim, List.reverse_append, List.reverse_singleton, List.singleton_append]
  simp only
  rw [if_neg (by simp [e])]
  simp
  omega

theorem cmpPlan_spec {m o : Mat} (hne : m.dims ≠ []) (hsz : matSizes m = matSizes o) (hch : m.chan = o.chan)
    (hdep : m.depth = o.depth) (hc : 0 < o.chan) (h1 : ∀ n ∈ matSizes o, 1 ≤ n)
    (hcase : m.dims.length ≤ 2 ∨ (isContinuous m = true ∧ isContinuous o = true) ∨
      (4 < m.dims.length ∧ LastTight m ∧ LastTight o)) :
    ∃ l, cmpPlan o.data o.dims m.data m.dims m.elemSize = some l ∧ IsPlan o m l := by
  have hlen : m.dims.length = o.dims.length := by
    have := congrArg List.length hsz; simpa [matSizes] using this
  have hno : o.dims ≠ [] := by intro h; rw [h] at hlen; exact hne (List.length_eq_zero_iff.1 hlen)
  have hu : m.unit = o.unit := unit_of_depth hdep
  have hE : m.elemSize = o.elemSize := by rw [Mat.elemSize, Mat.elemSize, hu, hch]
  have hp := elemSize_pos hc
  have hpos : 0 < m.dims.length := List.length_pos_iff.2 hne
  have h1m : ∀ n ∈ matSizes m, 1 ≤ n := by rw [hsz]; exact h1
  have hdm : ∀ d ∈ m.dims, 1 ≤ d.size := fun d hd => h1m _ (List.mem_map.2 ⟨d, hd, rfl⟩)
  have hdo : ∀ d ∈ o.dims, 1 ≤ d.size := fun d hd => h1 _ (List.mem_map.2 ⟨d, hd, rfl⟩)
  have h0 : ∀ n ∈ matSizes o, 0 ≤ n := fun n hn => by have := h1 n hn; omega
  rw [cmpPlan, hE]
  simp only
  by_cases hsmall : max (continuousDim m.dims o.elemSize) (continuousDim o.dims o.elemSize) ≠ 0 ∧ o.dims.length ≤ 4
  · rw [if_pos hsmall]
    refine ⟨_, rfl, isPlan_of_elems hc hu fun x => ?_⟩
    have hle : o.dims.length ≤ 2 := by
      rcases hcase with h | h | h
      · omega
      · exfalso
        have a1 := of_decide_eq_true h.1
        have a2 := of_decide_eq_true h.2
        rw [hE] at a1
        omega
      · omega
    match hm : m.dims, ho : o.dims with
    | [d0], [e0] =>
      have hms : matSizes o = [e0.size] := by rw [matSizes, ho]; rfl
      rw [hms, smallCmp, mem_loop2]
      constructor
      · rintro ⟨j, j1, h⟩
        refine ⟨[j], matIndex_cons.2 ⟨⟨by omega, by omega⟩, matIndex_nil⟩, ?_⟩
        rw [ptr_off, ptr_off, hm, ho]
        simpa [off] using h
      · rintro ⟨idx, hi, h⟩
        obtain ⟨j, rfl, j0, j1⟩ := matIndex1 hi
        refine ⟨j.toNat, by omega, ?_⟩
        rw [ptr_off, ptr_off, hm, ho] at h
        rw [Int.toNat_of_nonneg j0]
        simpa [off] using h
    | [d0, d1], [e0, e1] =>
      have hms : matSizes o = [e0.size, e1.size] := by rw [matSizes, ho]; rfl
      rw [hms, smallCmp, mem_loop2]
      have hbo : ∀ i j, ptr o [i, j] 0 = o.data + i * e0.step + j * e1.step := by
        intro i j; simp only [ptr_off, ho, off]; ring
      have hbm : ∀ i j, ptr m [i, j] 0 = m.data + i * d0.step + j * d1.step := by
        intro i j; simp only [ptr_off, hm, off]; ring
      constructor
      · rintro ⟨i, i1, h⟩
        obtain ⟨j, j1, h⟩ := (mem_loop2 _ _ _ _ _ _ _).1 h
        refine ⟨[i, j], matIndex_cons.2 ⟨⟨by omega, by omega⟩, matIndex_cons.2 ⟨⟨by omega, by omega⟩, matIndex_nil⟩⟩, ?_⟩
        rw [hbo, hbm]; exact h
      · rintro ⟨idx, hi, h⟩
        obtain ⟨i, j, rfl, i0, i1, j0, j1⟩ := matIndex2 hi
        refine ⟨i.toNat, by omega, (mem_loop2 _ _ _ _ _ _ _).2 ⟨j.toNat, by omega, ?_⟩⟩
        rw [Int.toNat_of_nonneg i0, Int.toNat_of_nonneg j0, ← hbo, ← hbm]
        exact h
    | [], _ => exact absurd hm hne
    | _, [] => exact absurd ho hno
    | [_], _ :: _ :: _ => rw [hm, ho] at hlen; simp at hlen
    | _ :: _ :: _, [_] => rw [hm, ho] at hlen; simp at hlen
    | _, _ :: _ :: _ :: _ => rw [ho] at hle; simp at hle
    | _ :: _ :: _ :: _, [_, _] => rw [hm, ho] at hlen; simp at hlen
  · rw [if_neg hsmall]
    generalize hk : max (continuousDim m.dims o.elemSize) (continuousDim o.dims o.elemSize) = k at *
    have hkl : k < m.dims.length := by
      by_cases hk0 : k = 0
      · omega
      · rcases hcase with h | h | h
        · exfalso; exact hsmall ⟨hk0, by omega⟩
        · exfalso
          have a1 := of_decide_eq_true h.1
          have a2 := of_decide_eq_true h.2
          rw [hE] at a1
          omega
        · have a1 := continuousDim_lt h.2.1
          have a2 := continuousDim_lt h.2.2
          rw [hE] at a1
          omega
    obtain ⟨em, hem, hmd⟩ := continuousDim_drop (ds := m.dims) (n := o.elemSize) (k := k) (by omega) hkl
    obtain ⟨eo, heo, hod⟩ := continuousDim_drop (ds := o.dims) (n := o.elemSize) (k := k) (by omega) (by omega)
    have hstep : ∀ (ds : List Dim) (e : Int), (∀ d ∈ ds, 1 ≤ d.size) → (hk : k < ds.length) → e ≠ 0 →
        ds.drop k = autoStep e ((ds.drop k).map Dim.size) → ∃ d, ds[k]? = some d ∧ d.step ≠ 0 ∧ (0 < d.step ↔ 0 < e) := by
      intro ds e hd hk' he h
      rw [List.drop_eq_getElem_cons hk', List.map_cons, autoStep_cons] at h
      refine ⟨ds[k], List.getElem?_eq_getElem hk', ?_⟩
      have h2 : ds[k].step = e * matCount ((ds.drop (k + 1)).map Dim.size) := by
        have := (List.cons.inj h).1
        have := congrArg Dim.step this
        simpa using this
      have hcp := matCount_pos (ns := (ds.drop (k + 1)).map Dim.size) (by
        intro x hx
        obtain ⟨d, hd', rfl⟩ := List.mem_map.1 hx
        exact hd d (List.mem_of_mem_drop hd'))
      rw [h2]
      refine ⟨mul_ne_zero he (by omega), ?_, ?_⟩
      · intro h; by_contra hn; nlinarith
      · intro h; exact mul_pos h (by omega)
    obtain ⟨sm, hsm, hsm0, hsmp⟩ := hstep m.dims em hdm hkl (by omega) hmd
    obtain ⟨so, hso, hso0, hsop⟩ := hstep o.dims eo hdo (by omega) (by omega) hod
    rw [hsm, hso]
    simp only
    by_cases hsym : sameSymbol sm.step so.step = true
    · rw [if_pos hsym]
      have hee : em = eo := by
        have := (sameSymbol_iff hsm0 hso0).1 hsym
        omega
      subst hee
      rw [blockStarts_eq hkl hdm hem hmd, blockStarts_eq (by omega) hdo heo hod]
      simp only
      have ht : (m.dims.take k).map Dim.size = (o.dims.take k).map Dim.size := by
        rw [List.map_take, List.map_take]; exact congrArg _ hsz
      have hdr : (m.dims.drop k).map Dim.size = (o.dims.drop k).map Dim.size := by
        rw [List.map_drop, List.map_drop]; exact congrArg _ hsz
      refine ⟨_, rfl, ?_⟩
      rw [ht, hdr, List.zip_map', List.flatMap_map]
      exact isPlan_blocks hsz hch hdep hc h1 heo hmd hod
    · rw [if_neg hsym]
      refine ⟨_, rfl, isPlan_of_elems hc hu fun x => ?_⟩
      have hcp := matCount_pos h1
      rw [foldl_size, one_mul, show o.dims.map Dim.size = matSizes o from rfl, iterPtrs_eq o.data o.dims hno hdo _ (by
        show matCount (matSizes o) ≤ _; omega), iterPtrs_eq m.data m.dims hne hdm _ (by
        rw [show m.dims.map Dim.size = matSizes o from hsz]; omega), show m.dims.map Dim.size = matSizes o from hsz,
        show o.dims.map Dim.size = matSizes o from rfl, List.zip_map', List.flatMap_map, List.mem_flatMap]
      have hpt : ∀ (x : Mat) idx, ptr x idx 0 = x.data + off x.dims idx := by intro x idx; rw [ptr_off]; ring
      constructor
      · rintro ⟨idx, hi, h⟩
        exact ⟨idx, (mem_matAll h0).1 hi, by rw [hpt, hpt]; exact h⟩
      · rintro ⟨idx, hi, h⟩
        exact ⟨idx, (mem_matAll h0).2 hi, by rw [hpt, hpt] at h; exact h⟩

end Verif.Mat
