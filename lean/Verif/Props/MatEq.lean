import Verif.Proof.MatEq

/-!
# C110: `operator==` of `mt_mat`
-/

namespace Verif.Props

open Verif.Spec Verif.Mat

/-- Same depth, channels and sizes, and all elements hold the same bytes. -/
def MatSame (H : Heap) (m o : Mat) : Prop :=
  m.depth = o.depth ∧ m.chan = o.chan ∧ matSizes m = matSizes o ∧
    ∀ idx c b, MatIndex (matSizes m) idx → 0 ≤ c → c < m.chan → 0 ≤ b → b < m.unit →
      H (matByte m idx c b) = H (matByte o idx c b)

/-- The property for integer depths: `a == b` says whether sizes, type and all elements are the same. -/
def EqualTells : Prop :=
  ∀ (H : Heap) (m o : Mat), m.dims ≠ [] → o.dims ≠ [] → m.depth.val ≤ 7 → 0 < m.chan → 0 < o.chan →
    (∀ n ∈ matSizes m, 1 ≤ n) → (∀ n ∈ matSizes o, 1 ≤ n) → MatLive H m → MatLive H o →
    ∃ r, eqMat H m o = some r ∧ (r = true ↔ MatSame H m o)

theorem sizesSame_spec (o : Mat) (ds : List Dim) (c : Nat) (h : c + ds.length = o.dims.length) :
    ∃ r, sizesSame o ds c = some r ∧ (r = true ↔ ds.map Dim.size = (matSizes o).drop c) := by
  induction ds generalizing c with
  | nil =>
    refine ⟨true, rfl, ?_⟩
    rw [List.drop_eq_nil_of_le (by simp only [matSizes, List.length_map]; simp at h; omega)]
    simp
  | cons d ds ih =>
    simp only [List.length_cons] at h
    have hc : c < o.dims.length := by omega
    obtain ⟨r, e, hr⟩ := ih (c + 1) (by omega)
    have hraw : rawSize o c = some o.dims[c].size := by
      rw [rawSize, List.getElem?_append_left (by simpa using hc)]
      simp [hc]
    have hdrop : (matSizes o).drop c = o.dims[c].size :: (matSizes o).drop (c + 1) := by
      rw [List.drop_eq_getElem_cons (by simpa [matSizes] using hc)]
      simp [matSizes]
    rw [sizesSame, hraw]
    simp only
    by_cases he : d.size = o.dims[c].size
    · refine ⟨r, by rw [if_neg (by simpa using he)]; exact e, ?_⟩
      rw [hr, hdrop, List.map_cons, he]
      simp
    · refine ⟨false, by rw [if_pos he], ?_⟩
      rw [hdrop, List.map_cons]
      simp [he]

/-- C110: for the same number of dimensions, and up to two dimensions, or both continuous, or more than four dimensions of
which the last has no gaps. -/
theorem C110_equal_partial (H : Heap) (m o : Mat) (hne : m.dims ≠ []) (hlen : m.dims.length = o.dims.length) (hc : 0 < m.chan)
    (h1 : ∀ n ∈ matSizes m, 1 ≤ n) (lm : MatLive H m) (lo : MatLive H o)
    (hcase : m.dims.length ≤ 2 ∨ (isContinuous m = true ∧ isContinuous o = true) ∨
      (4 < m.dims.length ∧ LastTight m ∧ LastTight o)) :
    ∃ r, eqMat H m o = some r ∧ (r = true ↔ MatSame H m o) := by
  rw [eqMat]
  by_cases hdc : m.depth ≠ o.depth ∨ m.chan ≠ o.chan
  · refine ⟨false, by rw [if_pos hdc], ?_⟩
    simp only [Bool.false_eq_true, false_iff]
    rintro ⟨a, b, _⟩
    rcases hdc with h | h
    · exact h a
    · exact h b
  · rw [if_neg hdc]
    push Not at hdc
    obtain ⟨r, e, hr⟩ := sizesSame_spec o m.dims 0 (by omega)
    rw [e]
    rw [List.drop_zero] at hr
    cases r with
    | false =>
      refine ⟨false, rfl, ?_⟩
      simp only [Bool.false_eq_true, false_iff] at hr ⊢
      exact fun h => hr h.2.2.1
    | true =>
      have hsz : matSizes m = matSizes o := hr.1 rfl
      have hu : m.unit = o.unit := unit_of_depth hdc.1
      have hz : List.zipWith (fun (d e : Dim) => (⟨d.size, e.step⟩ : Dim)) m.dims o.dims = o.dims := by
        have : ∀ (ds es : List Dim), ds.map Dim.size = es.map Dim.size →
            List.zipWith (fun (d e : Dim) => (⟨d.size, e.step⟩ : Dim)) ds es = es := by
          intro ds
          induction ds with
          | nil => intro es h; cases es <;> simp_all
          | cons d ds ih =>
            intro es h
            cases es with
            | nil => simp at h
            | cons e es =>
              simp only [List.map_cons, List.cons.injEq] at h
              rw [List.zipWith_cons_cons, ih es h.2, h.1]
        exact this _ _ hsz
      obtain ⟨l, hl, hp⟩ := cmpPlan_spec hne hsz hdc.2 hdc.1 (by omega) (by rw [← hsz]; exact h1) hcase
      simp only
      rw [if_neg (by omega), hz, hl]
      obtain ⟨r, e', hr'⟩ := cmpPairs_spec l H (by
        intro x hx
        obtain ⟨idx, c, b, hi, c0, c1, b0, b1, rfl⟩ := (hp x).1 hx
        exact ⟨lo _ ⟨idx, c, b, hi, c0, c1, b0, b1, rfl⟩, lm _ ⟨idx, c, b, by rw [hsz]; exact hi, c0, by omega, b0, by omega, rfl⟩⟩)
      refine ⟨r, e', ?_⟩
      rw [hr']
      constructor
      · intro h
        refine ⟨hdc.1, hdc.2, hsz, fun idx c b hi c0 c1 b0 b1 => ?_⟩
        exact (h _ ((hp _).2 ⟨idx, c, b, by rw [← hsz]; exact hi, c0, by omega, b0, by omega, rfl⟩)).symm
      · rintro ⟨_, _, _, h⟩ x hx
        obtain ⟨idx, c, b, hi, c0, c1, b0, b1, rfl⟩ := (hp x).1 hx
        exact (h idx c b (by rw [hsz]; exact hi) c0 (by omega) b0 (by omega)).symm

example : ∃ (H : Heap) (m o : Mat), m.dims ≠ [] ∧ m.dims.length = o.dims.length ∧ 0 < m.chan ∧ (∀ n ∈ matSizes m, 1 ≤ n) ∧
    MatLive H m ∧ MatLive H o ∧ isContinuous m = true ∧ isContinuous o = true ∧ m.dims.length = 3 :=
  ⟨fun _ => some 0, create 0 [2, 3, 4] 2 3, create 500 [2, 3, 4] 2 3, by decide, by decide, by decide, by decide,
    fun _ _ => by simp, fun _ _ => by simp, by decide, by decide, by decide⟩

/-- Three dimensions, one of the arrays a part of a larger one: of every plane only the first row is compared. -/
theorem not_C110_three : ¬ EqualTells := by
  intro h
  obtain ⟨r, e, hr⟩ := h (fun x => some (if x = 2 then 1 else 0)) ⟨0, [⟨1, 4⟩, ⟨2, 2⟩, ⟨1, 1⟩], 0, 1⟩
    (create 100 [1, 2, 1] 0 1) (by decide) (by decide) (by decide) (by decide) (by decide) (by decide) (by decide)
    (fun _ _ => by simp) (fun _ _ => by simp)
  have : eqMat (fun x => some (if x = 2 then 1 else 0)) ⟨0, [⟨1, 4⟩, ⟨2, 2⟩, ⟨1, 1⟩], 0, 1⟩ (create 100 [1, 2, 1] 0 1) =
      some true := by decide
  rw [this] at e
  have := (hr.1 (Option.some.inj e).symm).2.2.2 [0, 1, 0] 0 0 (by simp only [matSizes, MatIndex]; decide) (by decide)
    (by decide) (by decide) (by decide)
  revert this
  decide

/-- Four dimensions, one of the arrays not continuous: nothing is compared, any two such arrays of the same sizes are
equal. -/
theorem not_C110_four (H : Heap) (m o : Mat) (h4 : m.dims.length = 4) (hs : matSizes m = matSizes o) (hd : m.depth = o.depth)
    (hch : m.chan = o.chan) (hn : isContinuous m = false) : eqMat H m o = some true := by
  have hlen : m.dims.length = o.dims.length := by
    have := congrArg List.length hs; simpa [matSizes] using this
  obtain ⟨r, e, hr⟩ := sizesSame_spec o m.dims 0 (by omega)
  rw [List.drop_zero] at hr
  have : r = true := hr.2 hs
  subst this
  rw [eqMat, if_neg (by simp [hd, hch]), e]
  simp only
  rw [if_neg (by omega)]
  have hk : continuousDim m.dims m.elemSize ≠ 0 := of_decide_eq_false hn
  rw [cmpPlan]
  simp only
  rw [if_pos ⟨by omega, by rw [List.length_zipWith]; omega⟩]
  match hm : m.dims, ho : o.dims with
  | [_, _, _, _], [_, _, _, _] => rfl
  | [], _ => rw [hm] at h4; simp at h4
  | [_], _ => rw [hm] at h4; simp at h4
  | [_, _], _ => rw [hm] at h4; simp at h4
  | [_, _, _], _ => rw [hm] at h4; simp at h4
  | _ :: _ :: _ :: _ :: _ :: _, _ => rw [hm] at h4; simp at h4
  | _, [] => rw [hlen, ho] at h4; simp at h4
  | _, [_] => rw [hlen, ho] at h4; simp at h4
  | _, [_, _] => rw [hlen, ho] at h4; simp at h4
  | _, [_, _, _] => rw [hlen, ho] at h4; simp at h4
  | _, _ :: _ :: _ :: _ :: _ :: _ => rw [hlen, ho] at h4; simp at h4

example : ∃ m o : Mat, m.dims.length = 4 ∧ matSizes m = matSizes o ∧ m.depth = o.depth ∧ m.chan = o.chan ∧
    isContinuous m = false :=
  ⟨⟨0, [⟨2, 40⟩, ⟨2, 20⟩, ⟨2, 10⟩, ⟨2, 1⟩], 0, 1⟩, create 100 [2, 2, 2, 2] 0 1, by decide, by decide, by decide, by decide, by decide⟩

/-- The number of dimensions is not compared: a row can be equal to a picture whose first size is the length of the row. -/
theorem not_C110_dims : ∃ (H : Heap) (m o : Mat), MatLive H m ∧ MatLive H o ∧ m.dims.length ≠ o.dims.length ∧
    eqMat H m o = some true ∧ eqMat H o m = some false :=
  ⟨fun _ => some 0, create 0 [2] 0 1, create 100 [2, 3] 0 1, fun _ _ => by simp, fun _ _ => by simp, by decide, by decide,
    by decide⟩

end Verif.Props
