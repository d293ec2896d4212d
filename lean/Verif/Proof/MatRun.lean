import Verif.Proof.MatView
import Verif.Model.MatCopy

/-!
# Arrays without gaps, and the element iterator
-/

namespace Verif.Mat

open Verif.Spec

/-! ### `get_continuous_dim` -/

theorem autoStep_suffix (s : Int) (l t : List Dim) (h : l ++ t = autoStep s ((l ++ t).map Dim.size)) :
    t = autoStep s (t.map Dim.size) := by
  induction l with
  | nil => exact h
  | cons d l ih =>
    apply ih
    rw [List.cons_append, List.map_cons, autoStep_cons] at h
    exact (List.cons.inj h).2

theorem contRun_le (d : Dim) (rest : List Dim) : contRun d rest ≤ rest.length := by
  induction rest generalizing d with
  | nil => simp [contRun]
  | cons e es ih =>
    rw [contRun]
    split
    · have := ih e; simp; omega
    · omega

theorem contRun_auto (s : Int) (rest : List Dim) : ∀ (d : Dim) (tail : List Dim),
    d :: tail = autoStep s ((d :: tail).map Dim.size) → contRun d rest = rest.length →
      rest.reverse ++ d :: tail = autoStep s ((rest.reverse ++ d :: tail).map Dim.size) := by
  induction rest with
  | nil => intro d tail h _; simpa using h
  | cons e es ih =>
    intro d tail h hc
    rw [contRun] at hc
    split at hc
    · rename_i he
      rw [List.reverse_cons, List.append_assoc, List.singleton_append]
      apply ih e (d :: tail) _ (by simpa using hc)
      rw [List.map_cons, autoStep, ← h]
      simp only
      rw [← he]
    · simp at hc

theorem auto_contRun (s : Int) (rest : List Dim) : ∀ (d : Dim) (tail : List Dim),
    rest.reverse ++ d :: tail = autoStep s ((rest.reverse ++ d :: tail).map Dim.size) → contRun d rest = rest.length := by
  induction rest with
  | nil => intro d tail _; simp [contRun]
  | cons e es ih =>
    intro d tail h
    rw [List.reverse_cons, List.append_assoc, List.singleton_append] at h
    have h1 := autoStep_suffix s _ _ h
    have h2 := autoStep_suffix s [e] (d :: tail) h1
    rw [List.map_cons, autoStep, ← h2] at h1
    have he : e.step = d.step * d.size := by
      have := (List.cons.inj h1).1
      rw [this]
    rw [contRun, if_pos he, ih e (d :: tail) h, List.length_cons]

theorem autoStep_last (s : Int) (ns : List Int) (d : Dim) (h : (autoStep s ns).getLast? = some d) : d.step = s := by
  induction ns with
  | nil => simp [autoStep] at h
  | cons n ns ih =>
    rw [autoStep_cons] at h
    cases ns with
    | nil => simp [autoStep, matCount] at h; rw [← h]
    | cons k ns =>
      apply ih
      rw [autoStep_cons] at h ⊢
      rw [List.getLast?_cons_cons] at h
      exact h

/-- A continuous array has row-major steps. -/
theorem continuousDim_zero {ds : List Dim} {es : Int} (hne : ds ≠ []) :
    continuousDim ds es = 0 ↔ ∃ s : Int, (s.natAbs : Int) = es ∧ ds = autoStep s (ds.map Dim.size) := by
  obtain ⟨init, d, rfl⟩ : ∃ init d, ds = init ++ [d] := ⟨_, _, (List.dropLast_append_getLast hne).symm⟩
  rw [continuousDim, List.reverse_append, List.reverse_singleton, List.singleton_append]
  simp only
  have hl := contRun_le d init.reverse
  simp only [List.length_reverse] at hl
  constructor
  · intro h
    split at h
    · simp at h
    · rename_i he
      push Not at he
      refine ⟨d.step, he.symm, ?_⟩
      have := contRun_auto d.step init.reverse d [] (by simp [autoStep]) (by simp at h ⊢; omega)
      simpa using this
  · rintro ⟨s, hs, e⟩
    have hd : d.step = s := autoStep_last s _ d (by rw [← e]; simp)
    have := auto_contRun s init.reverse d [] (by simpa using e)
    rw [if_neg (by rw [hd]; simp [hs]), this]
    simp

theorem isContinuous_iff {m : Mat} (hne : m.dims ≠ []) :
    isContinuous m = true ↔ ∃ s : Int, (s.natAbs : Int) = m.elemSize ∧ m.dims = autoStep s (matSizes m) := by
  rw [isContinuous, decide_eq_true_iff, continuousDim_zero hne]; rfl

theorem off_zeros (ds : List Dim) (k : Nat) : off ds (List.replicate k 0) = 0 := by
  induction ds generalizing k with
  | nil => cases k <;> simp [off]
  | cons d ds ih => cases k <;> simp [off, List.replicate_succ, ih]

theorem matRank_zeros (ns : List Int) (k : Nat) : matRank ns (List.replicate k 0) = 0 := by
  induction ns generalizing k with
  | nil => cases k <;> simp [matRank]
  | cons d ds ih => cases k <;> simp [matRank, List.replicate_succ, ih]

theorem zeros_index {ns : List Int} (h : ∀ n ∈ ns, 1 ≤ n) : MatIndex ns (List.replicate ns.length 0) := by
  induction ns with
  | nil => exact matIndex_nil
  | cons n ns ih =>
    rw [List.length_cons, List.replicate_succ]
    exact matIndex_cons.2 ⟨⟨le_refl _, by have := h n (by simp); omega⟩, ih fun x hx => h x (by simp [hx])⟩

/-- Addresses in row-major order determine the steps when no size is 1. -/
theorem autoStep_of_rank (s : Int) (ds : List Dim) (h2 : ∀ d ∈ ds, 2 ≤ d.size)
    (h : ∀ idx, MatIndex (ds.map Dim.size) idx → off ds idx = s * matRank (ds.map Dim.size) idx) :
    ds = autoStep s (ds.map Dim.size) := by
  induction ds with
  | nil => simp [autoStep]
  | cons d ds ih =>
    have h1 : ∀ n ∈ ds.map Dim.size, 1 ≤ n := by
      intro n hn
      obtain ⟨e, he, rfl⟩ := List.mem_map.1 hn
      have := h2 e (by simp [he])
      omega
    have hd := h2 d (by simp)
    have z := zeros_index h1
    have e1 := h (1 :: _) (matIndex_cons.2 ⟨⟨by omega, by omega⟩, z⟩)
    rw [List.map_cons, matRank, off, off_zeros, matRank_zeros] at e1
    have e2 : ds = autoStep s (ds.map Dim.size) := by
      refine ih (fun e he => h2 e (by simp [he])) fun idx hi => ?_
      have := h (0 :: idx) (matIndex_cons.2 ⟨⟨by omega, by omega⟩, hi⟩)
      rw [List.map_cons, matRank, off] at this
      simpa using this
    rw [List.map_cons, autoStep_cons, ← e2]
    congr 1
    cases d
    simp only [Dim.mk.injEq, true_and]
    simpa using e1

/-! ### All indices in order -/

theorem range_mul (n k : Nat) : List.range (n * k) = (List.range n).flatMap fun i => (List.range k).map fun j => i * k + j := by
  induction n with
  | zero => simp
  | succ n ih => rw [Nat.succ_mul, List.range_add, ih, List.range_succ, List.flatMap_append]; simp

theorem unrank_append (n : Int) (ns : List Int) (C : Int) (hC : matCount ns = C) (i j : Int) (h0 : 0 ≤ j) (h1 : j < C) :
    unrank (n :: ns) (i * C + j) = i :: unrank ns j := by
  rw [unrank, hC]
  rw [add_comm, Int.add_mul_ediv_right _ _ (by omega), Int.ediv_eq_zero_of_lt h0 h1, Int.add_mul_emod_self_right,
    Int.emod_eq_of_lt h0 h1, zero_add]

theorem matAll_eq (ns : List Int) (h : ∀ n ∈ ns, 0 ≤ n) :
    matAll ns = (List.range (matCount ns).toNat).map fun (r : Nat) => unrank ns (r : Int) := by
  induction ns with
  | nil => rfl
  | cons n ns ih =>
    have hn := h n (by simp)
    have hs : ∀ x ∈ ns, 0 ≤ x := fun x hx => h x (by simp [hx])
    have hc := matCount_nonneg hs
    rw [matAll, ih hs, matCount, Int.toNat_mul hn hc, range_mul, List.map_flatMap]
    congr 1
    funext i
    rw [List.map_map, List.map_map]
    apply List.map_congr_left
    intro j hj
    have hj := List.mem_range.1 hj
    simp only [Function.comp]
    have := unrank_append n ns _ rfl i j (by omega) (by omega)
    rw [← this]
    congr 1
    push_cast
    rw [Int.toNat_of_nonneg hc]

theorem mem_matAll {ns idx : List Int} (h : ∀ n ∈ ns, 0 ≤ n) : idx ∈ matAll ns ↔ MatIndex ns idx := by
  induction ns generalizing idx with
  | nil =>
    rw [matAll, List.mem_singleton]
    constructor
    · rintro rfl; exact matIndex_nil
    · intro hi; cases hi; rfl
  | cons n ns ih =>
    have hs : ∀ x ∈ ns, 0 ≤ x := fun x hx => h x (by simp [hx])
    rw [matAll, List.mem_flatMap]
    constructor
    · rintro ⟨i, hi, hm⟩
      obtain ⟨is, his, rfl⟩ := List.mem_map.1 hm
      have := List.mem_range.1 hi
      exact matIndex_cons.2 ⟨⟨by omega, by omega⟩, (ih hs).1 his⟩
    · intro hi
      cases hi with
      | @cons _ i _ is hx hr =>
        exact ⟨i.toNat, List.mem_range.2 (by omega), List.mem_map.2 ⟨is, (ih hs).2 hr, by
          rw [Int.toNat_of_nonneg hx.1]⟩⟩

/-! ### The element iterator -/

/-- The entries of the iterator at an index. -/
def digits (p : Int) : List Dim → List Int → List Digit
  | d :: ds, i :: is => ⟨d.size, d.step, i, p + i * d.step⟩ :: digits (p + i * d.step) ds is
  | _, _ => []

theorem digits_last (p : Int) (ds : List Dim) (idx : List Int) (h : idx.length = ds.length) (hne : ds ≠ []) :
    ∃ g, (digits p ds idx).getLast? = some g ∧ g.ptr = p + off ds idx := by
  induction ds generalizing p idx with
  | nil => exact absurd rfl hne
  | cons d ds ih =>
    cases idx with
    | nil => simp at h
    | cons i is =>
      cases ds with
      | nil =>
        cases is with
        | nil => exact ⟨⟨d.size, d.step, i, p + i * d.step⟩, by simp [digits], by simp [off]⟩
        | cons j js => simp at h
      | cons e ds =>
        cases is with
        | nil => simp at h
        | cons j js =>
          obtain ⟨g, h1, h2⟩ := ih (p + i * d.step) (j :: js) (by simpa using h) (by simp)
          refine ⟨g, ?_, by rw [h2]; simp only [off]; ring⟩
          rw [digits, digits, List.getLast?_cons_cons, ← digits]
          exact h1

theorem unrank_zero (ns : List Int) : unrank ns 0 = List.replicate ns.length 0 := by
  induction ns with
  | nil => rfl
  | cons n ns ih => rw [unrank]; simp [ih, List.replicate_succ]

theorem unrank_length (ns : List Int) (r : Int) : (unrank ns r).length = ns.length := by
  induction ns generalizing r with
  | nil => rfl
  | cons n ns ih => simp [unrank, ih]

theorem digits_zero (p : Int) (ds : List Dim) (k : Nat) (h : k = ds.length) :
    digits p ds (List.replicate k 0) = ds.map fun d => ⟨d.size, d.step, 0, p⟩ := by
  subst h
  induction ds with
  | nil => rfl
  | cons d ds ih =>
    rw [List.length_cons, List.replicate_succ, digits]
    simp [ih]

theorem digits_map (p q : Int) (ds : List Dim) (idx : List Int) (h : idx.length = ds.length) :
    (digits p ds idx).map (fun x => { x with pos := 0, ptr := q }) = ds.map fun d => ⟨d.size, d.step, 0, q⟩ := by
  induction ds generalizing p idx with
  | nil => cases idx <;> rfl
  | cons d ds ih =>
    cases idx with
    | nil => simp at h
    | cons i is => simp only [digits, List.map_cons, ih _ is (by simpa using h)]

theorem matCount_pos {ns : List Int} (h : ∀ n ∈ ns, 1 ≤ n) : 1 ≤ matCount ns := by
  induction ns with
  | nil => simp [matCount]
  | cons n ns ih =>
    rw [matCount]
    have h1 := h n (by simp)
    have h2 := ih fun x hx => h x (by simp [hx])
    nlinarith

/-- One call of `data()` goes to the next index. -/
theorem carry_next (p : Int) (ds : List Dim) (h1 : ∀ d ∈ ds, 1 ≤ d.size) (r : Int) (h0 : 0 ≤ r)
    (hr : r < matCount (ds.map Dim.size)) :
    carry (incLast (digits p ds (unrank (ds.map Dim.size) r))) = digits p ds (unrank (ds.map Dim.size) (r + 1)) := by
  induction ds generalizing p r with
  | nil => simp [digits, incLast, carry]
  | cons d ds ih =>
    have h1' : ∀ n ∈ ds.map Dim.size, 1 ≤ n := by
      intro n hn
      obtain ⟨e, he, rfl⟩ := List.mem_map.1 hn
      exact h1 e (by simp [he])
    cases ds with
    | nil =>
      simp only [List.map_cons, List.map_nil, unrank, matCount, digits, incLast, carry, Int.ediv_one]
      congr 2
      ring
    | cons e es =>
      have hC := matCount_pos h1'
      have hC' : 1 ≤ matCount (es.map Dim.size) := matCount_pos fun n hn => h1' n (by simp [hn])
      generalize hCe : matCount ((e :: es).map Dim.size) = C at *
      have m0 := Int.emod_nonneg r (show C ≠ 0 by omega)
      have m1 := Int.emod_lt_of_pos r (show 0 < C by omega)
      have hdm := Int.emod_add_mul_ediv r C
      have IH := ih (p + r / C * d.step) (fun x hx => h1 x (by simp [hx])) (r % C) m0 m1
      have hu : ∀ x, unrank ((d :: e :: es).map Dim.size) x = x / C :: unrank ((e :: es).map Dim.size) (x % C) := by
        intro x; rw [List.map_cons, unrank, hCe]
      rw [hu, hu, digits, digits]
      have hcons : ∀ q x, ∃ y ys, digits q (e :: es) (unrank ((e :: es).map Dim.size) x) = y :: ys ∧
          y.pos = x / matCount (es.map Dim.size) ∧ y.size = e.size := by
        intro q x
        exact ⟨_, _, by rw [List.map_cons, unrank, digits], rfl, rfl⟩
      obtain ⟨y, ys, hy, _, _⟩ := hcons (p + r / C * d.step) (r % C)
      have hinc : incLast (⟨d.size, d.step, r / C, p + r / C * d.step⟩ :: digits (p + r / C * d.step) (e :: es)
          (unrank ((e :: es).map Dim.size) (r % C))) = ⟨d.size, d.step, r / C, p + r / C * d.step⟩ ::
          incLast (digits (p + r / C * d.step) (e :: es) (unrank ((e :: es).map Dim.size) (r % C))) := by
        rw [hy, incLast]; simp
      rw [hinc, carry, IH]
      obtain ⟨z, zs, hz, hzp, hzs⟩ := hcons (p + r / C * d.step) (r % C + 1)
      have hCe' : C = e.size * matCount (es.map Dim.size) := by rw [← hCe, List.map_cons, matCount]
      by_cases hov : r % C + 1 = C
      · have hpos : z.pos = z.size := by
          rw [hzp, hzs, hov, hCe']
          exact Int.mul_ediv_cancel _ (by omega)
        rw [hz]
        simp only [hpos, if_true]
        rw [← hz, digits_map _ _ _ _ (by rw [unrank_length]; simp)]
        have q1 : (r + 1) / C = r / C + 1 := by
          rw [show r + 1 = 0 + (r / C + 1) * C by linarith [mul_comm C (r / C), add_mul (r / C) 1 C],
            Int.add_mul_ediv_right _ _ (by omega)]
          simp
        have q2 : (r + 1) % C = 0 := by
          have := Int.emod_add_mul_ediv (r + 1) C
          rw [q1] at this
          linarith [mul_add C (r / C) 1]
        rw [q1, q2, unrank_zero, digits_zero _ _ _ (by simp)]
        have : p + r / C * d.step + d.step = p + (r / C + 1) * d.step := by ring
        rw [this]
      · have hpos : z.pos ≠ z.size := by
          rw [hzp, hzs]
          have : (r % C + 1) / matCount (es.map Dim.size) < e.size :=
            Int.ediv_lt_of_lt_mul (by omega) (by rw [← hCe']; omega)
          omega
        have q1 : (r + 1) / C = r / C := by
          rw [show r + 1 = (r % C + 1) + (r / C) * C by linarith [mul_comm C (r / C)],
            Int.add_mul_ediv_right _ _ (by omega), Int.ediv_eq_zero_of_lt (by omega) (by omega)]
          simp
        have q2 : (r + 1) % C = r % C + 1 := by
          have := Int.emod_add_mul_ediv (r + 1) C
          rw [q1] at this
          linarith
        rw [q1, q2, hz]
        simp only [hpos, if_false]

theorem foldl_size (ds : List Dim) (k : Int) :
    ds.foldl (fun (r : Int) (d : Dim) => r * d.size) k = k * matCount (ds.map Dim.size) := by
  induction ds generalizing k with
  | nil => simp [matCount]
  | cons n ns ih => rw [List.foldl_cons, ih, List.map_cons, matCount]; ring

theorem elementNumber_eq (m : Mat) : elementNumber m = matCount (matSizes m) := by
  rw [elementNumber, foldl_size, one_mul]; rfl

theorem iterRun_eq (p : Int) (ds : List Dim) (hne : ds ≠ []) (h1 : ∀ d ∈ ds, 1 ≤ d.size) (f : Nat) :
    ∀ r : Nat, (r : Int) < matCount (ds.map Dim.size) → matCount (ds.map Dim.size) ≤ r + 1 + f →
      iterRun (matCount (ds.map Dim.size)) f (r + 1) (digits p ds (unrank (ds.map Dim.size) r)) =
        (List.range' (r + 1) ((matCount (ds.map Dim.size)).toNat - (r + 1))).map
          fun (k : Nat) => p + off ds (unrank (ds.map Dim.size) k) := by
  induction f with
  | zero =>
    intro r hr hf
    rw [iterRun, show (matCount (ds.map Dim.size)).toNat - (r + 1) = 0 by omega]
    simp
  | succ f ih =>
    intro r hr hf
    rw [iterRun]
    split
    · rw [show (matCount (ds.map Dim.size)).toNat - (r + 1) = 0 by omega]
      simp
    · rename_i hn
      have hlt : ((r + 1 : Nat) : Int) < matCount (ds.map Dim.size) := by push_cast; omega
      simp only
      rw [carry_next p ds h1 r (by omega) hr]
      obtain ⟨g, hg, hgp⟩ := digits_last p ds (unrank (ds.map Dim.size) (r + 1)) (by rw [unrank_length]; simp) hne
      rw [hg]
      simp only
      have := ih (r + 1) hlt (by push_cast; push_cast at hf; omega)
      push_cast at this
      rw [this, hgp]
      obtain ⟨n, hn⟩ : ∃ n, (matCount (ds.map Dim.size)).toNat - (r + 1) = n + 1 := ⟨_, (by omega : _ = (matCount (ds.map Dim.size)).toNat - (r + 2) + 1)⟩
      rw [hn, List.range'_succ, List.map_cons, show (matCount (ds.map Dim.size)).toNat - (r + 1 + 1) = n by omega]
      push_cast
      rfl

theorem iterPtrs_eq (p : Int) (ds : List Dim) (hne : ds ≠ []) (h1 : ∀ d ∈ ds, 1 ≤ d.size) (f : Nat)
    (hf : matCount (ds.map Dim.size) ≤ f + 1) :
    iterPtrs f p ds = (matAll (ds.map Dim.size)).map fun idx => p + off ds idx := by
  have h1' : ∀ n ∈ ds.map Dim.size, 1 ≤ n := by
    intro n hn
    obtain ⟨e, he, rfl⟩ := List.mem_map.1 hn
    exact h1 e he
  have hC := matCount_pos h1'
  have hi : iterInit p ds = digits p ds (unrank (ds.map Dim.size) 0) := by
    rw [unrank_zero, digits_zero _ _ _ (by simp)]; rfl
  obtain ⟨g, hg, hgp⟩ := digits_last p ds (unrank (ds.map Dim.size) 0) (by rw [unrank_length]; simp) hne
  rw [iterPtrs, hi, hg]
  simp only
  rw [foldl_size, one_mul]
  have := iterRun_eq p ds hne h1 f 0 (by omega) (by push_cast; omega)
  simp only [Nat.cast_zero, zero_add] at this
  rw [this, hgp, matAll_eq _ (fun n hn => by have := h1' n hn; omega), List.map_map, List.range_eq_range']
  obtain ⟨n, hn⟩ : ∃ n, (matCount (ds.map Dim.size)).toNat = n + 1 := ⟨_, (by omega : _ = (matCount (ds.map Dim.size)).toNat - 1 + 1)⟩
  rw [hn, List.range'_succ, List.map_cons]
  simp

theorem iterAll_eq (m : Mat) (hne : m.dims ≠ []) (h1 : ∀ n ∈ matSizes m, 1 ≤ n) :
    iterAll m = (matAll (matSizes m)).map fun idx => ptr m idx 0 := by
  have hd : ∀ d ∈ m.dims, 1 ≤ d.size := fun d hd => h1 _ (List.mem_map.2 ⟨d, hd, rfl⟩)
  have hC := matCount_pos h1
  rw [iterAll, iterPtrs_eq _ _ hne hd _ (by rw [elementNumber_eq]; simp only [matSizes] at *; omega)]
  apply List.map_congr_left
  intro idx _
  rw [ptr_off]; simp

theorem incLast_length (gs : List Digit) : (incLast gs).length = gs.length := by
  induction gs with
  | nil => rfl
  | cons g gs ih =>
    cases gs with
    | nil => rfl
    | cons x xs => simpa [incLast] using ih

theorem carry_length (gs : List Digit) : (carry gs).length = gs.length := by
  induction gs with
  | nil => rfl
  | cons g gs ih =>
    rw [carry]
    split
    · rename_i h; rw [h] at ih; simp only [List.length_nil] at ih; simp [← ih]
    · rename_i e es h
      rw [h] at ih
      split <;> simp_all

theorem iterRun_endless (total : Int) (f : Nat) : ∀ (count : Int) (gs : List Digit), total < count → gs ≠ [] →
    (iterRun total f count gs).length = f := by
  induction f with
  | zero => intros; rfl
  | succ f ih =>
    intro count gs hc hg
    rw [iterRun, if_neg (by omega)]
    have : carry (incLast gs) ≠ [] := by
      intro h
      have := carry_length (incLast gs)
      rw [h, incLast_length] at this
      simp at this
      exact hg (List.length_eq_zero_iff.1 this.symm)
    simp only
    rw [List.getLast?_eq_some_getLast this]
    simp only [List.length_cons]
    rw [ih (count + 1) _ (by omega) this]

end Verif.Mat
