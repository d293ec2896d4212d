import Verif.Model.Expand
import Verif.Props.MatFill
import Verif.Props.MatMerge

/-!
# C185: a border around an array
-/

namespace Verif.Props

open Verif.Spec Verif.Mat

/-- The sizes with both borders. -/
def borderSizes (ps qs ns : List Int) : List Int := List.zipWith (· + ·) ps (List.zipWith (· + ·) ns qs)

/-- The array `r` holds `m` behind borders of the sizes `ps`, all the other elements hold the values. -/
structure Bordered (H H' : Heap) (m r : Mat) (ps qs vals : List Int) : Prop where
  sizes : matSizes r = borderSizes ps qs (matSizes m)
  depth : r.depth = m.depth
  chan : r.chan = m.chan
  inner : ∀ idx c b, MatIndex (matSizes m) idx → 0 ≤ c → c < m.chan → 0 ≤ b → b < m.unit →
    H' (matByte r (List.zipWith (· + ·) ps idx) c b) = H (matByte m idx c b)
  border : ∀ idx (c b : Nat), MatIndex (matSizes r) idx →
    (¬ ∃ j, MatIndex (matSizes m) j ∧ idx = List.zipWith (· + ·) ps j) → (c : Int) < m.chan → (b : Int) < m.unit →
    H' (matByte r idx c b) = some (byteOf (vals.getD c 0) b)
  apart : MatApart r
  new : MatDisjoint r m
  frame : ∀ x, ¬ MatHas r x → H' x = H x

theorem expandLoop_spec (ns : List Int) : ∀ (ps qs : List Int) (ds : List Dim), ps.length = ns.length → qs.length = ns.length →
    (∀ n ∈ ns, 1 ≤ n) → (∀ p ∈ ps, 0 ≤ p) → (∀ q ∈ qs, 0 ≤ q) →
    (expandLoop ns ps qs).map Prod.fst = borderSizes ps qs ns ∧
    ((expandLoop ns ps qs).map Prod.snd).map (fun r => r.stop - r.start) = ns ∧
    (∀ idx, addStarts ((expandLoop ns ps qs).map Prod.snd) idx = List.zipWith (· + ·) ps idx) ∧
    (∀ r ∈ (expandLoop ns ps qs).map Prod.snd, 0 ≤ r.start) ∧
    (∀ n ∈ borderSizes ps qs ns, 1 ≤ n) ∧
    (ds.map Dim.size = borderSizes ps qs ns → subCheck ds ((expandLoop ns ps qs).map Prod.snd) = true) ∧
    (expandLoop ns ps qs).length = ns.length := by
  induction ns with
  | nil =>
    intro ps qs ds hp hq _ _ _
    obtain rfl := List.length_eq_zero_iff.1 hp
    obtain rfl := List.length_eq_zero_iff.1 hq
    cases ds <;> simp [expandLoop, borderSizes, addStarts, subCheck]
  | cons n ns ih =>
    intro ps qs ds hp hq h1 h2 h3
    obtain ⟨p, ps, rfl⟩ := List.exists_cons_of_length_eq_add_one hp
    obtain ⟨q, qs, rfl⟩ := List.exists_cons_of_length_eq_add_one hq
    obtain ⟨i1, i2, i3, i4, i5, i6, i7⟩ := ih ps qs ds.tail (by simpa using hp) (by simpa using hq)
      (fun x hx => h1 x (by simp [hx])) (fun x hx => h2 x (by simp [hx])) (fun x hx => h3 x (by simp [hx]))
    have n1 := h1 n (by simp)
    have p1 := h2 p (by simp)
    have q1 := h3 q (by simp)
    have hb : borderSizes (p :: ps) (q :: qs) (n :: ns) = (p + (n + q)) :: borderSizes ps qs ns := rfl
    refine ⟨?_, ?_, ?_, ?_, ?_, ?_, ?_⟩
    · rw [expandLoop, List.map_cons, i1, hb]; congr 1; show n + p + q = _; ring
    · rw [expandLoop, List.map_cons, List.map_cons, i2]; congr 1; show 0 + p + n - (0 + p) = n; ring
    · intro idx
      cases idx with
      | nil => simp [addStarts]
      | cons i idx =>
        have := i3 idx
        rw [addStarts] at this
        rw [expandLoop, List.map_cons, addStarts, List.zipWith_cons_cons, this, List.zipWith_cons_cons]
        congr 1
        show 0 + p + i = p + i
        ring
    · intro r hr
      rw [expandLoop, List.map_cons, List.mem_cons] at hr
      rcases hr with rfl | hr
      · show 0 ≤ 0 + p; omega
      · exact i4 r hr
    · intro x hx
      rw [hb, List.mem_cons] at hx
      rcases hx with rfl | hx
      · omega
      · exact i5 x hx
    · intro e
      rw [hb] at e
      cases ds with
      | nil => simp at e
      | cons d ds =>
        rw [List.map_cons, List.cons.injEq] at e
        have i6' := i6 e.2
        rw [List.tail_cons] at i6'
        rw [expandLoop, List.map_cons, subCheck, i6', Bool.and_true, decide_eq_true_eq]
        show 0 < 0 + p + n - (0 + p) ∧ 0 + p + n ≤ d.size
        rw [e.1]
        omega
    · simp [expandLoop, i7]

/-- C185: `expand` gives a new array with the old elements behind the borders and the values in the borders. -/
theorem C185_expand_partial (H : Heap) (m : Mat) (s1 s2 : Option (List Int)) (ps qs vals : List Int) (a : Int)
    (junk : Int → Nat) (hne : m.dims ≠ []) (hc : 0 < m.chan) (h1 : ∀ n ∈ matSizes m, 1 ≤ n) (am : Aligned m) (lm : MatLive H m)
    (hs : ¬ (s1 = none ∧ s2 = none))
    (e1 : ps = s1.getD (List.replicate m.dims.length 0)) (e2 : qs = s2.getD (List.replicate m.dims.length 0))
    (l1 : ps.length = m.dims.length) (l2 : qs.length = m.dims.length) (p0 : ∀ p ∈ ps, 0 ≤ p) (q0 : ∀ q ∈ qs, 0 ≤ q)
    (hd : m.depth.val ≤ 7) (hv : m.chan ≤ vals.length)
    (hr : ∀ v ∈ vals, inRange m.depth v = true) (hi : m.depth = 1 → ∀ v ∈ vals, 0 ≤ v)
    (fresh : ∀ x, a ≤ x → x < a + allocSize (borderSizes ps qs (matSizes m)) m.depth m.chan → H x = none) :
    ∃ H' r, expand H m m.dims.length s1 s2 vals a junk = some (H', r) ∧ Bordered H H' m r ps qs vals := by
  have hl : (matSizes m).length = m.dims.length := by rw [matSizes, List.length_map]
  have side : ∀ (s : Option (List Int)) (l : List Int), l = s.getD (List.replicate m.dims.length 0) →
      l.length = m.dims.length → sidesOf m.dims.length s = some l := by
    intro s l e h
    cases s with
    | none => rw [sidesOf, e]; rfl
    | some t =>
      obtain rfl : l = t := e
      rw [sidesOf, if_neg (by omega), ← h, List.take_length]
  obtain ⟨k1, k2, k3, k4, k5, k6, k7⟩ := expandLoop_spec (matSizes m) ps qs
    (create a (borderSizes ps qs (matSizes m)) m.depth m.chan).dims (by omega) (by omega) h1 p0 q0
  obtain ⟨hsz, hap, hhas⟩ := C102_create a (borderSizes ps qs (matSizes m)) m.depth m.chan
    fun n hn => by have := k5 n hn; omega
  have hlr : (expandLoop (matSizes m) ps qs).length = (borderSizes ps qs (matSizes m)).length := by
    rw [← k1, List.length_map]
  have hd0 : 0 < m.dims.length := List.length_pos_iff.2 hne
  have hbne : borderSizes ps qs (matSizes m) ≠ [] := by
    intro e
    rw [e, List.length_nil] at hlr
    omega
  have hvpos : 0 < vals.length := by omega
  have hvne : vals ≠ [] := List.length_pos_iff.1 hvpos
  generalize hre : create a (borderSizes ps qs (matSizes m)) m.depth m.chan = r at *
  have rdep : r.depth = m.depth := by rw [← hre]; rfl
  have rch : r.chan = m.chan := by rw [← hre]; rfl
  have ru : r.unit = m.unit := unit_of_depth rdep
  have rne : r.dims ≠ [] := dims_ne (by rw [hsz]; exact hbne)
  have ral : Aligned r := by rw [← hre]; exact aligned_create _ _ _ _ hbne
  have rcont : isContinuous r = true := by
    rw [isContinuous_iff rne]
    refine ⟨m.elemSize, ?_, by rw [hsz, ← hre]; rfl⟩
    have := elemSize_pos hc
    have er : r.elemSize = m.elemSize := by rw [← hre]; rfl
    rw [er]
    omega
  have hdj : MatDisjoint r m := by
    intro x hx hxm
    have := (hhas x).1 hx
    exact lm x hxm (fresh x this.1 this.2)
  set H0 := alloc H a (allocSize (borderSizes ps qs (matSizes m)) m.depth m.chan) junk with hH0
  have hold : ∀ x, ¬ MatHas r x → H0 x = H x := by
    intro x hx
    rw [hH0, alloc, if_neg fun h => hx ((hhas x).2 h)]
  have live0 : MatLive H0 r := by
    intro x hx
    rw [hH0, alloc, if_pos ((hhas x).1 hx)]
    simp
  have hmem : ∀ c : Nat, (c : Int) < m.chan → vals.getD c 0 ∈ vals := by
    intro c h
    have : c < vals.length := by omega
    rw [List.getD_eq_getElem?_getD, List.getElem?_eq_getElem this]
    exact List.getElem_mem _
  obtain ⟨H1, f1, f2, f3⟩ := C108_fill_partial H0 r vals.length (fun c => vals.getD c 0) rne (by omega)
    (by rw [hsz]; exact k5) ral live0 hap
    ⟨by rw [rdep]; exact hd, Or.inr (by omega), fun c h => by
      rw [if_neg (by omega), rdep]; exact hr _ (hmem c (by omega))⟩
    (fun _ => Or.inl rcont) (fun h => hi (by rw [← rdep]; exact h) _ (hmem 0 (by simpa using hc)))
  -- the part for the old elements
  have hlen : ((expandLoop (matSizes m) ps qs).map Prod.snd).length = r.dims.length := by
    rw [List.length_map, hlr, ← hsz, matSizes, List.length_map]
  have hrne : (expandLoop (matSizes m) ps qs).map Prod.snd ≠ [] := by
    intro e
    rw [e, List.length_nil] at hlen
    exact rne (List.length_eq_zero_iff.1 hlen.symm)
  obtain ⟨v, hvv⟩ : ∃ v, Verif.Mat.sub r ((expandLoop (matSizes m) ps qs).map Prod.snd) = some v :=
    ⟨_, by rw [Verif.Mat.sub, if_neg hrne, if_neg (by simpa using hlen)]⟩
  obtain ⟨vw, vsz⟩ := C97_sub_partial r v _ hrne (k6 hsz) hvv k4
  rw [k2] at vsz
  have vch : v.chan = m.chan := by rw [sub_chan hvv, rch]
  have vdep : v.depth = m.depth := by rw [vw.depth, rdep]
  have vu : v.unit = m.unit := unit_of_depth vdep
  have live1 : ∀ x, H0 x ≠ none → H1 x ≠ none := by
    intro x hx
    by_cases h : MatHas r x
    · obtain ⟨idx, c, b, hi', c0, c1, b0, b1, rfl⟩ := h
      have := f2 idx c.toNat b.toNat hi' (by omega) (by omega)
      rw [Int.toNat_of_nonneg c0, Int.toNat_of_nonneg b0] at this
      rw [this]
      simp
    · rw [f3 x h]; exact hx
  have hdv : MatDisjoint v m := fun x hx => hdj x (matView_inside vw x hx)
  obtain ⟨H2, g1, g2, g3⟩ := C106_copy_partial H1 v m (dims_ne (by rw [vsz]; intro e; rw [e] at hl; simp at hl; omega)) vsz.symm
    vch.symm vdep.symm (by omega) (by rw [vsz]; exact h1) (sub_aligned hvv ral) am
    (fun x hx => live1 x (live0 x (matView_inside vw x hx)))
    (fun x hx => live1 x (by rw [hold x fun h => hdj x h hx]; exact lm x hx))
    (matView_apart vw hap) hdv
  have hvb : ∀ idx c b, MatIndex (matSizes m) idx → matByte v idx c b = matByte r (List.zipWith (· + ·) ps idx) c b := by
    intro idx c b h
    rw [matByte, matByte, vw.addr idx c (by rw [vsz]; exact h), k3, zero_add]
  refine ⟨H2, r, ?_, hsz, rdep, rch, ?_, ?_, hap, hdj, ?_⟩
  · rw [expand, if_neg (by rintro (h | h); exacts [by omega, hs h]), if_neg (by simp), side s1 ps e1 l1, side s2 qs e2 l2]
    simp only [if_neg hvne]
    rw [show m.dims.map Dim.size = matSizes m from rfl, k1, hre, ← hH0, f1, Option.bind_some, hvv, Option.bind_some, g1]
    rfl
  · intro idx c b h c0 c1 b0 b1
    rw [← hvb idx c b h, g2 idx c b (by rw [vsz]; exact h) c0 (by omega) b0 (by omega)]
    have hm : MatHas m (matByte m idx c b) := ⟨idx, c, b, h, c0, c1, b0, b1, rfl⟩
    rw [f3 _ fun h => hdj _ h hm, hold _ fun h => hdj _ h hm]
  · intro idx c b h hn c1 b1
    rw [g3, f2 idx c b h (by omega) (by omega)]
    · simp only [if_neg (show ¬ vals.length = 0 by omega)]
    rintro ⟨j, c', b', hj, c0', c1', b0', b1', e⟩
    rw [vsz] at hj
    rw [hvb j c' b' hj] at e
    have hin := vw.index j (by rw [vsz]; exact hj)
    rw [k3] at hin
    exact hn ⟨j, hj, (hap _ _ _ _ _ _ h hin (by omega) (by omega) c0' (by omega) (by omega) (by omega) b0' (by omega) e).1⟩
  · intro x hx
    rw [g3 x fun h => hx (matView_inside vw x h), f3 x hx, hold x hx]

example : ∃ (H : Heap) (m : Mat) (s1 s2 : Option (List Int)) (ps qs vals : List Int) (a : Int), m.dims ≠ [] ∧ 0 < m.chan ∧
    (∀ n ∈ matSizes m, 1 ≤ n) ∧ Aligned m ∧ MatLive H m ∧ ¬ (s1 = none ∧ s2 = none) ∧
    ps = s1.getD (List.replicate m.dims.length 0) ∧ qs = s2.getD (List.replicate m.dims.length 0) ∧
    ps.length = m.dims.length ∧ qs.length = m.dims.length ∧ (∀ p ∈ ps, 0 ≤ p) ∧ (∀ q ∈ qs, 0 ≤ q) ∧ m.depth.val ≤ 7 ∧
    m.chan ≤ vals.length ∧ (∀ v ∈ vals, inRange m.depth v = true) ∧ (m.depth = 1 → ∀ v ∈ vals, 0 ≤ v) ∧
    ∀ x, a ≤ x → x < a + allocSize (borderSizes ps qs (matSizes m)) m.depth m.chan → H x = none := by
  refine ⟨fun x => if x < 200 then some 0 else none, create 0 [4, 5] 2 3, some [1, 2], none, [1, 2], [0, 0], [7, 8, 9], 300,
    by decide, by decide, by decide, aligned_create _ _ _ _ (by decide), ?_, by decide, by decide, by decide, by decide,
    by decide, by decide, by decide, by decide, by decide, by decide, by decide, fun x hx _ => if_neg (by omega)⟩
  intro x hx
  have := ((C102_create 0 [4, 5] 2 3 (by decide)).2.2 x).1 hx
  have e : allocSize [4, 5] 2 3 = 120 := by decide
  rw [e] at this
  show (if x < 200 then some 0 else none) ≠ none
  rw [if_pos (by omega)]
  simp

end Verif.Props
