import Verif.Proof.OpenCvHist
import Verif.Proof.FloodMem

/-!
# The OpenCV detector: point lists of components
-/

namespace Verif.OpenCv

open Function (update)
open Verif.Flood (Patch below mem_below Core Anc)
open Verif.Spec (LConn)

/-- `C` is a connected component of the pixels of level at most `g`. -/
structure IsC (P : Patch) (g : Nat) (C : Finset Nat) : Prop where
  ne : C.Nonempty
  px : ∀ i ∈ C, i ∈ P.px ∧ P.gray i ≤ g
  comp : ∀ i ∈ C, ∀ j ∈ P.px, (j ∈ C ↔ LConn P.adj P.gray g i j)

/-- `l` is the point list of the component `c`, whose pixels are `B`; `pix p` is the pixel of point `p`. -/
structure CSim (P : Patch) (pts : Nat → LPoint) (pix : Nat → Nat) (npts : Nat) (H : Nat → Hist) (nhist : Nat) (B : Finset Nat)
    (c : Comp) (l : List Nat) : Prop where
  lt : ∀ p ∈ l, p < npts
  nodup : (l.map pix).Nodup
  set : ∀ i, i ∈ B ↔ ∃ p ∈ l, pix p = i
  len : l.length = c.size
  chain : l.IsChain (fun a b => (pts a).next = some b)
  head : l ≠ [] → c.head = l.head?
  tail : l ≠ [] → c.tail = l.getLast?
  hlt : ∀ i, c.hist = some i → i < nhist ∧ (H i).child = i
  hist : ∀ i, c.hist = some i → 0 < (H i).size ∧ (H i).size ≤ l.length ∧ (H i).gray ≤ c.gray ∧
    ((H i).gray < c.gray → IsC P (H i).gray ((l.take (H i).size).map pix).toFinset)

variable {P : Patch} {pts pts' : Nat → LPoint} {pix pix' : Nat → Nat} {npts npts' nhist nhist' : Nat} {H H' : Nat → Hist}
  {B B' : Finset Nat} {c d : Comp} {l l' : List Nat}

theorem CSim.congr (h : CSim P pts pix npts H nhist B c l) (hpts : ∀ p ∈ l, (pts' p).next = (pts p).next)
    (hpix : ∀ p ∈ l, pix' p = pix p) (hn : npts ≤ npts')
    (hH : ∀ i, c.hist = some i → (H' i).child = (H i).child ∧ (H' i).gray = (H i).gray ∧ (H' i).size = (H i).size)
    (hnh : nhist ≤ nhist') (hB : B' = B) : CSim P pts' pix' npts' H' nhist' B' c l := by
  have hm : l.map pix' = l.map pix := List.map_congr_left hpix
  subst hB
  refine ⟨fun p hp => ?_, by rw [hm]; exact h.nodup, ?_, h.len, ?_, h.head, h.tail, ?_, ?_⟩
  · have := h.lt p hp; omega
  · intro i
    rw [h.set]
    exact ⟨fun ⟨p, h1, h2⟩ => ⟨p, h1, by rw [hpix p h1]; exact h2⟩, fun ⟨p, h1, h2⟩ => ⟨p, h1, by rw [← hpix p h1]; exact h2⟩⟩
  · refine List.IsChain.imp_of_mem_imp ?_ h.chain
    intro a b ha _ hab
    rw [hpts a ha]; exact hab
  · intro i hi
    obtain ⟨a, b, c⟩ := hH i hi
    obtain ⟨h1, h2⟩ := h.hlt i hi
    exact ⟨by omega, by rw [a]; exact h2⟩
  · intro i hi
    obtain ⟨a, b, c⟩ := hH i hi
    rw [b, c, List.map_take, hm, ← List.map_take]
    exact h.hist i hi

theorem CSim.same (h : CSim P pts pix npts H nhist B c l) (hs : SameC c d) (hH : SameH H H') :
    CSim P pts pix npts H' nhist B d l := by
  have h1 := h.congr (pts' := pts) (pix' := pix) (fun _ _ => rfl) (fun _ _ => rfl) (le_refl _) (fun i _ => hH i) (le_refl _) rfl
  refine ⟨h1.lt, h1.nodup, h1.set, by rw [hs.size]; exact h1.len, h1.chain, by rw [hs.head]; exact h1.head,
    by rw [hs.tail]; exact h1.tail, by rw [hs.hist]; exact h1.hlt, by rw [hs.hist, hs.gray]; exact h1.hist⟩

theorem CSim.card (h : CSim P pts pix npts H nhist B c l) : B = (l.map pix).toFinset ∧ B.card = c.size := by
  have : B = (l.map pix).toFinset := by
    ext i; rw [h.set]; simp
  exact ⟨this, by rw [this, List.toFinset_card_of_nodup h.nodup, List.length_map, h.len]⟩

theorem getLast?_mem' {l : List Nat} {t : Nat} (h : l.getLast? = some t) : t ∈ l := List.mem_of_getLast? h

/-- The current pixel is appended. -/
theorem CSim.add (h : CSim P pts pix npts H nhist B c l) {i : Nat} (hi : i ∉ B) (x y : Nat) :
    ∃ c' pts', accumulate x y npts c pts = some (c', pts') ∧ c'.gray = c.gray ∧ c'.size = c.size + 1 ∧ c'.hist = c.hist ∧
      CSim P pts' (update pix npts i) (npts + 1) H nhist (insert i B) c' (l ++ [npts]) ∧
      (∀ p, p ∉ l → p ≠ npts → pts' p = pts p) ∧ pts' npts = ⟨x, y, none⟩ ∧
      (∀ p, p ≠ npts → (pts' p).x = (pts p).x ∧ (pts' p).y = (pts p).y) := by
  have hnl : npts ∉ l := fun hc => absurd (h.lt _ hc) (by omega)
  have hpix : ∀ p ∈ l, update pix npts i p = pix p := fun p hp => by
    rw [Function.update_of_ne]; rintro rfl; exact hnl hp
  have hm : l.map (update pix npts i) = l.map pix := List.map_congr_left hpix
  have hnd : ((l ++ [npts]).map (update pix npts i)).Nodup := by
    rw [List.map_append, hm, List.nodup_append]
    refine ⟨h.nodup, by simp, ?_⟩
    intro a ha b hb
    simp at hb
    rw [hb]
    rintro rfl
    exact hi ((h.set _).2 (by simpa using ha))
  have hset : ∀ j, j ∈ insert i B ↔ ∃ p ∈ l ++ [npts], update pix npts i p = j := by
    intro j
    rw [Finset.mem_insert, h.set]
    constructor
    · rintro (rfl | ⟨p, h1, h2⟩)
      · exact ⟨npts, by simp, by simp⟩
      · exact ⟨p, by simp [h1], by rw [hpix p h1]; exact h2⟩
    · rintro ⟨p, h1, h2⟩
      rw [List.mem_append] at h1
      rcases h1 with h1 | h1
      · exact .inr ⟨p, h1, by rw [← hpix p h1]; exact h2⟩
      · simp at h1; subst h1; simp at h2; exact .inl h2.symm
  have hlt : ∀ p ∈ l ++ [npts], p < npts + 1 := by
    intro p hp
    rw [List.mem_append] at hp
    rcases hp with hp | hp
    · have := h.lt p hp; omega
    · simp at hp; omega
  have hhist : ∀ j, c.hist = some j → 0 < (H j).size ∧ (H j).size ≤ (l ++ [npts]).length ∧ (H j).gray ≤ c.gray ∧
      ((H j).gray < c.gray → IsC P (H j).gray (((l ++ [npts]).take (H j).size).map (update pix npts i)).toFinset) := by
    intro j hj
    obtain ⟨a1, a2, a3, a4⟩ := h.hist j hj
    refine ⟨a1, by simp; omega, a3, fun hg => ?_⟩
    rw [List.take_append_of_le_length a2, List.map_take, hm, ← List.map_take]
    exact a4 hg
  unfold accumulate
  by_cases hs : 0 < c.size
  · rw [if_pos hs]
    have hne : l ≠ [] := by
      rintro rfl
      have := h.len; simp at this; omega
    obtain ⟨t, ht⟩ : ∃ t, l.getLast? = some t := by
      cases hl : l.getLast? with
      | none => simp at hl; exact absurd hl hne
      | some t => exact ⟨t, rfl⟩
    rw [h.tail hne, ht]
    have htm := getLast?_mem' ht
    have htn : t ≠ npts := by rintro rfl; exact hnl htm
    simp only
    refine ⟨_, _, rfl, rfl, rfl, rfl, ⟨hlt, hnd, hset, ?_, ?_, ?_, ?_, h.hlt, hhist⟩, ?_, by simp, ?_⟩
    · simp [h.len]
    · rw [List.isChain_append]
      refine ⟨?_, by simp, ?_⟩
      · -- the old chain: the updated tail has no successor in it
        have hc := h.chain
        have hndl : l.Nodup := List.Nodup.of_map _ h.nodup
        clear hset hnd hm hpix hlt hhist
        revert ht
        induction l with
        | nil => simp
        | cons a r ih =>
          intro ht
          cases r with
          | nil => simp
          | cons b r =>
            have hat : a ≠ t := by
              rintro rfl
              have hd := List.nodup_cons.1 hndl
              refine hd.1 (getLast?_mem' ?_)
              simpa using ht
            have han : a ≠ npts := by rintro rfl; simp at hnl
            rw [List.isChain_cons_cons] at hc ⊢
            refine ⟨?_, ?_⟩
            · rw [Function.update_of_ne han, Function.update_of_ne hat]; exact hc.1
            · clear ih
              -- remaining part, by a separate induction
              have hr : ∀ (r : List Nat), r.IsChain (fun a b => (pts a).next = some b) → r.getLast? = some t → r.Nodup →
                  npts ∉ r → r.IsChain (fun a b => ((update (update pts t { pts t with next := some npts }) npts
                    ⟨x, y, none⟩) a).next = some b) := by
                intro r
                induction r with
                | nil => simp
                | cons u r ih =>
                  intro hc ht hnd hn
                  cases r with
                  | nil => simp
                  | cons w r =>
                    rw [List.isChain_cons_cons] at hc ⊢
                    have hd := List.nodup_cons.1 hnd
                    have ht' : (w :: r).getLast? = some t := by simpa using ht
                    have hut : u ≠ t := by rintro rfl; exact hd.1 (getLast?_mem' ht')
                    have hun : u ≠ npts := by rintro rfl; simp at hn
                    exact ⟨by rw [Function.update_of_ne hun, Function.update_of_ne hut]; exact hc.1,
                      ih hc.2 ht' hd.2 (by simp at hn ⊢; exact hn.2)⟩
              exact hr _ hc.2 (by simpa using ht) (List.nodup_cons.1 hndl).2 (by simp at hnl ⊢; exact hnl.2)
      · intro a ha b hb
        rw [ht] at ha
        simp at ha hb
        subst ha; subst hb
        rw [Function.update_of_ne htn, Function.update_self]
    · intro _
      simp only
      rw [h.head hne]
      cases l with
      | nil => exact absurd rfl hne
      | cons a r => simp
    · intro _; simp
    · intro p hp hpn
      have : p ≠ t := by rintro rfl; exact hp htm
      rw [Function.update_of_ne hpn, Function.update_of_ne this]
    · intro p hp
      rw [Function.update_of_ne hp]
      by_cases e : p = t
      · subst e; simp
      · rw [Function.update_of_ne e]; exact ⟨rfl, rfl⟩
  · rw [if_neg hs]
    have hl : l = [] := by
      have := h.len
      have : l.length = 0 := by omega
      exact List.length_eq_zero_iff.1 this
    subst hl
    refine ⟨_, _, rfl, rfl, rfl, rfl, ⟨hlt, hnd, hset, ?_, by simp, by simp, by simp, h.hlt, hhist⟩, ?_, by simp, ?_⟩
    · have := h.len; simp at this ⊢; omega
    · intro p hp hpn; rw [Function.update_of_ne hpn]
    · intro p hp; rw [Function.update_of_ne hp]; exact ⟨rfl, rfl⟩

/-- Reading the first points. -/
theorem readPts_eq : ∀ (l : List Nat) (n : Nat), l.IsChain (fun a b => (pts a).next = some b) → n ≤ l.length →
    readPts pts n l.head? = some ((l.take n).map fun p => ((pts p).x, (pts p).y))
  | l, 0, _, _ => by simp [readPts]
  | [], n + 1, _, h => by simp at h
  | [a], n + 1, _, h => by
    have : n = 0 := by simpa using h
    subst this
    simp [readPts]
  | a :: b :: r, n + 1, hc, h => by
    rw [List.isChain_cons_cons] at hc
    have ih := readPts_eq (b :: r) n hc.2 (by simpa using h)
    simp only [List.head?_cons] at ih
    simp [readPts, hc.1, ih]

/-- Joining two lists. -/
theorem chain_join {l1 l2 : List Nat} {t hd : Nat} (h1 : l1.IsChain (fun a b => (pts a).next = some b))
    (h2 : l2.IsChain (fun a b => (pts a).next = some b)) (hnd : l1.Nodup) (ht : l1.getLast? = some t)
    (hh : l2.head? = some hd) (hd2 : t ∉ l2) :
    (l1 ++ l2).IsChain (fun a b => ((update pts t { pts t with next := some hd }) a).next = some b) := by
  rw [List.isChain_append]
  refine ⟨?_, ?_, ?_⟩
  · revert h1 hnd ht
    induction l1 with
    | nil => simp
    | cons u r ih =>
      intro hc hnd ht
      cases r with
      | nil => simp
      | cons w r =>
        rw [List.isChain_cons_cons] at hc ⊢
        have hd := List.nodup_cons.1 hnd
        have ht' : (w :: r).getLast? = some t := by simpa using ht
        have hut : u ≠ t := by rintro rfl; exact hd.1 (getLast?_mem' ht')
        exact ⟨by rw [Function.update_of_ne hut]; exact hc.1, ih hc.2 hd.2 ht'⟩
  · refine List.IsChain.imp_of_mem_imp ?_ h2
    intro a b ha _ hab
    have : a ≠ t := by rintro rfl; exact hd2 ha
    rw [Function.update_of_ne this]; exact hab
  · intro a ha b hb
    rw [ht] at ha; rw [hh] at hb
    simp at ha hb
    subst ha; subst hb
    simp

/-- A component with a new history made of all its points. -/
theorem CSim.newHist (h : CSim P pts pix npts H nhist B c l) (hC : IsC P c.gray B) (hi : HistI H nhist) (g : Nat) (hg : c.gray < g) :
    HistI (newHistory c H nhist).2 (nhist + 1) ∧
    CSim P pts pix npts (newHistory c H nhist).2 (nhist + 1) B { (newHistory c H nhist).1 with gray := g } l := by
  have hB := h.card
  have hs : 0 < c.size := by rw [← hB.2]; exact hC.ne.card_pos
  have e : (newHistory c H nhist).2 = update (setChild H c nhist) nhist
      { mkHist H nhist c with stable := (mkHist H nhist c).stable } := rfl
  have h1 := hi.new c h.hlt hs (mkHist H nhist c).stable
  rw [← e] at h1
  refine ⟨h1, h.lt, h.nodup, h.set, h.len, h.chain, h.head, h.tail, ?_, ?_⟩
  · intro i hi
    simp only [newHistory, Option.some.injEq] at hi
    subst hi
    refine ⟨by omega, ?_⟩
    simp only [newHistory, Function.update_self, mkHist]
    split <;> rfl
  · intro i hi
    simp only [newHistory, Option.some.injEq] at hi
    subst hi
    have e1 : ((newHistory c H nhist).2 nhist).gray = c.gray := by
      simp only [newHistory, Function.update_self, mkHist]; split <;> rfl
    have e2 : ((newHistory c H nhist).2 nhist).size = c.size := by
      simp only [newHistory, Function.update_self, mkHist]; split <;> rfl
    rw [e1, e2]
    refine ⟨hs, by rw [h.len], by simp only; omega, fun _ => ?_⟩
    rw [← h.len, List.take_length, ← hB.1]; exact hC

/-- The component made of the winner `a` and the loser `b`. -/
def joinC (a b c d : Comp) (n : Nat) : Comp where
  head := a.head
  tail := if 0 < b.size then b.tail else a.tail
  hist := some n
  gray := d.gray
  size := c.size + d.size
  lastVar := a.lastVar
  curVar := a.curVar

/-- The histories after the winner `a` got a new one. -/
def joinH (H : Nat → Hist) (a : Comp) (n st : Nat) : Nat → Hist :=
  update (setChild H a n) n { mkHist H n a with stable := st }

/-- Two components become one; `c` is complete. -/
theorem CSim.merge {Bc Bd : Finset Nat} {lc ld : List Nat} (hc : CSim P pts pix npts H nhist Bc c lc)
    (hd : CSim P pts pix npts H nhist Bd d ld) (hC : IsC P c.gray Bc) (hdis : ∀ i ∈ Bc, i ∉ Bd) (hi : HistI H nhist)
    (hg : c.gray < d.gray) :
    ∃ e H' pts' l, mergeComp c d H nhist pts = some (e, H', pts') ∧ e.gray = d.gray ∧ e.size = d.size + c.size ∧
      e.hist = some nhist ∧
      HistI H' (nhist + 1) ∧ CSim P pts' pix npts H' (nhist + 1) (Bd ∪ Bc) e l ∧
      (∀ p, p ∉ lc → p ∉ ld → pts' p = pts p) ∧ (∀ p, (pts' p).x = (pts p).x ∧ (pts' p).y = (pts p).y) ∧
      (∀ k, c.hist ≠ some k → d.hist ≠ some k → k ≠ nhist → H' k = H k) := by
  have hBc := hc.card
  have hBd := hd.card
  have hs : 0 < c.size := by rw [← hBc.2]; exact hC.ne.card_pos
  have hdisl : ∀ p ∈ lc, p ∉ ld := by
    intro p hp hp'
    exact hdis (pix p) ((hc.set _).2 ⟨p, hp, rfl⟩) ((hd.set _).2 ⟨p, hp', rfl⟩)
  have hlcne : lc ≠ [] := by
    rintro rfl
    have := hc.len; simp at this; omega
  -- what is common to both orders
  have key : ∀ (a b : Comp) (la lb : List Nat) (Ba Bb : Finset Nat), CSim P pts pix npts H nhist Ba a la →
      CSim P pts pix npts H nhist Bb b lb → (∀ p ∈ la, p ∉ lb) → (∀ i ∈ Ba, i ∉ Bb) → 0 < a.size → a.size + b.size = d.size + c.size →
      Ba ∪ Bb = Bd ∪ Bc → (a.gray ≤ d.gray ∧ (a.gray < d.gray → IsC P a.gray Ba)) →
      (∀ p, p ∈ la → p ∈ lc ∨ p ∈ ld) → (∀ k, a.hist = some k → c.hist = some k ∨ d.hist = some k) →
      ∀ st, ∃ pts', 
        (if 0 < a.size ∧ 0 < b.size then
          match a.tail, b.head with
          | some t, some hd => some (joinC a b c d nhist,
              joinH H a nhist st,
              update pts t { pts t with next := some hd })
          | _, _ => none
        else some (joinC a b c d nhist,
              joinH H a nhist st, pts)) =
          some (joinC a b c d nhist,
              joinH H a nhist st, pts') ∧
          HistI (joinH H a nhist st) (nhist + 1) ∧
          CSim P pts' pix npts (joinH H a nhist st) (nhist + 1) (Bd ∪ Bc)
            (joinC a b c d nhist) (la ++ lb) ∧
          (∀ p, p ∉ lc → p ∉ ld → pts' p = pts p) ∧ (∀ p, (pts' p).x = (pts p).x ∧ (pts' p).y = (pts p).y) ∧
          (∀ k, c.hist ≠ some k → d.hist ≠ some k → k ≠ nhist →
            joinH H a nhist st k = H k) := by
    intro a b la lb Ba Bb ha hb hdl hdB has hsum hun hag hla hah st
    have hBa := ha.card
    have hH := hi.new a ha.hlt has st
    have hlane : la ≠ [] := by
      rintro rfl
      have := ha.len; simp at this; omega
    have hmk : ∀ k, c.hist ≠ some k → d.hist ≠ some k → k ≠ nhist →
            joinH H a nhist st k = H k := by
      intro k k1 k2 k3
      rw [joinH, Function.update_of_ne k3]
      unfold setChild
      cases hai : a.hist with
      | none => rfl
      | some i =>
        have : k ≠ i := by
          rintro rfl
          rcases hah k hai with h | h
          · exact k1 h
          · exact k2 h
        simp only
        rw [Function.update_of_ne this]
    have hlt : ∀ p ∈ la ++ lb, p < npts := by
      intro p hp
      rcases List.mem_append.1 hp with hp | hp
      · exact ha.lt p hp
      · exact hb.lt p hp
    have hnd : ((la ++ lb).map pix).Nodup := by
      rw [List.map_append, List.nodup_append]
      refine ⟨ha.nodup, hb.nodup, ?_⟩
      rintro x hx y hy rfl
      exact hdB x ((ha.set x).2 (by simpa using hx)) ((hb.set x).2 (by simpa using hy))
    have hset : ∀ i, i ∈ Bd ∪ Bc ↔ ∃ p ∈ la ++ lb, pix p = i := by
      intro i
      rw [← hun, Finset.mem_union, ha.set, hb.set]
      simp only [List.mem_append, or_and_right, exists_or]
    have hlen : (la ++ lb).length = c.size + d.size := by
      rw [List.length_append, ha.len, hb.len]; omega
    have hnew : (joinH H a nhist st nhist).child = nhist ∧
        (joinH H a nhist st nhist).gray = a.gray ∧
        (joinH H a nhist st nhist).size = a.size := by
      simp only [joinH, Function.update_self, mkHist]
      split <;> exact ⟨rfl, rfl, rfl⟩
    have hhist : ∀ g i, some nhist = some i → g = d.gray →
        0 < (joinH H a nhist st i).size ∧
        (joinH H a nhist st i).size ≤ (la ++ lb).length ∧
        (joinH H a nhist st i).gray ≤ g ∧
        ((joinH H a nhist st i).gray < g →
          IsC P (joinH H a nhist st i).gray
            (((la ++ lb).take (joinH H a nhist st i).size).map
              pix).toFinset) := by
      intro g i hi hgd
      obtain rfl := Option.some.inj hi
      subst hgd
      rw [hnew.2.1, hnew.2.2]
      refine ⟨has, by rw [hlen]; omega, hag.1, fun hlt => ?_⟩
      rw [← ha.len, List.take_append_of_le_length (le_refl _), List.take_length, ← hBa.1]
      exact hag.2 hlt
    by_cases hbs : 0 < b.size
    · have hlbne : lb ≠ [] := by
        rintro rfl
        have := hb.len; simp at this; omega
      obtain ⟨t, ht⟩ : ∃ t, la.getLast? = some t := by
        cases hl : la.getLast? with
        | none => simp at hl; exact absurd hl hlane
        | some t => exact ⟨t, rfl⟩
      obtain ⟨hd0, hh⟩ : ∃ t, lb.head? = some t := by
        cases lb with
        | nil => exact absurd rfl hlbne
        | cons a r => exact ⟨a, rfl⟩
      have htm := getLast?_mem' ht
      have etail : a.tail = some t := by rw [ha.tail hlane, ht]
      have ehead : b.head = some hd0 := by rw [hb.head hlbne, hh]
      refine ⟨update pts t { pts t with next := some hd0 }, ?_, hH, ⟨hlt, hnd, hset, hlen, ?_, ?_, ?_, ?_, ?_⟩, ?_, ?_, hmk⟩
      · rw [if_pos ⟨has, hbs⟩, etail, ehead]
      · exact chain_join ha.chain hb.chain (List.Nodup.of_map _ ha.nodup) ht hh (hdl t htm)
      · intro _
        rw [show (joinC a b c d nhist).head = a.head from rfl, ha.head hlane]
        cases la with
        | nil => exact absurd rfl hlane
        | cons a r => simp
      · intro _
        simp only [joinC, if_pos hbs]
        rw [hb.tail hlbne, List.getLast?_append_of_ne_nil _ hlbne]
      · intro i hi
        obtain rfl := Option.some.inj hi
        exact ⟨by omega, hnew.1⟩
      · intro i hi; exact hhist _ i hi rfl
      · intro p p1 p2
        have : p ≠ t := by
          rintro rfl
          rcases hla p htm with h | h
          · exact p1 h
          · exact p2 h
        rw [Function.update_of_ne this]
      · intro p
        by_cases e : p = t
        · subst e; simp
        · rw [Function.update_of_ne e]; exact ⟨rfl, rfl⟩
    · have hlb : lb = [] := by
        have := hb.len
        exact List.length_eq_zero_iff.1 (by omega)
      subst hlb
      refine ⟨pts, ?_, hH, ⟨hlt, hnd, hset, hlen, ?_, ?_, ?_, ?_, ?_⟩, fun _ _ _ => rfl, fun _ => ⟨rfl, rfl⟩, hmk⟩
      · rw [if_neg (by omega)]
      · simpa using ha.chain
      · intro _; rw [show (joinC a b c d nhist).head = a.head from rfl]; simpa using ha.head hlane
      · intro _
        simp only [joinC, if_neg hbs]
        simpa using ha.tail hlane
      · intro i hi
        obtain rfl := Option.some.inj hi
        exact ⟨by omega, hnew.1⟩
      · intro i hi; exact hhist _ i hi rfl
  by_cases hw : d.size ≤ c.size
  · obtain ⟨pts', e1, e2, e3, e4, e5, e6⟩ := key c d lc ld Bc Bd hc hd hdisl hdis hs (by omega)
      (Finset.union_comm _ _) ⟨by omega, fun _ => hC⟩ (fun p hp => .inl hp) (fun k hk => .inl hk)
      (maxStable H d (mkHist H nhist c).stable)
    refine ⟨joinC c d c d nhist, _, pts', _, ?_, rfl, Nat.add_comm _ _, rfl, e2, e3, e4, e5, e6⟩
    simp only [mergeComp, if_pos hw, if_pos hs]
    exact e1
  · have hds : 0 < d.size := by omega
    obtain ⟨pts', e1, e2, e3, e4, e5, e6⟩ := key d c ld lc Bd Bc hd hc (fun p h1 h2 => hdisl p h2 h1)
      (fun p h1 h2 => hdis p h2 h1) hds rfl rfl ⟨le_refl _, fun h => absurd h (by omega)⟩ (fun p hp => .inr hp)
      (fun k hk => .inr hk) (maxStable H c (mkHist H nhist d).stable)
    refine ⟨joinC d c c d nhist, _, pts', _, ?_, rfl, Nat.add_comm _ _, rfl, e2, e3, e4, e5, e6⟩
    simp only [mergeComp, if_neg hw, if_pos hds, if_pos (And.intro hs hds)]
    rw [if_pos ⟨hds, hs⟩] at e1
    exact e1

/-! ### The finished pixels of a region -/

section
variable {regs regs' : Nat → Flood.Reg} {lab : Nat → Nat} {F : Finset Nat}

theorem below_label {i a r : Nat} (hi : i ∉ F) (ha : (regs a).parent = none) :
    below regs (update lab i a) (insert i F) r = if r = a then insert i (below regs lab F r) else below regs lab F r := by
  ext j
  have hj : ∀ j ∈ F, update lab i a j = lab j := fun j hj => by
    rw [Function.update_of_ne]; rintro rfl; exact hi hj
  by_cases e : j = i
  · subst e
    rw [mem_below, Function.update_self, Anc.root ha]
    by_cases e' : r = a
    · simp [e']
    · simp [e', mem_below, hi]
  · have : j ∈ below regs (update lab i a) (insert i F) r ↔ j ∈ below regs lab F r := by
      rw [mem_below, mem_below]
      simp only [Finset.mem_insert, e, false_or]
      exact and_congr_right fun h => by rw [hj j h]
    rw [this]
    split_ifs <;> simp [e]

theorem below_congr (h : ∀ r, (regs' r).parent = (regs r).parent) (r : Nat) : below regs' lab F r = below regs lab F r := by
  ext i; rw [mem_below, mem_below, Anc.congr h]

theorem below_fresh {n r : Nat} {x : Flood.Reg} (hn : ∀ a < n, ∀ b, (regs a).parent = some b → b < n) (hl : ∀ i ∈ F, lab i < n) :
    below (update regs n x) lab F r = below regs lab F r := by
  ext i
  rw [mem_below, mem_below]
  exact and_congr_right fun h => Anc.fresh hn (hl i h)

theorem below_link {n a d r : Nat} (hn : ∀ a < n, ∀ b, (regs a).parent = some b → b < n) (hl : ∀ i ∈ F, lab i < n)
    (hc : (regs a).parent = none) (h1 : ∀ x < n, x ≠ a → (regs' x).parent = (regs x).parent)
    (h2 : (regs' a).parent = some d) (h3 : (regs' d).parent = none) :
    below regs' lab F r = if r = d then below regs lab F d ∪ below regs lab F a else below regs lab F r := by
  ext i
  have key : i ∈ F → (Anc regs' (lab i) r ↔ Anc regs (lab i) r ∨ (Anc regs (lab i) a ∧ r = d)) := fun h =>
    Anc.link hn hc h1 h2 h3 (hl i h)
  rw [mem_below]
  by_cases e : r = d
  · rw [if_pos e, Finset.mem_union, mem_below, mem_below]
    subst e
    constructor
    · rintro ⟨h1, h2⟩
      rcases (key h1).1 h2 with h | h
      · exact .inl ⟨h1, h⟩
      · exact .inr ⟨h1, h.1⟩
    · rintro (⟨h1, h2⟩ | ⟨h1, h2⟩)
      · exact ⟨h1, (key h1).2 (.inl h2)⟩
      · exact ⟨h1, (key h1).2 (.inr ⟨h2, rfl⟩)⟩
  · rw [if_neg e, mem_below]
    refine and_congr_right fun h => ?_
    rw [key h]; simp [e]

theorem below_disjoint {a b i : Nat} (ha : (regs a).parent = none) (hb : (regs b).parent = none) (hne : a ≠ b)
    (h1 : i ∈ below regs lab F a) : i ∉ below regs lab F b := by
  intro h2
  rw [mem_below] at h1 h2
  exact hne (Anc.root_unique h1.2 h2.2 ha hb)

end

/-- The top component is complete when no pixel of its level waits. -/
theorem top_complete {cnt lab : Nat → Nat} {heap : Nat → List Nat} {c : Flood.Comp} {rest : List Flood.Comp} {regs : Nat → Flood.Reg}
    {nreg : Nat} {F : Finset Nat} {a m i : Nat} (hP : P.OK)
    (h : Core P cnt lab heap (c :: rest) regs nreg F (fun _ => False) a m) (hh : heap c.gray = [])
    (hi : i ∈ below regs lab F c.region) : IsC P c.gray (below regs lab F c.region) := by
  have hcm : c ∈ c :: rest := List.mem_cons_self
  have hcl : ∀ i ∈ F, Anc regs (lab i) c.region → ∀ j, P.adj i j → P.gray j ≤ c.gray → j ∈ F ∧ Anc regs (lab j) c.region := by
    intro i h1 h2 j hj hg
    rcases h.cs_closed c hcm i h1 h2 j hj with h3 | ⟨h3, h4⟩
    · exact h3
    · exfalso
      obtain ⟨k, k1, k2, k3⟩ := hj.2.2
      have hv := h.toured_F i h1 k k1 k2
      rw [k3] at hv
      have e : P.gray j = c.gray := by omega
      rcases h.vis j hj.2.1 hv with h5 | h5 | h5
      · exact h3 h5
      · exact h5
      · rw [e, hh] at h5; simp at h5
  refine ⟨⟨i, hi⟩, fun i hi => ?_, fun i hi j hj => ?_⟩
  · rw [mem_below] at hi
    refine ⟨h.F_px i hi.1, ?_⟩
    have h1 := Anc.lt h.reg_parent (h.lab_ok i hi.1).1 hi.2
    have h2 := (h.lab_ok i hi.1).2
    have h3 := (h.cs_reg c hcm).2.1
    omega
  · rw [mem_below] at hi
    rw [mem_below]
    constructor
    · rintro ⟨h1, h2⟩
      exact (h.cs_conn c hcm i hi.1 hi.2).trans ((h.cs_conn c hcm j h1 h2).symm hP.adj_symm)
    · intro hc
      clear hj
      induction hc with
      | refl => exact hi
      | tail _ h1 ih => exact hcl _ ih.1 ih.2 _ h1.1 h1.2.2

end Verif.OpenCv
