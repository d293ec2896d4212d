import Verif.Model.LinearExtract
import Verif.Spec.Lists

/-!
# Proof: extraction of the linear detector
-/

namespace Verif.Linear

open Function (update)
open Verif.Spec

/-! ### The box -/

/-- The box just holds the points `l`. -/
structure Box.Tight (b : Box) (l : List (Nat × Nat)) : Prop where
  inside : ∀ q ∈ l, b.xmin ≤ q.1 ∧ q.1 ≤ b.xmax ∧ b.ymin ≤ q.2 ∧ q.2 ≤ b.ymax
  left : ∃ q ∈ l, q.1 = b.xmin
  right : ∃ q ∈ l, q.1 = b.xmax
  top : ∃ q ∈ l, q.2 = b.ymin
  bottom : ∃ q ∈ l, q.2 = b.ymax

theorem Box.tight_start (x y : Nat) : (Box.start x y).Tight [(x, y)] :=
  ⟨fun q hq => by rw [List.mem_singleton.1 hq]; simp [Box.start], ⟨_, List.mem_singleton_self _, rfl⟩,
    ⟨_, List.mem_singleton_self _, rfl⟩, ⟨_, List.mem_singleton_self _, rfl⟩, ⟨_, List.mem_singleton_self _, rfl⟩⟩

theorem Box.Tight.congr {b : Box} {l l' : List (Nat × Nat)} (h : b.Tight l) (hl : ∀ q, q ∈ l' ↔ q ∈ l) : b.Tight l' := by
  obtain ⟨h1, ⟨a, a1, a2⟩, ⟨c, c1, c2⟩, ⟨d, d1, d2⟩, ⟨e, e1, e2⟩⟩ := h
  exact ⟨fun q hq => h1 q ((hl q).1 hq), ⟨a, (hl a).2 a1, a2⟩, ⟨c, (hl c).2 c1, c2⟩, ⟨d, (hl d).2 d1, d2⟩,
    ⟨e, (hl e).2 e1, e2⟩⟩

theorem Box.Tight.step {b : Box} {l : List (Nat × Nat)} (h : b.Tight l) (x y : Nat) : (b.step x y).Tight ((x, y) :: l) := by
  obtain ⟨h1, ⟨a, a1, a2⟩, ⟨c, c1, c2⟩, ⟨d, d1, d2⟩, ⟨e, e1, e2⟩⟩ := h
  have hx := (h1 a a1)
  have hy := (h1 d d1)
  refine ⟨?_, ?_, ?_, ?_, ?_⟩
  · intro q hq
    rcases List.mem_cons.1 hq with rfl | hq
    · simp only [Box.step]; grind
    · have := h1 q hq
      simp only [Box.step]; grind
  · by_cases hb : ¬ b.xmax < x ∧ x < b.xmin
    · exact ⟨(x, y), by simp, by simp only [Box.step]; grind⟩
    · exact ⟨a, by simp [a1], by simp only [Box.step]; grind⟩
  · by_cases hb : b.xmax < x
    · exact ⟨(x, y), by simp, by simp only [Box.step]; grind⟩
    · exact ⟨c, by simp [c1], by simp only [Box.step]; grind⟩
  · by_cases hb : ¬ b.ymax < y ∧ y < b.ymin
    · exact ⟨(x, y), by simp, by simp only [Box.step]; grind⟩
    · exact ⟨d, by simp [d1], by simp only [Box.step]; grind⟩
  · by_cases hb : b.ymax < y
    · exact ⟨(x, y), by simp, by simp only [Box.step]; grind⟩
    · exact ⟨e, by simp [e1], by simp only [Box.step]; grind⟩

/-! ### Copying -/

/-- The position of a point. -/
def posP (pts : Nat → Point) (p : Nat) : Nat × Nat := ((pts p).x, (pts p).y)

theorem copyList_spec {pts : Nat → Point} {npts : Nat} {msize : Int} : ∀ (l : List Nat) (o : Option Nat) (pos : Nat)
    (mem : Cells) (b : Box) (seen : List (Nat × Nat)),
    walk (fun p => (pts p).next) l.length o = some l → (∀ p ∈ l, p < npts) → ((pos + l.length : Nat) : Int) ≤ msize →
    b.Tight seen → ∃ mem' b', copyList pts npts msize l.length o pos mem b = some (mem', b') ∧
      (∀ i (hi : i < l.length), mem' (pos + i) = some (posP pts l[i])) ∧
      (∀ c, c < pos ∨ pos + l.length ≤ c → mem' c = mem c) ∧ b'.Tight (l.map (posP pts) ++ seen)
  | [], o, pos, mem, b, seen, _, _, _, hb =>
    ⟨mem, b, by simp [copyList], fun i hi => absurd hi (by simp), fun _ _ => rfl, by simpa using hb⟩
  | a :: l, none, _, _, _, _, hw, _, _, _ => by simp [walk] at hw
  | a :: l, some p, pos, mem, b, seen, hw, hl, hm, hb => by
    simp only [List.length_cons, walk, Option.map_eq_some_iff] at hw
    obtain ⟨l', h1, h2⟩ := hw
    obtain ⟨rfl, rfl⟩ := List.cons.inj h2
    have hp := hl p (by simp)
    simp only [List.length_cons] at hm
    have hm' : ((pos + 1 + l'.length : Nat) : Int) ≤ msize := by push_cast at hm ⊢; omega
    obtain ⟨mem', b', e, h3, h4, h5⟩ := copyList_spec (msize := msize) l' (pts p).next (pos + 1)
      (update mem pos (some ((pts p).x, (pts p).y))) (b.step (pts p).x (pts p).y) (((pts p).x, (pts p).y) :: seen) h1
      (fun q hq => hl q (by simp [hq])) hm' (hb.step _ _)
    have hpos : (pos : Int) < msize := by push_cast at hm; omega
    refine ⟨mem', b', ?_, ?_, ?_, ?_⟩
    · rw [List.length_cons, copyList, if_pos ⟨hp, hpos⟩, e]
    · intro i hi
      cases i with
      | zero =>
        rw [Nat.add_zero, h4 pos (by omega), Function.update_self]; rfl
      | succ i =>
        have := h3 i (by simpa using hi)
        rw [show pos + (i + 1) = pos + 1 + i by omega, this]; rfl
    · intro c hc
      simp only [List.length_cons] at hc
      rw [h4 c (by omega), Function.update_of_ne (by omega)]
    · refine h5.congr fun q => ?_
      simp only [List.map_cons, List.mem_append, List.mem_cons, posP]
      tauto

/-- What the record of a region says, `l` being its list of points. -/
structure RecOf (gm : Nat) (s : St) (mem : Cells) (l : List Nat) (r : Nat) (rec : RecL) : Prop where
  size : rec.size = l.length
  gray : rec.gray = if gm = 0 then (s.regs r).gray else 255 - (s.regs r).gray
  cells : ∀ i (hi : i < l.length), mem (rec.points + i) = some (posP s.pts l[i])
  rect : ∃ b : Box, rec.rect = b.rect ∧ b.Tight (l.map (posP s.pts))

/-- The cells of the records lie one behind the other. -/
def Packed : Nat → List RecL → Nat → Prop
  | off, [], e => off = e
  | off, x :: xs, e => x.points = off ∧ Packed (off + x.size) xs e

theorem extractLoop_spec {gm : Nat} {s : St} {msize : Int} {L : Nat → List Nat} : ∀ (rs : List Nat) (off : Nat)
    (mem : Cells),
    (∀ r ∈ rs, L r ≠ [] ∧ (L r).head? = some (s.regs r).head ∧ (s.regs r).size = (L r).length ∧
      walk (fun p => (s.pts p).next) (L r).length (some (s.regs r).head) = some (L r) ∧ ∀ p ∈ L r, p < s.npts) →
    ((off + (rs.map fun r => (s.regs r).size).sum : Nat) : Int) ≤ msize →
    ∃ mem' recs, extractLoop gm s msize rs off mem = some (mem', recs) ∧
      List.Forall₂ (fun r rec => RecOf gm s mem' (L r) r rec) rs recs ∧
      Packed off recs (off + (rs.map fun r => (s.regs r).size).sum) ∧ (∀ c < off, mem' c = mem c)
  | [], off, mem, _, _ => ⟨mem, [], rfl, .nil, by simp [Packed], fun _ _ => rfl⟩
  | r :: rs, off, mem, hr, hm => by
    obtain ⟨h1, h2, h3, h4, h5⟩ := hr r (by simp)
    have hh : (s.regs r).head ∈ L r := List.mem_of_head? h2
    simp only [List.map_cons, List.sum_cons] at hm
    obtain ⟨mem1, b, e1, c1, c2, c3⟩ := copyList_spec (msize := msize) (L r) (some (s.regs r).head) off mem
      (Box.start (s.pts (s.regs r).head).x (s.pts (s.regs r).head).y) _ h4 h5 (by push_cast at hm ⊢; omega) (Box.tight_start _ _)
    obtain ⟨mem2, recs, e2, d1, d2, d3⟩ := extractLoop_spec (gm := gm) (L := L) (msize := msize) rs (off + (s.regs r).size) mem1
      (fun x hx => hr x (by simp [hx])) (by push_cast at hm ⊢; omega)
    rw [← h3] at e1
    refine ⟨mem2, ⟨(s.regs r).size, if gm = 0 then (s.regs r).gray else 255 - (s.regs r).gray, off, b.rect⟩ :: recs, ?_, .cons ⟨h3, rfl, fun i hi => ?_, b, rfl, ?_⟩ d1, ?_, fun c hc => ?_⟩
    · rw [extractLoop]
      rw [if_pos (h5 _ hh), e1]
      simp only
      rw [e2]
    · show mem2 (off + i) = _
      rw [d3 _ (by omega)]; exact c1 i hi
    · refine c3.congr fun q => ?_
      simp only [List.mem_append, List.mem_singleton]
      constructor
      · exact .inl
      · rintro (h | rfl)
        · exact h
        · exact List.mem_map.2 ⟨_, hh, rfl⟩
    · simp only [List.map_cons, List.sum_cons]
      refine ⟨rfl, ?_⟩
      rw [← Nat.add_assoc]; exact d2
    · rw [d3 c (by omega), c2 c (by omega)]

/-- Cells of a packed record are within the memory. -/
theorem packed_le : ∀ {recs : List RecL} {off e : Nat}, Packed off recs e → off ≤ e ∧ ∀ x ∈ recs, x.points + x.size ≤ e
  | [], _, _, h => ⟨le_of_eq h, fun _ h => absurd h (by simp)⟩
  | x :: xs, off, e, h => by
    obtain ⟨h1, h2⟩ := h
    obtain ⟨h3, h4⟩ := packed_le h2
    refine ⟨by omega, fun y hy => ?_⟩
    rcases List.mem_cons.1 hy with rfl | hy
    · omega
    · exact h4 y hy

theorem mapM_some {α β : Type} {f : α → Option β} {g : α → β} : ∀ {l : List α}, (∀ a ∈ l, f a = some (g a)) →
    l.mapM f = some (l.map g)
  | [], _ => by simp
  | a :: l, h => by
    rw [List.mapM_cons, h a (by simp), mapM_some fun x hx => h x (by simp [hx])]
    rfl

/-- Reading a record back. -/
theorem readShare_eq {x : XOutL} {rec : RecL} {l : List (Nat × Nat)} (hs : rec.size = l.length)
    (hc : ∀ i (hi : i < l.length), x.mem (rec.points + i) = some l[i]) (hm : ((rec.points + rec.size : Nat) : Int) ≤ x.msize) :
    readShare x rec = some l := by
  unfold readShare
  rw [mapM_some (g := fun i => l[i]?.getD (0, 0))]
  · congr 1
    refine List.ext_getElem (by simp [hs]) fun i h1 h2 => ?_
    simp [h2]
  · intro i hi
    have hi := List.mem_range.1 hi
    have hi' : i < l.length := by omega
    rw [if_pos (by push_cast at hm ⊢; omega), hc i hi']
    simp [hi']

theorem toI32_small {n : Nat} (h : n < 2 ^ 31) : Helper.toI32 ((n % 2 ^ 32 : Nat) : Int) = n := by
  unfold Helper.toI32
  omega

end Verif.Linear
