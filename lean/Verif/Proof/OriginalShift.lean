import Verif.Model.OriginalRecog

/-!
# The original detector does not look at the coordinates of its points
-/

namespace Verif.Original

open Function (update)
open Verif.Recog
open Verif.Linear (Mask)

variable {u v : Int} {s : St}

/-- The point moved by `(u, v)`. -/
def Point.move (u v : Int) (p : Point) : Point := { p with x := p.x + u, y := p.y + v }

/-- All points moved by `(u, v)`. -/
def St.move (u v : Int) (s : St) : St := { s with pts := fun i => (s.pts i).move u v }

@[simp] theorem move_D (s : St) : (s.move u v).D = s.D := rfl
@[simp] theorem move_area (s : St) : (s.move u v).area = s.area := rfl
@[simp] theorem move_img (s : St) : (s.move u v).img = s.img := rfl
@[simp] theorem move_regs (s : St) : (s.move u v).regs = s.regs := rfl
@[simp] theorem move_nreg (s : St) : (s.move u v).nreg = s.nreg := rfl
@[simp] theorem move_cap (s : St) : (s.move u v).cap = s.cap := rfl
@[simp] theorem move_stack (s : St) : (s.move u v).stack = s.stack := rfl
@[simp] theorem move_reg (s : St) (i : Nat) : ((s.move u v).pts i).reg = (s.pts i).reg := rfl

/-- A rectangle moved by `(u, v)`; the empty one stays. -/
def moveRect (u v : Int) (b : Rectangle.Rect) : Rectangle.Rect :=
  if b.empty then b else ⟨b.left + u, b.top + v, b.width, b.height⟩

/-- A record moved by `(u, v)`. -/
def RecO.move (u v : Int) (r : RecO) : RecO :=
  { r with points := r.points.map fun p => (p.1 + u, p.2 + v), rect := moveRect u v r.rect }

theorem move_update (f : Nat → Point) (i : Nat) (p : Point) :
    (fun j => (update f i p j).move u v) = update (fun j => (f j).move u v) i (p.move u v) := by
  funext j
  by_cases h : j = i
  · subst h; simp
  · simp [h]

theorem append_move (cur o : Nat) (s : St) : append cur o (s.move u v) = (append cur o s).map (St.move u v) := by
  unfold append
  by_cases h : s.stack.length < s.area
  · rw [if_pos h, if_pos (show (s.move u v).stack.length < (s.move u v).area from h)]
    simp only [Option.map_some, St.move, Option.some.injEq, St.mk.injEq, true_and, and_true]
    funext j
    by_cases h' : j = o
    · subst h'
      by_cases h2 : j = (s.regs cur).tail
      · subst h2; simp [Point.move]
      · simp [h2, Point.move]
    · by_cases h2 : j = (s.regs cur).tail
      · subst h2; simp [h', Point.move]
      · simp [h', h2, Point.move]
  · rw [if_neg h, if_neg (show ¬ (s.move u v).stack.length < (s.move u v).area from h)]; rfl

theorem meet_move (cur q : Nat) (s : St) : meet cur q (s.move u v) = (meet cur q s).map (St.move u v) := by
  unfold meet
  simp only [move_nreg, move_regs]
  cases findRoot cur s.nreg (s.regs q).short s.regs with
  | none => rfl
  | some z =>
    obtain ⟨root, regs⟩ := z
    dsimp only
    by_cases h : root = cur
    · rw [if_neg (by simpa using h), if_neg (by simpa using h)]; rfl
    · rw [if_pos h, if_pos h]
      simp only [Option.map_some, St.move, move_update]
      rfl

theorem look_move (cur top : Nat) (s : St) (k : Nat) : look cur top (s.move u v) k = (look cur top s k).map (St.move u v) := by
  unfold look
  rw [move_D]
  cases s.D.nbr top k with
  | none => rfl
  | some o =>
    dsimp only
    by_cases h : s.img o < 0
    · rw [if_pos h, if_pos (show (s.move u v).img o < 0 from h)]; rfl
    · rw [if_neg h, if_neg (show ¬ (s.move u v).img o < 0 from h)]
      by_cases h2 : s.img o ≤ s.img top
      · rw [if_pos h2, if_pos (show (s.move u v).img o ≤ (s.move u v).img top from h2), move_reg]
        cases (s.pts o).reg with
        | none => exact append_move _ _ _
        | some q => exact meet_move _ _ _
      · rw [if_neg h2, if_neg (show ¬ (s.move u v).img o ≤ (s.move u v).img top from h2)]; rfl

theorem foldlM_move {α : Type} {f : St → α → Option St} (hf : ∀ s a, f (s.move u v) a = (f s a).map (St.move u v))
    (l : List α) (s : St) : l.foldlM f (s.move u v) = (l.foldlM f s).map (St.move u v) := by
  induction l generalizing s with
  | nil => rfl
  | cons a l ih =>
    rw [List.foldlM_cons, List.foldlM_cons, hf]
    cases h : f s a with
    | none => rfl
    | some t => exact ih t

theorem grow_move (cur : Nat) (n : Nat) (s : St) : grow cur n (s.move u v) = (grow cur n s).map (St.move u v) := by
  induction n generalizing s with
  | zero =>
    unfold grow
    rw [move_stack]
    cases s.stack <;> rfl
  | succ n ih =>
    unfold grow
    rw [move_stack]
    cases s.stack with
    | nil => rfl
    | cons top rest =>
      dsimp only
      have : (List.range (s.move u v).D.dirs.length).foldlM (look cur top) { s.move u v with stack := rest } = _ :=
        foldlM_move (u := u) (v := v) (look_move cur top) (List.range s.D.dirs.length) { s with stack := rest }
      rw [this]
      cases (List.range s.D.dirs.length).foldlM (look cur top) { s with stack := rest } with
      | none => rfl
      | some t => exact ih t

theorem seed_move (s : St) (i : Nat) : seed (s.move u v) i = (seed s i).map (St.move u v) := by
  unfold seed
  simp only [move_reg]
  cases (s.pts i).reg with
  | some _ => rfl
  | none =>
    dsimp only
    by_cases h : s.nreg < s.cap ∧ s.stack.length < s.area ∧ 0 ≤ s.img i
    · rw [if_pos h, if_pos (show (s.move u v).nreg < (s.move u v).cap ∧ (s.move u v).stack.length < (s.move u v).area ∧ 0 ≤ (s.move u v).img i from h),
        ← grow_move]
      simp only [St.move, move_update]
      rfl
    · rw [if_neg h, if_neg (show ¬ ((s.move u v).nreg < (s.move u v).cap ∧ (s.move u v).stack.length < (s.move u v).area ∧ 0 ≤ (s.move u v).img i) from h)]
      rfl

theorem extractPass_move (b : Bool) (s : St) : extractPass b (s.move u v) = (extractPass b s).map (St.move u v) :=
  foldlM_move seed_move _ s

theorem buildTree_move (fm : Bool) (gm : Nat) (s : St) : buildTree fm gm (s.move u v) = (buildTree fm gm s).map (St.move u v) := by
  unfold buildTree
  by_cases h : gm = 0
  · rw [if_pos h, if_pos h]; exact extractPass_move _ _
  · rw [if_neg h, if_neg h, ← extractPass_move]
    cases fm <;> rfl

theorem recognize_move (cfg : Cfg) (s : St) : recognize cfg (s.move u v) = (recognize cfg s).map fun o => (o.1.move u v, o.2) := by
  unfold recognize
  by_cases h : ∀ r < s.nreg, ∀ p, (s.regs r).parent = some p → p < s.nreg
  · rw [if_pos h, if_pos (show ∀ r < (s.move u v).nreg, ∀ p, ((s.move u v).regs r).parent = some p → p < (s.move u v).nreg from h)]
    simp only [move_regs, move_nreg]
    cases recognizeO cfg (fun r => (s.regs r).merged) s.nreg ⟨toR s.nreg s.regs, fun r => (s.regs r).short, 0⟩ <;> rfl
  · rw [if_neg h, if_neg (show ¬ ∀ r < (s.move u v).nreg, ∀ p, ((s.move u v).regs r).parent = some p → p < (s.move u v).nreg from h)]
    rfl

/-- What the bounding rectangle is while points are appended. -/
def Grown (b : Rectangle.Rect) : Prop := b = ⟨0, 0, 0, 0⟩ ∨ 1 ≤ b.width ∧ 1 ≤ b.height

theorem Grown.step {b : Rectangle.Rect} (h : Grown b) (x y : Int) : Grown (b.appendPoint (x, y)) ∧
    (moveRect u v b).appendPoint (x + u, y + v) = moveRect u v (b.appendPoint (x, y)) := by
  rcases h with rfl | ⟨h1, h2⟩
  · refine ⟨.inr ⟨le_refl _, le_refl _⟩, ?_⟩
    rfl
  · have he : b.empty = false := by
      unfold Rectangle.Rect.empty
      rw [Bool.and_eq_false_iff]
      exact .inl (decide_eq_false (by omega))
    have hm : moveRect u v b = ⟨b.left + u, b.top + v, b.width, b.height⟩ := by unfold moveRect; rw [he]; rfl
    have he' : (⟨b.left + u, b.top + v, b.width, b.height⟩ : Rectangle.Rect).empty = false := he
    have hg : 1 ≤ (b.appendPoint (x, y)).width ∧ 1 ≤ (b.appendPoint (x, y)).height := by
      unfold Rectangle.Rect.appendPoint
      rw [he]
      simp only [Rectangle.Rect.right, Rectangle.Rect.bottom, Bool.false_eq_true, if_false]
      constructor
      · split_ifs <;> omega
      · split_ifs <;> omega
    refine ⟨.inr hg, ?_⟩
    have hne : (b.appendPoint (x, y)).empty = false := by
      unfold Rectangle.Rect.empty
      rw [Bool.and_eq_false_iff]
      exact .inl (decide_eq_false (by omega))
    rw [hm]
    unfold moveRect
    rw [hne]
    unfold Rectangle.Rect.appendPoint
    rw [he, he']
    simp only [Rectangle.Rect.right, Rectangle.Rect.bottom, Bool.false_eq_true, if_false, Rectangle.Rect.mk.injEq]
    refine ⟨?_, ?_, ?_, ?_⟩ <;> split_ifs <;> omega

theorem copyPts_move (pts : Nat → Point) (cells : Nat) (k : Nat) (o : Option Nat) (b : Rectangle.Rect) (hb : Grown b) :
    copyPts (fun i => (pts i).move u v) cells k o (moveRect u v b) =
      (copyPts pts cells k o b).map fun z => (z.1.map fun p => (p.1 + u, p.2 + v), moveRect u v z.2) := by
  induction k generalizing o b with
  | zero => rfl
  | succ k ih =>
    cases o with
    | none => rfl
    | some c =>
      unfold copyPts
      by_cases h : c < cells
      · rw [if_pos h, if_pos h]
        obtain ⟨h1, h2⟩ := hb.step (u := u) (v := v) (pts c).x (pts c).y
        have e : (moveRect u v b).appendPoint (((pts c).move u v).x, ((pts c).move u v).y) = _ := h2
        rw [e]
        have := ih (pts c).next _ h1
        rw [show ((pts c).move u v).next = (pts c).next from rfl, this]
        cases copyPts pts cells k (pts c).next (b.appendPoint ((pts c).x, (pts c).y)) <;> rfl
      · rw [if_neg h, if_neg h]; rfl

theorem recO_move (gm : Nat) (s : St) (r : Nat) : recO gm (s.move u v) r = (recO gm s r).map (RecO.move u v) := by
  unfold recO
  have := copyPts_move (u := u) (v := v) s.pts s.D.cells (s.regs r).size (some (s.regs r).head) ⟨0, 0, 0, 0⟩ (.inl rfl)
  rw [show moveRect u v ⟨0, 0, 0, 0⟩ = ⟨0, 0, 0, 0⟩ from rfl] at this
  simp only [move_regs, move_D]
  rw [show (s.move u v).pts = fun i => (s.pts i).move u v from rfl, this]
  cases copyPts s.pts s.D.cells (s.regs r).size (some (s.regs r).head) ⟨0, 0, 0, 0⟩ <;> rfl

theorem mapM_move {α : Type} {f g : α → Option RecO} (h : ∀ a, g a = (f a).map (RecO.move u v)) (l : List α) :
    l.mapM g = (l.mapM f).map fun x => x.map (RecO.move u v) := by
  induction l with
  | nil => rfl
  | cons a l ih =>
    rw [List.mapM_cons, List.mapM_cons, h, ih]
    cases f a with
    | none => rfl
    | some x => cases l.mapM f <;> rfl

theorem extractO_move (gm : Nat) (s : St) (k : Nat) : extractO gm (s.move u v) k = (extractO gm s k).map fun l => l.map (RecO.move u v) := by
  unfold extractO
  have : ((List.range (s.move u v).nreg).filter fun r => ((s.move u v).regs r).flag = .valid).mapM (recO gm (s.move u v)) = _ :=
    mapM_move (recO_move (u := u) (v := v) gm s) ((List.range s.nreg).filter fun r => (s.regs r).flag = .valid)
  rw [this]
  cases ((List.range s.nreg).filter fun r => (s.regs r).flag = .valid).mapM (recO gm s) with
  | none => rfl
  | some l =>
    simp only [Option.map_some, List.length_map]
    by_cases h : k ≤ s.nreg ∧ l.length ≤ s.nreg - k
    · rw [if_pos h, if_pos (show k ≤ (s.move u v).nreg ∧ l.length ≤ (s.move u v).nreg - k from h)]
      simp only [Option.map_some, List.map_append, List.map_replicate]
      rfl
    · rw [if_neg h, if_neg (show ¬ (k ≤ (s.move u v).nreg ∧ l.length ≤ (s.move u v).nreg - k) from h)]; rfl

theorem channel_move (cfg : Cfg) (fm : Bool) (gm : Nat) (s : St) :
    channel cfg fm gm (s.move u v) = (channel cfg fm gm s).map fun o => (o.1.move u v, o.2.map (RecO.move u v)) := by
  unfold channel
  rw [buildTree_move]
  cases buildTree fm gm s with
  | none => rfl
  | some t =>
    simp only [Option.map_some]
    rw [recognize_move]
    cases recognize cfg t with
    | none => rfl
    | some z =>
      obtain ⟨t, k⟩ := z
      simp only [Option.map_some]
      rw [extractO_move]
      cases extractO gm t k <;> rfl

/-- Two allocations that differ only in the coordinates of the points. -/
theorem extract_move {cfg : Cfg} {fm fb : Bool} {d : Det} {W H W' H' : Nat} {eight : Bool} {mask mask' : Mask}
    {src src' : Nat → Nat → Nat}
    (h : allocate d W H eight mask src = (allocate d W' H' eight mask' src').map (St.move u v)) :
    extract cfg fm fb d W H eight mask src =
      (extract cfg fm fb d W' H' eight mask' src').map fun o => (o.1, o.2.1.map (RecO.move u v), o.2.2.map (RecO.move u v)) := by
  unfold extract
  rw [h]
  cases allocate d W' H' eight mask' src' with
  | none => rfl
  | some s =>
    simp only [Option.map_some]
    have h1 : (if fm then channel cfg fm 0 (s.move u v) else some (s.move u v, [])) =
        (if fm then channel cfg fm 0 s else some (s, [])).map fun o => (o.1.move u v, o.2.map (RecO.move u v)) := by
      cases fm
      · rfl
      · exact channel_move _ _ _ _
    rw [h1]
    cases (if fm then channel cfg fm 0 s else some (s, [])) with
    | none => rfl
    | some z =>
      obtain ⟨s, dark⟩ := z
      simp only [Option.map_some]
      have h2 : (if fb then channel cfg fm 255 (s.move u v) else some (s.move u v, [])) =
          (if fb then channel cfg fm 255 s else some (s, [])).map fun o => (o.1.move u v, o.2.map (RecO.move u v)) := by
        cases fb
        · rfl
        · exact channel_move _ _ _ _
      rw [h2]
      cases (if fb then channel cfg fm 255 s else some (s, [])) with
      | none => rfl
      | some z => obtain ⟨s, bright⟩ := z; rfl

/-- A mask rectangle is an image of its own. -/
theorem allocate_crop (d : Det) {W H l t w h : Nat} (hl : l + w ≤ W) (ht : t + h ≤ H) (eight : Bool) (src : Nat → Nat → Nat) :
    allocate d W H eight (.rect l t w h) src =
      (allocate d w h eight .null fun x y => src (l + x) (t + y)).map (St.move l t) := by
  have himg : tempImage ⟨l, t, w, h⟩ (keep (.rect l t w h) src) src =
      tempImage ⟨0, 0, w, h⟩ (keep .null fun x y => src (l + x) (t + y)) fun x y => src (l + x) (t + y) := by
    funext i
    unfold tempImage
    dsimp only
    by_cases hb : 1 ≤ i / (w + 2) ∧ i / (w + 2) ≤ h ∧ 1 ≤ i % (w + 2) ∧ i % (w + 2) ≤ w
    · rw [if_pos hb, if_pos hb, show l + (0 + i % (w + 2) - 1) = l + i % (w + 2) - 1 by omega,
        show t + (0 + i / (w + 2) - 1) = t + i / (w + 2) - 1 by omega]
      rfl
    · rw [if_neg hb, if_neg hb]
  have ha : active W H (.rect l t w h) src = some ⟨l, t, w, h⟩ := if_pos ⟨hl, ht⟩
  have ha' : active w h .null (fun x y => src (l + x) (t + y)) = some ⟨0, 0, w, h⟩ := rfl
  unfold allocate
  rw [ha, ha']
  dsimp only
  rw [himg]
  generalize tempImage ⟨0, 0, w, h⟩ (keep .null fun x y => src (l + x) (t + y)) (fun x y => src (l + x) (t + y)) = img
  rw [show sortPts ⟨l, t, w, h⟩ img (areaOf ⟨l, t, w, h⟩ img) = sortPts ⟨0, 0, w, h⟩ img (areaOf ⟨0, 0, w, h⟩ img) from rfl]
  cases sortPts ⟨0, 0, w, h⟩ img (areaOf ⟨0, 0, w, h⟩ img) with
  | none => rfl
  | some order =>
    simp only [Option.map_some, St.move]
    congr 2
    funext i
    unfold freshPts Point.move
    simp only [Point.mk.injEq, true_and]
    omega

end Verif.Original
