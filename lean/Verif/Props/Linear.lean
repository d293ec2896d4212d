import Verif.Proof.LinearFlood

/-!
# Properties C71, C72, C73: flooding of the linear detector

The image is `src x y`, of size `D.w × D.h`; `D.eight` is 8-neighbour mode; `gm` is the gray mask (0: dark regions
first, 255: bright ones).  `b` is what the detector finds in its buffers.
-/

namespace Verif.Props

open Verif.Spec
open Verif.Linear (Dim Mask Buf cellVal patchL geoL)

/-- The regions of the linear detector as a labelled tree.  The detector stores neither the region of a pixel
(`lab`) nor a level above 255 (`g` is the level). -/
def treeOfL (s : Linear.St) (g : Nat → Nat) (lab : Nat × Nat → Nat) : RegionTree (Nat × Nat) Nat where
  isReg := fun r => r < s.nreg
  lab := lab
  gray := g
  parent := fun r => (s.regs r).parent
  size := fun r => (s.regs r).size

/-- The position of a point. -/
def posL (s : Linear.St) (p : Nat) : Nat × Nat := ((s.pts p).x, (s.pts p).y)

/-- All that is known when flooding has ended; `val` are the levels of the pixels. -/
structure FloodedL (D : Dim) (val : Nat → Nat → Nat) (s : Linear.St) (g : Nat → Nat) (lab : Nat × Nat → Nat)
    (L : Nat → List Nat) : Prop where
  tree : IsComponentTree (if D.eight then Adj8 D.w D.h else Adj4 D.w D.h) (fun p => val p.1 p.2) (pixels D.w D.h)
    (treeOfL s g lab)
  gray : ∀ r < s.nreg, (s.regs r).gray = g r % 256
  run : ∀ r < s.nreg, IsRun (fun p => (s.pts p).next) (fun p => (s.pts p).prev) (L r) (some (s.regs r).head)
    (some (s.regs r).tail)
  size : ∀ r < s.nreg, (s.regs r).size = (L r).length
  range : ∀ r < s.nreg, ∀ p ∈ L r, p < D.area
  nodup : ∀ r < s.nreg, ((L r).map (posL s)).Nodup
  mem : ∀ r < s.nreg, ∀ q, q ∈ (L r).map (posL s) ↔ q ∈ pixels D.w D.h ∧ (treeOfL s g lab).Under r q
  sub : ∀ r < s.nreg, ∀ r', (s.regs r).parent = some r' → L r <:+: L r'
  npts : s.npts = D.area
  nreg_le : s.nreg ≤ D.area
  top : s.top 0 = 0

/-- The image is not empty and its levels are at most 256. -/
structure LevelsOK (D : Dim) (val : Nat → Nat → Nat) : Prop where
  w_pos : 1 ≤ D.w
  h_pos : 1 ≤ D.h
  val_lt : ∀ x y, x < D.w → y < D.h → val x y < 257

variable {D : Dim} {val : Nat → Nat → Nat} {b : Buf} {s : Linear.St}

theorem okL (hI : LevelsOK D val) : (patchL D val).OK :=
  V1.patchCap_ok hI.w_pos hI.h_pos (by simpa using hI.val_lt)

theorem floodL_steps : (patchL D val).nd + 1 = if D.eight then 9 else 5 := by
  show Linear.nds D.eight + 1 = _
  unfold Linear.nds; split <;> rfl

theorem floodL_values (hI : LevelsOK D val) : ((patchL D val).px.image (patchL D val).gray).card ≤ 257 := by
  have h1 : (patchL D val).px.image (patchL D val).gray ⊆ Finset.range 257 := by
    intro v hv
    obtain ⟨i, hi, rfl⟩ := Finset.mem_image.1 hv
    exact Finset.mem_range.2 ((okL hI).gray_lt i hi)
  simpa using Finset.card_le_card h1

/-- The outcome of flooding. -/
def floodL (D : Dim) (val : Nat → Nat → Nat) (n : Nat) (b : Buf) : Linear.Out :=
  Linear.run D n (Linear.init D (Linear.preProcess D val b))

/-- The points the reference run of V1 begins with. -/
def noPts : Nat → V1.Point := fun _ => { x := 0, y := 0, next := none, prev := none, ref := none }

/-- The linear detector against one fixed run of V1. -/
theorem floodL_ends (hI : LevelsOK D val) : ∃ v s1 c1 c pix L,
    V1.run (patchL D val) (geoL D) ((if D.eight then 9 else 5) * D.area) (V1.init (patchL D val) 0 noPts (fun _ _ => none))
      = .done v ∧
    Flood.Final (patchL D val) s1 c1 ∧ V1.Done (patchL D val) (geoL D) 0 noPts v s1 c pix L ∧
    ∀ b : Buf, b.top 0 = 0 → ∃ s, floodL D val ((if D.eight then 9 else 5) * D.area) b = .done s ∧
      Linear.Rel D val v s ∧ ∀ k ≤ 256, s.top k = FloodMem.offset (FloodMem.histOf (patchL D val)) k := by
  have hP := okL hI
  have h1 := Flood.run_inv hP ((if D.eight then 9 else 5) * D.area) (Flood.inv_init hP)
  have h2 := fun (b : Buf) (h0 : b.top 0 = 0) => Linear.run_sim hP ((if D.eight then 9 else 5) * D.area) (Flood.inv_init hP)
    (V1.sim_init hP 0 noPts (fun _ _ => none)) (Linear.init_sim (b := b) hP h0 noPts (fun _ _ => none))
  revert h1 h2
  cases Flood.run (patchL D val) ((if D.eight then 9 else 5) * D.area) (Flood.init (patchL D val)) with
  | next s' =>
    simp only
    rintro ⟨cs, F, h1, h2⟩
    have := h1.work_lt
    rw [h2, Flood.work_init, Linear.patchL_card, floodL_steps] at this
    omega
  | done s' =>
    intro h1 h2
    obtain ⟨v, l, k1, k2, k3, k4, ⟨c1, k5⟩, c, pix, L, k6⟩ :=
      h2 ⟨fun _ => 0, fun _ => none, fun _ => 0, fun _ => ⟨0, none, 0, 0, 0⟩, fun _ => ⟨0, 0, none, none⟩⟩ rfl
    refine ⟨v, s', c1, c, pix, L, k1, k5, k6, fun b h0 => ?_⟩
    obtain ⟨v', l', j1, j2, j3, j4, -⟩ := h2 b h0
    rw [k1] at j1
    obtain rfl : v = v' := by simpa using j1
    exact ⟨l', j2, j3, j4⟩
  | ub =>
    intro h1 _
    simp only at h1
    have := floodL_values hI
    have h3 : (patchL D val).cap = 258 := rfl
    omega

theorem floodL_next (hI : LevelsOK D val) (h0 : b.top 0 = 0) {n : Nat} (hn : n < (if D.eight then 9 else 5) * D.area) :
    ∃ s, floodL D val n b = .next s := by
  have hP := okL hI
  have h1 := Flood.run_inv hP n (Flood.inv_init hP)
  have h2 := Linear.run_sim hP n (Flood.inv_init hP)
    (V1.sim_init hP 0 noPts (fun _ _ => none)) (Linear.init_sim (b := b) hP h0 noPts (fun _ _ => none))
  revert h1 h2
  cases Flood.run (patchL D val) n (Flood.init (patchL D val)) with
  | next s' => exact fun _ h2 => h2
  | done s' =>
    rintro ⟨-, h1⟩ _
    rw [Flood.work_init, Linear.patchL_card, floodL_steps] at h1
    omega
  | ub =>
    intro h1 _
    simp only at h1
    have := floodL_values hI
    have h3 : (patchL D val).cap = 258 := rfl
    omega

theorem linked_congr {n p n' p' : Nat → Option Nat} : ∀ {l : List Nat}, (∀ a ∈ l, n' a = n a ∧ p' a = p a) →
    Linked n p l → Linked n' p' l := by
  intro l h hl
  unfold Linked at *
  induction l with
  | nil => simp
  | cons a l ih =>
    cases l with
    | nil => simp
    | cons b l =>
      rw [List.isChain_cons_cons] at hl ⊢
      refine ⟨?_, ih (fun x hx => h x (by simp [hx])) hl.2⟩
      rw [(h a (by simp)).1, (h b (by simp)).2]
      exact hl.1

/-- What the relation to V1 gives. -/
theorem flooded_of_rel (hI : LevelsOK D val) {v : V1.St} {s1 : Flood.St} {c1 : Flood.Comp} {c : V1.Comp} {pix : Nat → Nat}
    {L : Nat → List Nat} (hF : Flood.Final (patchL D val) s1 c1) (hD : V1.Done (patchL D val) (geoL D) 0 noPts v s1 c pix L)
    (hR : Linear.Rel D val v s) (ht : ∀ k ≤ 256, s.top k = FloodMem.offset (FloodMem.histOf (patchL D val)) k) :
    FloodedL D val s (fun r => (v.regs r).gray) (fun p => s1.lab (Flood.idx D.w p.1 p.2)) L := by
  have hV := flooded_done (eight := D.eight) (img := val) (gm := 0) (joined := fun _ => false) hI.w_pos hI.h_pos hF hD
  have hhead : ∀ r < v.nreg, (v.regs r).head = some (s.regs r).head := by
    intro r hr
    have h1 := (hV.run r hr)
    have h2 := h1.head
    cases hh : (v.regs r).head with
    | none => rw [hh, List.head?_eq_none_iff] at h2; exact absurd h2 h1.ne
    | some a => rw [((hR.regs r hr).head a hh).1]
  have htail : ∀ r < v.nreg, (v.regs r).tail = some (s.regs r).tail := by
    intro r hr
    have h1 := (hV.run r hr)
    have h2 := h1.last
    cases hh : (v.regs r).tail with
    | none => rw [hh, List.getLast?_eq_none_iff] at h2; exact absurd h2 h1.ne
    | some a => rw [(hR.regs r hr).tail a hh]
  have hsize : ∀ r < v.nreg, (s.regs r).size = (v.regs r).size := fun r hr =>
    ((hR.regs r hr).head _ (hhead r hr)).2
  have hnp : v.npts = D.area := by have := hV.npts; simpa [Dim.area] using this
  have hpts : ∀ a < D.area, s.pts a = Linear.projP (v.pts a) := fun a ha => hR.pts a (by omega)
  have hrange : ∀ r < v.nreg, ∀ p ∈ L r, p < D.area := fun r hr p hp => by
    have := (hV.range r hr p hp).2; simpa [Dim.area] using this
  have hpos : ∀ r < v.nreg, (L r).map (posL s) = (L r).map (posOf v) := by
    intro r hr
    refine List.map_congr_left fun a ha => ?_
    simp only [posL, posOf, hpts a (hrange r hr a ha)]; rfl
  have hpar : ∀ r < v.nreg, (s.regs r).parent = (v.regs r).parent := fun r hr => (hR.regs r hr).parent
  have hn : s.nreg = v.nreg := hR.nreg
  have hxor : (fun p : Nat × Nat => val p.1 p.2 ^^^ 0) = fun p => val p.1 p.2 := by funext p; simp
  have htv := hV.tree
  rw [hxor] at htv
  have hunder : ∀ r, ∀ q ∈ pixels D.w D.h,
      ((treeOfL s (fun r => (v.regs r).gray) fun p => s1.lab (Flood.idx D.w p.1 p.2)).Under r q ↔
      (treeOfV1 v fun p => s1.lab (Flood.idx D.w p.1 p.2)).Under r q) := by
    intro r q hq
    have hl : s1.lab (Flood.idx D.w q.1 q.2) < v.nreg := htv.lab_reg q hq
    constructor
    · intro h
      have : ∀ {a}, Relation.ReflTransGen (fun x y => (s.regs x).parent = some y) (s1.lab (Flood.idx D.w q.1 q.2)) a →
          a < v.nreg ∧ Relation.ReflTransGen (fun x y => (v.regs x).parent = some y) (s1.lab (Flood.idx D.w q.1 q.2)) a := by
        intro a h
        induction h with
        | refl => exact ⟨hl, .refl⟩
        | tail _ h2 ih =>
          rw [hpar _ ih.1] at h2
          exact ⟨(htv.parent_reg _ ih.1 _ h2).1, ih.2.tail h2⟩
      exact (this h).2
    · intro h
      have : ∀ {a}, Relation.ReflTransGen (fun x y => (v.regs x).parent = some y) (s1.lab (Flood.idx D.w q.1 q.2)) a →
          a < v.nreg ∧ Relation.ReflTransGen (fun x y => (s.regs x).parent = some y) (s1.lab (Flood.idx D.w q.1 q.2)) a := by
        intro a h
        induction h with
        | refl => exact ⟨hl, .refl⟩
        | tail _ h2 ih =>
          exact ⟨(htv.parent_reg _ ih.1 _ h2).1, ih.2.tail (by rw [hpar _ ih.1]; exact h2)⟩
      exact (this h).2
  constructor
  · refine ⟨?_, htv.lab_gray, ?_, ?_, ?_, ?_⟩
    · intro p hp; show _ < s.nreg; rw [hn]; exact htv.lab_reg p hp
    · intro r hr; exact htv.reg_lab r (show r < v.nreg by rw [← hn]; exact hr)
    · intro r hr r' hp
      have hr : r < v.nreg := by rw [← hn]; exact hr
      have hp : (s.regs r).parent = some r' := hp
      rw [hpar r hr] at hp
      have := htv.parent_reg r hr r' hp
      exact ⟨by show _ < s.nreg; rw [hn]; exact this.1, this.2⟩
    · intro r hr p hp hu q hq
      rw [hunder r q hq]
      exact htv.comp r (show r < v.nreg by rw [← hn]; exact hr) p hp ((hunder r p hp).1 hu) q hq
    · intro r hr t ht
      have hr : r < v.nreg := by rw [← hn]; exact hr
      show (s.regs r).size = _
      rw [hsize r hr]
      refine htv.size_eq r hr t fun p => ?_
      rw [ht p]
      exact and_congr_right fun hp => hunder r p hp
  · intro r hr; exact (hR.regs r (by omega)).gray
  · intro r hr
    have hr : r < v.nreg := by omega
    have h1 := hV.run r hr
    rw [hhead r hr, htail r hr] at h1
    refine ⟨h1.ne, h1.head, h1.last, ?_⟩
    refine linked_congr (fun a ha => ?_) h1.linked
    rw [hpts a (hrange r hr a ha)]
    exact ⟨rfl, rfl⟩
  · intro r hr; rw [hsize r (by omega)]; exact (hV.size r (by omega)).1
  · intro r hr; exact hrange r (by omega)
  · intro r hr; rw [hpos r (by omega)]; exact hV.nodup r (by omega)
  · intro r hr q
    rw [hpos r (by omega), hV.mem r (by omega) q]
    constructor
    · rintro ⟨p, hp, hu, rfl⟩; exact ⟨hp, (hunder r p hp).2 hu⟩
    · rintro ⟨hq, hu⟩; exact ⟨q, hq, (hunder r q hq).1 hu, rfl⟩
  · intro r hr r' hp; exact hV.sub r (by omega) r' (by rw [← hpar r (by omega)]; exact hp)
  · rw [hR.npts, hnp]
  · have h1 : Finset.range v.nreg ⊆ (pixels D.w D.h).image (fun p => s1.lab (Flood.idx D.w p.1 p.2)) := by
      intro r hr
      obtain ⟨p, hp, e⟩ := htv.reg_lab r (Finset.mem_range.1 hr)
      exact Finset.mem_image.2 ⟨p, hp, e⟩
    have h2 := (Finset.card_le_card h1).trans Finset.card_image_le
    rw [hn]
    simpa [pixels, Dim.area] using h2
  · rw [ht 0 (by omega)]; rfl

/-- The levels of the regions may be replaced. -/
theorem _root_.Verif.Spec.IsComponentTree.gray_congr {adj : Nat × Nat → Nat × Nat → Prop} {f : Nat × Nat → Nat}
    {px : Finset (Nat × Nat)} {g g' : Nat → Nat} {lab : Nat × Nat → Nat}
    (h : IsComponentTree adj f px (treeOfL s g lab)) (hg : ∀ r < s.nreg, g r = g' r) :
    IsComponentTree adj f px (treeOfL s g' lab) := by
  refine ⟨h.lab_reg, ?_, h.reg_lab, ?_, ?_, h.size_eq⟩
  · intro p hp; exact (hg _ (h.lab_reg p hp)).symm.trans (h.lab_gray p hp)
  · intro r hr r' hp
    obtain ⟨h1, h2⟩ := h.parent_reg r hr r' hp
    have h2 : g r < g r' := h2
    rw [hg r hr, hg r' h1] at h2
    exact ⟨h1, h2⟩
  · intro r hr p hp hu q hq
    have := h.comp r hr p hp hu q hq
    have e : (treeOfL s g lab).gray r = (treeOfL s g' lab).gray r := hg r hr
    rw [e] at this
    exact this

/-! ### C71 -/

/-- The image is not empty and its pixels are bytes. -/
structure BytesOK (D : Dim) (src : Nat → Nat → Nat) : Prop where
  w_pos : 1 ≤ D.w
  h_pos : 1 ≤ D.h
  src_lt : ∀ x y, x < D.w → y < D.h → src x y < 256

variable {src : Nat → Nat → Nat} {mask : Mask} {gm : Nat}

theorem BytesOK.levels (h : BytesOK D src) (mask : Mask) (gm : Nat) : LevelsOK D (cellVal mask gm src) := by
  refine ⟨h.w_pos, h.h_pos, fun x y hx hy => ?_⟩
  have := h.src_lt x y hx hy
  unfold cellVal
  split <;> split <;> [omega; omega; omega; omega; split; split; omega; split] <;> omega

/-- Flooding for any mask. -/
theorem floodedL (hI : BytesOK D src) (h0 : b.top 0 = 0) :
    ∃ s g lab L, Linear.buildTree D mask gm src b = .done s ∧ FloodedL D (cellVal mask gm src) s g lab L := by
  obtain ⟨v, s1, c1, c, pix, L, -, h2, h3, h4⟩ := floodL_ends (hI.levels mask gm)
  obtain ⟨s, h5, h6, h7⟩ := h4 b h0
  exact ⟨s, _, _, L, h5, flooded_of_rel (hI.levels mask gm) h2 h3 h6 h7⟩

/-- **C71** Without a mask `build_tree` ends, with exactly 5·w·h elementary steps in 4-neighbour mode and 9·w·h in
8-neighbour mode, and never leaves its arrays.  The regions are the component tree of the image (dark pass) or of
the inverted image (bright pass), for the chosen neighbourhood; the gray level stored with a region is its level.
The stored list of a region runs from `m_head` to `m_tail`, has `m_size` different points, and they are exactly the
pixels of the region. -/
theorem C71_linear_flood (hI : BytesOK D src) (h0 : b.top 0 = 0) (bright : Bool) :
    ∃ s lab, Linear.buildTree D .null (if bright then 255 else 0) src b = .done s ∧
      IsComponentTree (if D.eight then Adj8 D.w D.h else Adj4 D.w D.h)
        (fun p => if bright then 255 - src p.1 p.2 else src p.1 p.2) (pixels D.w D.h)
        (treeOfL s (fun r => (s.regs r).gray) lab) ∧
      ∀ r < s.nreg, ∃ l,
        IsRun (fun p => (s.pts p).next) (fun p => (s.pts p).prev) l (some (s.regs r).head) (some (s.regs r).tail) ∧
        walk (fun p => (s.pts p).next) (s.regs r).size (some (s.regs r).head) = some l ∧
        (l.map (posL s)).Nodup ∧
        ∀ q, q ∈ l.map (posL s) ↔
          q ∈ pixels D.w D.h ∧ (treeOfL s (fun r => (s.regs r).gray) lab).Under r q := by
  obtain ⟨s, g, lab, L, h1, hF⟩ := floodedL (mask := .null) (gm := if bright then 255 else 0) hI h0
  have hv : (fun p : Nat × Nat => cellVal .null (if bright then 255 else 0) src p.1 p.2)
      = fun p => if bright then 255 - src p.1 p.2 else src p.1 p.2 := by
    funext p; cases bright <;> simp [cellVal]
  have hT := hF.tree
  rw [hv] at hT
  have hg : ∀ r < s.nreg, g r = (s.regs r).gray := by
    intro r hr
    obtain ⟨p, hp, e⟩ := hT.reg_lab r hr
    have h2 := hT.lab_gray p hp
    rw [e] at h2
    have h3 := hI.src_lt p.1 p.2 (mem_pixels.1 hp).1 (mem_pixels.1 hp).2
    have h4 : g r < 256 := by
      have : g r = _ := h2
      rw [this]; split <;> omega
    rw [hF.gray r hr, Nat.mod_eq_of_lt h4]
  refine ⟨s, lab, h1, hT.gray_congr hg, fun r hr => ⟨L r, hF.run r hr, ?_, hF.nodup r hr, hF.mem r hr⟩⟩
  rw [hF.size r hr]; exact walk_run (hF.run r hr)

/-- **C71** No earlier end: with fewer steps the loop is still running. -/
theorem C71_exact_step_count (hI : BytesOK D src) (h0 : b.top 0 = 0) :
    (∃ s, Linear.buildTree D mask gm src b = .done s) ∧
    ∀ n < (if D.eight then 9 else 5) * D.area,
      ∃ s, Linear.run D n (Linear.init D (Linear.preProcess D (cellVal mask gm src) b)) = .next s := by
  obtain ⟨s, g, lab, L, h1, -⟩ := floodedL (mask := mask) (gm := gm) hI h0
  exact ⟨⟨s, h1⟩, fun n hn => floodL_next (hI.levels mask gm) h0 hn⟩

/-- **C71** The list of a region is a contiguous piece of the list of its parent. -/
theorem C71_sublists (hI : BytesOK D src) (h0 : b.top 0 = 0) (hd : Linear.buildTree D mask gm src b = .done s)
    {r r' : Nat} (hr : r < s.nreg) (hp : (s.regs r).parent = some r') :
    ∃ l l', walk (fun p => (s.pts p).next) (s.regs r).size (some (s.regs r).head) = some l ∧
      walk (fun p => (s.pts p).next) (s.regs r').size (some (s.regs r').head) = some l' ∧ l <:+: l' ∧
      l.length < l'.length := by
  obtain ⟨s', g, lab, L, h1, hF⟩ := floodedL (mask := mask) (gm := gm) hI h0
  rw [hd] at h1
  obtain rfl : s = s' := by simpa using h1
  have hr' : r' < s.nreg := (hF.tree.parent_reg r hr r' hp).1
  refine ⟨L r, L r', ?_, ?_, hF.sub r hr r' hp, ?_⟩
  · rw [hF.size r hr]; exact walk_run (hF.run r hr)
  · rw [hF.size r' hr']; exact walk_run (hF.run r' hr')
  · rw [← hF.size r hr, ← hF.size r' hr']; exact hF.tree.size_lt hr hp

/-! ### C72 -/

/-- **C72** With a mask image the pixels whose mask byte is 0 have level 256, above all others. -/
theorem C72_mask_image_partial (hI : BytesOK D src) (h0 : b.top 0 = 0) (m : Nat → Nat → Nat) (bright : Bool) :
    ∃ s g lab, Linear.buildTree D (.image m) (if bright then 255 else 0) src b = .done s ∧
      IsComponentTree (if D.eight then Adj8 D.w D.h else Adj4 D.w D.h)
        (fun p => if m p.1 p.2 = 0 then 256 else if bright then 255 - src p.1 p.2 else src p.1 p.2) (pixels D.w D.h)
        (treeOfL s g lab) ∧
      ∀ r < s.nreg, (s.regs r).gray = g r % 256 := by
  obtain ⟨s, g, lab, L, h1, hF⟩ := floodedL (mask := .image m) (gm := if bright then 255 else 0) hI h0
  refine ⟨s, g, lab, h1, ?_, hF.gray⟩
  have hv : (fun p : Nat × Nat => cellVal (.image m) (if bright then 255 else 0) src p.1 p.2)
      = fun p => if m p.1 p.2 = 0 then 256 else if bright then 255 - src p.1 p.2 else src p.1 p.2 := by
    funext p; cases bright <;> simp [cellVal]
  have hT := hF.tree
  rw [hv] at hT
  exact hT

/-- **C72** With a mask value, in the bright pass, the pixels of that value have level 256. -/
theorem C72_mask_value_bright_partial (hI : BytesOK D src) (h0 : b.top 0 = 0) (v : Nat) :
    ∃ s g lab, Linear.buildTree D (.value v) 255 src b = .done s ∧
      IsComponentTree (if D.eight then Adj8 D.w D.h else Adj4 D.w D.h)
        (fun p => if src p.1 p.2 = v then 256 else 255 - src p.1 p.2) (pixels D.w D.h) (treeOfL s g lab) ∧
      ∀ r < s.nreg, (s.regs r).gray = g r % 256 := by
  obtain ⟨s, g, lab, L, h1, hF⟩ := floodedL (mask := .value v) (gm := 255) hI h0
  exact ⟨s, g, lab, h1, hF.tree, hF.gray⟩

/-- **C72** A mask rectangle has no effect at all … -/
theorem C72_rect_ignored (l t w h : Nat) :
    Linear.buildTree D (.rect l t w h) gm src b = Linear.buildTree D .null gm src b := rfl

/-- … and a mask value has none in the dark pass. -/
theorem C72_value_ignored_dark (v : Nat) :
    Linear.buildTree D (.value v) 0 src b = Linear.buildTree D .null 0 src b := by
  unfold Linear.buildTree
  congr 3

/-! ### C73 -/

/-- **C73** What flooding leaves in the regions and points does not depend on what the buffers held before, and
the buffers are ready for the next pass. -/
theorem C73_stale_buffers {b' : Buf} (hI : BytesOK D src) (h0 : b.top 0 = 0) (h0' : b'.top 0 = 0) :
    ∃ s s', Linear.buildTree D mask gm src b = .done s ∧ Linear.buildTree D mask gm src b' = .done s' ∧
      s.nreg = s'.nreg ∧ (∀ r < s.nreg, s.regs r = s'.regs r) ∧ (∀ a < D.area, s.pts a = s'.pts a) ∧
      s.top 0 = 0 := by
  obtain ⟨v, s1, c1, c, pix, L, -, h2, h3, h4⟩ := floodL_ends (hI.levels mask gm)
  obtain ⟨s, h5, h6, h7⟩ := h4 b h0
  obtain ⟨s', h5', h6', h7'⟩ := h4 b' h0'
  have hF := flooded_of_rel (hI.levels mask gm) h2 h3 h6 h7
  have hF' := flooded_of_rel (hI.levels mask gm) h2 h3 h6' h7'
  refine ⟨s, s', h5, h5', h6.nreg.trans h6'.nreg.symm, fun r hr => ?_, fun a ha => ?_, hF.top⟩
  · have hr' : r < s'.nreg := by rw [h6'.nreg, ← h6.nreg]; exact hr
    have hrv : r < v.nreg := by rw [← h6.nreg]; exact hr
    have e1 := (hF.run r hr).head.symm.trans (hF'.run r hr').head
    have e2 := (hF.run r hr).last.symm.trans (hF'.run r hr').last
    have e3 := (hF.size r hr).trans (hF'.size r hr').symm
    have e4 := (h6.regs r hrv).gray.trans (h6'.regs r hrv).gray.symm
    have e5 := (h6.regs r hrv).parent.trans (h6'.regs r hrv).parent.symm
    revert e1 e2 e3 e4 e5
    cases s.regs r; cases s'.regs r
    simp only [Option.some.injEq, Linear.Reg.mk.injEq]
    rintro rfl rfl rfl rfl rfl
    simp
  · have hnv : v.npts = D.area := by rw [← h6.npts]; exact hF.npts
    exact (h6.pts a (by omega)).trans (h6'.pts a (by omega)).symm

/-! ### A concrete case -/

/-- A 3×2 image and full buffers. -/
def dimS : Dim := { w := 3, h := 2, eight := false }

theorem bytesS : BytesOK dimS sampleImg :=
  ⟨by decide, by decide, fun x y _ _ => by unfold sampleImg; split <;> [skip; split] <;> decide⟩

/-- Buffers full of leftovers. -/
def bufS : Buf := ⟨fun _ => 0xffff, fun i => some i, fun i => i, fun _ => ⟨77, some 3, 9, 9, 9⟩, fun _ => ⟨5, 5, some 1, some 2⟩⟩

example : BytesOK dimS sampleImg ∧ bufS.top 0 = 0 := ⟨bytesS, rfl⟩
example : ∃ s, Linear.buildTree dimS (.image fun x _ => x) 0 sampleImg bufS = .done s :=
  (C71_exact_step_count bytesS rfl).1

end Verif.Props
