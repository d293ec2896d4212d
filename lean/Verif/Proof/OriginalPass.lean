import Verif.Proof.OriginalGrid

/-!
# Original detector: whole passes
-/

namespace Verif.Original

open Function (update)
open Verif.Spec
open Verif.Linear (Dim Mask)

/-! ### What a pass leaves alone -/

/-- What growing regions leaves alone. -/
structure Frame (s s' : St) : Prop where
  D : s'.D = s.D
  area : s'.area = s.area
  img : s'.img = s.img
  order : s'.order = s.order
  cap : s'.cap = s.cap
  pcap : s'.pcap = s.pcap
  xy : ∀ c, (s'.pts c).x = (s.pts c).x ∧ (s'.pts c).y = (s.pts c).y
  nreg : s.nreg ≤ s'.nreg
  old : ∀ r < s.nreg, (s'.regs r).flag = (s.regs r).flag ∧ (s'.regs r).var = (s.regs r).var ∧
    (s'.regs r).gray = (s.regs r).gray
  new : ∀ r < s'.nreg, s.nreg ≤ r → (s'.regs r).flag = .unknown ∧ (s'.regs r).var = -1

theorem Frame.rfl {s : St} : Frame s s := ⟨by rfl, by rfl, by rfl, by rfl, by rfl, by rfl, fun _ => ⟨by rfl, by rfl⟩, le_rfl, fun _ _ => ⟨by rfl, by rfl, by rfl⟩, fun r h h' => by omega⟩

theorem Frame.trans {a b c : St} (h : Frame a b) (h' : Frame b c) : Frame a c := by
  refine ⟨h'.D.trans h.D, h'.area.trans h.area, h'.img.trans h.img, h'.order.trans h.order, h'.cap.trans h.cap,
    h'.pcap.trans h.pcap, fun x => ⟨(h'.xy x).1.trans (h.xy x).1, (h'.xy x).2.trans (h.xy x).2⟩, h.nreg.trans h'.nreg, ?_, ?_⟩
  · intro r hr
    have h1 := h.old r hr
    have h2 := h'.old r (hr.trans_le h.nreg)
    exact ⟨h2.1.trans h1.1, h2.2.1.trans h1.2.1, h2.2.2.trans h1.2.2⟩
  · intro r hr hr'
    by_cases hb : r < b.nreg
    · have h1 := h.new r hb hr'
      have h2 := h'.old r hb
      exact ⟨h2.1.trans h1.1, h2.2.1.trans h1.2⟩
    · exact h'.new r hr (by omega)

theorem frame_foldlM {β : Type} {f : St → β → Option St} (hf : ∀ s b s', f s b = some s' → Frame s s') :
    ∀ (l : List β) {s s' : St}, l.foldlM f s = some s' → Frame s s' := by
  intro l
  induction l with
  | nil => intro s s' h; cases h; exact .rfl
  | cons b l ih =>
    intro s s' h
    rw [List.foldlM_cons] at h
    cases hb : f s b with
    | none => rw [hb] at h; cases h
    | some t => rw [hb] at h; exact (hf s b t hb).trans (ih h)

theorem findRoot_frame (cur : Nat) : ∀ (n o : Nat) (regs : Nat → Reg) {root : Nat} {regs' : Nat → Reg},
    findRoot cur n o regs = some (root, regs') → ∀ r, (regs' r).flag = (regs r).flag ∧ (regs' r).var = (regs r).var ∧
      (regs' r).gray = (regs r).gray := by
  intro n
  induction n with
  | zero =>
    intro o regs root regs' h r
    unfold findRoot at h
    split at h
    · cases h; exact ⟨rfl, rfl, rfl⟩
    · cases h
  | succ n ih =>
    intro o regs root regs' h r
    unfold findRoot at h
    split at h
    · cases h; exact ⟨rfl, rfl, rfl⟩
    · have h1 := ih _ _ h r
      by_cases e : r = o
      · subst e; rw [Function.update_self] at h1; exact h1
      · rw [Function.update_of_ne e] at h1; exact h1

theorem upd_frame {regs : Nat → Reg} {a : Nat} {x : Reg} (h1 : x.flag = (regs a).flag) (h2 : x.var = (regs a).var)
    (h3 : x.gray = (regs a).gray) (r : Nat) : (update regs a x r).flag = (regs r).flag ∧
      (update regs a x r).var = (regs r).var ∧ (update regs a x r).gray = (regs r).gray := by
  by_cases e : r = a
  · subst e; rw [Function.update_self]; exact ⟨h1, h2, h3⟩
  · rw [Function.update_of_ne e]; exact ⟨rfl, rfl, rfl⟩

theorem pts_frame {pts : Nat → Point} {a : Nat} {x : Point} (h1 : x.x = (pts a).x) (h2 : x.y = (pts a).y) (r : Nat) :
    (update pts a x r).x = (pts r).x ∧ (update pts a x r).y = (pts r).y := by
  by_cases e : r = a
  · subst e; rw [Function.update_self]; exact ⟨h1, h2⟩
  · rw [Function.update_of_ne e]; exact ⟨rfl, rfl⟩

theorem append_frame {cur o : Nat} {s s' : St} (h : append cur o s = some s') : Frame s s' := by
  unfold append at h
  split at h
  case isFalse => cases h
  case isTrue =>
    cases h
    refine ⟨rfl, rfl, rfl, rfl, rfl, rfl, ?_, le_rfl, ?_, fun r h h' => by change r < s.nreg at h; omega⟩
    · intro c
      dsimp only
      have h1 := pts_frame (pts := update s.pts (s.regs cur).tail { s.pts (s.regs cur).tail with next := some o }) (a := o)
        (x := { update s.pts (s.regs cur).tail { s.pts (s.regs cur).tail with next := some o } o with reg := some cur }) rfl rfl c
      have h2 := pts_frame (pts := s.pts) (a := (s.regs cur).tail)
        (x := { s.pts (s.regs cur).tail with next := some o }) rfl rfl c
      exact ⟨h1.1.trans h2.1, h1.2.trans h2.2⟩
    · intro r _; dsimp only; refine upd_frame ?_ ?_ ?_ r <;> rfl

theorem meet_frame {cur q : Nat} {s s' : St} (h : meet cur q s = some s') : Frame s s' := by
  unfold meet at h
  split at h
  · cases h
  · rename_i root regs hf
    have h1 := findRoot_frame _ _ _ _ hf
    have key : ∀ (regs' : Nat → Reg) (pts' : Nat → Point), (∀ r, (regs' r).flag = (s.regs r).flag ∧
        (regs' r).var = (s.regs r).var ∧ (regs' r).gray = (s.regs r).gray) →
        (∀ c, (pts' c).x = (s.pts c).x ∧ (pts' c).y = (s.pts c).y) → Frame s { s with pts := pts', regs := regs' } :=
      fun regs' pts' a b => ⟨rfl, rfl, rfl, rfl, rfl, rfl, b, le_rfl, fun r _ => a r, fun r h h' => by change r < s.nreg at h; omega⟩
    have upd : ∀ {f : Nat → Reg} (a : Nat) (x : Reg), x.flag = (f a).flag → x.var = (f a).var → x.gray = (f a).gray →
        (∀ r, (f r).flag = (s.regs r).flag ∧ (f r).var = (s.regs r).var ∧ (f r).gray = (s.regs r).gray) →
        ∀ r, (update f a x r).flag = (s.regs r).flag ∧ (update f a x r).var = (s.regs r).var ∧
          (update f a x r).gray = (s.regs r).gray := by
      intro f a x e1 e2 e3 hf r
      have := upd_frame e1 e2 e3 r
      exact ⟨this.1.trans (hf r).1, this.2.1.trans (hf r).2.1, this.2.2.trans (hf r).2.2⟩
    dsimp only at h
    split at h
    · cases h
      refine key _ _ ?_ ?_
      · refine upd _ _ rfl rfl rfl (upd _ _ rfl rfl rfl (upd _ _ rfl rfl rfl (upd _ _ rfl rfl rfl h1)))
      · intro c; refine pts_frame ?_ ?_ c <;> rfl
    · cases h
      exact key _ s.pts (upd _ _ rfl rfl rfl h1) (fun c => ⟨rfl, rfl⟩)

theorem look_frame {cur top : Nat} (s : St) (k : Nat) (s' : St) (h : look cur top s k = some s') : Frame s s' := by
  unfold look at h
  split at h
  · cases h
  · split at h
    · cases h; exact .rfl
    · split at h
      · split at h
        · exact append_frame h
        · exact meet_frame h
      · cases h; exact .rfl

theorem stack_frame (s : St) (l : List Nat) : Frame s { s with stack := l } :=
  ⟨rfl, rfl, rfl, rfl, rfl, rfl, fun _ => ⟨rfl, rfl⟩, le_rfl, fun _ _ => ⟨rfl, rfl, rfl⟩, fun r h h' => by change r < s.nreg at h; omega⟩

theorem grow_frame (cur : Nat) : ∀ (n : Nat) {s s' : St}, grow cur n s = some s' → Frame s s' := by
  intro n
  induction n with
  | zero =>
    intro s s' h
    unfold grow at h
    split at h
    · cases h; exact .rfl
    · cases h
  | succ n ih =>
    intro s s' h
    unfold grow at h
    split at h
    · cases h; exact .rfl
    · simp only at h
      split at h
      · cases h
      · rename_i t ht
        exact (stack_frame s _).trans ((frame_foldlM look_frame _ ht).trans (ih h))

theorem seed_frame (s : St) (i : Nat) (s' : St) (h : seed s i = some s') : Frame s s' := by
  unfold seed at h
  split at h
  · cases h; exact .rfl
  · split at h
    case isFalse => cases h
    case isTrue =>
      refine Frame.trans ?_ (grow_frame _ _ h)
      refine ⟨rfl, rfl, rfl, rfl, rfl, rfl, ?_, Nat.le_succ _, ?_, ?_⟩
      · intro c; dsimp only; refine pts_frame ?_ ?_ c <;> rfl
      · intro r hr; dsimp only; rw [Function.update_of_ne (by omega)]; exact ⟨rfl, rfl, rfl⟩
      · intro r hr hr'
        have : r = s.nreg := by change r < s.nreg + 1 at hr; omega
        subst this
        dsimp only; rw [Function.update_self]; exact ⟨rfl, rfl⟩

/-! ### The regions are listed by level -/

theorem append_nreg {cur o : Nat} {s s' : St} (h : append cur o s = some s') : s'.nreg = s.nreg := by
  unfold append at h
  split at h <;> cases h
  rfl

theorem meet_nreg {cur q : Nat} {s s' : St} (h : meet cur q s = some s') : s'.nreg = s.nreg := by
  unfold meet at h
  split at h
  · cases h
  · dsimp only at h
    split at h <;> cases h <;> rfl

theorem look_nreg {cur top : Nat} (s : St) (k : Nat) (s' : St) (h : look cur top s k = some s') : s'.nreg = s.nreg := by
  unfold look at h
  split at h
  · cases h
  · split at h
    · cases h; rfl
    · split at h
      · split at h
        · exact append_nreg h
        · exact meet_nreg h
      · cases h; rfl

theorem nreg_foldlM {β : Type} {f : St → β → Option St} (hf : ∀ s b s', f s b = some s' → s'.nreg = s.nreg) :
    ∀ (l : List β) {s s' : St}, l.foldlM f s = some s' → s'.nreg = s.nreg := by
  intro l
  induction l with
  | nil => intro s s' h; cases h; rfl
  | cons b l ih =>
    intro s s' h
    rw [List.foldlM_cons] at h
    cases hb : f s b with
    | none => rw [hb] at h; cases h
    | some t => rw [hb] at h; exact (ih h).trans (hf s b t hb)

theorem grow_nreg (cur : Nat) : ∀ (n : Nat) {s s' : St}, grow cur n s = some s' → s'.nreg = s.nreg := by
  intro n
  induction n with
  | zero =>
    intro s s' h
    unfold grow at h
    split at h
    · cases h; rfl
    · cases h
  | succ n ih =>
    intro s s' h
    unfold grow at h
    split at h
    · cases h; rfl
    · simp only at h
      split at h
      · cases h
      · rename_i t ht
        have h3 := nreg_foldlM look_nreg _ ht
        exact (ih h).trans h3

/-- At most one region is opened for a pixel, of the pixel's value. -/
theorem seed_new {s s' : St} {i : Nat} (h : seed s i = some s') :
    s'.nreg ≤ s.nreg + 1 ∧ ∀ r < s'.nreg, s.nreg ≤ r → (s'.regs r).gray = (s.img i).toNat := by
  unfold seed at h
  split at h
  · cases h; exact ⟨Nat.le_succ _, fun r h1 h2 => by omega⟩
  · split at h
    case isFalse => cases h
    case isTrue =>
      have h1 := grow_nreg _ _ h
      have h2 := grow_frame _ _ h
      dsimp only at h1
      refine ⟨h1.le, fun r hr hr' => ?_⟩
      have : r = s.nreg := by omega
      subst this
      rw [(h2.old s.nreg (Nat.lt_succ_self _)).2.2]
      dsimp only
      rw [Function.update_self]

/-- Regions are in the order of their levels. -/
theorem pass_sorted : ∀ (l : List Nat) {s s' : St}, l.foldlM seed s = some s' →
    l.Pairwise (fun a b => (s.img a).toNat ≤ (s.img b).toNat) →
    (∀ i j, i ≤ j → j < s.nreg → (s.regs i).gray ≤ (s.regs j).gray) →
    (∀ i < s.nreg, ∀ c ∈ l, (s.regs i).gray ≤ (s.img c).toNat) →
    ∀ i j, i ≤ j → j < s'.nreg → (s'.regs i).gray ≤ (s'.regs j).gray := by
  intro l
  induction l with
  | nil => intro s s' h _ hm _; cases h; exact hm
  | cons c l ih =>
    intro s s' h hp hm hle
    rw [List.foldlM_cons] at h
    cases hb : seed s c with
    | none => rw [hb] at h; cases h
    | some t =>
      rw [hb] at h
      rw [List.pairwise_cons] at hp
      obtain ⟨h1, h2⟩ := seed_new hb
      have hf := seed_frame s c t hb
      have hcase : ∀ i < t.nreg, (i < s.nreg ∧ (t.regs i).gray = (s.regs i).gray) ∨
          (s.nreg ≤ i ∧ (t.regs i).gray = (s.img c).toNat) := by
        intro i hi
        rcases Nat.lt_or_ge i s.nreg with h3 | h3
        · exact .inl ⟨h3, (hf.old i h3).2.2⟩
        · exact .inr ⟨h3, h2 i hi h3⟩
      refine ih h (by rw [hf.img]; exact hp.2) ?_ ?_
      · intro i j hij hj
        rcases hcase i (by omega) with ⟨a, ea⟩ | ⟨a, ea⟩ <;> rcases hcase j hj with ⟨b, eb⟩ | ⟨b, eb⟩
        · rw [ea, eb]; exact hm i j hij b
        · rw [ea, eb]; exact hle i a c (by simp)
        · omega
        · rw [ea, eb]
      · intro i hi d hd
        rw [hf.img]
        rcases hcase i hi with ⟨a, ea⟩ | ⟨a, ea⟩
        · rw [ea]; exact hle i a d (by simp [hd])
        · rw [ea]; exact hp.1 d hd

/-! ### The state between passes -/

/-- What `allocate_memory` leaves behind, apart from the regions. -/
structure Ready (W H : Nat) (eight : Bool) (mask : Mask) (src : Nat → Nat → Nat) (A : Area) (s : St) : Prop where
  box : ∀ p, p ∈ keptPx W H mask src ↔ InBox A p ∧ keep mask src p.1 p.2 = true
  left : A.left + A.w ≤ W
  top : A.top + A.h ≤ H
  D : s.D = ⟨A.w, A.h, eight⟩
  img : s.img = tempImage A (keep mask src) src
  area : s.area = s.order.length
  order : s.order.Nodup
  mem : ∀ c, c ∈ s.order ↔ ∃ p ∈ keptPx W H mask src, cellOf A p = c
  sorted : s.order.Pairwise fun a b => (s.img a).toNat ≤ (s.img b).toNat
  cap : s.area ≤ s.cap
  stack : s.stack = []
  xy : ∀ p ∈ keptPx W H mask src, (s.pts (cellOf A p)).x = p.1 ∧ (s.pts (cellOf A p)).y = p.2

variable {W H : Nat} {eight : Bool} {mask : Mask} {src : Nat → Nat → Nat} {A : Area} {s : St} {d : Det}

/-- `allocate_memory` succeeds. -/
theorem allocate_spec (hW : 1 ≤ W) (hH : 1 ≤ H) (hm : MaskOK W H mask src) (hsrc : ∀ x y, x < W → y < H → src x y < 256) :
    ∃ A s, allocate d W H eight mask src = some s ∧ Ready W H eight mask src A s ∧
      s.area = (keptPx W H mask src).card ∧ s.nreg = (if d.stackSize ≠ s.area then d.nreg else 0) ∧
      (∀ c, (s.pts c).reg = none ∧ (s.pts c).next = none) ∧ s.cap = max d.cap s.area := by
  obtain ⟨A, hA⟩ := active_some hm
  obtain ⟨h1, h2, h3⟩ := active_spec hW hH hA
  have hmem : ∀ c, (c ∈ innerCells A ∧ 0 ≤ tempImage A (keep mask src) src c) ↔ ∃ p ∈ keptPx W H mask src, cellOf A p = c := by
    intro c
    rw [mem_inner, temp_inn]
    constructor
    · rintro ⟨-, p, hp, hk, rfl⟩; exact ⟨p, (h1 p).2 ⟨hp, hk⟩, rfl⟩
    · rintro ⟨p, hp, rfl⟩
      have := (h1 p).1 hp
      exact ⟨⟨p, this.1, rfl⟩, p, this.1, this.2, rfl⟩
  obtain ⟨l, hl, hnd, hlm, hso, hlen⟩ := sortPts_spec A (tempImage A (keep mask src) src) (by
    intro c hc
    obtain ⟨p, hp, rfl⟩ := mem_inner.1 hc
    rw [temp_of hp]
    split
    · have := hsrc p.1 p.2 (by have := hp.2.1; omega) (by have := hp.2.2.2; omega); omega
    · omega)
  have hcard : l.length = (keptPx W H mask src).card := by
    rw [← List.toFinset_card_of_nodup hnd]
    have : l.toFinset = (keptPx W H mask src).image (cellOf A) := by
      ext c
      rw [List.mem_toFinset, hlm, hmem, Finset.mem_image]
    rw [this, Finset.card_image_of_injOn]
    intro p hp q hq e
    exact cellOf_inj ((h1 p).1 hp).1 ((h1 q).1 hq).1 e
  unfold allocate
  rw [hA]
  dsimp only
  rw [hl]
  dsimp only
  refine ⟨A, _, rfl, ⟨h1, h2, h3, rfl, rfl, hlen.symm, hnd, fun c => ?_, hso, le_max_right _ _, rfl, ?_⟩, ?_, rfl, fun c => ⟨rfl, rfl⟩, rfl⟩
  · rw [hlm, hmem]
  · intro p hp; exact fresh_pos ((h1 p).1 hp).1
  · rw [← hcard, hlen]

theorem Ready.frame {s' : St} (h : Ready W H eight mask src A s) (hf : Frame s s') (hs : s'.stack = []) :
    Ready W H eight mask src A s' := by
  refine ⟨h.box, h.left, h.top, hf.D.trans h.D, hf.img.trans h.img, by rw [hf.area, hf.order]; exact h.area,
    by rw [hf.order]; exact h.order, by rw [hf.order]; exact h.mem, by rw [hf.order, hf.img]; exact h.sorted,
    by rw [hf.area, hf.cap]; exact h.cap, hs, fun p hp => ?_⟩
  have := hf.xy (cellOf A p)
  rw [this.1, this.2]; exact h.xy p hp

/-- The values used by a pass. -/
def passVal (gm : Nat) (src : Nat → Nat → Nat) (p : Nat × Nat) : Nat := if gm = 0 then src p.1 p.2 else 255 - src p.1 p.2

/-- All that is known when a pass has ended; `Ls r` are the cells of region `r` in the order of its list. -/
structure Flooded (W H : Nat) (eight : Bool) (K : Finset (Nat × Nat)) (val : Nat × Nat → Nat) (A : Area) (s : St)
    (Ls : Nat → List Nat) : Prop where
  inv : ∃ E g cur, Inv E s Ls g cur [] ∧ E.OK (s.order) ∧ (∀ c, E.inn c → E.val c < 256) ∧
    (∀ c, E.inn c → ∃ q, (s.pts c).reg = some q)
  tree : IsComponentTree (AdjIn eight W H K) val K
    ⟨(cellTree s).isReg, fun p => (cellTree s).lab (cellOf A p), (cellTree s).gray, (cellTree s).parent, (cellTree s).size⟩
  fresh : ∀ r < s.nreg, (s.regs r).flag = .unknown ∧ (s.regs r).var = -1
  nreg_le : s.nreg ≤ K.card
  sorted : ∀ i j, i ≤ j → j < s.nreg → (s.regs i).gray ≤ (s.regs j).gray
  D : s.D = ⟨A.w, A.h, eight⟩
  inn : ∀ p ∈ K, cellOf A p ∈ s.order
  cells : ∀ r < s.nreg, ∀ c ∈ Ls r, ∃ p ∈ K, cellOf A p = c ∧ (s.pts c).x = p.1 ∧ (s.pts c).y = p.2

/-- A pass over an order that is sorted by the values. -/
theorem run_pass {val : Nat × Nat → Nat} {l : List Nat} (h : Ready W H eight mask src A s) (s0 : St)
    (hs : s0.D = s.D ∧ s0.area = s.area ∧ s0.order = s.order ∧ s0.cap = s.cap ∧ s0.stack = [] ∧ s0.nreg = 0)
    (hreg : ∀ c, (s0.pts c).reg = none) (hxy : ∀ c, (s0.pts c).x = (s.pts c).x ∧ (s0.pts c).y = (s.pts c).y)
    (hperm : l.Perm s.order) (hval : ∀ p ∈ keptPx W H mask src, s0.img (cellOf A p) = val p)
    (hout : ∀ c, 0 ≤ s0.img c ↔ ∃ p ∈ keptPx W H mask src, cellOf A p = c)
    (hlt : ∀ p ∈ keptPx W H mask src, val p < 256)
    (hsort : l.Pairwise fun a b => (s0.img a).toNat ≤ (s0.img b).toNat) :
    ∃ s' Ls, l.foldlM seed s0 = some s' ∧ s'.stack = [] ∧ Frame s0 s' ∧ Flooded W H eight (keptPx W H mask src) val A s' Ls := by
  obtain ⟨e1, e2, e3, e4, e5, e6⟩ := hs
  let E : Env := ⟨s0.D, s0.area, s0.img, s0.cap⟩
  have hbox : ∀ p ∈ keptPx W H mask src, InBox A p := fun p hp => ((h.box p).1 hp).1
  have hinn : ∀ c, E.inn c ↔ ∃ p ∈ keptPx W H mask src, cellOf A p = c := hout
  have hD : E.D = ⟨A.w, A.h, eight⟩ := e1.trans h.D
  have hadj : ∀ p ∈ keptPx W H mask src, ∀ q ∈ keptPx W H mask src,
      (E.adj (cellOf A p) (cellOf A q) ↔ V1.AdjV1 eight W H p q) := by
    intro p hp q hq
    rw [← nbr_iff eight h.left h.top (hbox p hp) (hbox q hq)]
    unfold Env.adj
    rw [hD]
    exact ⟨fun h => h.2.2, fun h => ⟨(hinn _).2 ⟨p, hp, rfl⟩, (hinn _).2 ⟨q, hq, rfl⟩, h⟩⟩
  have hv : ∀ p ∈ keptPx W H mask src, E.val (cellOf A p) = val p := by
    intro p hp; show (s0.img _).toNat = _; rw [hval p hp]; simp
  have hmem : ∀ c, c ∈ s.order ↔ E.inn c := fun c => by rw [h.mem, hinn]
  have hE : E.OK s.order := by
    refine ⟨?_, ?_, hmem, h.order, e2.trans h.area, by show s0.area ≤ s0.cap; rw [e2, e4]; exact h.cap⟩
    · intro c hc k hk
      obtain ⟨p, hp, rfl⟩ := (hinn c).1 hc
      rw [hD] at hk ⊢
      exact nbr_some eight (hbox p hp) hk
    · intro a b hab
      obtain ⟨p, hp, rfl⟩ := (hinn a).1 hab.1
      obtain ⟨q, hq, rfl⟩ := (hinn b).1 hab.2.1
      rw [hadj p hp q hq] at hab
      rw [hadj q hq p hp]
      exact V1.adjV1_symm _ _ hab
  obtain ⟨s', Ls, g, cur, k1, k2, k3, k4⟩ := pass_spec hE l [] (s := s0) (Ls := fun _ => []) (g := 0) (cur := 0)
    (fun c => by rw [List.nil_append, hperm.mem_iff, hmem]) hsort (Inv.start rfl rfl rfl rfl e6 hreg) e5
    (fun c _ => Nat.zero_le _) (fun c hc => by cases hc)
  have hF : Frame s0 s' := frame_foldlM seed_frame _ k1
  have hvlt : ∀ c, E.inn c → E.val c < 256 := by
    intro c hc
    obtain ⟨p, hp, rfl⟩ := (hinn c).1 hc
    rw [hv p hp]; exact hlt p hp
  refine ⟨s', Ls, k1, k3, hF, ⟨⟨E, g, cur, k2, by rw [hF.order, e3]; exact hE, hvlt, k4⟩, ?_, ?_, ?_,
    pass_sorted l k1 hsort (fun i j _ hj => by omega) (fun i hi => by omega),
    hF.D.trans (e1.trans h.D), fun p hp => by rw [hF.order, e3, hmem]; exact (hinn _).2 ⟨p, hp, rfl⟩, ?_⟩⟩
  · refine (cellTree_spec k2 k4 hmem hvlt hE.symm).comap (cellOf A) ?_ ?_ ?_ ?_ ?_ ?_
    · intro c; rw [List.mem_toFinset, h.mem]
    · intro p hp q hq e; exact cellOf_inj (hbox p hp) (hbox q hq) e
    · intro p hp q hq
      rw [hadj p hp q hq]
      have e : V1.AdjV1 eight W H p q ↔ if eight then Adj8 W H p q else Adj4 W H p q := by
        unfold V1.AdjV1; cases eight <;> exact Iff.rfl
      exact ⟨fun h => e.2 h.2.2, fun h => ⟨hp, hq, e.1 h⟩⟩
    · intro p q h; exact ⟨h.1, h.2.1⟩
    · intro a b h
      rw [List.mem_toFinset, List.mem_toFinset, hmem, hmem]
      exact ⟨h.1, h.2.1⟩
    · intro p hp; exact (hv p hp).symm
  · intro r hr; exact hF.new r hr (by rw [e6]; exact Nat.zero_le _)
  · have h1 := k2.nreg_le hE
    have h2 : s.order.length = (keptPx W H mask src).card := by
      rw [← List.toFinset_card_of_nodup h.order]
      have : s.order.toFinset = (keptPx W H mask src).image (cellOf A) := by
        ext c; rw [List.mem_toFinset, h.mem, Finset.mem_image]
      rw [this, Finset.card_image_of_injOn]
      intro p hp q hq e
      exact cellOf_inj (hbox p hp) (hbox q hq) e
    have h3 : E.area = s.order.length := e2.trans h.area
    omega
  · intro r hr c hc
    obtain ⟨p, hp, rfl⟩ := (hinn c).1 (k2.inn hr hc)
    have h1 := hF.xy (cellOf A p)
    have h2 := hxy (cellOf A p)
    have h3 := h.xy p hp
    exact ⟨p, hp, rfl, h1.1.trans (h2.1.trans h3.1), h1.2.trans (h2.2.trans h3.2)⟩

theorem Ready.cell_val (h : Ready W H eight mask src A s) {p : Nat × Nat} (hp : p ∈ keptPx W H mask src) :
    s.img (cellOf A p) = src p.1 p.2 := by
  have := (h.box p).1 hp
  rw [h.img, temp_of this.1, if_pos this.2]

theorem Ready.cell_inn (h : Ready W H eight mask src A s) (c : Nat) :
    0 ≤ s.img c ↔ ∃ p ∈ keptPx W H mask src, cellOf A p = c := by
  rw [h.img, temp_inn]
  constructor
  · rintro ⟨p, hp, hk, rfl⟩; exact ⟨p, (h.box p).2 ⟨hp, hk⟩, rfl⟩
  · rintro ⟨p, hp, rfl⟩
    have := (h.box p).1 hp
    exact ⟨p, this.1, this.2, rfl⟩

variable (hsrc : ∀ x y, x < W → y < H → src x y < 256)
include hsrc

/-- The dark pass. -/
theorem dark_pass (fm : Bool) (h : Ready W H eight mask src A s) (h0 : s.nreg = 0) (hreg : ∀ c, (s.pts c).reg = none) :
    ∃ s' Ls, buildTree fm 0 s = some s' ∧ Ready W H eight mask src A s' ∧ s'.cap = s.cap ∧ s'.pcap = s.pcap ∧
      s'.area = s.area ∧ Flooded W H eight (keptPx W H mask src) (passVal 0 src) A s' Ls := by
  obtain ⟨s', Ls, h1, h2, h3, h4⟩ := run_pass (val := passVal 0 src) (l := s.order) h s ⟨rfl, rfl, rfl, rfl, h.stack, h0⟩
    hreg (fun c => ⟨rfl, rfl⟩) (List.Perm.refl _) (fun p hp => h.cell_val hp) h.cell_inn
    (fun p hp => by have := mem_keptPx.1 hp; exact hsrc _ _ this.1.1 this.1.2) h.sorted
  exact ⟨s', Ls, by rw [buildTree, if_pos rfl, extractPass, if_pos rfl]; exact h1, h.frame h3 h2, h3.cap, h3.pcap, h3.area, h4⟩

/-- The bright pass; `fm` tells whether a dark pass went before. -/
theorem bright_pass (fm : Bool) (h : Ready W H eight mask src A s)
    (hs : fm = false → s.nreg = 0 ∧ ∀ c, (s.pts c).reg = none) :
    ∃ s' Ls, buildTree fm 255 s = some s' ∧ s'.cap = s.cap ∧ s'.pcap = s.pcap ∧ s'.area = s.area ∧
      Flooded W H eight (keptPx W H mask src) (passVal 255 src) A s' Ls := by
  have hv : ∀ p ∈ keptPx W H mask src, src p.1 p.2 < 256 := fun p hp => by
    have := mem_keptPx.1 hp; exact hsrc _ _ this.1.1 this.1.2
  have hrev : ∀ p ∈ keptPx W H mask src, (reverse s).img (cellOf A p) = passVal 255 src p := by
    intro p hp
    have h1 := h.cell_val hp
    have h2 := hv p hp
    show (if 0 ≤ s.img (cellOf A p) then 0xff - s.img (cellOf A p) else _) = _
    rw [h1, if_pos (by omega), passVal, if_neg (by decide)]
    omega
  have hout : ∀ c, 0 ≤ (reverse s).img c ↔ ∃ p ∈ keptPx W H mask src, cellOf A p = c := by
    intro c
    constructor
    · intro hc
      rw [← h.cell_inn]
      change 0 ≤ (if 0 ≤ s.img c then 0xff - s.img c else s.img c) at hc
      split at hc
      · assumption
      · exact hc
    · rintro ⟨p, hp, rfl⟩; rw [hrev p hp]; omega
  have hsort : s.order.reverse.Pairwise fun a b => ((reverse s).img a).toNat ≤ ((reverse s).img b).toNat := by
    rw [List.pairwise_reverse]
    refine h.sorted.imp_of_mem ?_
    intro a b ha hb hab
    obtain ⟨p, hp, rfl⟩ := (h.mem a).1 ha
    obtain ⟨q, hq, rfl⟩ := (h.mem b).1 hb
    rw [hrev p hp, hrev q hq]
    rw [h.cell_val hp, h.cell_val hq] at hab
    unfold passVal
    simp only [Int.toNat_natCast] at hab ⊢
    rw [if_neg (by decide), if_neg (by decide)]
    omega
  have hperm : s.order.reverse.Perm s.order := List.reverse_perm _
  have hlt : ∀ p ∈ keptPx W H mask src, passVal 255 src p < 256 := by
    intro p _; unfold passVal; rw [if_neg (by decide)]; omega
  cases fm with
  | false =>
    obtain ⟨e1, e2⟩ := hs rfl
    obtain ⟨s', Ls, h1, h2, h3, h4⟩ := run_pass (val := passVal 255 src) (l := s.order.reverse) h (reverse s)
      ⟨rfl, rfl, rfl, rfl, h.stack, e1⟩ e2 (fun c => ⟨rfl, rfl⟩) hperm hrev hout hlt hsort
    refine ⟨s', Ls, ?_, h3.cap, h3.pcap, h3.area, h4⟩
    rw [buildTree, if_neg (by decide)]
    exact h1
  | true =>
    obtain ⟨s', Ls, h1, h2, h3, h4⟩ := run_pass (val := passVal 255 src) (l := s.order.reverse) h (reverse (reset s))
      ⟨rfl, rfl, rfl, rfl, h.stack, rfl⟩ (fun c => rfl) (fun c => ⟨rfl, rfl⟩) hperm hrev hout hlt hsort
    refine ⟨s', Ls, ?_, h3.cap, h3.pcap, h3.area, h4⟩
    rw [buildTree, if_neg (by decide)]
    exact h1

end Verif.Original
