import Verif.Proof.ExtractTree

/-!
# The rectangles of the records

`BBox ex b S`: the sides of `b` are coordinates of points of `S`, the left and the top side bound `S`,
and so do the right and the bottom side if `ex` holds.
-/

namespace Verif.Extract

structure BBox (ex : Prop) (l t r b : Int) (S : Pt → Prop) : Prop where
  left : ∃ p, S p ∧ p.1 = l
  top : ∃ p, S p ∧ p.2 = t
  right : ∃ p, S p ∧ p.1 = r
  bottom : ∃ p, S p ∧ p.2 = b
  lower : ∀ p, S p → l ≤ p.1 ∧ t ≤ p.2
  upper : ex → ∀ p, S p → p.1 ≤ r ∧ p.2 ≤ b

variable {ex ex' : Prop} {S S' : Pt → Prop}

theorem BBox.congr {l t r b : Int} (h : BBox ex l t r b S) (hS : ∀ p, S p ↔ S' p) :
    BBox ex l t r b S' := by
  have : S = S' := funext fun p => propext (hS p)
  rwa [← this]

theorem BBox.imp {l t r b : Int} (h : BBox ex l t r b S) (hx : ex' → ex) : BBox ex' l t r b S :=
  ⟨h.left, h.top, h.right, h.bottom, h.lower, fun e => h.upper (hx e)⟩

theorem BBox.le {l t r b : Int} (h : BBox ex l t r b S) : l ≤ r ∧ t ≤ b := by
  obtain ⟨p, hp, rfl⟩ := h.right
  obtain ⟨q, hq, rfl⟩ := h.bottom
  exact ⟨(h.lower p hp).1, (h.lower q hq).2⟩

/-- Two boxes with the same points have the same left and top sides, and if both are exact all sides are the
same. -/
theorem BBox.unique {l t r b l' t' r' b' : Int} (h : BBox True l t r b S) (h' : BBox True l' t' r' b' S) :
    l = l' ∧ t = t' ∧ r = r' ∧ b = b' := by
  obtain ⟨p1, s1, e1⟩ := h.left
  obtain ⟨p2, s2, e2⟩ := h.top
  obtain ⟨p3, s3, e3⟩ := h.right
  obtain ⟨p4, s4, e4⟩ := h.bottom
  obtain ⟨q1, u1, f1⟩ := h'.left
  obtain ⟨q2, u2, f2⟩ := h'.top
  obtain ⟨q3, u3, f3⟩ := h'.right
  obtain ⟨q4, u4, f4⟩ := h'.bottom
  have a1 := h.lower q1 u1
  have a2 := h.lower q2 u2
  have a3 := h.upper trivial q3 u3
  have a4 := h.upper trivial q4 u4
  have b1 := h'.lower p1 s1
  have b2 := h'.lower p2 s2
  have b3 := h'.upper trivial p3 s3
  have b4 := h'.upper trivial p4 s4
  omega

/-! ### Rectangles of single blocks -/

theorem toI16_small {x : Int} (h0 : 0 ≤ x) (h1 : x < 32768) : toI16 x = x := by
  simp only [toI16]; omega

theorem growBox_first {j : Int × Int × Int} {x y : Int} (hx : 0 ≤ x ∧ x < 32768) (hy : 0 ≤ y ∧ y < 32768) :
    growBox (-1, j.1, j.2.1, j.2.2) x y = (x, y, x, y) := by
  simp [growBox, toI16_small hx.1 hx.2, toI16_small hy.1 hy.2]

theorem growBox_next {l t r b x y : Int} (hx : 0 ≤ x ∧ x < 32768) (hy : 0 ≤ y ∧ y < 32768)
    (hl : 0 ≤ l) (h : BBox True l t r b S) :
    ∃ l' t' r' b', growBox (l, t, r, b) x y = (l', t', r', b') ∧ 0 ≤ l' ∧
      BBox True l' t' r' b' (fun p => S p ∨ p = (x, y)) := by
  have hle := h.le
  have hg : growBox (l, t, r, b) x y = (min l x, min t y, max r x, max b y) := by
    simp only [growBox, toI16_small hx.1 hx.2, toI16_small hy.1 hy.2, if_neg (show ¬ l = -1 by omega),
      Prod.mk.injEq]
    refine ⟨?_, ?_, ?_, ?_⟩
    · split <;> omega
    · split <;> omega
    · split
      · omega
      · split <;> omega
    · split
      · omega
      · split <;> omega
  refine ⟨_, _, _, _, hg, by omega, ?_, ?_, ?_, ?_, ?_, ?_⟩
  · rcases le_total l x with e | e
    · obtain ⟨p, hp, hv⟩ := h.left; exact ⟨p, .inl hp, by omega⟩
    · exact ⟨(x, y), .inr rfl, by dsimp only; omega⟩
  · rcases le_total t y with e | e
    · obtain ⟨p, hp, hv⟩ := h.top; exact ⟨p, .inl hp, by omega⟩
    · exact ⟨(x, y), .inr rfl, by dsimp only; omega⟩
  · rcases le_total x r with e | e
    · obtain ⟨p, hp, hv⟩ := h.right; exact ⟨p, .inl hp, by omega⟩
    · exact ⟨(x, y), .inr rfl, by dsimp only; omega⟩
  · rcases le_total y b with e | e
    · obtain ⟨p, hp, hv⟩ := h.bottom; exact ⟨p, .inl hp, by omega⟩
    · exact ⟨(x, y), .inr rfl, by dsimp only; omega⟩
  · rintro p (hp | rfl)
    · have := h.lower p hp; omega
    · dsimp only; omega
  · rintro - p (hp | rfl)
    · have := h.upper trivial p hp; omega
    · dsimp only; omega

theorem grows_exact {l : List Pt} (hl : ∀ p ∈ l, (0 ≤ p.1 ∧ p.1 < 32768) ∧ (0 ≤ p.2 ∧ p.2 < 32768)) :
    ∀ {x t r b : Int} {S : Pt → Prop}, 0 ≤ x → BBox True x t r b S →
      ∃ x' t' r' b', l.foldl (fun b p => growBox b p.1 p.2) (x, t, r, b) = (x', t', r', b') ∧ 0 ≤ x' ∧
        BBox True x' t' r' b' (fun p => S p ∨ p ∈ l) := by
  induction l with
  | nil => intro x t r b S hx h; exact ⟨x, t, r, b, rfl, hx, h.congr fun p => by simp⟩
  | cons q l ih =>
    intro x t r b S hx h
    have hq := hl q (by simp)
    obtain ⟨x1, t1, r1, b1, e1, h1, h2⟩ := growBox_next hq.1 hq.2 hx h
    obtain ⟨x2, t2, r2, b2, e2, h3, h4⟩ := ih (fun p hp => hl p (by simp [hp])) h1 h2
    refine ⟨x2, t2, r2, b2, ?_, h3, h4.congr fun p => ?_⟩
    · rw [List.foldl_cons, e1, e2]
    · rw [List.mem_cons, or_assoc]

/-- A block's rectangle: unset if it has no pixel, otherwise the bounding box. -/
def BlockBox (B : Int × Int × Int × Int) (l : List Pt) : Prop :=
  (l = [] ∧ B.1 = -1) ∨ (l ≠ [] ∧ 0 ≤ B.1 ∧ BBox True B.1 B.2.1 B.2.2.1 B.2.2.2 (· ∈ l))

theorem block_box {l : List Pt} (hl : ∀ p ∈ l, (0 ≤ p.1 ∧ p.1 < 32768) ∧ (0 ≤ p.2 ∧ p.2 < 32768))
    (junk : Int × Int × Int) :
    BlockBox (l.foldl (fun b p => growBox b p.1 p.2) (-1, junk.1, junk.2.1, junk.2.2)) l := by
  cases l with
  | nil => exact .inl ⟨rfl, rfl⟩
  | cons q l =>
    right
    have hq := hl q (by simp)
    rw [List.foldl_cons, growBox_first hq.1 hq.2]
    have h0 : BBox True q.1 q.2 q.1 q.2 (fun p => p = q) :=
      ⟨⟨q, rfl, rfl⟩, ⟨q, rfl, rfl⟩, ⟨q, rfl, rfl⟩, ⟨q, rfl, rfl⟩, fun p e => by subst e; exact ⟨le_refl _, le_refl _⟩,
        fun _ p e => by subst e; exact ⟨le_refl _, le_refl _⟩⟩
    obtain ⟨x, t, r, b, e, h1, h2⟩ := grows_exact (l := l) (fun p hp => hl p (List.mem_cons_of_mem _ hp)) hq.1.1 h0
    rw [e]
    exact ⟨by simp, h1, h2.congr fun p => by rw [List.mem_cons]⟩

/-! ### Joining the blocks -/

/-- The rectangle collected so far. -/
def PartBox (ex : Prop) (B : Int × Int × Int × Int) (l : List Pt) : Prop :=
  (l = [] ∧ B.1 = -1) ∨ (l ≠ [] ∧ 0 ≤ B.1 ∧ BBox ex B.1 B.2.1 B.2.2.1 B.2.2.2 (· ∈ l))

theorem joinBox_part {A B : Int × Int × Int × Int} {l m : List Pt} (hA : PartBox ex A l) (hB : BlockBox B m)
    (hx : ex → l = [] ∨ m = []) : PartBox ex (joinBox A B) (l ++ m) := by
  obtain ⟨al, at_, ar, ab⟩ := A
  obtain ⟨bl, bt, br, bb⟩ := B
  rcases hB with ⟨rfl, e⟩ | ⟨hm, h0, hB⟩
  · dsimp only at e
    rw [List.append_nil]
    have : joinBox (al, at_, ar, ab) (bl, bt, br, bb) = (al, at_, ar, ab) := by simp [joinBox, e]
    rw [this]; exact hA
  · dsimp only at h0 hB
    rcases hA with ⟨rfl, e⟩ | ⟨hl, h1, hA⟩
    · dsimp only at e
      have : joinBox (al, at_, ar, ab) (bl, bt, br, bb) = (bl, bt, br, bb) := by
        simp only [joinBox, if_neg (show ¬ bl = -1 by omega), if_pos e]
      rw [this, List.nil_append]
      exact .inr ⟨hm, h0, hB.imp fun _ => trivial⟩
    · dsimp only at h1 hA
      have hex : ¬ ex := fun e => by rcases hx e with h | h; exact hl h; exact hm h
      right
      have hj : joinBox (al, at_, ar, ab) (bl, bt, br, bb) =
          (min al bl, min at_ bt, if bl < al then ar else max ar br, if bt < at_ then ab else max ab bb) := by
        simp only [joinBox, if_neg (show ¬ bl = -1 by omega), if_neg (show ¬ al = -1 by omega), Prod.mk.injEq]
        refine ⟨?_, ?_, ?_, ?_⟩
        · split <;> omega
        · split <;> omega
        · split
          · rfl
          · split <;> omega
        · split
          · rfl
          · split <;> omega
      rw [hj]
      dsimp only
      refine ⟨by simp [hl], by omega, ?_, ?_, ?_, ?_, ?_, fun e => absurd e hex⟩
      · rcases le_total al bl with e | e
        · obtain ⟨p, hp, hv⟩ := hA.left; exact ⟨p, List.mem_append_left _ hp, by omega⟩
        · obtain ⟨p, hp, hv⟩ := hB.left; exact ⟨p, List.mem_append_right _ hp, by omega⟩
      · rcases le_total at_ bt with e | e
        · obtain ⟨p, hp, hv⟩ := hA.top; exact ⟨p, List.mem_append_left _ hp, by omega⟩
        · obtain ⟨p, hp, hv⟩ := hB.top; exact ⟨p, List.mem_append_right _ hp, by omega⟩
      · obtain ⟨p, hp, hv⟩ := hA.right
        obtain ⟨q, hq, hw⟩ := hB.right
        split
        · exact ⟨p, List.mem_append_left _ hp, hv⟩
        · rcases le_total ar br with e | e
          · exact ⟨q, List.mem_append_right _ hq, by omega⟩
          · exact ⟨p, List.mem_append_left _ hp, by omega⟩
      · obtain ⟨p, hp, hv⟩ := hA.bottom
        obtain ⟨q, hq, hw⟩ := hB.bottom
        split
        · exact ⟨p, List.mem_append_left _ hp, hv⟩
        · rcases le_total ab bb with e | e
          · exact ⟨q, List.mem_append_right _ hq, by omega⟩
          · exact ⟨p, List.mem_append_left _ hp, by omega⟩
      · intro p hp
        rcases List.mem_append.1 hp with hp | hp
        · have := hA.lower p hp; omega
        · have := hB.lower p hp; omega

/-- The rectangle of the own pixels of a record. -/
theorem own_part {box : Nat → Nat → Int × Int × Int × Int} {i : Nat} {own : Nat → List Pt}
    (h : ∀ k, k < 4 → BlockBox (box k i) (own k)) (hx : ex → ∃ k0, ∀ k, k < 4 → k ≠ k0 → own k = []) :
    PartBox ex (ownBox box i) (own 0 ++ own 1 ++ own 2 ++ own 3) := by
  simp only [ownBox, List.foldl_cons, List.foldl_nil]
  have hz : ∀ k l, k < 4 → l < 4 → k ≠ l → ex → own k = [] ∨ own l = [] := by
    intro k l hk hl hne e
    obtain ⟨k0, h0⟩ := hx e
    by_cases hk0 : k = k0
    · right; exact h0 l hl (fun e => hne (hk0.trans e.symm))
    · left; exact h0 k hk hk0
  have h0 := joinBox_part (ex := ex) (A := (-1, 0, 0, 0)) (l := []) (.inl ⟨rfl, rfl⟩) (h 0 (by decide)) (fun _ => .inl rfl)
  rw [List.nil_append] at h0
  have h1 := joinBox_part h0 (h 1 (by decide)) (hz 0 1 (by decide) (by decide) (by decide))
  have h2 := joinBox_part h1 (h 2 (by decide)) (fun e => by
    rcases hz 0 2 (by decide) (by decide) (by decide) e with a | a <;>
      rcases hz 1 2 (by decide) (by decide) (by decide) e with b | b <;> simp [a, b])
  exact joinBox_part h2 (h 3 (by decide)) (fun e => by
    rcases hz 0 3 (by decide) (by decide) (by decide) e with a | a <;>
      rcases hz 1 3 (by decide) (by decide) (by decide) e with b | b <;>
      rcases hz 2 3 (by decide) (by decide) (by decide) e with c | c <;> simp [a, b, c])

/-! ### Rectangles of records -/

/-- A rectangle as four sides. -/
def RBox (ex : Prop) (R : Rect) (S : Pt → Prop) : Prop :=
  BBox ex R.left R.top (R.left + R.width - 1) (R.top + R.height - 1) S

theorem own_rbox {box : Nat → Nat → Int × Int × Int × Int} {i : Nat} {own : Nat → List Pt}
    (h : ∀ k, k < 4 → BlockBox (box k i) (own k)) (hne : ∃ k, k < 4 ∧ own k ≠ [])
    (hx : ex → ∃ k0, ∀ k, k < 4 → k ≠ k0 → own k = []) :
    RBox ex (ownRect box i) (· ∈ own 0 ++ own 1 ++ own 2 ++ own 3) := by
  rcases own_part h hx with ⟨e, _⟩ | ⟨_, _, hB⟩
  · obtain ⟨k, hk, hk'⟩ := hne
    simp only [List.append_eq_nil_iff] at e
    have : k = 0 ∨ k = 1 ∨ k = 2 ∨ k = 3 := by omega
    rcases this with rfl | rfl | rfl | rfl
    · exact absurd e.1.1.1 hk'
    · exact absurd e.1.1.2 hk'
    · exact absurd e.1.2 hk'
    · exact absurd e.2 hk'
  · unfold RBox ownRect
    dsimp only
    rw [show (ownBox box i).1 + ((ownBox box i).2.2.1 - (ownBox box i).1 + 1) - 1 = (ownBox box i).2.2.1 by omega,
      show (ownBox box i).2.1 + ((ownBox box i).2.2.2 - (ownBox box i).2.1 + 1) - 1 = (ownBox box i).2.2.2 by omega]
    exact hB

theorem append_zero (R : Rect) : Rect.zero.append R = R := by simp [Rect.append, Rect.zero]

theorem append_rbox {R R' : Rect} (h : RBox ex R S) (h' : RBox ex R' S') :
    RBox ex (R.append R') (fun p => S p ∨ S' p) := by
  unfold RBox at h h'
  have hle := h.le
  have e : R.append R' = ⟨min R.left R'.left, min R.top R'.top,
      max (R.left + R.width - 1) (R'.left + R'.width - 1) - min R.left R'.left + 1,
      max (R.top + R.height - 1) (R'.top + R'.height - 1) - min R.top R'.top + 1⟩ := by
    simp only [Rect.append]
    rw [if_neg (by omega)]
  rw [e]
  unfold RBox
  dsimp only
  refine ⟨?_, ?_, ?_, ?_, ?_, ?_⟩
  · rcases le_total R.left R'.left with e | e
    · obtain ⟨p, hp, hv⟩ := h.left; exact ⟨p, .inl hp, by omega⟩
    · obtain ⟨p, hp, hv⟩ := h'.left; exact ⟨p, .inr hp, by omega⟩
  · rcases le_total R.top R'.top with e | e
    · obtain ⟨p, hp, hv⟩ := h.top; exact ⟨p, .inl hp, by omega⟩
    · obtain ⟨p, hp, hv⟩ := h'.top; exact ⟨p, .inr hp, by omega⟩
  · rcases le_total (R.left + R.width - 1) (R'.left + R'.width - 1) with e | e
    · obtain ⟨p, hp, hv⟩ := h'.right; exact ⟨p, .inr hp, by omega⟩
    · obtain ⟨p, hp, hv⟩ := h.right; exact ⟨p, .inl hp, by omega⟩
  · rcases le_total (R.top + R.height - 1) (R'.top + R'.height - 1) with e | e
    · obtain ⟨p, hp, hv⟩ := h'.bottom; exact ⟨p, .inr hp, by omega⟩
    · obtain ⟨p, hp, hv⟩ := h.bottom; exact ⟨p, .inl hp, by omega⟩
  · rintro p (hp | hp)
    · have := h.lower p hp; omega
    · have := h'.lower p hp; omega
  · rintro hx p (hp | hp)
    · have := h.upper hx p hp; omega
    · have := h'.upper hx p hp; omega

theorem mem_descs_succ {P : Plan} (ok : P.Ok) {t j c : Nat} (ht : t < P.N) (h : P.up t = some j) :
    c ∈ P.descs (t + 1) j ↔ c ∈ P.descs t j ∨ c ∈ P.descs t t ∨ c = t := by
  rw [(Plan.descs_succ ok ht h).mem_iff]
  simp

variable {P : Plan} {own : Nat → Rect}

theorem rects_done {t j : Nat} (ok : P.Ok) (hj : j < t) (ht : t ≤ P.N) : P.rects own t j = P.rects own (j + 1) j := by
  induction t with
  | zero => omega
  | succ t ih =>
    rcases Nat.lt_or_ge j t with h | h
    · rw [← ih h (by omega)]
      simp only [Plan.rects]
      rw [if_neg (by omega), if_neg]
      intro e
      have := (ok.up_lt t j (by omega) e).1
      omega
    · obtain rfl : j = t := by omega
      rfl

theorem rects_part (ok : P.Ok) {I : Nat → Prop} (hI : ∀ c j, P.up c = some j → I j → I c)
    (hown : ∀ c, c < P.N → I c → RBox ex (own c) (· ∈ P.all c)) {t j : Nat} (ht : t ≤ P.N) (hj : t ≤ j) (hIj : I j) :
    (P.descs t j = [] ∧ P.rects own t j = Rect.zero) ∨
      (RBox ex (P.rects own t j) (fun p => ∃ c ∈ P.descs t j, p ∈ P.all c)) := by
  induction t generalizing j with
  | zero => exact .inl ⟨by simp [Plan.descs], rfl⟩
  | succ t ih =>
    have hjt : j ≠ t := by omega
    by_cases hu : P.up t = some j
    · right
      have hIt := hI t j hu hIj
      have hcur : RBox ex ((P.rects own t t).append (own t)) (fun p => (∃ c ∈ P.descs t t, p ∈ P.all c) ∨ p ∈ P.all t) := by
        rcases ih (j := t) (by omega) (Nat.le_refl _) hIt with ⟨e1, e2⟩ | hB
        · rw [e2, append_zero]
          exact BBox.congr (hown t (by omega) hIt) (fun p => by simp [e1])
        · exact append_rbox hB (hown t (by omega) hIt)
      have e : P.rects own (t + 1) j = (P.rects own t j).append ((P.rects own t t).append (own t)) := by
        simp only [Plan.rects, if_neg hjt, if_pos hu]
      rw [e]
      have hmem := fun c => mem_descs_succ (c := c) ok (show t < P.N by omega) hu
      rcases ih (j := j) (by omega) (by omega) hIj with ⟨e1, e2⟩ | hB
      · rw [e2, append_zero]
        refine BBox.congr hcur (fun p => ?_)
        constructor
        · rintro (⟨c, hc, hp⟩ | hp)
          · exact ⟨c, (hmem c).2 (.inr (.inl hc)), hp⟩
          · exact ⟨t, (hmem t).2 (.inr (.inr rfl)), hp⟩
        · rintro ⟨c, hc, hp⟩
          rcases (hmem c).1 hc with h | h | rfl
          · rw [e1] at h; cases h
          · exact .inl ⟨c, h, hp⟩
          · exact .inr hp
      · refine BBox.congr (append_rbox hB hcur) (fun p => ?_)
        constructor
        · rintro (⟨c, hc, hp⟩ | ⟨c, hc, hp⟩ | hp)
          · exact ⟨c, (hmem c).2 (.inl hc), hp⟩
          · exact ⟨c, (hmem c).2 (.inr (.inl hc)), hp⟩
          · exact ⟨t, (hmem t).2 (.inr (.inr rfl)), hp⟩
        · rintro ⟨c, hc, hp⟩
          rcases (hmem c).1 hc with h | h | rfl
          · exact .inl ⟨c, h, hp⟩
          · exact .inr (.inl ⟨c, h, hp⟩)
          · exact .inr (.inr hp)
    · have e : P.rects own (t + 1) j = P.rects own t j := by
        simp only [Plan.rects, if_neg hjt, if_neg hu]
      rw [e, Plan.descs_succ_ne (by omega) hu]
      exact ih (by omega) (by omega) hIj

/-- The rectangle of record `j` at the end. -/
theorem rects_final (ok : P.Ok) {I : Nat → Prop} (hI : ∀ c j, P.up c = some j → I j → I c)
    (hown : ∀ c, c < P.N → I c → RBox ex (own c) (· ∈ P.all c)) {j : Nat} (hj : j < P.N) (hIj : I j) :
    RBox ex (P.rects own P.N j) (· ∈ P.list j) := by
  rw [rects_done ok hj (Nat.le_refl _)]
  simp only [Plan.rects, if_true]
  rcases rects_part ok hI hown (t := j) (j := j) (Nat.le_of_lt hj) (Nat.le_refl _) hIj with ⟨e1, e2⟩ | hB
  · rw [e2, append_zero]
    exact BBox.congr (hown j hj hIj) (fun p => by simp [Plan.list, e1])
  · exact BBox.congr (append_rbox hB (hown j hj hIj)) (fun p => by
      simp only [Plan.list, List.mem_flatMap, List.mem_append, List.mem_singleton]
      constructor
      · rintro (⟨c, hc, hp⟩ | hp)
        · exact ⟨c, .inl hc, hp⟩
        · exact ⟨j, .inr rfl, hp⟩
      · rintro ⟨c, hc | rfl, hp⟩
        · exact .inl ⟨c, hc, hp⟩
        · exact .inr hp)

end Verif.Extract
