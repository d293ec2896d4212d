import Verif.Model.Ownership
import Mathlib.Data.List.Nodup
import Mathlib.Data.List.Forall2

/-!
# Results whose regions own their points are copied, assigned and destroyed without interference
-/

namespace Verif.Ownership

/-- Nothing was allocated from `next` on. -/
def Fresh (h : Heap) : Prop := ∀ b, h.next ≤ b → h.blocks b = none

/-- The block a region owns. -/
def own (r : Reg) : Option Nat := r.points.map Prod.fst

/-- Region `r` owns its points and shows `v`. -/
def Holds (h : Heap) (r : Reg) (v : Val) : Prop :=
  r.self = true ∧ r.tag = v.1 ∧ r.size = v.2.length ∧
    ((r.points = none ∧ v.2 = []) ∨ ∃ b, r.points = some (b, 0) ∧ h.blocks b = some (Kind.new, v.2))

def owns (rs : List Reg) : List Nat := rs.filterMap own

theorem owns_cons (r : Reg) (rs : List Reg) : owns (r :: rs) = (own r).toList ++ owns rs := by
  unfold owns
  cases h : own r <;> simp [h]

/-- Everything alive afterwards was alive and is not in `D`, or is in `N`. -/
def Exact (h h' : Heap) (D N : List Nat) : Prop :=
  ∀ b, h'.blocks b ≠ none → (h.blocks b ≠ none ∧ b ∉ D) ∨ b ∈ N

theorem Exact.refl (h : Heap) : Exact h h [] [] := fun _ hb => Or.inl ⟨hb, by simp⟩

theorem Exact.trans {h h1 h2 : Heap} {D D' N N' : List Nat} (a : Exact h h1 D N) (b : Exact h1 h2 D' N') :
    Exact h h2 (D ++ D') (N ++ N') := by
  intro c hc
  rcases b c hc with ⟨h1, h2⟩ | h1
  · rcases a c h1 with ⟨h3, h4⟩ | h3
    · exact Or.inl ⟨h3, by simp [h2, h4]⟩
    · exact Or.inr (by simp [h3])
  · exact Or.inr (by simp [h1])

theorem Exact.mono {h h' : Heap} {D N D' N' : List Nat} (a : Exact h h' D N) (h1 : ∀ b ∈ D', b ∈ D) (h2 : ∀ b ∈ N, b ∈ N') :
    Exact h h' D' N' := by
  intro c hc
  rcases a c hc with ⟨h3, h4⟩ | h3
  · exact Or.inl ⟨h3, fun h => h4 (h1 c h)⟩
  · exact Or.inr (h2 c h3)

theorem Exact.alloc (h : Heap) (k : Kind) (d : List Pt) : Exact h (h.alloc k d) [] [h.next] := by
  intro b hb
  by_cases hn : b = h.next
  · exact Or.inr (by simp [hn])
  · simp only [Heap.alloc, Heap.set, hn, if_false] at hb
    exact Or.inl ⟨hb, by simp⟩

theorem Exact.free (h : Heap) (c : Nat) : Exact h (h.set c none) [c] [] := by
  intro b hb
  by_cases hn : b = c
  · simp [Heap.set, hn] at hb
  · simp only [Heap.set, hn, if_false] at hb
    exact Or.inl ⟨hb, by simpa using hn⟩

/-- A step from `h` to `h'` that releases the blocks in `D`, touches no other old block, and leaves `N` as newly owned
blocks. -/
def Step (h h' : Heap) (D N : List Nat) : Prop :=
  h.next ≤ h'.next ∧ Fresh h' ∧ (∀ b, b < h.next → b ∉ D → h'.blocks b = h.blocks b) ∧
    (∀ b, b ∈ N → h.next ≤ b ∧ b < h'.next) ∧ Exact h h' D N

theorem Holds.lt {h : Heap} {r : Reg} {v : Val} (hf : Fresh h) (H : Holds h r v) {b : Nat} (hb : b ∈ own r) :
    b < h.next := by
  obtain ⟨-, -, -, H | ⟨c, hc, hl⟩⟩ := H
  · simp [own, H.1] at hb
  · simp [own, hc] at hb
    subst hb
    by_contra hn
    rw [hf _ (by omega)] at hl
    exact absurd hl (by simp)

theorem Holds.frame {h h' : Heap} {r : Reg} {v : Val} (H : Holds h r v)
    (hf : ∀ b ∈ own r, h'.blocks b = h.blocks b) : Holds h' r v := by
  obtain ⟨h1, h2, h3, H | ⟨c, hc, hl⟩⟩ := H
  · exact ⟨h1, h2, h3, Or.inl H⟩
  · exact ⟨h1, h2, h3, Or.inr ⟨c, hc, by rw [hf c (by simp [own, hc]), hl]⟩⟩

theorem Holds.read {h : Heap} {r : Reg} {v : Val} (H : Holds h r v) : readReg h r = some v := by
  obtain ⟨-, h2, h3, H | ⟨c, hc, hl⟩⟩ := H
  · simp [readReg, Heap.read, h3, H.2, h2]
    rw [← H.2]
  · by_cases h0 : r.size = 0
    · have : v.2 = [] := List.length_eq_zero_iff.1 (by omega)
      simp [readReg, Heap.read, h0, h2]
      rw [← this]
    · have : v.2 ≠ [] := fun h => h0 (by rw [h3, h]; rfl)
      simp [readReg, Heap.read, hc, hl, h3, h2, this]

theorem alloc_step {h : Heap} (hf : Fresh h) (k : Kind) (d : List Pt) : Step h (h.alloc k d) [] [h.next] := by
  refine ⟨Nat.le_succ _, ?_, ?_, ?_, Exact.alloc _ _ _⟩
  · intro b hb
    have : h.next + 1 ≤ b := hb
    have h1 : ¬ b = h.next := by omega
    simp only [Heap.alloc, Heap.set, h1, if_false]
    exact hf b (by omega)
  · intro b hb _
    have h1 : ¬ b = h.next := by omega
    simp only [Heap.alloc, Heap.set, h1, if_false]
  · intro b hb
    simp at hb
    subst hb
    exact ⟨Nat.le_refl _, Nat.lt_succ_self _⟩

theorem alloc_blocks (h : Heap) (k : Kind) (d : List Pt) : (h.alloc k d).blocks h.next = some (k, d) := by
  simp [Heap.alloc, Heap.set]

/-- Releasing what a region owns. -/
theorem release_step {h : Heap} {r : Reg} {v : Val} (hf : Fresh h) (H : Holds h r v) :
    ∃ h', h.release .new r.points = some h' ∧ Step h h' (own r).toList [] ∧ h'.next = h.next := by
  have hlt := fun b (hb : b ∈ own r) => H.lt hf hb
  obtain ⟨-, -, -, H | ⟨c, hc, hl⟩⟩ := H
  · refine ⟨h, by simp [Heap.release, H.1], ⟨Nat.le_refl _, hf, fun _ _ _ => rfl, by simp, ?_⟩, rfl⟩
    simpa [own, H.1] using Exact.refl h
  · refine ⟨h.set c none, by simp [Heap.release, hc, hl], ⟨Nat.le_refl _, ?_, ?_, by simp, ?_⟩, rfl⟩
    · intro b hb
      simp only [Heap.set]
      split
      · rfl
      · exact hf b hb
    · intro b _ hb
      have : ¬ b = c := by
        intro he
        exact hb (by simp [own, hc, he])
      simp only [Heap.set, this, if_false]
    · simpa [own, hc] using Exact.free h c

/-- Assigning regions with their own points. -/
theorem assignReg_step {h : Heap} {d s : Reg} {v : Val} (hf : Fresh h)
    (hd : ∃ h', h.release .new d.points = some h' ∧ Step h h' (own d).toList [] ∧ h'.next = h.next) (hs : Holds h s v)
    (hds : ∀ b ∈ own s, b ∉ (own d).toList) :
    ∃ h' r, assignReg h d s = some (h', r) ∧ Holds h' r v ∧ Step h h' (own d).toList (own r).toList := by
  obtain ⟨h1, he, hst, hn⟩ := hd
  have hs1 : Holds h1 s v := hs.frame fun b hb => hst.2.2.1 b (hs.lt hf hb) (hds b hb)
  have hself : s.self = true := hs.1
  by_cases h0 : 0 < s.size
  · have hr : h1.read s.points s.size = some v.2 := by
      have := hs1.read
      unfold readReg at this
      cases hx : h1.read s.points s.size with
      | none => simp [hx] at this
      | some l =>
        simp [hx] at this
        rw [← this]
    refine ⟨h1.alloc .new v.2, { s with points := some (h1.next, 0) }, ?_, ?_, ?_⟩
    · simp [assignReg, hself, he, h0, hr]
    · exact ⟨hself, hs.2.1, hs.2.2.1, Or.inr ⟨_, rfl, alloc_blocks _ _ _⟩⟩
    · have ha := alloc_step hst.2.1 .new v.2
      refine ⟨by have := ha.1; omega, ha.2.1, ?_, ?_, (hst.2.2.2.2.trans ha.2.2.2.2).mono (by simp) (by simp [own])⟩
      · intro b hb hb'
        rw [ha.2.2.1 b (by omega) (by simp), hst.2.2.1 b hb hb']
      · intro b hb
        simp [own] at hb
        subst hb
        have := ha.2.2.2.1 h1.next (by simp)
        omega
  · have hv : v.2 = [] := List.length_eq_zero_iff.1 (by have := hs.2.2.1; omega)
    refine ⟨h1, { s with points := none }, ?_, ?_, ?_⟩
    · simp [assignReg, hself, he, h0]
    · exact ⟨hself, hs.2.1, hs.2.2.1, Or.inl ⟨rfl, hv⟩⟩
    · exact ⟨hst.1, hst.2.1, hst.2.2.1, by simp [own], hst.2.2.2.2⟩

theorem copyReg_step {h : Heap} {s : Reg} {v : Val} (hf : Fresh h) (hs : Holds h s v) :
    ∃ h' r, copyReg h s = some (h', r) ∧ Holds h' r v ∧ Step h h' [] (own r).toList := by
  have := assignReg_step (d := { s with points := none }) hf
    ⟨h, rfl, ⟨Nat.le_refl _, hf, fun _ _ _ => rfl, by simp, Exact.refl h⟩, rfl⟩ hs (by simp [own])
  simpa [copyReg, own] using this

/-- A list of regions with their own points, all different. -/
def HoldsL (h : Heap) (rs : List Reg) (vs : List Val) : Prop := List.Forall₂ (Holds h) rs vs ∧ (owns rs).Nodup

theorem forall₂_lt {h : Heap} (hf : Fresh h) {rs : List Reg} {vs : List Val} (H : List.Forall₂ (Holds h) rs vs) :
    ∀ b ∈ owns rs, b < h.next := by
  induction H with
  | nil => simp [owns]
  | cons ha _ ih =>
    intro b hb
    rw [owns_cons, List.mem_append] at hb
    rcases hb with hb | hb
    · exact ha.lt hf (by simpa using hb)
    · exact ih b hb

theorem forall₂_frame {h h' : Heap} {rs : List Reg} {vs : List Val} (H : List.Forall₂ (Holds h) rs vs)
    (hf : ∀ b ∈ owns rs, h'.blocks b = h.blocks b) : List.Forall₂ (Holds h') rs vs := by
  induction H with
  | nil => exact List.Forall₂.nil
  | cons ha _ ih =>
    rename_i r v rs vs _
    refine List.Forall₂.cons (ha.frame fun b hb => hf b ?_) (ih fun b hb => hf b ?_)
    · rw [owns_cons]; exact List.mem_append_left _ (by simpa using hb)
    · rw [owns_cons]; exact List.mem_append_right _ hb

theorem HoldsL.frame {h h' : Heap} {rs : List Reg} {vs : List Val} (H : HoldsL h rs vs)
    (hf : ∀ b ∈ owns rs, h'.blocks b = h.blocks b) : HoldsL h' rs vs := ⟨forall₂_frame H.1 hf, H.2⟩

/-- A new region before new ones. -/
theorem cons_step {h h1 h2 : Heap} {r : Reg} {rs : List Reg} {v : Val} {vs : List Val} {D D' : List Nat}
    (hr : Holds h1 r v) (s1 : Step h h1 D (own r).toList) (hrs : HoldsL h2 rs vs) (s2 : Step h1 h2 D' (owns rs))
    (hD' : ∀ b ∈ D', b < h.next) :
    HoldsL h2 (r :: rs) (v :: vs) ∧ Step h h2 (D ++ D') (owns (r :: rs)) := by
  refine ⟨⟨List.Forall₂.cons (hr.frame fun b hb => ?_) hrs.1, ?_⟩, ?_, s2.2.1, ?_, ?_,
    (s1.2.2.2.2.trans s2.2.2.2.2).mono (fun _ h => h) (by rw [owns_cons]; exact fun _ h => h)⟩
  · have := s1.2.2.2.1 b (by simpa using hb)
    exact s2.2.2.1 b this.2 fun hb' => by have := hD' b hb'; omega
  · rw [owns_cons, List.nodup_append]
    refine ⟨?_, hrs.2, ?_⟩
    · cases own r <;> simp
    · intro a ha b hb hab
      have := s1.2.2.2.1 a ha
      have := s2.2.2.2.1 b hb
      omega
  · have := s1.1
    have := s2.1
    omega
  · intro b hb hn
    rw [List.mem_append, not_or] at hn
    rw [s2.2.2.1 b (by have := s1.1; omega) hn.2, s1.2.2.1 b hb hn.1]
  · intro b hb
    rw [owns_cons, List.mem_append] at hb
    have := s1.1
    have := s2.1
    rcases hb with hb | hb
    · have := s1.2.2.2.1 b hb
      omega
    · have := s2.2.2.2.1 b hb
      omega

theorem copyRegs_step : ∀ {ss : List Reg} {vs : List Val} {h : Heap}, Fresh h → List.Forall₂ (Holds h) ss vs →
    ∃ h' rs, copyRegs h ss = some (h', rs) ∧ HoldsL h' rs vs ∧ Step h h' [] (owns rs)
  | [], vs, h, hf, hs => by
    cases hs
    exact ⟨h, [], rfl, ⟨List.Forall₂.nil, by simp [owns]⟩, Nat.le_refl _, hf, fun _ _ _ => rfl, by simp [owns],
      by simpa [owns] using Exact.refl h⟩
  | s :: ss, vs, h, hf, hs => by
    cases hs with
    | cons ha hs =>
      obtain ⟨h1, r, e1, hr, s1⟩ := copyReg_step hf ha
      have hs1 := forall₂_frame (h' := h1) hs fun b hb => s1.2.2.1 b (forall₂_lt hf hs b hb) (by simp)
      obtain ⟨h2, rs, e2, hrs, s2⟩ := copyRegs_step s1.2.1 hs1
      have := cons_step hr s1 hrs s2 (by simp)
      exact ⟨h2, r :: rs, by simp [copyRegs, e1, e2], this.1, this.2⟩

theorem destroyRegs_step : ∀ {ds : List Reg} {vs : List Val} {h : Heap}, Fresh h → HoldsL h ds vs →
    ∃ h', destroyRegs h ds = some h' ∧ Step h h' (owns ds) [] ∧ h'.next = h.next
  | [], _, h, hf, _ => ⟨h, rfl, ⟨Nat.le_refl _, hf, fun _ _ _ => rfl, by simp, by simpa [owns] using Exact.refl h⟩, rfl⟩
  | d :: ds, vs, h, hf, hs => by
    obtain ⟨hs, hn⟩ := hs
    cases hs with
    | cons ha hs =>
      rename_i v vs
      rw [owns_cons, List.nodup_append] at hn
      obtain ⟨h1, e1, s1, n1⟩ := release_step hf ha
      have hs1 := forall₂_frame (h' := h1) hs fun b hb =>
        s1.2.2.1 b (forall₂_lt hf hs b hb) fun hb' => hn.2.2 b hb' b hb rfl
      obtain ⟨h2, e2, s2, n2⟩ := destroyRegs_step s1.2.1 ⟨hs1, hn.2.1⟩
      refine ⟨h2, by simp [destroyRegs, destroyReg, ha.1, e1, e2], ⟨by omega, s2.2.1, ?_, by simp,
        (s1.2.2.2.2.trans s2.2.2.2.2).mono (by rw [owns_cons]; exact fun _ h => h) (by simp)⟩, by omega⟩
      intro b hb hn'
      rw [owns_cons, List.mem_append, not_or] at hn'
      rw [s2.2.2.1 b (by omega) hn'.2, s1.2.2.1 b hb hn'.1]

theorem assignEach_step : ∀ {ds ss : List Reg} {ws vs : List Val} {h : Heap}, Fresh h → HoldsL h ds ws →
    List.Forall₂ (Holds h) ss vs → (∀ b ∈ owns ss, b ∉ owns ds) →
    ∃ h' rs, assignEach h ds ss = some (h', rs) ∧ HoldsL h' rs vs ∧ Step h h' (owns ds) (owns rs)
  | [], ss, ws, vs, h, hf, _, hs, _ => by
    simpa [assignEach, owns] using copyRegs_step hf hs
  | d :: ds, [], ws, vs, h, hf, hd, hs, _ => by
    cases hs
    obtain ⟨h1, e1, s1, -⟩ := destroyRegs_step hf hd
    exact ⟨h1, [], by simp [assignEach, e1], ⟨List.Forall₂.nil, by simp [owns]⟩, by simpa [owns] using s1⟩
  | d :: ds, s :: ss, ws, vs, h, hf, hd, hs, hdis => by
    obtain ⟨hd, hn⟩ := hd
    cases hs with
    | cons hs hss =>
      cases hd with
      | cons hd hds =>
        rw [owns_cons, List.nodup_append] at hn
        simp only [owns_cons, List.mem_append] at hdis
        obtain ⟨h1, r, e1, hr, s1⟩ := assignReg_step hf (release_step hf hd) hs
          fun b hb hb' => hdis b (Or.inl (by simpa using hb)) (Or.inl hb')
        have hds1 := forall₂_frame (h' := h1) hds fun b hb =>
          s1.2.2.1 b (forall₂_lt hf hds b hb) fun hb' => hn.2.2 b hb' b hb rfl
        have hss1 := forall₂_frame (h' := h1) hss fun b hb =>
          s1.2.2.1 b (forall₂_lt hf hss b hb) fun hb' => hdis b (Or.inr hb) (Or.inl hb')
        obtain ⟨h2, rs, e2, hrs, s2⟩ := assignEach_step s1.2.1 ⟨hds1, hn.2.1⟩ hss1
          fun b hb hb' => hdis b (Or.inr hb) (Or.inr hb')
        have := cons_step hr s1 hrs s2 (forall₂_lt hf hds)
        exact ⟨h2, r :: rs, by simp [assignEach, e1, e2], this.1, by rw [owns_cons d ds]; exact this.2⟩

theorem assignRegs_step {ds ss : List Reg} {ws vs : List Val} {h : Heap} {room : Bool} (hf : Fresh h)
    (hd : HoldsL h ds ws) (hs : List.Forall₂ (Holds h) ss vs) (hdis : ∀ b ∈ owns ss, b ∉ owns ds) :
    ∃ h' rs, assignRegs h room ds ss = some (h', rs) ∧ HoldsL h' rs vs ∧ Step h h' (owns ds) (owns rs) := by
  cases room with
  | true => simpa [assignRegs] using assignEach_step hf hd hs hdis
  | false =>
    obtain ⟨h1, rs, e1, hrs, s1⟩ := copyRegs_step hf hs
    have hlt := forall₂_lt hf hd.1
    have hd1 := hd.frame (h' := h1) fun b hb => s1.2.2.1 b (hlt b hb) (by simp)
    obtain ⟨h2, e2, s2, n2⟩ := destroyRegs_step s1.2.1 hd1
    refine ⟨h2, rs, by simp [assignRegs, e1, e2], hrs.frame fun b hb => ?_, ?_, s2.2.1, ?_, ?_,
      (s1.2.2.2.2.trans s2.2.2.2.2).mono (by simp) (by simp)⟩
    · have := s1.2.2.2.1 b hb
      exact s2.2.2.1 b this.2 fun hb' => by have := hlt b hb'; omega
    · have := s1.1
      omega
    · intro b hb hn
      rw [s2.2.2.1 b (by have := s1.1; omega) hn, s1.2.2.1 b hb (by simp)]
    · intro b hb
      have := s1.2.2.2.1 b hb
      omega

/-- The blocks of a result. -/
def ownsR (r : Res) : List Nat := owns r.regs0 ++ owns r.regs1

/-- A result whose regions own their points shows `v`. -/
def HoldsR (h : Heap) (r : Res) (v : List Val × List Val) : Prop :=
  List.Forall₂ (Holds h) r.regs0 v.1 ∧ List.Forall₂ (Holds h) r.regs1 v.2 ∧ (ownsR r).Nodup ∧
    r.mem0 = none ∧ r.mem1 = none ∧ r.size0 = 0 ∧ r.size1 = 0

theorem HoldsR.lt {h : Heap} {r : Res} {v : List Val × List Val} (hf : Fresh h) (H : HoldsR h r v) :
    ∀ b ∈ ownsR r, b < h.next := by
  intro b hb
  rcases List.mem_append.1 hb with hb | hb
  · exact forall₂_lt hf H.1 b hb
  · exact forall₂_lt hf H.2.1 b hb

theorem HoldsR.frame {h h' : Heap} {r : Res} {v : List Val × List Val} (H : HoldsR h r v)
    (hf : ∀ b ∈ ownsR r, h'.blocks b = h.blocks b) : HoldsR h' r v :=
  ⟨forall₂_frame H.1 fun b hb => hf b (List.mem_append_left _ hb),
    forall₂_frame H.2.1 fun b hb => hf b (List.mem_append_right _ hb), H.2.2⟩

theorem mapM_read {h : Heap} {rs : List Reg} {vs : List Val} (H : List.Forall₂ (Holds h) rs vs) :
    rs.mapM (readReg h) = some vs := by
  induction H with
  | nil => rfl
  | cons ha _ ih => simp [List.mapM_cons, ha.read, ih]

theorem HoldsR.read {h : Heap} {r : Res} {v : List Val × List Val} (H : HoldsR h r v) : readRes h r = some v := by
  simp [readRes, mapM_read H.1, mapM_read H.2.1]

/-- Two lists of new regions, the second after the first. -/
theorem pair_step {h h1 h2 : Heap} {rs0 rs1 : List Reg} {v0 v1 : List Val} {D D' : List Nat} (a : HoldsL h1 rs0 v0)
    (s1 : Step h h1 D (owns rs0)) (b : HoldsL h2 rs1 v1) (s2 : Step h1 h2 D' (owns rs1)) (hD' : ∀ b ∈ D', b < h.next) :
    HoldsR h2 ⟨rs0, rs1, none, none, 0, 0⟩ (v0, v1) ∧ Step h h2 (D ++ D') (owns rs0 ++ owns rs1) := by
  refine ⟨⟨forall₂_frame a.1 fun c hc => ?_, b.1, ?_, rfl, rfl, rfl, rfl⟩, ?_, s2.2.1, ?_, ?_,
    s1.2.2.2.2.trans s2.2.2.2.2⟩
  · have := s1.2.2.2.1 c hc
    exact s2.2.2.1 c this.2 fun hb' => by have := hD' c hb'; omega
  · unfold ownsR
    rw [List.nodup_append]
    refine ⟨a.2, b.2, ?_⟩
    intro x hx y hy hxy
    have := s1.2.2.2.1 x hx
    have := s2.2.2.2.1 y hy
    omega
  · have := s1.1
    have := s2.1
    omega
  · intro c hc hn
    rw [List.mem_append, not_or] at hn
    rw [s2.2.2.1 c (by have := s1.1; omega) hn.2, s1.2.2.1 c hc hn.1]
  · intro c hc
    have := s1.1
    have := s2.1
    rcases List.mem_append.1 hc with hc | hc
    · have := s1.2.2.2.1 c hc
      omega
    · have := s2.2.2.2.1 c hc
      omega

theorem assignRes_step {h : Heap} {d s : Res} {w v : List Val × List Val} {room0 room1 : Bool} (hf : Fresh h)
    (hd : HoldsR h d w) (hs : HoldsR h s v) (hdis : ∀ b ∈ ownsR s, b ∉ ownsR d) :
    ∃ h' r, assignRes h room0 room1 d s = some (h', r) ∧ HoldsR h' r v ∧ Step h h' (ownsR d) (ownsR r) := by
  have hdn := hd.2.2.1
  unfold ownsR at hdn hdis
  rw [List.nodup_append] at hdn
  simp only [List.mem_append] at hdis
  obtain ⟨h1, rs0, e1, a1, s1⟩ := assignRegs_step (room := room0) hf ⟨hd.1, hdn.1⟩ hs.1
    fun b hb hb' => hdis b (Or.inl hb) (Or.inl hb')
  have hd1 := forall₂_frame (h' := h1) hd.2.1 fun b hb =>
    s1.2.2.1 b (forall₂_lt hf hd.2.1 b hb) fun hb' => hdn.2.2 b hb' b hb rfl
  have hs1 := forall₂_frame (h' := h1) hs.2.1 fun b hb =>
    s1.2.2.1 b (forall₂_lt hf hs.2.1 b hb) fun hb' => hdis b (Or.inr hb) (Or.inl hb')
  obtain ⟨h2, rs1, e2, a2, s2⟩ := assignRegs_step (room := room1) s1.2.1 ⟨hd1, hdn.2.1⟩ hs1
    fun b hb hb' => hdis b (Or.inr hb) (Or.inr hb')
  have := pair_step a1 s1 a2 s2 (forall₂_lt hf hd.2.1)
  refine ⟨h2, ⟨rs0, rs1, none, none, 0, 0⟩, ?_, this.1, this.2⟩
  simp [assignRes, e1, e2, hd.2.2.2.1, hd.2.2.2.2.1, hs.2.2.2.2.2.1, hs.2.2.2.2.2.2, Heap.release, copyMem]

theorem copyRes_step {h : Heap} {s : Res} {v : List Val × List Val} (hf : Fresh h) (hs : HoldsR h s v) :
    ∃ h' r, copyRes h s = some (h', r) ∧ HoldsR h' r v ∧ Step h h' [] (ownsR r) :=
  assignRes_step (d := .empty) (w := ([], [])) hf
    ⟨List.Forall₂.nil, List.Forall₂.nil, by simp [ownsR, owns, Res.empty], rfl, rfl, rfl, rfl⟩ hs
    (by simp [ownsR, owns, Res.empty])

theorem destroyRes_step {h : Heap} {r : Res} {v : List Val × List Val} (hf : Fresh h) (hr : HoldsR h r v) :
    ∃ h', destroyRes h r = some h' ∧ Step h h' (ownsR r) [] := by
  have hn := hr.2.2.1
  unfold ownsR at hn
  rw [List.nodup_append] at hn
  obtain ⟨h1, e1, s1, n1⟩ := destroyRegs_step hf ⟨hr.2.1, hn.2.1⟩
  have h0 := forall₂_frame (h' := h1) hr.1 fun b hb =>
    s1.2.2.1 b (forall₂_lt hf hr.1 b hb) fun hb' => hn.2.2 b hb b hb' rfl
  obtain ⟨h2, e2, s2, n2⟩ := destroyRegs_step s1.2.1 ⟨h0, hn.1⟩
  refine ⟨h2, by simp [destroyRes, hr.2.2.2.1, hr.2.2.2.2.1, Heap.release, e1, e2], by omega, s2.2.1, ?_, by simp,
    (s1.2.2.2.2.trans s2.2.2.2.2).mono (by simp only [ownsR, List.mem_append]; tauto) (by simp)⟩
  intro b hb hn'
  unfold ownsR at hn'
  rw [List.mem_append, not_or] at hn'
  rw [s2.2.2.1 b (by omega) hn'.1, s1.2.2.1 b hb hn'.2]

theorem makeOwn_step : ∀ {vs : List Val} {h : Heap}, Fresh h →
    HoldsL (makeOwn h vs).1 (makeOwn h vs).2 vs ∧ Step h (makeOwn h vs).1 [] (owns (makeOwn h vs).2)
  | [], h, hf => ⟨⟨List.Forall₂.nil, by simp [owns, makeOwn]⟩, Nat.le_refl _, hf, fun _ _ _ => rfl,
      by simp [owns, makeOwn], by simpa [owns, makeOwn] using Exact.refl h⟩
  | v :: vs, h, hf => by
    have s1 := alloc_step hf .new v.2
    obtain ⟨a2, s2⟩ := makeOwn_step (vs := vs) s1.2.1
    have hr : Holds (h.alloc .new v.2) ⟨true, v.1, v.2.length, some (h.next, 0)⟩ v :=
      ⟨rfl, rfl, rfl, Or.inr ⟨h.next, rfl, alloc_blocks _ _ _⟩⟩
    exact cons_step hr s1 a2 s2 (by simp)

/-- The regions `rs` lie in the common memory `mem` and show `vs`. -/
def HoldsM (h : Heap) (rs : List Reg) (mem : Option (Nat × Nat)) (vs : List Val) : Prop :=
  ∃ b : Option Nat, mem = b.map (fun c => (c, 0)) ∧ rs = inBlock b 0 vs ∧
    (b = none → (vs.map Prod.snd).flatten = []) ∧ ∀ c, b = some c → h.blocks c = some (.malloc, (vs.map Prod.snd).flatten)

/-- The blocks of the common memory. -/
def memOf (p : Option (Nat × Nat)) : List Nat := (p.map Prod.fst).toList

theorem HoldsM.frame {h h' : Heap} {rs : List Reg} {mem : Option (Nat × Nat)} {vs : List Val} (H : HoldsM h rs mem vs)
    (hf : ∀ b ∈ memOf mem, h'.blocks b = h.blocks b) : HoldsM h' rs mem vs := by
  obtain ⟨b, h1, h2, h3, h4⟩ := H
  refine ⟨b, h1, h2, h3, fun c hc => ?_⟩
  rw [hf c (by simp [memOf, h1, hc]), h4 c hc]

theorem HoldsM.lt {h : Heap} {rs : List Reg} {mem : Option (Nat × Nat)} {vs : List Val} (hf : Fresh h)
    (H : HoldsM h rs mem vs) : ∀ b ∈ memOf mem, b < h.next := by
  obtain ⟨b, h1, h2, h3, h4⟩ := H
  intro c hc
  cases b with
  | none => simp [memOf, h1] at hc
  | some c' =>
    simp [memOf, h1] at hc
    subst hc
    by_contra hn
    have := h4 c rfl
    rw [hf c (by omega)] at this
    exact absurd this (by simp)

theorem read_inBlock {h : Heap} {c : Nat} : ∀ {vs : List Val} {pre : List Pt},
    h.blocks c = some (.malloc, pre ++ (vs.map Prod.snd).flatten) →
    (inBlock (some c) pre.length vs).mapM (readReg h) = some vs
  | [], _, _ => rfl
  | v :: vs, pre, hb => by
    have ih := read_inBlock (vs := vs) (pre := pre ++ v.2) (by simpa using hb)
    rw [List.length_append] at ih
    have hr : h.read (some (c, pre.length)) v.2.length = some v.2 := by
      unfold Heap.read
      split
      · rename_i h0
        rw [List.length_eq_zero_iff] at h0
        rw [h0]
      · simp only [hb]
        rw [if_pos (by simp)]
        simp
    simp [inBlock, List.mapM_cons, readReg, hr, ih]

theorem read_null {h : Heap} : ∀ {vs : List Val} {o : Nat}, (vs.map Prod.snd).flatten = [] →
    (inBlock none o vs).mapM (readReg h) = some vs
  | [], _, _ => rfl
  | v :: vs, o, hb => by
    simp only [List.map_cons, List.flatten_cons, List.append_eq_nil_iff] at hb
    have ih := read_null (h := h) (vs := vs) (o := o + v.2.length) hb.2
    obtain ⟨t, l⟩ := v
    dsimp only at hb ih
    obtain rfl := hb.1
    simp at ih
    simp [inBlock, List.mapM_cons, readReg, Heap.read, ih]

theorem HoldsM.read {h : Heap} {rs : List Reg} {mem : Option (Nat × Nat)} {vs : List Val} (H : HoldsM h rs mem vs) :
    rs.mapM (readReg h) = some vs := by
  obtain ⟨b, h1, h2, h3, h4⟩ := H
  cases b with
  | none => rw [h2]; exact read_null (h3 rfl)
  | some c => rw [h2]; exact read_inBlock (pre := []) (h4 c rfl)

theorem HoldsM.destroy {h : Heap} : ∀ {b : Option Nat} {o : Nat} {vs : List Val}, destroyRegs h (inBlock b o vs) = some h
  | _, _, [] => rfl
  | b, o, v :: vs => by
    simp only [inBlock, destroyRegs, destroyReg, Bool.false_eq_true, if_false, Option.bind_some]
    exact HoldsM.destroy

/-- Releasing common memory as `free` does. -/
theorem HoldsM.release {h : Heap} {rs : List Reg} {mem : Option (Nat × Nat)} {vs : List Val} (hf : Fresh h)
    (H : HoldsM h rs mem vs) : ∃ h', h.release .malloc mem = some h' ∧ Step h h' (memOf mem) [] ∧ h'.next = h.next := by
  obtain ⟨b, h1, h2, h3, h4⟩ := H
  cases b with
  | none => exact ⟨h, by simp [h1, Heap.release], ⟨Nat.le_refl _, hf, fun _ _ _ => rfl, by simp,
      by simpa [memOf, h1] using Exact.refl h⟩, rfl⟩
  | some c =>
    refine ⟨h.set c none, by simp [Heap.release, h1, h4 c rfl], ⟨Nat.le_refl _, ?_, ?_, by simp,
      by simpa [memOf, h1] using Exact.free h c⟩, rfl⟩
    · intro b hb
      simp only [Heap.set]
      split
      · rfl
      · exact hf b hb
    · intro b _ hb
      have : ¬ b = c := fun he => hb (by simp [memOf, h1, he])
      simp only [Heap.set, this, if_false]

theorem makeShared_step {h : Heap} (hf : Fresh h) (vs : List Val) :
    HoldsM (makeShared h vs).1 (makeShared h vs).2.1 (makeShared h vs).2.2.1 vs ∧
      Step h (makeShared h vs).1 [] (memOf (makeShared h vs).2.2.1) := by
  unfold makeShared
  by_cases hd : (vs.map Prod.snd).flatten = []
  · simp only [hd, if_true]
    exact ⟨⟨none, rfl, rfl, fun _ => hd, by simp⟩, Nat.le_refl _, hf, fun _ _ _ => rfl, by simp [memOf],
      by simpa [memOf] using Exact.refl h⟩
  · simp only [hd, if_false]
    refine ⟨⟨some h.next, rfl, rfl, by simp, ?_⟩, alloc_step hf _ _⟩
    intro c hc
    obtain rfl : h.next = c := by simpa using hc
    exact alloc_blocks _ _ _

/-- The blocks of a result with common memory. -/
def ownsS (r : Res) : List Nat := memOf r.mem0 ++ memOf r.mem1

/-- A result with common memory shows `v`. -/
def HoldsS (h : Heap) (r : Res) (v : List Val × List Val) : Prop :=
  HoldsM h r.regs0 r.mem0 v.1 ∧ HoldsM h r.regs1 r.mem1 v.2 ∧ (ownsS r).Nodup

theorem HoldsS.lt {h : Heap} {r : Res} {v : List Val × List Val} (hf : Fresh h) (H : HoldsS h r v) :
    ∀ b ∈ ownsS r, b < h.next := by
  intro b hb
  rcases List.mem_append.1 hb with hb | hb
  · exact H.1.lt hf b hb
  · exact H.2.1.lt hf b hb

theorem HoldsS.frame {h h' : Heap} {r : Res} {v : List Val × List Val} (H : HoldsS h r v)
    (hf : ∀ b ∈ ownsS r, h'.blocks b = h.blocks b) : HoldsS h' r v :=
  ⟨H.1.frame fun b hb => hf b (List.mem_append_left _ hb), H.2.1.frame fun b hb => hf b (List.mem_append_right _ hb), H.2.2⟩

theorem HoldsS.read {h : Heap} {r : Res} {v : List Val × List Val} (H : HoldsS h r v) : readRes h r = some v := by
  simp [readRes, H.1.read, H.2.1.read]

theorem HoldsS.destroy {h : Heap} {r : Res} {v : List Val × List Val} (hf : Fresh h) (H : HoldsS h r v) :
    ∃ h', destroyRes h r = some h' ∧ Step h h' (ownsS r) [] := by
  have hn := H.2.2
  unfold ownsS at hn
  rw [List.nodup_append] at hn
  obtain ⟨h1, e1, s1, n1⟩ := H.1.release hf
  have H1 := H.2.1.frame (h' := h1) fun b hb =>
    s1.2.2.1 b (H.2.1.lt hf b hb) fun hb' => hn.2.2 b hb' b hb rfl
  obtain ⟨h2, e2, s2, n2⟩ := H1.release s1.2.1
  obtain ⟨b0, -, r0, -⟩ := H.1
  obtain ⟨b1, -, r1, -⟩ := H.2.1
  refine ⟨h2, by simp [destroyRes, e1, e2, r0, r1, HoldsM.destroy], by omega, s2.2.1, ?_, by simp,
    s1.2.2.2.2.trans s2.2.2.2.2⟩
  intro b hb hn'
  unfold ownsS at hn'
  rw [List.mem_append, not_or] at hn'
  rw [s2.2.2.1 b (by omega) hn'.2, s1.2.2.1 b hb hn'.1]

theorem pairS_step {h h1 h2 : Heap} {rs0 rs1 : List Reg} {m0 m1 : Option (Nat × Nat)} {n0 n1 : Nat} {v0 v1 : List Val}
    (a : HoldsM h1 rs0 m0 v0) (s1 : Step h h1 [] (memOf m0)) (b : HoldsM h2 rs1 m1 v1) (s2 : Step h1 h2 [] (memOf m1)) :
    HoldsS h2 ⟨rs0, rs1, m0, m1, n0, n1⟩ (v0, v1) ∧ Step h h2 [] (memOf m0 ++ memOf m1) := by
  refine ⟨⟨a.frame fun c hc => s2.2.2.1 c (s1.2.2.2.1 c hc).2 (by simp), b, ?_⟩, ?_, s2.2.1, ?_, ?_,
    s1.2.2.2.2.trans s2.2.2.2.2⟩
  · unfold ownsS
    rw [List.nodup_append]
    refine ⟨by cases m0 <;> simp [memOf], by cases m1 <;> simp [memOf], ?_⟩
    intro x hx y hy hxy
    have := s1.2.2.2.1 x hx
    have := s2.2.2.2.1 y hy
    omega
  · have := s1.1
    have := s2.1
    omega
  · intro c hc hn
    rw [s2.2.2.1 c (by have := s1.1; omega) hn, s1.2.2.1 c hc hn]
  · intro c hc
    have := s1.1
    have := s2.1
    rcases List.mem_append.1 hc with hc | hc
    · have := s1.2.2.2.1 c hc
      omega
    · have := s2.2.2.2.1 c hc
      omega

/-- Two steps after each other, the first of which leaves nothing. -/
theorem Step.seq {h h1 h2 : Heap} {D N : List Nat} (a : Step h h1 D []) (b : Step h1 h2 [] N) : Step h h2 D N := by
  refine ⟨?_, b.2.1, ?_, ?_, (a.2.2.2.2.trans b.2.2.2.2).mono (by simp) (by simp)⟩
  · have := a.1
    have := b.1
    omega
  · intro c hc hn
    rw [b.2.2.1 c (by have := a.1; omega) (by simp), a.2.2.1 c hc hn]
  · intro c hc
    have := b.2.2.2.1 c hc
    have := a.1
    omega

end Verif.Ownership
