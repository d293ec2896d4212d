import Verif.Proof.ListsV1Inv

/-!
# Fast MSER V1: completing a region keeps the invariant on point lists
-/

namespace Verif.V1

open Function (update)
open Relation (ReflTransGen)
open Verif.Spec (Linked)

variable {flag : Nat → Bool} {cx cy : Nat → Nat} {base : Nat} {pix lab : Nat → Nat} {L : Nat → List Nat}
  {cs : List Comp} {regs : Nat → Reg} {nreg : Nat} {pts : Nat → Point} {npts : Nat} {c d : Comp}

/-- Changing data of the region of a component. -/
theorem LI.data (h : LI flag cx cy base pix lab L cs regs nreg pts npts) (hc : c ∈ cs) {R : Reg}
    (hp : R.parent = none) (hb : R.boundary = (regs c.region).boundary) :
    LI flag cx cy base pix lab L cs (update regs c.region R) nreg pts npts := by
  have hcr := (h.cs_lt c hc).2
  have hpar : ∀ a, (update regs c.region R a).parent = (regs a).parent := by
    intro a
    by_cases e : a = c.region
    · subst e; simp [hp, hcr]
    · rw [Function.update_of_ne e]
  have hanc : Anc (fun a => (update regs c.region R a).parent) = Anc (fun a => (regs a).parent) := by
    congr 1; funext a; exact hpar a
  refine ⟨h.base_le, ?_, h.lab_lt, ?_, h.cs_ne, h.xy, ?_, h.nodup, h.links, h.comp, ?_, ?_, ?_⟩
  · intro r hr r' hp; rw [hpar] at hp; exact h.par_lt r hr r' hp
  · intro e he; rw [hpar]; exact h.cs_lt e he
  · rw [hanc]; exact h.mem
  · intro r hr
    by_cases e : r = c.region
    · subst e; rw [Function.update_self, hb]; exact h.bnd _ hr
    · rw [Function.update_of_ne e]; exact h.bnd _ hr
  · intro r hr hp
    rw [hpar] at hp
    have e : r ≠ c.region := by rintro rfl; exact hp hcr
    rw [Function.update_of_ne e]; exact h.fin r hr hp
  · intro r hr r' hp; rw [hpar] at hp; exact h.sub r hr r' hp

/-- The level of the top component is complete. -/
theorem LI.store (h : LI flag cx cy base pix lab L (c :: cs) regs nreg pts npts)
    (ho : ∀ a, (L c.region).head? = some a → lab (pix a) = c.region) (hs : 0 < c.size) :
    LI flag cx cy base pix lab L (c :: cs) (store c regs) nreg pts npts ∧
      RegOK pts (fun p => lab (pix p)) (L c.region) c.region (store c regs c.region) := by
  have hc := h.comp c (by simp)
  have hne : L c.region ≠ [] := by intro e; rw [hc.size, e] at hs; simp at hs
  refine ⟨h.data (by simp) (h.cs_lt c (by simp)).2 rfl, ⟨hne, ?_, ?_, ?_, ?_, ?_, ho⟩⟩
  · simp only [V1.store, Function.update_self]; exact hc.head hne
  · simp only [V1.store, Function.update_self]; exact hc.tail hne
  · simp only [V1.store, Function.update_self]; exact hc.size
  · simp only [V1.store, Function.update_self]; exact hc.size
  · simp only [V1.store, Function.update_self]; exact hc.rect hne

/-- A new region takes over the component. -/
theorem LI.raise (h : LI flag cx cy base pix lab L (c :: cs) regs nreg pts npts) (l : Nat)
    (hR : RegOK pts (fun p => lab (pix p)) (L c.region) c.region (regs c.region)) :
    LI flag cx cy base pix lab (update L nreg (L c.region)) ((V1.raise l c regs nreg).1 :: cs)
      (V1.raise l c regs nreg).2.1 (nreg + 1) pts npts := by
  obtain ⟨hcl, hcr⟩ := h.cs_lt c (by simp)
  have hc := h.comp c (by simp)
  simp only [V1.raise]
  generalize hn : update (update regs c.region { regs c.region with parent := some nreg }) nreg
     { initReg l with boundary := (regs c.region).boundary } = regs'
  have e1 : c.region ≠ nreg := by omega
  have rn : regs' nreg = { initReg l with boundary := (regs c.region).boundary } := by rw [← hn]; simp
  have rc : regs' c.region = { regs c.region with parent := some nreg } := by
    rw [← hn, Function.update_of_ne e1, Function.update_self]
  have ro : ∀ a, a ≠ nreg → a ≠ c.region → regs' a = regs a := by
    intro a h1 h2; rw [← hn, Function.update_of_ne h1, Function.update_of_ne h2]
  have hanc : ∀ {a r : Nat}, a < nreg → (Anc (fun a => (regs' a).parent) a r ↔
      Anc (fun a => (regs a).parent) a r ∨ (Anc (fun a => (regs a).parent) a c.region ∧ r = nreg)) := by
    intro a r ha
    refine Anc.link (n := nreg) h.par_lt hcr ?_ (by rw [rc]) (by rw [rn]; rfl) ha
    intro x hx hxc
    rw [ro x (by omega) hxc]
  refine ⟨h.base_le, ?_, ?_, ?_, ?_, h.xy, ?_, ?_, ?_, ?_, ?_, ?_, ?_⟩
  · intro r hr r' hp
    by_cases e : r = nreg
    · subst e; rw [rn] at hp; simp [initReg] at hp
    · by_cases e' : r = c.region
      · subst e'; rw [rc] at hp; simp at hp; omega
      · rw [ro r e e'] at hp; have := h.par_lt r (by omega) r' hp; omega
  · intro p h1 h2; have := h.lab_lt p h1 h2; omega
  · intro e he
    rcases List.mem_cons.1 he with rfl | he
    · simp only; rw [rn]; exact ⟨by omega, rfl⟩
    · have := h.cs_lt e (List.mem_cons_of_mem _ he)
      have hne : e.region ≠ c.region := fun e' => (List.pairwise_cons.1 h.cs_ne).1 e he e'.symm
      rw [ro _ (by omega) hne]; exact ⟨by omega, this.2⟩
  · have := h.cs_ne
    rw [List.pairwise_cons] at this ⊢
    refine ⟨fun e he => ?_, this.2⟩
    have := (h.cs_lt e (List.mem_cons_of_mem _ he)).1
    simp only; omega
  · intro r hr p
    by_cases e : r = nreg
    · subst e
      rw [Function.update_self, h.mem _ hcl]
      constructor
      · rintro ⟨h1, h2, h3⟩; exact ⟨h1, h2, (hanc (h.lab_lt p h1 h2)).2 (.inr ⟨h3, rfl⟩)⟩
      · rintro ⟨h1, h2, h3⟩
        have hl := h.lab_lt p h1 h2
        rcases (hanc hl).1 h3 with h4 | h4
        · have := Anc.lt h.par_lt hl h4; omega
        · exact ⟨h1, h2, h4.1⟩
    · rw [Function.update_of_ne e, h.mem r (by omega)]
      constructor
      · rintro ⟨h1, h2, h3⟩; exact ⟨h1, h2, (hanc (h.lab_lt p h1 h2)).2 (.inl h3)⟩
      · rintro ⟨h1, h2, h3⟩
        rcases (hanc (h.lab_lt p h1 h2)).1 h3 with h4 | h4
        · exact ⟨h1, h2, h4⟩
        · exact absurd h4.2 e
  · intro r hr
    by_cases e : r = nreg
    · subst e; rw [Function.update_self]; exact h.nodup _ hcl
    · rw [Function.update_of_ne e]; exact h.nodup _ (by omega)
  · intro r hr
    by_cases e : r = nreg
    · subst e; rw [Function.update_self]; exact h.links _ hcl
    · rw [Function.update_of_ne e]; exact h.links _ (by omega)
  · intro e he
    rcases List.mem_cons.1 he with rfl | he
    · simp only; rw [Function.update_self]
      exact ⟨hc.size, hc.head, hc.tail, hc.first, hc.final, hc.rect⟩
    · have := (h.cs_lt e (List.mem_cons_of_mem _ he)).1
      rw [Function.update_of_ne (by omega)]; exact h.comp e (List.mem_cons_of_mem _ he)
  · intro r hr
    by_cases e : r = nreg
    · subst e; rw [Function.update_self, rn]; exact h.bnd _ hcl
    · rw [Function.update_of_ne e]
      by_cases e' : r = c.region
      · subst e'; rw [rc]; exact h.bnd _ hcl
      · rw [ro r e e']; exact h.bnd r (by omega)
  · intro r hr hp
    by_cases e : r = nreg
    · subst e; rw [rn] at hp; simp [initReg] at hp
    · rw [Function.update_of_ne e]
      by_cases e' : r = c.region
      · subst e'; rw [rc]
        exact ⟨hR.ne, hR.head, hR.tail, hR.size, hR.unmerged, hR.rect, hR.own⟩
      · rw [ro r e e'] at hp ⊢; exact h.fin r (by omega) hp
  · intro r hr r' hp
    by_cases e : r = nreg
    · subst e; rw [rn] at hp; simp [initReg] at hp
    · by_cases e' : r = c.region
      · subst e'; rw [rc] at hp; simp at hp; subst hp
        rw [Function.update_of_ne e, Function.update_self]
      · rw [ro r e e'] at hp
        have := h.par_lt r (by omega) r' hp
        rw [Function.update_of_ne e, Function.update_of_ne (by omega)]; exact h.sub r (by omega) r' hp

/-- The top component is merged with the one below it. -/
theorem LI.merge (h : LI flag cx cy base pix lab L (c :: d :: cs) regs nreg pts npts)
    (hR : RegOK pts (fun p => lab (pix p)) (L c.region) c.region (regs c.region)) :
    ∃ d' regs' pts', mergeComp c d regs pts = some (d', regs', pts') ∧ d'.region = d.region ∧ d'.gray = d.gray ∧
      d'.size = d.size + c.size ∧
      (∀ r, (regs' r).gray = (regs r).gray ∧ (regs' r).size = (regs r).size ∧
        (regs' r).parent = if r = c.region then some d.region else (regs r).parent) ∧
      LI flag cx cy base pix lab (update L d.region (L d.region ++ L c.region)) (d' :: cs) regs' nreg pts' npts ∧
      (∀ p, p < base ∨ npts ≤ p → pts' p = pts p) := by
  obtain ⟨hcl, hcr⟩ := h.cs_lt c (by simp)
  obtain ⟨hdl, hdr⟩ := h.cs_lt d (by simp)
  have hcd : c.region ≠ d.region := (List.pairwise_cons.1 h.cs_ne).1 d (by simp)
  have hc := h.comp c (by simp)
  have hd := h.comp d (by simp)
  obtain ⟨a, hca⟩ : ∃ a, (L c.region).head? = some a := by
    cases e : L c.region with
    | nil => exact absurd e hR.ne
    | cons a l => exact ⟨a, rfl⟩
  have hch : c.head = some a := by rw [hc.head hR.ne, hca]
  have hacL := List.mem_of_mem_head? hca
  have hold : ∀ r < nreg, ∀ p ∈ L r, base ≤ p ∧ p < npts := fun r hr p hp => by
    have := (h.mem r hr p).1 hp; exact ⟨this.1, this.2.1⟩
  have hdis : ∀ p ∈ L d.region, p ∉ L c.region := by
    intro p h1 h2
    have h3 := ((h.mem _ hdl p).1 h1).2.2
    have h4 := ((h.mem _ hcl p).1 h2).2.2
    exact hcd (Anc.root_unique h4 h3 hcr hdr)
  have hfa := hc.first a hca
  -- the new regions
  obtain ⟨regs', hregs⟩ : ∃ regs', regs' = update (update regs c.region { regs c.region with parent := some d.region })
      d.region { (update regs c.region { regs c.region with parent := some d.region }) d.region with
        boundary := ((update regs c.region { regs c.region with parent := some d.region }) d.region).boundary ||
          ((update regs c.region { regs c.region with parent := some d.region }) c.region).boundary } := ⟨_, rfl⟩
  have rd : regs' d.region = { regs d.region with boundary := (regs d.region).boundary || (regs c.region).boundary } := by
    rw [hregs, Function.update_self, Function.update_of_ne (Ne.symm hcd), Function.update_self]
  have rc : regs' c.region = { regs c.region with parent := some d.region } := by
    rw [hregs, Function.update_of_ne hcd, Function.update_self]
  have ro : ∀ a, a ≠ d.region → a ≠ c.region → regs' a = regs a := by
    intro a h1 h2; rw [hregs, Function.update_of_ne h1, Function.update_of_ne h2]
  have hsame : ∀ r, (regs' r).gray = (regs r).gray ∧ (regs' r).size = (regs r).size ∧
        (regs' r).parent = if r = c.region then some d.region else (regs r).parent := by
    intro r
    by_cases e : r = d.region
    · subst e; rw [rd]; simp [Ne.symm hcd]
    · by_cases e' : r = c.region
      · subst e'; rw [rc]; simp
      · rw [ro r e e']; simp [e']
  have hanc : ∀ {a r : Nat}, a < nreg → (Anc (fun a => (regs' a).parent) a r ↔
      Anc (fun a => (regs a).parent) a r ∨ (Anc (fun a => (regs a).parent) a c.region ∧ r = d.region)) := by
    intro a r ha
    refine Anc.link (n := nreg) h.par_lt hcr ?_ (by rw [rc]) (by rw [rd]; exact hdr) ha
    intro x hx hxc
    rw [(hsame x).2.2, if_neg hxc]
  suffices key : ∀ (d' : Comp) (pts' : Nat → Point), d'.region = d.region →
      (∀ a b, (pts a).next = some b → (pts' a).next = some b) →
      (∀ a b, (pts a).prev = some b → (pts' a).prev = some b) →
      (∀ p, p ∉ L d.region → (pts' p).next = (pts p).next) →
      (∀ p, p ∉ L c.region → (pts' p).prev = (pts p).prev) →
      (∀ a, (pts' a).x = (pts a).x ∧ (pts' a).y = (pts a).y ∧ (pts' a).ref = (pts a).ref) →
      Linked (nx pts') (pv pts') (L d.region ++ L c.region) →
      CompOK pts' (L d.region ++ L c.region) d' →
      LI flag cx cy base pix lab (update L d.region (L d.region ++ L c.region)) (d' :: cs) regs' nreg pts' npts by
    by_cases hs : 0 < d.size
    · have hne : L d.region ≠ [] := by intro e; rw [hd.size, e] at hs; simp at hs
      obtain ⟨t, hdt⟩ : ∃ t, (L d.region).getLast? = some t := by
        cases e : (L d.region).getLast? with
        | none => rw [List.getLast?_eq_none_iff] at e; exact absurd e hne
        | some t => exact ⟨t, rfl⟩
      have htd : d.tail = some t := by rw [hd.tail hne, hdt]
      have htL := List.mem_of_getLast? hdt
      have hta : t ≠ a := fun e => hdis t htL (e ▸ hacL)
      have hnt := hd.final t hdt
      obtain ⟨pts', hpts⟩ : ∃ pts', pts' = update (update pts t { pts t with next := some a }) a
          { (update pts t { pts t with next := some a }) a with prev := some t } := ⟨_, rfl⟩
      have pa : pts' a = { pts a with prev := some t } := by
        rw [hpts, Function.update_self, Function.update_of_ne (Ne.symm hta)]
      have pt : pts' t = { pts t with next := some a } := by
        rw [hpts, Function.update_of_ne hta, Function.update_self]
      have po : ∀ p, p ≠ a → p ≠ t → pts' p = pts p := by
        intro p h1 h2; rw [hpts, Function.update_of_ne h1, Function.update_of_ne h2]
      have f1 : ∀ a b, (pts a).next = some b → (pts' a).next = some b := by
        intro x b hb
        by_cases e : x = t
        · subst e; rw [hnt] at hb; simp at hb
        · by_cases e' : x = a
          · subst e'; rw [pa]; exact hb
          · rw [po x e' e]; exact hb
      have f2 : ∀ a b, (pts a).prev = some b → (pts' a).prev = some b := by
        intro x b hb
        by_cases e : x = a
        · subst e; rw [hfa] at hb; simp at hb
        · by_cases e' : x = t
          · subst e'; rw [pt]; exact hb
          · rw [po x e e']; exact hb
      have f3 : ∀ a, (pts' a).x = (pts a).x ∧ (pts' a).y = (pts a).y ∧ (pts' a).ref = (pts a).ref := by
        intro x
        by_cases e : x = a
        · subst e; rw [pa]; exact ⟨rfl, rfl, rfl⟩
        · by_cases e' : x = t
          · subst e'; rw [pt]; exact ⟨rfl, rfl, rfl⟩
          · rw [po x e e']; exact ⟨rfl, rfl, rfl⟩
      refine ⟨{ d with tail := c.tail, rect := d.rect.join c.rect, size := d.size + c.size }, regs', pts', ?_,
        rfl, rfl, rfl, hsame, key _ _ rfl f1 f2 ?_ ?_ f3 ?_ ?_, ?_⟩
      · simp only [mergeComp, hs, if_true, htd, hch]; rw [hregs, hpts]
      · intro p hp
        have e : p ≠ t := fun e => hp (e ▸ htL)
        by_cases e' : p = a
        · subst e'; rw [pa]
        · rw [po p e' e]
      · intro p hp
        have e : p ≠ a := fun e => hp (e ▸ hacL)
        by_cases e' : p = t
        · subst e'; rw [pt]
        · rw [po p e e']
      · refine Linked.append (a := t) (b := a) ?_ ?_ hdt hca ?_ ?_
        · exact Linked.mono (fun a _ b hb => f1 a b hb) (fun a _ b hb => f2 a b hb) (h.links _ hdl)
        · exact Linked.mono (fun a _ b hb => f1 a b hb) (fun a _ b hb => f2 a b hb) (h.links _ hcl)
        · simp only [nx]; rw [pt]
        · simp only [pv]; rw [pa]
      · refine ⟨?_, fun _ => ?_, fun _ => ?_, ?_, ?_, fun _ => ?_⟩
        · simp [hd.size, hc.size]
        · simp only; rw [hd.head hne, List.head?_append_of_ne_nil _ hne]
        · simp only; rw [hc.tail hR.ne, List.getLast?_append_of_ne_nil _ hR.ne]
        · intro b hb
          rw [List.head?_append_of_ne_nil _ hne] at hb
          have hbd := List.mem_of_mem_head? hb
          have e : b ≠ a := fun e => hdis b hbd (e ▸ hacL)
          have := hd.first b hb
          by_cases e' : b = t
          · subst e'; rw [pt]; exact this
          · rw [po b e e']; exact this
        · intro b hb
          rw [List.getLast?_append_of_ne_nil _ hR.ne] at hb
          have hbc := List.mem_of_getLast? hb
          have e : b ≠ t := fun e => hdis t htL (e ▸ hbc)
          have := hc.final b hb
          by_cases e' : b = a
          · subst e'; rw [pa]; exact this
          · rw [po b e' e]; exact this
        · exact ((hd.rect hne).congr (fun a _ => ⟨(f3 a).1, (f3 a).2.1⟩)).join
            ((hc.rect hR.ne).congr (fun a _ => ⟨(f3 a).1, (f3 a).2.1⟩))
      · intro p hp
        have h1 := hold _ hcl a hacL
        have h2 := hold _ hdl t htL
        exact po p (by omega) (by omega)
    · have he : L d.region = [] := by
        have := hd.size; rw [← List.length_eq_zero_iff]; omega
      refine ⟨{ d with head := c.head, tail := c.tail, rect := c.rect, size := d.size + c.size }, regs', pts, ?_,
        rfl, rfl, rfl, hsame, key _ _ rfl (fun _ _ h => h) (fun _ _ h => h) (fun _ _ => rfl) (fun _ _ => rfl)
          (fun _ => ⟨rfl, rfl, rfl⟩) ?_ ?_, fun _ _ => rfl⟩
      · simp only [mergeComp, hs, if_false]; rw [hregs]
      · rw [he, List.nil_append]; exact h.links _ hcl
      · rw [he, List.nil_append]
        have hz : d.size = 0 := by omega
        exact ⟨by simp only; rw [hz, Nat.zero_add]; exact hc.size, hc.head, hc.tail, hc.first, hc.final, hc.rect⟩
  intro d' pts' hreg f1 f2 g1 g2 f3 hlk hck
  refine ⟨h.base_le, ?_, h.lab_lt, ?_, ?_, ?_, ?_, ?_, ?_, ?_, ?_, ?_, ?_⟩
  · intro r hr r' hp
    rw [(hsame r).2.2] at hp
    split at hp
    · simp at hp; omega
    · exact h.par_lt r hr r' hp
  · intro e he
    rcases List.mem_cons.1 he with rfl | he
    · rw [hreg, rd]; exact ⟨hdl, hdr⟩
    · have := h.cs_lt e (by simp [he])
      have hne : c.region ≠ e.region := (List.pairwise_cons.1 h.cs_ne).1 e (by simp [he])
      rw [(hsame _).2.2, if_neg (Ne.symm hne)]; exact this
  · have := (List.pairwise_cons.1 h.cs_ne).2
    rw [List.pairwise_cons] at this ⊢
    rw [hreg]; exact this
  · intro p h1 h2
    rw [(f3 p).1, (f3 p).2.1, (f3 p).2.2]; exact h.xy p h1 h2
  · intro r hr p
    by_cases e : r = d.region
    · subst e
      rw [Function.update_self, List.mem_append, h.mem _ hdl, h.mem _ hcl]
      constructor
      · rintro (⟨h1, h2, h3⟩ | ⟨h1, h2, h3⟩)
        · exact ⟨h1, h2, (hanc (h.lab_lt p h1 h2)).2 (.inl h3)⟩
        · exact ⟨h1, h2, (hanc (h.lab_lt p h1 h2)).2 (.inr ⟨h3, rfl⟩)⟩
      · rintro ⟨h1, h2, h3⟩
        rcases (hanc (h.lab_lt p h1 h2)).1 h3 with h4 | h4
        · exact .inl ⟨h1, h2, h4⟩
        · exact .inr ⟨h1, h2, h4.1⟩
    · rw [Function.update_of_ne e, h.mem r hr]
      constructor
      · rintro ⟨h1, h2, h3⟩; exact ⟨h1, h2, (hanc (h.lab_lt p h1 h2)).2 (.inl h3)⟩
      · rintro ⟨h1, h2, h3⟩
        rcases (hanc (h.lab_lt p h1 h2)).1 h3 with h4 | h4
        · exact ⟨h1, h2, h4⟩
        · exact absurd h4.2 e
  · intro r hr
    by_cases e : r = d.region
    · subst e; rw [Function.update_self, List.nodup_append]
      refine ⟨h.nodup _ hdl, h.nodup _ hcl, ?_⟩
      rintro x hx y hy rfl
      exact hdis x hx hy
    · rw [Function.update_of_ne e]; exact h.nodup _ hr
  · intro r hr
    by_cases e : r = d.region
    · subst e; rw [Function.update_self]; exact hlk
    · rw [Function.update_of_ne e]
      exact Linked.mono (fun a _ b hb => f1 a b hb) (fun a _ b hb => f2 a b hb) (h.links _ hr)
  · intro e he
    rcases List.mem_cons.1 he with rfl | he
    · rw [hreg, Function.update_self]; exact hck
    · have hel := h.cs_lt e (by simp [he])
      have hce := h.comp e (by simp [he])
      have n1 : c.region ≠ e.region := (List.pairwise_cons.1 h.cs_ne).1 e (by simp [he])
      have n2 : d.region ≠ e.region := (List.pairwise_cons.1 (List.pairwise_cons.1 h.cs_ne).2).1 e he
      have dis : ∀ x ∈ L e.region, x ∉ L c.region ∧ x ∉ L d.region := by
        intro x hx
        have h1 := ((h.mem _ hel.1 x).1 hx).2.2
        refine ⟨fun h2 => ?_, fun h2 => ?_⟩
        · exact n1 (Anc.root_unique ((h.mem _ hcl x).1 h2).2.2 h1 hcr hel.2)
        · exact n2 (Anc.root_unique ((h.mem _ hdl x).1 h2).2.2 h1 hdr hel.2)
      rw [Function.update_of_ne (Ne.symm n2)]
      refine ⟨hce.size, hce.head, hce.tail, ?_, ?_, fun hn => (hce.rect hn).congr (fun a _ => ⟨(f3 a).1, (f3 a).2.1⟩)⟩
      · intro x hx; rw [g2 x (dis x (List.mem_of_mem_head? hx)).1]; exact hce.first x hx
      · intro x hx; rw [g1 x (dis x (List.mem_of_getLast? hx)).2]; exact hce.final x hx
  · intro r hr
    by_cases e : r = d.region
    · subst e; rw [Function.update_self, rd, List.any_append, ← h.bnd _ hdl, ← h.bnd _ hcl]
    · rw [Function.update_of_ne e]
      by_cases e' : r = c.region
      · subst e'; rw [rc]; exact h.bnd _ hcl
      · rw [ro r e e']; exact h.bnd r hr
  · intro r hr hp
    have e : r ≠ d.region := by rintro rfl; rw [rd] at hp; exact hp hdr
    rw [Function.update_of_ne e]
    by_cases e' : r = c.region
    · subst e'; rw [rc]
      exact RegOK.congr (pts := pts) (own := fun p => lab (pix p))
        ⟨hR.ne, hR.head, hR.tail, hR.size, hR.unmerged, hR.rect, hR.own⟩
        (fun a _ => ⟨(f3 a).1, (f3 a).2.1⟩) (fun _ _ => rfl)
    · rw [ro r e e'] at hp ⊢
      exact (h.fin r hr hp).congr (fun a _ => ⟨(f3 a).1, (f3 a).2.1⟩) (fun _ _ => rfl)
  · intro r hr r' hp
    have e : r ≠ d.region := by rintro rfl; rw [rd] at hp; simp [hdr] at hp
    rw [Function.update_of_ne e]
    rw [(hsame r).2.2] at hp
    split at hp
    · rename_i e'
      subst e'
      obtain rfl : d.region = r' := by simpa using hp
      rw [Function.update_self]; exact (List.suffix_append _ _).isInfix
    · have := h.sub r hr r' hp
      by_cases e'' : r' = d.region
      · subst e''; rw [Function.update_self]; exact this.trans (List.prefix_append _ _).isInfix
      · rw [Function.update_of_ne e'']; exact this

end Verif.V1
