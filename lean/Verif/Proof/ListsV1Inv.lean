import Verif.Proof.ListsV1

/-!
# Fast MSER V1: the invariant on point lists while flooding
-/

namespace Verif.V1

open Function (update)
open Relation (ReflTransGen)
open Verif.Spec (Linked)

theorem Anc.total {par : Nat → Option Nat} {a b c : Nat} (h1 : Anc par a b) (h2 : Anc par a c) :
    Anc par b c ∨ Anc par c b :=
  ReflTransGen.total_of_right_unique (fun x y z hy hz => by
    simp only [hy] at hz; exact Option.some.inj hz) h1 h2

theorem Anc.root_unique {par : Nat → Option Nat} {a b c : Nat} (h1 : Anc par a b) (h2 : Anc par a c)
    (hb : par b = none) (hc : par c = none) : b = c := by
  rcases Anc.total h1 h2 with h | h
  · exact ((Anc.root hb).1 h).symm
  · exact (Anc.root hc).1 h

theorem Anc.congr {par par' : Nat → Option Nat} {n a r : Nat} (hn : ∀ a < n, ∀ b, par a = some b → b < n)
    (h : ∀ a < n, par' a = par a) (ha : a < n) : Anc par' a r ↔ Anc par a r := by
  constructor
  · intro hr
    induction hr using ReflTransGen.head_induction_on with
    | refl => exact .refl
    | @head x y hxy _ ih => rw [h x ha] at hxy; exact .head hxy (ih (hn x ha y hxy))
  · intro hr
    induction hr using ReflTransGen.head_induction_on with
    | refl => exact .refl
    | @head x y hxy _ ih => exact .head (by rw [h x ha]; exact hxy) (ih (hn x ha y hxy))

/-- A component and the list of its points. -/
structure CompOK (pts : Nat → Point) (l : List Nat) (c : Comp) : Prop where
  size : c.size = l.length
  head : l ≠ [] → c.head = l.head?
  tail : l ≠ [] → c.tail = l.getLast?
  first : ∀ a, l.head? = some a → (pts a).prev = none
  final : ∀ a, l.getLast? = some a → (pts a).next = none
  rect : l ≠ [] → Tight pts l c.rect

/-- A completed region and the list of its points. -/
structure RegOK (pts : Nat → Point) (own : Nat → Nat) (l : List Nat) (r : Nat) (R : Reg) : Prop where
  ne : l ≠ []
  head : R.head = l.head?
  tail : R.tail = l.getLast?
  size : R.size = l.length
  unmerged : R.unmerged = l.length
  rect : Tight pts l R.rect
  own : ∀ a, l.head? = some a → own a = r

/-- What depends on the component and region data only through the parent links and the lists. -/
structure LI (flag : Nat → Bool) (cx cy : Nat → Nat) (base : Nat) (pix lab : Nat → Nat) (L : Nat → List Nat)
    (cs : List Comp) (regs : Nat → Reg) (nreg : Nat) (pts : Nat → Point) (npts : Nat) : Prop where
  base_le : base ≤ npts
  par_lt : ∀ r < nreg, ∀ r', (regs r).parent = some r' → r' < nreg
  lab_lt : ∀ p, base ≤ p → p < npts → lab (pix p) < nreg
  cs_lt : ∀ c ∈ cs, c.region < nreg ∧ (regs c.region).parent = none
  cs_ne : cs.Pairwise (fun c d => c.region ≠ d.region)
  xy : ∀ p, base ≤ p → p < npts → (pts p).x = cx (pix p) ∧ (pts p).y = cy (pix p) ∧ (pts p).ref = none
  mem : ∀ r < nreg, ∀ p, p ∈ L r ↔ base ≤ p ∧ p < npts ∧ Anc (fun a => (regs a).parent) (lab (pix p)) r
  nodup : ∀ r < nreg, (L r).Nodup
  links : ∀ r < nreg, Linked (nx pts) (pv pts) (L r)
  comp : ∀ c ∈ cs, CompOK pts (L c.region) c
  bnd : ∀ r < nreg, (regs r).boundary = (L r).any (fun p => flag (pix p))
  fin : ∀ r < nreg, (regs r).parent ≠ none → RegOK pts (fun p => lab (pix p)) (L r) r (regs r)
  sub : ∀ r < nreg, ∀ r', (regs r).parent = some r' → L r <:+: L r'

variable {flag : Nat → Bool} {cx cy : Nat → Nat} {base : Nat} {pix lab : Nat → Nat} {L : Nat → List Nat}
  {cs : List Comp} {regs : Nat → Reg} {nreg : Nat} {pts : Nat → Point} {npts : Nat} {c d : Comp}

/-- A new, empty component. -/
theorem LI.push (h : LI flag cx cy base pix lab L cs regs nreg pts npts) (g : Nat) :
    LI flag cx cy base pix lab (update L nreg []) (initComp g nreg :: cs) (update regs nreg (initReg g)) (nreg + 1)
      pts npts := by
  have hpar : ∀ a < nreg, (update regs nreg (initReg g) a).parent = (regs a).parent := by
    intro a ha; rw [Function.update_of_ne (by omega)]
  have hanc : ∀ {a r : Nat}, a < nreg →
      (Anc (fun a => (update regs nreg (initReg g) a).parent) a r ↔ Anc (fun a => (regs a).parent) a r) :=
    fun ha => Anc.congr h.par_lt hpar ha
  refine ⟨h.base_le, ?_, ?_, ?_, ?_, h.xy, ?_, ?_, ?_, ?_, ?_, ?_, ?_⟩
  · intro r hr r' hp
    by_cases e : r = nreg
    · subst e; simp [initReg] at hp
    · rw [hpar r (by omega)] at hp
      have := h.par_lt r (by omega) r' hp; omega
  · intro p h1 h2; have := h.lab_lt p h1 h2; omega
  · intro c hc
    rcases List.mem_cons.1 hc with rfl | hc
    · simp [initComp, initReg]
    · have := h.cs_lt c hc
      exact ⟨by omega, by rw [hpar _ this.1]; exact this.2⟩
  · refine List.pairwise_cons.2 ⟨fun c hc => ?_, h.cs_ne⟩
    have := (h.cs_lt c hc).1
    simp only [initComp]; omega
  · intro r hr p
    by_cases e : r = nreg
    · subst e
      simp only [Function.update_self, List.not_mem_nil, false_iff, not_and]
      intro h1 h2 h3
      have h4 := h.lab_lt p h1 h2
      have := Anc.lt h.par_lt h4 ((hanc h4).1 h3)
      omega
    · rw [Function.update_of_ne e, h.mem r (by omega)]
      constructor
      · rintro ⟨h1, h2, h3⟩; exact ⟨h1, h2, (hanc (h.lab_lt p h1 h2)).2 h3⟩
      · rintro ⟨h1, h2, h3⟩; exact ⟨h1, h2, (hanc (h.lab_lt p h1 h2)).1 h3⟩
  · intro r hr
    by_cases e : r = nreg
    · subst e; simp
    · rw [Function.update_of_ne e]; exact h.nodup r (by omega)
  · intro r hr
    by_cases e : r = nreg
    · subst e; simp [Linked]
    · rw [Function.update_of_ne e]; exact h.links r (by omega)
  · intro c hc
    rcases List.mem_cons.1 hc with rfl | hc
    · simp only [initComp, Function.update_self]
      constructor <;> simp
    · have := (h.cs_lt c hc).1
      rw [Function.update_of_ne (by omega)]; exact h.comp c hc
  · intro r hr
    by_cases e : r = nreg
    · subst e; simp [initReg]
    · rw [Function.update_of_ne e, Function.update_of_ne e]; exact h.bnd r (by omega)
  · intro r hr hp
    by_cases e : r = nreg
    · subst e; simp [initReg] at hp
    · rw [Function.update_of_ne e] at hp
      rw [Function.update_of_ne e, Function.update_of_ne e]; exact h.fin r (by omega) hp
  · intro r hr r' hp
    by_cases e : r = nreg
    · subst e; simp [initReg] at hp
    · rw [Function.update_of_ne e] at hp
      have := h.par_lt r (by omega) r' hp
      rw [Function.update_of_ne e, Function.update_of_ne (by omega)]; exact h.sub r (by omega) r' hp

/-- The links and rectangles of lists of old points survive if only ends are linked further and a new point is
written. -/
theorem frame {pts pts' : Nat → Point} {l : List Nat} {n : Nat}
    (hn : ∀ a, a ≠ n → ∀ b, (pts a).next = some b → (pts' a).next = some b)
    (hp : ∀ a, a ≠ n → ∀ b, (pts a).prev = some b → (pts' a).prev = some b)
    (hl : n ∉ l) (h : Linked (nx pts) (pv pts) l) : Linked (nx pts') (pv pts') l := by
  refine Linked.mono ?_ ?_ h
  · intro a ha b hb; exact hn a (fun e => hl (e ▸ ha)) b hb
  · intro a ha b hb; exact hp a (fun e => hl (e ▸ ha)) b hb

theorem RegOK.congr {pts pts' : Nat → Point} {own own' : Nat → Nat} {l : List Nat} {r : Nat} {R : Reg}
    (h : RegOK pts own l r R) (hx : ∀ a ∈ l, (pts' a).x = (pts a).x ∧ (pts' a).y = (pts a).y)
    (ho : ∀ a ∈ l, own' a = own a) : RegOK pts' own' l r R :=
  ⟨h.ne, h.head, h.tail, h.size, h.unmerged, h.rect.congr hx,
    fun a ha => by rw [ho a (List.mem_of_mem_head? ha)]; exact h.own a ha⟩

theorem any_congr' {l : List Nat} {f g : Nat → Bool} (h : ∀ a ∈ l, f a = g a) : l.any f = l.any g := by
  induction l with
  | nil => rfl
  | cons a l ih =>
    simp only [List.any_cons]
    rw [h a (by simp), ih (fun b hb => h b (List.mem_cons_of_mem _ hb))]

/-- One more pixel in the top component. -/
theorem LI.add (h : LI flag cx cy base pix lab L (c :: cs) regs nreg pts npts) {i : Nat}
    (hi : ∀ p, base ≤ p → p < npts → pix p ≠ i) :
    ∃ c' pts', accumulate (cx i) (cy i) npts c pts = some (c', pts') ∧ c'.region = c.region ∧ c'.gray = c.gray ∧
      c'.size = c.size + 1 ∧
      LI flag cx cy base (update pix npts i) (update lab i c.region) (update L c.region (npts :: L c.region))
        (c' :: cs)
        (update regs c.region { regs c.region with boundary := (regs c.region).boundary || flag i })
        nreg pts' (npts + 1) ∧
      (∀ p, p < base → pts' p = pts p) ∧
      (∀ p, npts < p → pts' p = pts p) := by
  have hc := h.comp c (by simp)
  obtain ⟨hcl, hcr⟩ := h.cs_lt c (by simp)
  have hold : ∀ r < nreg, ∀ p ∈ L r, base ≤ p ∧ p < npts := fun r hr p hp => by
    have := (h.mem r hr p).1 hp; exact ⟨this.1, this.2.1⟩
  have hnew : ∀ r < nreg, npts ∉ L r := fun r hr hp => by have := hold r hr _ hp; omega
  -- what the new points have to satisfy
  suffices key : ∀ (c' : Comp) (pts' : Nat → Point), c'.region = c.region →
      (∀ a, a ≠ npts → ∀ b, (pts a).next = some b → (pts' a).next = some b) →
      (∀ a, a ≠ npts → ∀ b, (pts a).prev = some b → (pts' a).prev = some b) →
      (∀ r < nreg, r ≠ c.region → ∀ a ∈ L r, (∀ b, (pts' a).next = some b → (pts a).next = some b) ∧
        ((pts a).prev = none → (∀ b ∈ L c.region, a ≠ b) → (pts' a).prev = none)) →
      (∀ a, base ≤ a → a < npts → (pts' a).x = (pts a).x ∧ (pts' a).y = (pts a).y ∧ (pts' a).ref = (pts a).ref) →
      ((pts' npts).x = cx i ∧ (pts' npts).y = cy i ∧ (pts' npts).ref = none) →
      Linked (nx pts') (pv pts') (npts :: L c.region) →
      CompOK pts' (npts :: L c.region) c' →
      LI flag cx cy base (update pix npts i) (update lab i c.region) (update L c.region (npts :: L c.region))
        (c' :: cs)
        (update regs c.region { regs c.region with boundary := (regs c.region).boundary || flag i })
        nreg pts' (npts + 1) by
    by_cases hs : 0 < c.size
    · have hne : L c.region ≠ [] := by
        intro e; rw [hc.size, e] at hs; simp at hs
      obtain ⟨a, l, hl⟩ := List.exists_cons_of_ne_nil hne
      have hh : c.head = some a := by rw [hc.head hne, hl]; rfl
      have hfa := hc.first a (by rw [hl]; rfl)
      have ham : a ∈ L c.region := by rw [hl]; simp
      have han := hold _ hcl a ham
      refine ⟨_, _, ?_, ?_, ?_, ?_, key { c with head := some npts, size := c.size + 1, rect := c.rect.grow (cx i) (cy i) }
        (update (update pts npts { x := cx i, y := cy i, next := some a, prev := none, ref := none }) a
          { (update pts npts { x := cx i, y := cy i, next := some a, prev := none, ref := none }) a with
            prev := some npts }) rfl ?_ ?_ ?_ ?_ ?_ ?_ ?_, ?_⟩
      · simp only [accumulate, hs, if_true, hh]
      · rfl
      · rfl
      · rfl
      · intro b hb v hv
        by_cases e : b = a
        · subst e; rw [Function.update_self, Function.update_of_ne hb]; exact hv
        · rw [Function.update_of_ne e, Function.update_of_ne hb]; exact hv
      · intro b hb v hv
        by_cases e : b = a
        · subst e; rw [hfa] at hv; simp at hv
        · rw [Function.update_of_ne e, Function.update_of_ne hb]; exact hv
      · intro r hr hrc b hb
        have hbn := hold r hr b hb
        refine ⟨fun v hv => ?_, fun hv hd => ?_⟩
        · by_cases e : b = a
          · subst e; rw [Function.update_self, Function.update_of_ne (by omega)] at hv; exact hv
          · rw [Function.update_of_ne e, Function.update_of_ne (by omega)] at hv; exact hv
        · have e : b ≠ a := hd a ham
          rw [Function.update_of_ne e, Function.update_of_ne (by omega)]; exact hv
      · intro b h1 h2
        by_cases e : b = a
        · subst e; rw [Function.update_self, Function.update_of_ne (by omega)]; exact ⟨rfl, rfl, rfl⟩
        · rw [Function.update_of_ne e, Function.update_of_ne (by omega)]; exact ⟨rfl, rfl, rfl⟩
      · rw [Function.update_of_ne (by omega), Function.update_self]; exact ⟨rfl, rfl, rfl⟩
      · rw [hl, Linked.cons]
        refine ⟨⟨?_, ?_⟩, ?_⟩
        · simp only [nx]; rw [Function.update_of_ne (by omega), Function.update_self]
        · simp only [pv]; rw [Function.update_self]
        · rw [← hl]
          refine frame (pts := pts) (n := npts) ?_ ?_ (hnew _ hcl) (h.links _ hcl)
          · intro b hb v hv
            by_cases e : b = a
            · subst e; rw [Function.update_self, Function.update_of_ne hb]; exact hv
            · rw [Function.update_of_ne e, Function.update_of_ne hb]; exact hv
          · intro b hb v hv
            by_cases e : b = a
            · subst e; rw [hfa] at hv; simp at hv
            · rw [Function.update_of_ne e, Function.update_of_ne hb]; exact hv
      · refine ⟨?_, fun _ => rfl, fun _ => ?_, ?_, ?_, fun _ => ?_⟩
        · simp [hc.size]
        · simp only; rw [hc.tail hne, hl, List.getLast?_cons_cons]
        · intro b hb; simp at hb; subst hb
          rw [Function.update_of_ne (by omega), Function.update_self]
        · intro b hb
          rw [hl, List.getLast?_cons_cons, ← hl] at hb
          have hf := hc.final b hb
          have hbm := hold _ hcl b (List.mem_of_getLast? hb)
          by_cases e : b = a
          · subst e; rw [Function.update_self, Function.update_of_ne (by omega)]; exact hf
          · rw [Function.update_of_ne e, Function.update_of_ne (by omega)]; exact hf
        · have ht := (hc.rect hne).congr (pts' := update (update pts npts { x := cx i, y := cy i, next := some a, prev := none, ref := none }) a
            { (update pts npts { x := cx i, y := cy i, next := some a, prev := none, ref := none }) a with
              prev := some npts }) (by
              intro b hb
              have hbn := hold _ hcl b hb
              by_cases e : b = a
              · subst e; rw [Function.update_self, Function.update_of_ne (by omega)]; exact ⟨rfl, rfl⟩
              · rw [Function.update_of_ne e, Function.update_of_ne (by omega)]; exact ⟨rfl, rfl⟩)
          have := ht.grow npts
          have e1 : npts ≠ a := by omega
          simp only [Function.update_of_ne e1, Function.update_self] at this
          exact this
      · refine ⟨fun p hp => ?_, fun p hp => ?_⟩ <;>
          rw [Function.update_of_ne (by omega), Function.update_of_ne (by have := h.base_le; omega)]
    · have he : L c.region = [] := by
        have := hc.size; rw [← List.length_eq_zero_iff]; omega
      refine ⟨_, _, ?_, ?_, ?_, ?_, key { c with head := some npts, tail := some npts, size := c.size + 1
                                                 rect := ⟨cx i, cx i, cy i, cy i⟩ }
        (update pts npts { x := cx i, y := cy i, next := none, prev := none, ref := none }) rfl ?_ ?_ ?_ ?_ ?_ ?_ ?_, ?_⟩
      · simp only [accumulate, hs, if_false]
      · rfl
      · rfl
      · rfl
      · intro b hb v hv; rw [Function.update_of_ne hb]; exact hv
      · intro b hb v hv; rw [Function.update_of_ne hb]; exact hv
      · intro r hr hrc b hb
        have hbn := hold r hr b hb
        rw [Function.update_of_ne (by omega)]; exact ⟨fun v hv => hv, fun hv _ => hv⟩
      · intro b h1 h2; rw [Function.update_of_ne (by omega)]; exact ⟨rfl, rfl, rfl⟩
      · rw [Function.update_self]; exact ⟨rfl, rfl, rfl⟩
      · rw [he]; simp [Linked]
      · rw [he]
        refine ⟨by have := hc.size; simp only [List.length_singleton]; rw [he] at this; simp at this; omega, fun _ => rfl, fun _ => rfl, ?_, ?_, fun _ => ?_⟩
        · intro b hb; simp at hb; subst hb; rw [Function.update_self]
        · intro b hb; simp at hb; subst hb; rw [Function.update_self]
        · have := Tight.single (pts := update pts npts { x := cx i, y := cy i, next := none, prev := none, ref := none }) (a := npts)
          rw [Function.update_self] at this; exact this
      · refine ⟨fun p hp => ?_, fun p hp => ?_⟩ <;> rw [Function.update_of_ne (by have := h.base_le; omega)]
  -- the invariant
  intro c' pts' hreg hnx hpv hoth hxy hxyn hlk hck
  have hpar : ∀ a, (update regs c.region { regs c.region with boundary := (regs c.region).boundary || flag i } a).parent
      = (regs a).parent := by
    intro a
    by_cases e : a = c.region
    · subst e; simp
    · rw [Function.update_of_ne e]
  have hanc : Anc (fun a => (update regs c.region { regs c.region with
      boundary := (regs c.region).boundary || flag i } a).parent) = Anc (fun a => (regs a).parent) := by
    congr 1; funext a; exact hpar a
  have hpo : ∀ p, p < npts → update pix npts i p = pix p := fun p hp => Function.update_of_ne (by omega) _ _
  have hlo : ∀ p, base ≤ p → p < npts → update lab i c.region (update pix npts i p) = lab (pix p) := fun p h1 h2 => by
    rw [hpo p h2, Function.update_of_ne (hi p h1 h2)]
  have hln : update lab i c.region (update pix npts i npts) = c.region := by simp
  refine ⟨by have := h.base_le; omega, ?_, ?_, ?_, ?_, ?_, ?_, ?_, ?_, ?_, ?_, ?_, ?_⟩
  · intro r hr r' hp; rw [hpar] at hp; exact h.par_lt r hr r' hp
  · intro p h1 h2
    by_cases e : p = npts
    · subst e; rw [hln]; exact hcl
    · rw [hlo p h1 (by omega)]; exact h.lab_lt p h1 (by omega)
  · intro e he
    rw [hpar]
    rcases List.mem_cons.1 he with rfl | he
    · rw [hreg]; exact ⟨hcl, hcr⟩
    · exact h.cs_lt e (List.mem_cons_of_mem _ he)
  · have := h.cs_ne
    rw [List.pairwise_cons] at this ⊢
    rw [hreg]; exact this
  · intro p h1 h2
    by_cases e : p = npts
    · subst e; rw [Function.update_self]; exact hxyn
    · rw [hpo p (by omega)]
      have a1 := hxy p h1 (by omega)
      have a2 := h.xy p h1 (by omega)
      rw [a1.1, a1.2.1, a1.2.2]; exact a2
  · intro r hr p
    rw [hanc]
    by_cases e : p = npts
    · subst e
      rw [hln]
      have hb := h.base_le
      rw [Anc.root hcr]
      by_cases e : r = c.region
      · subst e; simp [hb]
      · rw [Function.update_of_ne e]
        simp only [e, and_false, iff_false]
        exact hnew r hr
    · have : p ∈ update L c.region (npts :: L c.region) r ↔ p ∈ L r := by
        by_cases e' : r = c.region
        · subst e'; rw [Function.update_self]; simp [e]
        · rw [Function.update_of_ne e']
      rw [this, h.mem r hr p]
      constructor
      · rintro ⟨h1, h2, h3⟩; exact ⟨h1, by omega, by rw [hlo p h1 h2]; exact h3⟩
      · rintro ⟨h1, h2, h3⟩
        have h2' : p < npts := by omega
        exact ⟨h1, h2', by rw [hlo p h1 h2'] at h3; exact h3⟩
  · intro r hr
    by_cases e : r = c.region
    · subst e; rw [Function.update_self]; exact List.nodup_cons.2 ⟨hnew _ hr, h.nodup _ hr⟩
    · rw [Function.update_of_ne e]; exact h.nodup r hr
  · intro r hr
    by_cases e : r = c.region
    · subst e; rw [Function.update_self]; exact hlk
    · rw [Function.update_of_ne e]; exact frame hnx hpv (hnew r hr) (h.links r hr)
  · intro e he
    rcases List.mem_cons.1 he with rfl | he
    · rw [hreg, Function.update_self]; exact hck
    · have hne : e.region ≠ c.region := fun e' => (List.pairwise_cons.1 h.cs_ne).1 e he e'.symm
      have hce := h.comp e (List.mem_cons_of_mem _ he)
      have her := h.cs_lt e (List.mem_cons_of_mem _ he)
      rw [Function.update_of_ne hne]
      refine ⟨hce.size, hce.head, hce.tail, ?_, ?_, fun hn => (hce.rect hn).congr ?_⟩
      · intro a ha
        refine (hoth _ her.1 hne a (List.mem_of_mem_head? ha)).2 (hce.first a ha) ?_
        rintro b hb rfl
        have h1 := ((h.mem _ her.1 a).1 (List.mem_of_mem_head? ha)).2.2
        have h2 := ((h.mem _ hcl a).1 hb).2.2
        exact hne (Anc.root_unique h1 h2 her.2 hcr)
      · intro a ha
        have := hce.final a ha
        by_contra hcon
        obtain ⟨b, hb⟩ := Option.ne_none_iff_exists'.1 hcon
        have := (hoth _ her.1 hne a (List.mem_of_getLast? ha)).1 b hb
        simp_all
      · intro a ha
        have := hold _ her.1 a ha
        have := hxy a this.1 this.2
        exact ⟨this.1, this.2.1⟩
  · intro r hr
    by_cases e : r = c.region
    · subst e
      simp only [Function.update_self, List.any_cons]
      rw [h.bnd _ hr, Bool.or_comm]
      congr 1
      exact any_congr' (fun p hp => by rw [hpo p (hold _ hr p hp).2])
    · rw [Function.update_of_ne e, Function.update_of_ne e, h.bnd r hr]
      exact any_congr' (fun p hp => by rw [hpo p (hold _ hr p hp).2])
  · intro r hr hp
    rw [hpar] at hp
    have e : r ≠ c.region := by rintro rfl; exact hp hcr
    rw [Function.update_of_ne e, Function.update_of_ne e]
    refine (h.fin r hr hp).congr ?_ ?_
    · intro a ha
      have := hold r hr a ha
      have := hxy a this.1 this.2
      exact ⟨this.1, this.2.1⟩
    · intro a ha
      have := hold r hr a ha
      exact hlo a this.1 this.2
  · intro r hr r' hp
    rw [hpar] at hp
    have e : r ≠ c.region := by rintro rfl; rw [hcr] at hp; simp at hp
    rw [Function.update_of_ne e]
    have := h.sub r hr r' hp
    by_cases e' : r' = c.region
    · subst e'; rw [Function.update_self]; exact this.trans (List.suffix_cons _ _).isInfix
    · rw [Function.update_of_ne e']; exact this

end Verif.V1
