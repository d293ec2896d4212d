import Verif.Proof.OpenCv3Tree
import Verif.Proof.OpenCvLists

/-!
# The OpenCV 3 detector: histories and components
-/

namespace Verif.OpenCv3

open Function (update)
open Relation (ReflTransGen)
open Verif.OpenCv (IsC)

/-- A component and its list of pixels. -/
abbrev CL := Comp × List Nat

/-- History `i` is the one of a component at its present level. -/
def Opn (H : Nat → Hist) (T : Set CL) (i : Nat) : Prop := ∃ t ∈ T, t.1.hist = some i ∧ (H i).val = t.1.gray

/-- Coordinates of a pixel. -/
def xy (E : Env) (p : Nat) : Nat × Nat := (p - p / E.step * E.step, p / E.step)

/-- A history of a complete component, whose pixels are `R i`. -/
structure Cl (E : Env) (H : Nat → Hist) (R : Nat → List Nat) (T : Set CL) (i : Nat) : Prop where
  seg : ∃ t ∈ T, R i <:+: t.2 ∧ (H i).val < t.1.gray
  nodup : (R i).Nodup
  head : (R i).head? = some (H i).head
  len : (R i).length = (H i).size
  comp : IsC E.P (H i).val (R i).toFinset
  top : ∃ x ∈ R i, E.P.gray x = (H i).val

/-- `VarOK`, and the history `h1` is one of `cl`. -/
def VarC (E : Env) (S : Nat → Skel) (fin : Bool) (cl : Nat → Prop) (i : Nat) (v : ℚ) : Prop :=
  ∃ a b, IsH0 S E.cfg.delta i a ∧ IsH1 S E.cfg.delta i b ∧ cl b ∧
    (fin = true ∨ (S b).parent ≠ none ∨ ((S i).val : Int) + E.cfg.delta ≤ (S b).val) ∧
    v = E.cfg.r32 (E.cfg.r32 ((S b).size - (S a).size) / E.cfg.r32 (S i).size)

/-- A delivered region. -/
structure RecAt (E : Env) (H : Nat → Hist) (R : Nat → List Nat) (r : Rec3) (j : Nat) : Prop where
  idx : r.idx = j
  gray : r.gray = 0
  points : r.points = (R j).map (xy E)
  rect : r.rect = OpenCv.rectOf r.points
  min : E.cfg.minPoint ≤ ((H j).size : Int)
  max : ((H j).size : Int) ≤ E.cfg.maxPoint
  var0 : 0 ≤ (H j).var
  var1 : (H j).var ≤ E.cfg.stable

/-- Histories and components. -/
structure FI (E : Env) (fin : Bool) (H : Nat → Hist) (n : Nat) (out : List Rec3) (R : Nat → List Nat) (T : Set CL) : Prop where
  ti : TI (skel H) n
  lt : ∀ t ∈ T, ∀ i, t.1.hist = some i → i < n ∧ (H i).parent = none ∧ (H i).val ≤ t.1.gray
  inj : ∀ a ∈ T, ∀ b ∈ T, ∀ i, a.1.hist = some i → b.1.hist = some i → a = b
  own : ∀ t ∈ T, ∀ i, t.1.hist = some i → (H i).val < t.1.gray →
    R i ⊆ t.2 ∧ ∀ g, (H i).val ≤ g → g < t.1.gray → IsC E.P g (R i).toFinset
  cl : ∀ i < n, ¬ Opn H T i → Cl E H R T i
  dist : ∀ i < n, ∀ j < n, ¬ Opn H T i → ¬ Opn H T j → (R i).toFinset = (R j).toFinset → i = j
  sub : ∀ i < n, ∀ p, (H i).parent = some p →
    (∀ t ∈ T, t.1.hist = some p → (H p).val = t.1.gray → R i ⊆ t.2) ∧ (¬ Opn H T p → R i ⊆ R p) ∧
    ∀ g, (H i).val ≤ g → g < (H p).val → IsC E.P g (R i).toFinset
  orph : ∀ i < n, ¬ Opn H T i → (H i).parent = none → (∃ t ∈ T, t.1.hist = some i) ∨ ((H i).size : Int) < E.cfg.minPoint
  var : ∀ i < n, ¬ Opn H T i → 0 ≤ (H i).var →
    ((H i).size : Int) < E.cfg.minPoint ∨ VarC E (skel H) fin (fun b => b < n ∧ ¬ Opn H T b) i (H i).var
  recs : ∀ r ∈ out, ∃ j < n, ¬ Opn H T j ∧ (H j).checked = true ∧ RecAt E H R r j
  nodup : (out.map (·.idx)).Nodup

variable {E : Env} {fin : Bool} {H H' : Nat → Hist} {n : Nat} {out : List Rec3} {R : Nat → List Nat} {T T' : Set CL}
  {c : Comp} {l : List Nat}

theorem FI.par_closed (h : FI E fin H n out R T) {i p : Nat} (hp : (H i).parent = some p) : ¬ Opn H T i := by
  rintro ⟨t, ht, h1, -⟩
  have := (h.lt t ht i h1).2.1
  rw [this] at hp
  exact absurd hp (by simp)

theorem FI.kid_closed (h : FI E fin H n out R T) {i k : Nat} (hi : i < n) (hk : k ∈ (H i).kids) : k < n ∧ ¬ Opn H T k :=
  ⟨(h.ti.kid i hi k hk).1, h.par_closed (h.ti.kid i hi k hk).2.1⟩

theorem VarC.mono {S : Nat → Skel} {fin fin' : Bool} {cl cl' : Nat → Prop} {i : Nat} {v : ℚ} (h : VarC E S fin cl i v)
    (hf : fin = true → fin' = true) (hc : ∀ i, cl i → cl' i) : VarC E S fin' cl' i v := by
  obtain ⟨a, b, h1, h2, h3, h4, h5⟩ := h
  exact ⟨a, b, h1, h2, hc b h3, h4.imp_left hf, h5⟩

/-- Variations stay right when roots get parents and histories that are not complete get children. -/
theorem VarC.grow {S S' : Nat → Skel} {n : Nat} {cl cl' : Nat → Prop} {i : Nat} {v : ℚ} (hT : TI S n)
    (hlt : ∀ i, cl i → i < n) (hk : ∀ i, cl i → ∀ k ∈ (S i).kids, cl k) (hp : ∀ i < n, (S i).parent ≠ none → cl i)
    (e : ∀ i, cl i → (S' i).kids = (S i).kids ∧ (S' i).size = (S i).size ∧ ((S' i).parent = (S i).parent ∨
      ((S i).parent = none ∧ ∃ p, (S' i).parent = some p ∧ (S i).val < (S' p).val)))
    (hv : ∀ i < n, (S' i).val = (S i).val) (hcl : ∀ i, cl i → cl' i) (hi : cl i) (h : VarC E S false cl i v) :
    VarC E S' false cl' i v := by
  obtain ⟨a, b, h1, h2, h3, h4, h5⟩ := h
  have hin := hlt i hi
  have ha : ReflTransGen (DK S') i a ∧ cl a := by
    have := h1.path
    clear h1 h5
    induction this with
    | refl => exact ⟨.refl, hi⟩
    | tail _ x ih =>
      obtain ⟨i1, i2⟩ := ih
      refine ⟨.tail i1 ?_, hk _ i2 _ (head_mem x)⟩
      unfold DK at x ⊢
      rw [(e _ i2).1]; exact x
  have hb : ReflTransGen (PK S') i b := by
    have := h2.path
    clear h2 h3 h4 h5
    induction this with
    | refl => exact .refl
    | @tail x y p q ih =>
      refine .tail ih ?_
      have hx : (S x).parent = some y := q
      have hxn := (hT.val_le hin p).1
      have hc := hp x hxn (by rw [hx]; simp)
      rcases (e x hc).2.2 with e1 | ⟨e1, -⟩
      · unfold PK; rw [e1]; exact hx
      · rw [hx] at e1; exact absurd e1 (by simp)
  have hvi := hv i hin
  have hva := hv a (hlt a ha.2)
  have hvb := hv b (hlt b h3)
  refine ⟨a, b, ⟨ha.1, fun hne => by rw [hvi, hva]; exact h1.val hne, fun k hk' => ?_⟩,
    ⟨⟨hb, fun hne => by rw [hvi, hvb]; exact h2.val hne⟩, fun p hp' => ?_⟩, hcl b h3, ?_, ?_⟩
  · unfold DK at hk'
    rw [(e a ha.2).1] at hk'
    have := hlt k (hk a ha.2 k (head_mem hk'))
    rw [hvi, hv k this]; exact h1.stop k hk'
  · unfold PK at hp'
    rcases (e b h3).2.2 with e1 | ⟨e1, p', e2, e3⟩
    · rw [e1] at hp'
      rw [hvi, hv p (hT.par b (hlt b h3) p hp').1]; exact h2.stop p hp'
    · rw [e2] at hp'
      obtain rfl := Option.some.inj hp'
      rcases h4 with h4 | h4 | h4
      · exact absurd h4 (by simp)
      · exact absurd e1 h4
      · rw [hvi]; omega
  · refine .inr ?_
    rcases h4 with h4 | h4 | h4
    · exact absurd h4 (by simp)
    · refine .inl ?_
      rcases (e b h3).2.2 with e1 | ⟨e1, -⟩
      · rw [e1]; exact h4
      · exact absurd e1 h4
    · refine .inr ?_; rw [hvi, hvb]; exact h4
  · rw [(e b h3).2.1, (e a ha.2).2.1, (e i hi).2.1]; exact h5

/-! ### Growing lists, new components -/

theorem FI.lists (h : FI E fin H n out R T)
    (f1 : ∀ t' ∈ T', t'.1.hist = none ∨ ∃ t ∈ T, t.1.hist = t'.1.hist ∧ t.1.gray = t'.1.gray ∧ t.2 <+: t'.2)
    (f2 : ∀ t ∈ T, ∃ t' ∈ T', t.1.hist = t'.1.hist ∧ t.1.gray = t'.1.gray ∧ t.2 <+: t'.2)
    (hinj : ∀ a ∈ T', ∀ b ∈ T', ∀ i, a.1.hist = some i → b.1.hist = some i → a = b) : FI E fin H n out R T' := by
  have hO : ∀ i, Opn H T' i ↔ Opn H T i := by
    intro i
    constructor
    · rintro ⟨t', h1, h2, h3⟩
      rcases f1 t' h1 with e | ⟨t, e1, e2, e3, -⟩
      · rw [e] at h2; exact absurd h2 (by simp)
      · exact ⟨t, e1, by rw [e2]; exact h2, by rw [e3]; exact h3⟩
    · rintro ⟨t, h1, h2, h3⟩
      obtain ⟨t', e1, e2, e3, -⟩ := f2 t h1
      exact ⟨t', e1, by rw [← e2]; exact h2, by rw [← e3]; exact h3⟩
  have f1' : ∀ t' ∈ T', ∀ i, t'.1.hist = some i → ∃ t ∈ T, t.1.hist = some i ∧ t.1.gray = t'.1.gray ∧ t.2 ⊆ t'.2 := by
    intro t' h1 i h2
    rcases f1 t' h1 with e | ⟨t, e1, e2, e3, e4⟩
    · rw [e] at h2; exact absurd h2 (by simp)
    · exact ⟨t, e1, by rw [e2]; exact h2, e3, e4.subset⟩
  refine ⟨h.ti, ?_, hinj, ?_, ?_, ?_, ?_, ?_, ?_, ?_, h.nodup⟩
  · intro t' h1 i h2
    obtain ⟨t, e1, e2, e3, -⟩ := f1' t' h1 i h2
    rw [← e3]; exact h.lt t e1 i e2
  · intro t' h1 i h2 h3
    obtain ⟨t, e1, e2, e3, e4⟩ := f1' t' h1 i h2
    rw [← e3] at h3 ⊢
    obtain ⟨o1, o2⟩ := h.own t e1 i e2 h3
    exact ⟨fun x hx => e4 (o1 hx), o2⟩
  · intro i hi ho
    rw [hO] at ho
    have hc := h.cl i hi ho
    obtain ⟨t, s1, s2, s3⟩ := hc.seg
    obtain ⟨t', e1, e2, e3, e4⟩ := f2 t s1
    exact ⟨⟨t', e1, s2.trans e4.isInfix, by rw [← e3]; exact s3⟩, hc.nodup, hc.head, hc.len, hc.comp, hc.top⟩
  · intro i hi j hj h1 h2
    rw [hO] at h1 h2
    exact h.dist i hi j hj h1 h2
  · intro i hi p hp
    obtain ⟨s1, s2, s3⟩ := h.sub i hi p hp
    refine ⟨fun t' h1 h2 h3 => ?_, fun ho => s2 (by rw [← hO]; exact ho), s3⟩
    obtain ⟨t, e1, e2, e3, e4⟩ := f1' t' h1 p h2
    exact fun x hx => e4 (s1 t e1 e2 (by rw [e3]; exact h3) hx)
  · intro i hi ho hp
    rw [hO] at ho
    refine (h.orph i hi ho hp).imp_left ?_
    rintro ⟨t, h1, h2⟩
    obtain ⟨t', e1, e2, -⟩ := f2 t h1
    exact ⟨t', e1, by rw [← e2]; exact h2⟩
  · intro i hi ho hv
    rw [hO] at ho
    refine (h.var i hi ho hv).imp_right fun h => h.mono (fun h => h) ?_
    intro b hb
    rw [hO]; exact hb
  · intro r hr
    obtain ⟨j, h1, h2, h3⟩ := h.recs r hr
    exact ⟨j, h1, by rw [hO]; exact h2, h3⟩

/-! ### A history for a component -/

theorem RecAt.congr {r : Rec3} {j : Nat} {R' : Nat → List Nat} (h : RecAt E H R r j) (hs : (H' j).size = (H j).size)
    (hv : (H' j).var = (H j).var) (hR : R' j = R j) : RecAt E H' R' r j :=
  ⟨h.idx, h.gray, by rw [hR]; exact h.points, h.rect, by rw [hs]; exact h.min, by rw [hs]; exact h.max,
    by rw [hv]; exact h.var0, by rw [hv]; exact h.var1⟩

theorem FI.put_own (h : FI E false H n out R T) {i : Nat} (ho : Opn H T i)
    (hH : ∀ k, k ≠ i → H' k = H k) (hi : (H' i).kids = (H i).kids ∧ (H' i).parent = (H i).parent ∧ (H' i).val = (H i).val) :
    FI E false H' n out R T := by
  have hv : ∀ k, (H' k).val = (H k).val := by
    intro k
    by_cases e : k = i
    · subst e; exact hi.2.2
    · rw [hH k e]
  have hp : ∀ k, (H' k).parent = (H k).parent := by
    intro k
    by_cases e : k = i
    · subst e; exact hi.2.1
    · rw [hH k e]
  have hk : ∀ k, (H' k).kids = (H k).kids := by
    intro k
    by_cases e : k = i
    · subst e; exact hi.1
    · rw [hH k e]
  have hO : ∀ k, Opn H' T k ↔ Opn H T k := by intro k; unfold Opn; rw [hv k]
  have hne : ∀ k, ¬ Opn H T k → H' k = H k := fun k hk => hH k (by rintro rfl; exact hk ho)
  refine ⟨⟨?_, ?_, ?_⟩, ?_, h.inj, ?_, ?_, ?_, ?_, ?_, ?_, ?_, h.nodup⟩
  · intro k hkn; simp only [skel, sk]; rw [hv]; exact h.ti.val k hkn
  · intro k hkn; simp only [skel, sk]; rw [hk]; simp only [hp, hv]; exact h.ti.kid k hkn
  · intro k hkn; simp only [skel, sk]; simp only [hp, hv]; exact h.ti.par k hkn
  · intro t ht k hk'; rw [hp, hv]; exact h.lt t ht k hk'
  · intro t ht k hk'; rw [hv]; exact h.own t ht k hk'
  · intro k hkn ho'
    rw [hO] at ho'
    have hc := h.cl k hkn ho'
    have e := hne k ho'
    exact ⟨by rw [e]; exact hc.seg, hc.nodup, by rw [e]; exact hc.head, by rw [e]; exact hc.len, by rw [e]; exact hc.comp,
      by rw [e]; exact hc.top⟩
  · intro a ha b hb h1 h2
    rw [hO] at h1 h2
    exact h.dist a ha b hb h1 h2
  · intro k hkn p; rw [hp, hO]; simp only [hv]; exact h.sub k hkn p
  · intro k hkn ho'
    rw [hO] at ho'
    rw [hne k ho']; exact h.orph k hkn ho'
  · intro k hkn ho' hvar
    rw [hO] at ho'
    rw [hne k ho'] at hvar ⊢
    refine (h.var k hkn ho' hvar).imp_right fun hc => ?_
    refine hc.grow (n := n) h.ti (fun _ h => h.1) (fun a ha b hb => h.kid_closed ha.1 hb) ?_ ?_ (fun a _ => hv a) ?_ ⟨hkn, ho'⟩
    · intro a ha hpa
      obtain ⟨p, hp'⟩ := Option.ne_none_iff_exists'.1 hpa
      exact ⟨ha, h.par_closed hp'⟩
    · intro a ha
      simp only [skel, sk]
      rw [hne a ha.2]
      exact ⟨rfl, rfl, .inl rfl⟩
    · intro a ha; rw [hO]; exact ha
  · intro r hr
    obtain ⟨j, h1, h2, h3, h4⟩ := h.recs r hr
    have e := hne j h2
    exact ⟨j, h1, by rw [hO]; exact h2, by rw [e]; exact h3, h4.congr (by rw [e]) (by rw [e]) rfl⟩

theorem FI.put_new (h : FI E false H n out R T) (hc : (c, l) ∈ T) (hno : ownHist H c = none) (h256 : c.gray < 256)
    (hH : ∀ k < n, c.hist ≠ some k → H' k = H k) (hJ : ∀ j, c.hist = some j → H' j = { H j with parent := some n })
    (hN : (H' n).kids = c.hist.toList ∧ (H' n).parent = none ∧ (H' n).val = c.gray) :
    FI E false H' (n + 1) out R (insert ({ c with hist := some n }, l) (T \ {(c, l)})) := by
  obtain ⟨hN1, hN2, hN3⟩ := hN
  have hjv : ∀ j, c.hist = some j → (H j).val < c.gray := by
    intro j hj
    have h1 := (h.lt _ hc j hj).2.2
    rcases Nat.lt_or_eq_of_le h1 with h2 | h2
    · exact h2
    · simp [ownHist, hj, h2] at hno
  have hv : ∀ k < n, (H' k).val = (H k).val := by
    intro k hk
    by_cases e : c.hist = some k
    · rw [hJ k e]
    · rw [hH k hk e]
  have hkids : ∀ k < n, (H' k).kids = (H k).kids := by
    intro k hk
    by_cases e : c.hist = some k
    · rw [hJ k e]
    · rw [hH k hk e]
  have hO : ∀ k < n, (Opn H' (insert ({ c with hist := some n }, l) (T \ {(c, l)})) k ↔ Opn H T k) := by
    intro k hk
    constructor
    · rintro ⟨t, h1, h2, h3⟩
      rcases h1 with rfl | h1
      · have := Option.some.inj h2; omega
      · exact ⟨t, h1.1, h2, by rw [← hv k hk]; exact h3⟩
    · rintro ⟨t, h1, h2, h3⟩
      refine ⟨t, .inr ⟨h1, ?_⟩, h2, by rw [hv k hk]; exact h3⟩
      rintro rfl
      simp only at h2 h3
      simp [ownHist, h2, h3] at hno
  have hOn : Opn H' (insert ({ c with hist := some n }, l) (T \ {(c, l)})) n := ⟨_, .inl rfl, rfl, hN3⟩
  have hcl : ∀ k < n + 1, ¬ Opn H' (insert ({ c with hist := some n }, l) (T \ {(c, l)})) k → k < n ∧ ¬ Opn H T k := by
    intro k hk ho
    have : k ≠ n := by rintro rfl; exact ho hOn
    exact ⟨by omega, by rw [← hO k (by omega)]; exact ho⟩
  have hsame : ∀ k < n, (H' k).size = (H k).size ∧ (H' k).head = (H k).head ∧ (H' k).var = (H k).var ∧
      (H' k).checked = (H k).checked := by
    intro k hk
    by_cases e : c.hist = some k
    · rw [hJ k e]; simp
    · rw [hH k hk e]; simp
  have hpar : ∀ k < n, ∀ p, (H' k).parent = some p → (H k).parent = some p ∨ (c.hist = some k ∧ p = n) := by
    intro k hk p hp
    by_cases e : c.hist = some k
    · rw [hJ k e] at hp
      exact .inr ⟨e, (Option.some.inj hp).symm⟩
    · rw [hH k hk e] at hp; exact .inl hp
  have hpar' : ∀ k < n, ∀ p, (H k).parent = some p → (H' k).parent = some p := by
    intro k hk p hp
    by_cases e : c.hist = some k
    · have := (h.lt _ hc k e).2.1
      rw [this] at hp; exact absurd hp (by simp)
    · rw [hH k hk e]; exact hp
  refine ⟨⟨?_, ?_, ?_⟩, ?_, ?_, ?_, ?_, ?_, ?_, ?_, ?_, ?_, h.nodup⟩
  · intro k hk
    simp only [skel, sk]
    by_cases e : k = n
    · subst e; rw [hN3]; exact h256
    · rw [hv k (by omega)]; exact h.ti.val k (by omega)
  · intro k hk k' hk'
    simp only [skel, sk] at hk' ⊢
    by_cases e : k = n
    · subst e
      rw [hN1] at hk'
      have hk2 : c.hist = some k' := by simpa using hk'
      have hlt := (h.lt _ hc k' hk2).1
      refine ⟨by omega, by rw [hJ k' hk2], ?_⟩
      rw [hv k' hlt, hN3]; exact hjv k' hk2
    · have hkn : k < n := by omega
      rw [hkids k hkn] at hk'
      obtain ⟨a1, a2, a3⟩ := h.ti.kid k hkn k' hk'
      have a1' : k' < n := a1
      refine ⟨by omega, hpar' k' a1 k a2, ?_⟩
      rw [hv k' a1, hv k hkn]; exact a3
  · intro k hk p hp
    simp only [skel, sk] at hp ⊢
    by_cases e : k = n
    · subst e; rw [hN2] at hp; exact absurd hp (by simp)
    · have hkn : k < n := by omega
      rcases hpar k hkn p hp with hp | ⟨hp, rfl⟩
      · obtain ⟨a1, a2⟩ := h.ti.par k hkn p hp
        have a1' : p < n := a1
        refine ⟨by omega, ?_⟩
        rw [hv k hkn, hv p a1]; exact a2
      · refine ⟨by omega, ?_⟩
        rw [hv k hkn, hN3]; exact hjv k hp
  · intro t ht k hk
    rcases ht with rfl | ht
    · obtain rfl := Option.some.inj hk
      exact ⟨by omega, hN2, hN3.le⟩
    · obtain ⟨a1, a2, a3⟩ := h.lt t ht.1 k hk
      have hne : c.hist ≠ some k := fun e => ht.2 (h.inj _ ht.1 _ hc k hk e)
      rw [hH k a1 hne]
      exact ⟨by omega, a2, a3⟩
  · intro a ha b hb i hia hib
    rcases ha with rfl | ha <;> rcases hb with rfl | hb
    · rfl
    · obtain rfl := Option.some.inj hia
      have := (h.lt b hb.1 _ hib).1; omega
    · obtain rfl := Option.some.inj hib
      have := (h.lt a ha.1 _ hia).1; omega
    · exact h.inj a ha.1 b hb.1 i hia hib
  · intro t ht k hk hlt
    rcases ht with rfl | ht
    · obtain rfl := Option.some.inj hk
      rw [hN3] at hlt
      exact absurd hlt (lt_irrefl _)
    · have a1 := (h.lt t ht.1 k hk).1
      rw [hv k a1] at hlt ⊢
      exact h.own t ht.1 k hk hlt
  · intro k hk ho
    obtain ⟨hkn, ho'⟩ := hcl k hk ho
    have hcc := h.cl k hkn ho'
    obtain ⟨e1, e2, e3, e4⟩ := hsame k hkn
    obtain ⟨t, s1, s2, s3⟩ := hcc.seg
    refine ⟨?_, hcc.nodup, by rw [e2]; exact hcc.head, by rw [e1]; exact hcc.len, by rw [hv k hkn]; exact hcc.comp,
      by rw [hv k hkn]; exact hcc.top⟩
    rw [hv k hkn]
    by_cases e : t = (c, l)
    · subst e; exact ⟨_, .inl rfl, s2, s3⟩
    · exact ⟨t, .inr ⟨s1, e⟩, s2, s3⟩
  · intro a ha b hb h1 h2
    obtain ⟨a1, a2⟩ := hcl a ha h1
    obtain ⟨b1, b2⟩ := hcl b hb h2
    exact h.dist a a1 b b1 a2 b2
  · intro k hk p hp
    by_cases e : k = n
    · subst e; rw [hN2] at hp; exact absurd hp (by simp)
    · have hkn : k < n := by omega
      rcases hpar k hkn p hp with hp | ⟨hp, rfl⟩
      · obtain ⟨s1, s2, s3⟩ := h.sub k hkn p hp
        have hpn : p < n := (h.ti.par k hkn p hp).1
        refine ⟨fun t ht t1 t2 => ?_, fun ho => s2 (by rw [← hO p hpn]; exact ho), ?_⟩
        · rcases ht with rfl | ht
          · have := Option.some.inj t1; omega
          · exact s1 t ht.1 t1 (by rw [← hv p hpn]; exact t2)
        · rw [hv k hkn, hv p hpn]; exact s3
      · obtain ⟨o1, o2⟩ := h.own _ hc k hp (hjv k hp)
        refine ⟨fun t ht t1 t2 => ?_, fun ho => absurd hOn ho, ?_⟩
        · rcases ht with rfl | ht
          · exact o1
          · have := (h.lt t ht.1 _ t1).1; omega
        · rw [hv k hkn, hN3]; exact o2
  · intro k hk ho hp
    obtain ⟨hkn, ho'⟩ := hcl k hk ho
    by_cases e : c.hist = some k
    · rw [hJ k e] at hp; exact absurd hp (by simp)
    · rw [hH k hkn e] at hp ⊢
      refine (h.orph k hkn ho' hp).imp_left ?_
      rintro ⟨t, t1, t2⟩
      exact ⟨t, .inr ⟨t1, by rintro rfl; exact e t2⟩, t2⟩
  · intro k hk ho hvar
    obtain ⟨hkn, ho'⟩ := hcl k hk ho
    obtain ⟨e1, e2, e3, e4⟩ := hsame k hkn
    rw [e3] at hvar
    rw [e1, e3]
    refine (h.var k hkn ho' hvar).imp_right fun hcv => ?_
    refine hcv.grow (n := n) h.ti (fun _ h => h.1) (fun a ha b hb => h.kid_closed ha.1 hb) ?_ ?_ (fun a ha => hv a ha) ?_ ⟨hkn, ho'⟩
    · intro a ha hpa
      obtain ⟨p, hp'⟩ := Option.ne_none_iff_exists'.1 hpa
      exact ⟨ha, h.par_closed hp'⟩
    · intro a ha
      simp only [skel, sk]
      refine ⟨hkids a ha.1, (hsame a ha.1).1, ?_⟩
      by_cases e : c.hist = some a
      · rw [hJ a e]
        exact .inr ⟨(h.lt _ hc a e).2.1, n, rfl, by rw [hN3]; exact hjv a e⟩
      · rw [hH a ha.1 e]; exact .inl rfl
    · intro a ha; rw [hO a ha.1]; exact ⟨by omega, ha.2⟩
  · intro r hr
    obtain ⟨j, h1, h2, h3, h4⟩ := h.recs r hr
    obtain ⟨e1, e2, e3, e4⟩ := hsame j h1
    exact ⟨j, by omega, by rw [hO j h1]; exact h2, by rw [e4]; exact h3, h4.congr e1 e3 rfl⟩

/-! ### A component becomes complete -/

theorem FI.close (h : FI E false H n out R T) (hc : (c, l) ∈ T) {i g : Nat} (hi : c.hist = some i) (hv : (H i).val = c.gray)
    (hg : c.gray < g) (hsz : (H i).size = l.length) (hhd : l.head? = some (H i).head) (hnd : l.Nodup)
    (hvar : 0 ≤ (H i).var → ((H i).size : Int) < E.cfg.minPoint) (hC : ∀ g', c.gray ≤ g' → g' < g → IsC E.P g' l.toFinset)
    (htop : ∃ x ∈ l, E.P.gray x = c.gray) (hdis : ∀ t ∈ T, ∀ x, x ∈ l → x ∈ t.2 → t = (c, l)) :
    FI E false H n out (update R i l) (insert ({ c with gray := g }, l) (T \ {(c, l)})) := by
  have hin := (h.lt _ hc i hi).1
  have hop : Opn H T i := ⟨_, hc, hi, hv⟩
  have hO : ∀ k, (Opn H (insert ({ c with gray := g }, l) (T \ {(c, l)})) k ↔ Opn H T k ∧ k ≠ i) := by
    intro k
    constructor
    · rintro ⟨t, h1, h2, h3⟩
      rcases h1 with rfl | h1
      · have h2' : c.hist = some k := h2
        rw [hi] at h2'
        obtain rfl := Option.some.inj h2'
        rw [hv] at h3
        exact absurd h3 (Nat.ne_of_lt hg)
      · refine ⟨⟨t, h1.1, h2, h3⟩, ?_⟩
        rintro rfl
        exact h1.2 (h.inj _ h1.1 _ hc k h2 hi)
    · rintro ⟨⟨t, h1, h2, h3⟩, hne⟩
      refine ⟨t, .inr ⟨h1, ?_⟩, h2, h3⟩
      rintro rfl
      rw [hi] at h2
      exact hne (Option.some.inj h2).symm
  have hcl : ∀ k, ¬ Opn H (insert ({ c with gray := g }, l) (T \ {(c, l)})) k → k = i ∨ (k ≠ i ∧ ¬ Opn H T k) := by
    intro k ho
    by_cases e : k = i
    · exact .inl e
    · refine .inr ⟨e, fun hh => ho ?_⟩
      rw [hO]; exact ⟨hh, e⟩
  have hRn : ∀ k, k ≠ i → update R i l k = R k := fun k hk => Function.update_of_ne hk _ _
  have hRi : update R i l i = l := Function.update_self _ _ _
  have hmax : ∀ k, k < n → ¬ Opn H T k → (R k).toFinset = l.toFinset → False := by
    intro k hk ho he
    have hcc := h.cl k hk ho
    obtain ⟨t, s1, s2, s3⟩ := hcc.seg
    obtain ⟨x, x1, x2⟩ := hcc.top
    have hxl : x ∈ l := by rw [← List.mem_toFinset, ← he, List.mem_toFinset]; exact x1
    have ht := hdis t s1 x hxl (s2.subset x1)
    subst ht
    obtain ⟨y, y1, y2⟩ := htop
    have hy : y ∈ (R k).toFinset := by rw [he, List.mem_toFinset]; exact y1
    have := (hcc.comp.px y hy).2
    simp only at s3
    omega
  refine ⟨h.ti, ?_, ?_, ?_, ?_, ?_, ?_, ?_, ?_, ?_, h.nodup⟩
  · intro t ht k hk
    rcases ht with rfl | ht
    · obtain ⟨a1, a2, a3⟩ := h.lt _ hc k hk
      exact ⟨a1, a2, le_trans a3 hg.le⟩
    · exact h.lt t ht.1 k hk
  · intro a ha b hb k hka hkb
    rcases ha with rfl | ha <;> rcases hb with rfl | hb
    · rfl
    · exact absurd (h.inj _ hb.1 _ hc k hkb hka) hb.2
    · exact absurd (h.inj _ ha.1 _ hc k hka hkb) ha.2
    · exact h.inj a ha.1 b hb.1 k hka hkb
  · intro t ht k hk hlt
    rcases ht with rfl | ht
    · have hk' : c.hist = some k := hk
      rw [hi] at hk'
      obtain rfl := Option.some.inj hk'
      rw [hRi, hv]
      exact ⟨List.Subset.refl _, hC⟩
    · have hki : k ≠ i := by rintro rfl; exact ht.2 (h.inj _ ht.1 _ hc k hk hi)
      rw [hRn k hki]
      exact h.own t ht.1 k hk hlt
  · intro k hk ho
    rcases hcl k ho with rfl | ⟨hki, ho'⟩
    · refine ⟨⟨_, .inl rfl, by rw [hRi], by dsimp only; omega⟩, by rw [hRi]; exact hnd, by rw [hRi]; exact hhd,
        by rw [hRi]; exact hsz.symm, by rw [hRi, hv]; exact hC _ (le_refl _) hg, by rw [hRi, hv]; exact htop⟩
    · have hcc := h.cl k hk ho'
      obtain ⟨t, s1, s2, s3⟩ := hcc.seg
      refine ⟨?_, by rw [hRn k hki]; exact hcc.nodup, by rw [hRn k hki]; exact hcc.head, by rw [hRn k hki]; exact hcc.len,
        by rw [hRn k hki]; exact hcc.comp, by rw [hRn k hki]; exact hcc.top⟩
      rw [hRn k hki]
      by_cases e : t = (c, l)
      · subst e; exact ⟨_, .inl rfl, s2, lt_trans s3 hg⟩
      · exact ⟨t, .inr ⟨s1, e⟩, s2, s3⟩
  · intro a ha b hb h1 h2 he
    rcases hcl a h1 with rfl | ⟨ai, a2⟩ <;> rcases hcl b h2 with rfl | ⟨bi, b2⟩
    · rfl
    · rw [hRi, hRn b bi] at he; exact (hmax b hb b2 he.symm).elim
    · rw [hRi, hRn a ai] at he; exact (hmax a ha a2 he).elim
    · rw [hRn a ai, hRn b bi] at he; exact h.dist a ha b hb a2 b2 he
  · intro k hk p hp
    have hki : k ≠ i := by rintro rfl; exact h.par_closed hp hop
    obtain ⟨s1, s2, s3⟩ := h.sub k hk p hp
    rw [hRn k hki]
    refine ⟨fun t ht t1 t2 => ?_, fun ho => ?_, s3⟩
    · rcases ht with rfl | ht
      · have t1' : c.hist = some p := t1
        rw [hi] at t1'
        obtain rfl := Option.some.inj t1'
        rw [hv] at t2
        exact absurd t2 (Nat.ne_of_lt hg)
      · exact s1 t ht.1 t1 t2
    · rcases hcl p ho with rfl | ⟨hpi, ho'⟩
      · rw [hRi]; exact s1 _ hc hi hv
      · rw [hRn p hpi]; exact s2 ho'
  · intro k hk ho hp
    rcases hcl k ho with rfl | ⟨hki, ho'⟩
    · exact .inl ⟨_, .inl rfl, hi⟩
    · refine (h.orph k hk ho' hp).imp_left ?_
      rintro ⟨t, t1, t2⟩
      exact ⟨t, .inr ⟨t1, by rintro rfl; rw [hi] at t2; exact hki (Option.some.inj t2).symm⟩, t2⟩
  · intro k hk ho hvk
    rcases hcl k ho with rfl | ⟨hki, ho'⟩
    · exact .inl (hvar hvk)
    · refine (h.var k hk ho' hvk).imp_right fun hcv => hcv.mono (fun h => h) ?_
      intro b hb
      exact ⟨hb.1, fun hh => hb.2 ((hO b).1 hh).1⟩
  · intro r hr
    obtain ⟨j, h1, h2, h3, h4⟩ := h.recs r hr
    have hji : j ≠ i := by rintro rfl; exact h2 hop
    exact ⟨j, h1, fun hh => h2 ((hO j).1 hh).1, h3, h4.congr rfl rfl (hRn j hji)⟩

/-! ### `updateTree` -/

theorem readPts_eq {next : Nat → Nat} : ∀ (l : List Nat) (p : Nat), l.IsChain (fun a b => next a = b) → l.head? = some p →
    readPts next l.length p = l
  | [], _, _, h => by simp at h
  | [x], p, _, h => by
    simp only [List.head?_cons, Option.some.injEq] at h
    subst h
    simp [readPts]
  | x :: y :: l, p, hc, h => by
    simp only [List.head?_cons, Option.some.injEq] at h
    subst h
    rw [List.isChain_cons_cons] at hc
    have := readPts_eq (next := next) (y :: l) y hc.2 rfl
    simp only [List.length_cons] at this ⊢
    rw [readPts, hc.1, this]

theorem path_unique {S : Nat → Skel} {k b i0 : Nat} (h0 : (S i0).parent = none) (h1 : ReflTransGen (PK S) k i0)
    (h2 : ReflTransGen (PK S) k b) : ReflTransGen (PK S) b i0 := by
  induction h2 with
  | refl => exact h1
  | tail _ q ih =>
    rcases ReflTransGen.cases_head ih with e | ⟨y, y1, y2⟩
    · unfold PK at q; rw [e, h0] at q; exact absurd q (by simp)
    · unfold PK at q y1
      rw [y1] at q
      rw [← Option.some.inj q]; exact y2

theorem FI.ext {next : Nat → Nat} {t t' : TS} {m i0 : Nat} (h : FI E false t.hists n t.out R T)
    (hx : Ext E next (fun k => (k < n ∧ ¬ Opn t.hists T k) ∧ ReflTransGen (PK (skel t.hists)) k i0) fin m t t')
    (h0 : (t.hists i0).parent = none) (h0c : i0 < n ∧ ¬ Opn t.hists T i0)
    (hch : ∀ x ∈ T, x.2.IsChain (fun a b => next a = b)) : FI E fin t'.hists n t'.out R T := by
  have hsk := hx.same
  have hv : ∀ k, (t'.hists k).val = (t.hists k).val := fun k => congrArg Skel.val (skel_at hsk k)
  have hp : ∀ k, (t'.hists k).parent = (t.hists k).parent := fun k => congrArg Skel.parent (skel_at hsk k)
  have hs : ∀ k, (t'.hists k).size = (t.hists k).size := fun k => congrArg Skel.size (skel_at hsk k)
  have hh : ∀ k, (t'.hists k).head = (t.hists k).head := fun k => congrArg Skel.head (skel_at hsk k)
  have hO : ∀ k, Opn t'.hists T k ↔ Opn t.hists T k := by intro k; unfold Opn; rw [hv k]
  obtain ⟨new, o1, o2, o3⟩ := hx.out
  have hvar : ∀ k, 0 ≤ (t.hists k).var → (t'.hists k).var = (t.hists k).var := by
    intro k hk
    rcases hx.var k with e | e
    · exact e
    · exact absurd e.1 (not_lt.2 hk)
  refine ⟨by rw [hsk]; exact h.ti, ?_, h.inj, ?_, ?_, ?_, ?_, ?_, ?_, ?_, ?_⟩
  · intro x hxT k hk; rw [hp, hv]; exact h.lt x hxT k hk
  · intro x hxT k hk; rw [hv]; exact h.own x hxT k hk
  · intro k hk ho
    rw [hO] at ho
    have hc := h.cl k hk ho
    exact ⟨by rw [hv]; exact hc.seg, hc.nodup, by rw [hh]; exact hc.head, by rw [hs]; exact hc.len, by rw [hv]; exact hc.comp,
      by rw [hv]; exact hc.top⟩
  · intro a ha b hb h1 h2
    rw [hO] at h1 h2
    exact h.dist a ha b hb h1 h2
  · intro k hk p; rw [hp, hO]; simp only [hv]; exact h.sub k hk p
  · intro k hk ho; rw [hO] at ho; rw [hp, hs]; exact h.orph k hk ho
  · intro k hk ho hvk
    rw [hO] at ho
    rw [hs, hsk]
    have hcl' : ∀ b, (b < n ∧ ¬ Opn t.hists T b) → b < n ∧ ¬ Opn t'.hists T b := fun b hb => by rw [hO]; exact hb
    rcases hx.var k with e | ⟨e1, e2, e3, e4⟩
    · rw [e] at hvk ⊢
      exact (h.var k hk ho hvk).imp_right fun hc => hc.mono (by simp) hcl'
    · obtain ⟨a, b, v1, v2, v3, v4⟩ := e4
      refine .inr ⟨a, b, v1, v2, hcl' b ?_, v3, v4⟩
      have hpath := path_unique h0 e2.2 v2.path
      have hbn := (h.ti.val_le hk v2.path).1
      refine ⟨hbn, ?_⟩
      rcases ReflTransGen.cases_head hpath with e | ⟨y, y1, -⟩
      · rw [e]; exact h0c.2
      · exact h.par_closed y1
  · intro r hr
    rw [o1] at hr
    rcases List.mem_append.1 hr with hr | hr
    · obtain ⟨j, h1, h2, h3, h4⟩ := h.recs r hr
      exact ⟨j, h1, by rw [hO]; exact h2, hx.chk j h3, h4.congr (hs j) (hvar j h4.var0) rfl⟩
    · obtain ⟨j, j1, j2, j3, j4⟩ := o3 r hr
      refine ⟨j, j1.1.1, by rw [hO]; exact j1.1.2, j3, ?_⟩
      have hc := h.cl j j1.1.1 j1.1.2
      obtain ⟨x, x1, x2, -⟩ := hc.seg
      have hread : readPts next (t'.hists j).size (t'.hists j).head = R j := by
        rw [hs, hh, ← hc.len]
        exact readPts_eq _ _ ((hch x x1).infix x2) hc.head
      have hm := j4.made
      refine ⟨by rw [hm]; rfl, by rw [hm]; rfl, ?_, by rw [hm]; rfl, j4.min, j4.max, j4.var0, j4.var1⟩
      rw [hm]
      simp only [recOf]
      rw [hread]
      rfl
  · rw [o1, List.map_append, List.nodup_append]
    refine ⟨h.nodup, o2, ?_⟩
    intro a ha b hb
    obtain ⟨r, hr, rfl⟩ := List.mem_map.1 ha
    obtain ⟨r', hr', rfl⟩ := List.mem_map.1 hb
    obtain ⟨j, h1, h2, h3, h4⟩ := h.recs r hr
    obtain ⟨k, k1, k2, k3, k4⟩ := o3 r' hr'
    have e2 : r'.idx = k := by rw [k4.made]; rfl
    rw [h4.idx, e2]
    rintro rfl
    rw [h3] at k2
    exact absurd k2 (by simp)

/-- The histories of complete components below `i0`. -/
theorem FI.cli (h : FI E false H n out R T) (i0 : Nat) :
    ClI (skel H) n (fun k => (k < n ∧ ¬ Opn H T k) ∧ ReflTransGen (PK (skel H)) k i0) := by
  refine ⟨fun i hi => hi.1.1, fun i hi => ?_, fun i hi k hk => ?_⟩
  · have hc := h.cl i hi.1.1 hi.1.2
    obtain ⟨x, hx, -⟩ := hc.top
    have := List.length_pos_of_mem hx
    rw [hc.len] at this
    exact this
  · obtain ⟨k1, k2, -⟩ := h.ti.kid i hi.1.1 k hk
    have hck : ¬ Opn H T k := h.par_closed k2
    refine ⟨⟨⟨k1, hck⟩, .head k2 hi.2⟩, ?_⟩
    have h1 := h.cl k k1 hck
    have h2 := h.cl i hi.1.1 hi.1.2
    have hsub := (h.sub k k1 i k2).2.1 hi.1.2
    have := (h1.nodup.subperm hsub).length_le
    rw [h1.len, h2.len] at this
    exact this

/-! ### Linking -/

/-- What `linkHist` does. -/
theorem linkHist_spec {h h2 : Nat} (hne : h ≠ h2) :
    (∀ k, k ≠ h → k ≠ h2 → linkHist E H h h2 k = H k) ∧
    (∃ ks, linkHist E H h h2 h = { H h with kids := ks } ∧
      ∀ k ∈ ks, k ∈ (H h).kids ∨ (k = h2 ∧ (linkHist E H h h2 h2).parent = some h)) ∧
    (linkHist E H h h2 h2 = { H h2 with parent := some h } ∨
      (linkHist E H h h2 h2 = H h2 ∧ ((H h2).size : Int) < E.cfg.minPoint)) := by
  have key : ∀ ks : List Nat, (∀ k ∈ ks, k ∈ (H h).kids ∨ k = h2) →
      ∀ L, L = update (update H h { H h with kids := ks }) h2 { H h2 with parent := some h } →
      (∀ k, k ≠ h → k ≠ h2 → L k = H k) ∧
      (∃ ks, L h = { H h with kids := ks } ∧ ∀ k ∈ ks, k ∈ (H h).kids ∨ (k = h2 ∧ (L h2).parent = some h)) ∧
      (L h2 = { H h2 with parent := some h } ∨ (L h2 = H h2 ∧ ((H h2).size : Int) < E.cfg.minPoint)) := by
    rintro ks hks L rfl
    refine ⟨fun k k1 k2 => ?_, ⟨ks, ?_, fun k hk => ?_⟩, .inl (by simp)⟩
    · rw [Function.update_of_ne k2, Function.update_of_ne k1]
    · rw [Function.update_of_ne hne, Function.update_self]
    · refine (hks k hk).imp_right fun e => ⟨e, by simp⟩
  unfold linkHist
  cases hk : (H h).kids with
  | nil =>
    simp only
    rw [← hk]
    exact key [h2] (fun k hk => .inr (by simpa using hk)) _ (by rw [hk])
  | cons h1 ks =>
    simp only
    by_cases hs : (H h2).size < (H h1).size
    · rw [if_pos hs]
      by_cases hm : E.cfg.minPoint ≤ ((H h2).size : Int)
      · rw [if_pos hm, ← hk]
        refine key _ (fun k hk' => ?_) _ rfl
        rw [hk]
        simp only [List.mem_cons] at hk' ⊢
        tauto
      · rw [if_neg hm]
        refine ⟨fun _ _ _ => rfl, ⟨(H h).kids, rfl, fun k hk' => .inl (by rw [← hk]; exact hk')⟩, .inr ⟨rfl, not_le.1 hm⟩⟩
    · rw [if_neg hs, ← hk]
      refine key _ (fun k hk' => ?_) _ rfl
      rw [hk]
      simp only [List.mem_cons] at hk' ⊢
      rcases hk' with hk' | hk'
      · exact .inr hk'
      · left
        split at hk'
        · rw [hk] at hk'; simpa using hk'
        · simp at hk'

theorem FI.link (h : FI E false H n out R T) {a b e : Comp} {ld lc : List Nat} (ha : (a, ld) ∈ T) (hb : (b, lc) ∈ T)
    {h1 h2 : Nat} (h1a : a.hist = some h1) (h1v : (H h1).val = a.gray) (h2b : b.hist = some h2) (h2v : (H h2).val < b.gray)
    (hab : b.gray = a.gray) (he : e.hist = some h1 ∧ e.gray = a.gray) :
    FI E false (linkHist E H h1 h2) n out R (insert (e, ld ++ lc) (T \ {(a, ld), (b, lc)})) := by
  have hop : Opn H T h1 := ⟨_, ha, h1a, h1v⟩
  have hcl2 : ¬ Opn H T h2 := by
    rintro ⟨t, t1, t2, t3⟩
    have := h.inj _ t1 _ hb h2 t2 h2b
    subst this
    simp only at t3
    omega
  have hne : h1 ≠ h2 := by rintro rfl; exact hcl2 hop
  obtain ⟨l1, ⟨ks, l2, l3⟩, l4⟩ := linkHist_spec (E := E) (H := H) hne
  generalize hL : linkHist E H h1 h2 = L at l1 l2 l3 l4
  obtain ⟨n1, p1, -⟩ := h.lt _ ha h1 h1a
  obtain ⟨n2, p2, -⟩ := h.lt _ hb h2 h2b
  have hv : ∀ k, (L k).val = (H k).val ∧ (L k).size = (H k).size ∧ (L k).head = (H k).head ∧ (L k).var = (H k).var ∧
      (L k).checked = (H k).checked := by
    intro k
    by_cases e1 : k = h1
    · subst e1; rw [l2]; simp
    · by_cases e2 : k = h2
      · subst e2
        rcases l4 with l4 | l4
        · rw [l4]; simp
        · rw [l4.1]; simp
      · rw [l1 k e1 e2]; simp
  have hkids : ∀ k, k ≠ h1 → (L k).kids = (H k).kids := by
    intro k e1
    by_cases e2 : k = h2
    · subst e2
      rcases l4 with l4 | l4
      · rw [l4]
      · rw [l4.1]
    · rw [l1 k e1 e2]
  have hpar : ∀ k, k ≠ h2 → (L k).parent = (H k).parent := by
    intro k e2
    by_cases e1 : k = h1
    · subst e1; rw [l2]
    · rw [l1 k e1 e2]
  have hpar2 : (L h2).parent = some h1 ∨ ((L h2).parent = none ∧ ((H h2).size : Int) < E.cfg.minPoint) := by
    rcases l4 with l4 | l4
    · rw [l4]; exact .inl rfl
    · rw [l4.1]; exact .inr ⟨p2, l4.2⟩
  have hO : ∀ k, (Opn L (insert (e, ld ++ lc) (T \ {(a, ld), (b, lc)})) k ↔ Opn H T k) := by
    intro k
    constructor
    · rintro ⟨t, t1, t2, t3⟩
      rw [(hv k).1] at t3
      rcases t1 with rfl | t1
      · have t2' : e.hist = some k := t2
        rw [he.1] at t2'
        obtain rfl := Option.some.inj t2'
        exact hop
      · exact ⟨t, t1.1, t2, t3⟩
    · rintro ⟨t, t1, t2, t3⟩
      by_cases e1 : t = (a, ld)
      · subst e1
        have t2' : a.hist = some k := t2
        rw [h1a] at t2'
        obtain rfl := Option.some.inj t2'
        exact ⟨_, .inl rfl, he.1, by rw [(hv h1).1, h1v]; exact he.2.symm⟩
      · refine ⟨t, .inr ⟨t1, ?_⟩, t2, by rw [(hv k).1]; exact t3⟩
        rintro (rfl | e2)
        · exact e1 rfl
        · rw [Set.mem_singleton_iff] at e2
          subst e2
          have t2' : b.hist = some k := t2
          rw [h2b] at t2'
          obtain rfl := Option.some.inj t2'
          exact hcl2 ⟨_, t1, h2b, t3⟩
  obtain ⟨w1, w2⟩ := h.own _ hb h2 h2b h2v
  have hoth : ∀ t ∈ T \ {(a, ld), (b, lc)}, ∀ k, t.1.hist = some k → k ≠ h1 ∧ k ≠ h2 := by
    intro t ht k hk
    constructor
    · rintro rfl; exact ht.2 (.inl (h.inj _ ht.1 _ ha k hk h1a))
    · rintro rfl; exact ht.2 (.inr (h.inj _ ht.1 _ hb k hk h2b))
  refine ⟨⟨?_, ?_, ?_⟩, ?_, ?_, ?_, ?_, ?_, ?_, ?_, ?_, ?_, h.nodup⟩
  · intro k hk; simp only [skel, sk]; rw [(hv k).1]; exact h.ti.val k hk
  · intro k hk k' hk'
    simp only [skel, sk] at hk' ⊢
    rw [(hv k).1, (hv k').1]
    by_cases e1 : k = h1
    · subst e1
      rw [l2] at hk'
      rcases l3 k' hk' with hk' | ⟨rfl, hq⟩
      · obtain ⟨q1, q2, q3⟩ := h.ti.kid k hk k' hk'
        have hne2 : k' ≠ h2 := by
          rintro rfl
          have q2' : (H k').parent = some k := q2
          rw [p2] at q2'; exact absurd q2' (by simp)
        exact ⟨q1, by rw [hpar k' hne2]; exact q2, q3⟩
      · exact ⟨n2, hq, by omega⟩
    · rw [hkids k e1] at hk'
      obtain ⟨q1, q2, q3⟩ := h.ti.kid k hk k' hk'
      have hne2 : k' ≠ h2 := by
        rintro rfl
        have q2' : (H k').parent = some k := q2
        rw [p2] at q2'; exact absurd q2' (by simp)
      exact ⟨q1, by rw [hpar k' hne2]; exact q2, q3⟩
  · intro k hk p hp
    simp only [skel, sk] at hp ⊢
    rw [(hv k).1, (hv p).1]
    by_cases e2 : k = h2
    · subst e2
      rcases hpar2 with hq | ⟨hq, -⟩
      · rw [hq] at hp
        obtain rfl := Option.some.inj hp
        exact ⟨n1, by omega⟩
      · rw [hq] at hp; exact absurd hp (by simp)
    · rw [hpar k e2] at hp
      exact h.ti.par k hk p hp
  · intro t ht k hk
    rcases ht with rfl | ht
    · have hk' : e.hist = some k := hk
      rw [he.1] at hk'
      obtain rfl := Option.some.inj hk'
      rw [hpar h1 hne, (hv h1).1]
      exact ⟨n1, p1, by rw [h1v]; exact he.2.ge⟩
    · obtain ⟨q1, q2⟩ := hoth t ht k hk
      rw [l1 k q1 q2]
      exact h.lt t ht.1 k hk
  · intro x hx y hy k hkx hky
    rcases hx with rfl | hx <;> rcases hy with rfl | hy
    · rfl
    · have hk' : e.hist = some k := hkx
      rw [he.1] at hk'
      obtain rfl := Option.some.inj hk'
      exact absurd rfl (hoth y hy _ hky).1
    · have hk' : e.hist = some k := hky
      rw [he.1] at hk'
      obtain rfl := Option.some.inj hk'
      exact absurd rfl (hoth x hx _ hkx).1
    · exact h.inj x hx.1 y hy.1 k hkx hky
  · intro t ht k hk hlt
    rw [(hv k).1] at hlt ⊢
    rcases ht with rfl | ht
    · have hk' : e.hist = some k := hk
      rw [he.1] at hk'
      obtain rfl := Option.some.inj hk'
      simp only at hlt
      rw [h1v, he.2] at hlt
      exact absurd hlt (lt_irrefl _)
    · exact h.own t ht.1 k hk hlt
  · intro k hk ho
    rw [hO] at ho
    have hc := h.cl k hk ho
    obtain ⟨v1, v2, v3, v4, v5⟩ := hv k
    refine ⟨?_, hc.nodup, by rw [v3]; exact hc.head, by rw [v2]; exact hc.len, by rw [v1]; exact hc.comp,
      by rw [v1]; exact hc.top⟩
    rw [v1]
    obtain ⟨t, s1, s2, s3⟩ := hc.seg
    by_cases e1 : t = (a, ld)
    · subst e1
      exact ⟨_, .inl rfl, s2.trans (List.prefix_append _ _).isInfix, by dsimp only; rw [he.2]; exact s3⟩
    · by_cases e2 : t = (b, lc)
      · subst e2
        exact ⟨_, .inl rfl, s2.trans (List.suffix_append _ _).isInfix, by dsimp only; rw [he.2, ← hab]; exact s3⟩
      · exact ⟨t, .inr ⟨s1, by rintro (q | q); exacts [e1 q, e2 q]⟩, s2, s3⟩
  · intro x hx y hy q1 q2
    rw [hO] at q1 q2
    exact h.dist x hx y hy q1 q2
  · intro k hk p hp
    rw [hO]
    simp only [(hv k).1, (hv p).1]
    by_cases e2 : k = h2
    · subst e2
      rcases hpar2 with hq | ⟨hq, -⟩
      · rw [hq] at hp
        obtain rfl := Option.some.inj hp
        refine ⟨fun t ht t1 t2 => ?_, fun ho => absurd hop ho, fun g g1 g2 => w2 g g1 (by dsimp only; omega)⟩
        rcases ht with rfl | ht
        · exact fun x hx => List.subset_append_right _ _ (w1 hx)
        · exact absurd rfl (hoth t ht _ t1).1
      · rw [hq] at hp; exact absurd hp (by simp)
    · rw [hpar k e2] at hp
      obtain ⟨s1, s2, s3⟩ := h.sub k hk p hp
      refine ⟨fun t ht t1 t2 => ?_, s2, s3⟩
      rcases ht with rfl | ht
      · have t1' : e.hist = some p := t1
        rw [he.1] at t1'
        obtain rfl := Option.some.inj t1'
        exact fun x hx => List.subset_append_left _ _ (s1 _ ha h1a h1v hx)
      · exact s1 t ht.1 t1 t2
  · intro k hk ho hp
    rw [hO] at ho
    rw [(hv k).2.1]
    by_cases e2 : k = h2
    · subst e2
      rcases hpar2 with hq | ⟨hq, hq2⟩
      · rw [hq] at hp; exact absurd hp (by simp)
      · exact .inr hq2
    · rw [hpar k e2] at hp
      refine (h.orph k hk ho hp).imp_left ?_
      rintro ⟨t, t1, t2⟩
      refine ⟨t, .inr ⟨t1, ?_⟩, t2⟩
      rintro (rfl | e3)
      · have t2' : a.hist = some k := t2
        rw [h1a] at t2'
        obtain rfl := Option.some.inj t2'
        exact ho hop
      · rw [Set.mem_singleton_iff] at e3
        subst e3
        have t2' : b.hist = some k := t2
        rw [h2b] at t2'
        exact e2 (Option.some.inj t2').symm
  · intro k hk ho hvk
    rw [hO] at ho
    obtain ⟨v1, v2, v3, v4, v5⟩ := hv k
    rw [v4] at hvk
    rw [v2, v4]
    refine (h.var k hk ho hvk).imp_right fun hcv => ?_
    refine hcv.grow (n := n) h.ti (fun _ h => h.1) (fun x hx y hy => h.kid_closed hx.1 hy) ?_ ?_ (fun x _ => (hv x).1) ?_ ⟨hk, ho⟩
    · intro x hx hpx
      obtain ⟨p, hp'⟩ := Option.ne_none_iff_exists'.1 hpx
      exact ⟨hx, h.par_closed hp'⟩
    · intro x hx
      simp only [skel, sk]
      have hx1 : x ≠ h1 := by rintro rfl; exact hx.2 hop
      refine ⟨hkids x hx1, (hv x).2.1, ?_⟩
      by_cases e2 : x = h2
      · subst e2
        rcases hpar2 with hq | ⟨hq, -⟩
        · exact .inr ⟨p2, h1, hq, by rw [(hv h1).1]; omega⟩
        · exact .inl (by rw [hq, p2])
      · exact .inl (hpar x e2)
    · intro x hx; rw [hO]; exact hx
  · intro r hr
    obtain ⟨j, j1, j2, j3, j4⟩ := h.recs r hr
    obtain ⟨v1, v2, v3, v4, v5⟩ := hv j
    exact ⟨j, j1, by rw [hO]; exact j2, by rw [v5]; exact j3, j4.congr v2 v4 rfl⟩

end Verif.OpenCv3
