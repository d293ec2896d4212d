import Verif.Proof.MsPrep
import Verif.Proof.RecogMain
import Mathlib.Algebra.Order.BigOperators.Group.Finset
import Mathlib.Combinatorics.Enumerative.DoubleCounting

/-!
# The ms detector: from recognition to extraction
-/

namespace Verif.Ms

open Relation (ReflTransGen)
open Verif.Spec (RegionTree IsComponentTree)
open Verif.Recog (Flag Shows treeOf toForest Recognized Outcome RForest Cfg)
open Verif.Connect (Res RealPar Str)
open Verif.Extract (Reg IsReg Handover0 Plan planOf scan mem_scan pxOf toPt ofRecognized)

/-- A tree with pairs as pointers. -/
def pairTree {α : Type} (T : RegionTree α Nat) : RegionTree α Reg where
  isReg := fun r => r.1 = 0 ∧ T.isReg r.2
  lab := fun p => (0, T.lab p)
  gray := fun r => T.gray r.2
  parent := fun r => if r.1 = 0 then (T.parent r.2).map fun p => (0, p) else none
  size := fun r => T.size r.2

/-- What recognition leaves behind, with pairs as pointers. -/
def pairOut (out : Recognized Nat) : Recognized Reg :=
  ⟨regsM out.R, out.reported.map fun r => (0, r), out.pixels⟩

theorem pair_up {α : Type} {T : RegionTree α Nat} {a b : Nat} :
    ReflTransGen (fun a b => (pairTree T).parent a = some b) (0, a) (0, b) ↔
      ReflTransGen (fun a b => T.parent a = some b) a b := by
  constructor
  · intro h
    have : ∀ x, ReflTransGen (fun a b => (pairTree T).parent a = some b) (0, a) x →
        x.1 = 0 ∧ ReflTransGen (fun a b => T.parent a = some b) a x.2 := by
      intro x hx
      induction hx with
      | refl => exact ⟨rfl, .refl⟩
      | tail _ hp ih =>
        simp only [pairTree, ih.1, if_true, Option.map_eq_some_iff] at hp
        obtain ⟨p, h1, rfl⟩ := hp
        exact ⟨rfl, ih.2.tail h1⟩
    exact (this _ h).2
  · intro h
    induction h with
    | refl => exact .refl
    | tail _ hp ih =>
      refine ih.tail ?_
      simp [pairTree, hp]

theorem pair_under {α : Type} {T : RegionTree α Nat} {r : Nat} {p : α} :
    (pairTree T).Under (0, r) p ↔ T.Under r p := pair_up

theorem envM_reg {w h nreg : Nat} {r : Reg} : IsReg (envM w h nreg) r ↔ r.1 = 0 ∧ r.2 < nreg := by
  obtain ⟨k, r⟩ := r
  by_cases hk : k = 0 <;> simp [IsReg, envM, hk]

theorem pair_res {R : RForest Nat} : ∀ {k r x : Nat}, Res (toForest R) k r x → Res (toForest (regsM R)) k (0, r) (0, x)
  | 0, _, _, ⟨h, e⟩ => ⟨h, by rw [e]⟩
  | _ + 1, r, _, ⟨h, y, e, hy⟩ => by
    refine ⟨h, (0, y), ?_, pair_res hy⟩
    have e' : (R r).parent = some y := e
    simp [toForest, regsM, e']

theorem pair_shows {α : Type} {T : RegionTree α Nat} {w h nreg : Nat} {R : RForest Nat} (hreg : ∀ r, T.isReg r ↔ r < nreg)
    (hS : Shows (treeOf T T.isReg 0) R) :
    Shows (treeOf (pairTree T) (IsReg (envM w h nreg)) 0) (regsM R) := by
  have hr : ∀ r, IsReg (envM w h nreg) r → r.1 = 0 ∧ T.isReg r.2 := fun r h => by
    rw [envM_reg] at h; exact ⟨h.1, (hreg _).2 h.2⟩
  refine ⟨fun r => hS.gray r.2, fun r => hS.size r.2, fun r h => ?_, ?_, ?_⟩
  · obtain ⟨h1, h2⟩ := hr r h
    refine (hS.merged r.2 h2).trans (not_congr ?_)
    show T.isReg r.2 ↔ r.1 = 0 ∧ T.isReg r.2
    simp [h1]
  · have hs := hS.str
    have par : ∀ r q : Reg, (toForest (regsM R) r).parent = some q → r.1 = 0 ∧ q.1 = 0 ∧ (toForest R r.2).parent = some q.2 := by
      intro r q e
      have e' : (if r.1 = 0 then (R r.2).parent.map fun p => ((0, p) : Reg) else none) = some q := e
      by_cases h0 : r.1 = 0
      · rw [if_pos h0, Option.map_eq_some_iff] at e'
        obtain ⟨p, h1, rfl⟩ := e'
        exact ⟨h0, rfl, h1⟩
      · rw [if_neg h0] at e'; cases e'
    have mk : ∀ q : Reg, q.1 = 0 → T.isReg q.2 → IsReg (envM w h nreg) q := fun q h1 h2 => envM_reg.2 ⟨h1, (hreg _).1 h2⟩
    refine ⟨fun r => hs.gray r.2, fun r h => hs.gray_lt r.2 (hr r h).2, fun r h q e => ?_, fun r q e => ?_, fun r h hm q e => ?_,
      fun r h hm => ?_, fun r h => ?_⟩
    · obtain ⟨-, h2, h3⟩ := par r q e
      exact mk q h2 (hs.par_reg r.2 (hr r h).2 q.2 h3)
    · obtain ⟨h1, -, h3⟩ := par r q e
      exact mk r h1 (hs.reg_par r.2 q.2 h3)
    · exact hs.live_lt r.2 (hr r h).2 hm q.2 (par r q e).2.2
    · obtain ⟨q, h1, h2⟩ := hs.merged_eq r.2 (hr r h).2 hm
      refine ⟨(0, q), ?_, h2⟩
      have e' : (R r.2).parent = some q := h1
      simp [toForest, regsM, (hr r h).1, e']
    · obtain ⟨k, hk, x, hx⟩ := hs.res r.2 (hr r h).2
      refine ⟨k, hk, (0, x), ?_⟩
      have := pair_res hx
      rwa [show ((0, r.2) : Reg) = r from Prod.ext (hr r h).1.symm rfl] at this
  · rintro ⟨k, r⟩ ⟨h1, h2⟩
    dsimp only at h1 h2
    subst h1
    have := hS.par r h2
    show RealPar (toForest (regsM R)) (0, r) (if 0 = 0 then (T.parent r).map fun p => ((0, p) : Reg) else none)
    rw [if_pos rfl]
    have this : RealPar (toForest R) r (T.parent r) := this
    cases hp : T.parent r with
    | none =>
      rw [hp] at this
      cases this with
      | none e =>
        have e' : (R r).parent = none := e
        exact .none (by simp [toForest, regsM, e'])
    | some x =>
      rw [hp] at this
      cases this with
      | some y _ k e hx =>
        have e' : (R r).parent = some y := e
        exact .some (0, y) (0, x) k (by simp [toForest, regsM, e']) (pair_res hx)

/-- Everything extraction needs. -/
theorem handover_pair {T : RegionTree (Nat × Nat) Nat} {w h nreg : Nat} {out : Recognized Nat} {px : Finset (Nat × Nat)}
    {label : Nat → Nat} (hpx : ∀ p, p ∈ px ↔ p.1 < w ∧ p.2 < h)
    (hreg : ∀ r, T.isReg r ↔ r < nreg) (hok : (treeOf T T.isReg 0).Ok) (hS : Shows (treeOf T T.isReg 0) out.R)
    (hvalid : ∀ r, T.isReg r → ((out.R r).flag = .valid ↔ r ∈ out.reported)) (hlive : ∀ r ∈ out.reported, T.isReg r)
    (hnd : out.reported.Nodup) (hso : out.reported.Pairwise fun x y => T.gray x ≤ T.gray y)
    (hlab : ∀ p ∈ px, T.lab p = label (Flood.idx w p.1 p.2)) (hlr : ∀ p ∈ px, T.isReg (T.lab p))
    (hrl : ∀ r, T.isReg r → ∃ p ∈ px, T.lab p = r)
    (hsz : ∀ r, T.isReg r → ∀ s : Finset (Nat × Nat), (∀ p, p ∈ s ↔ p ∈ px ∧ T.Under r p) → T.size r = s.card) :
    Handover0 (envM w h nreg) (fun _ => label) px (pairTree T) 0 (pairOut out) := by
  have inj : Function.Injective fun r : Nat => ((0, r) : Reg) := fun a b e => (Prod.mk.inj e).2
  have hscan : ∀ k, k < 4 → ∀ rc ∈ scan ((envM w h nreg).pi k).width ((envM w h nreg).pi k).height,
      k = 0 ∧ rc.1 < h ∧ rc.2 < w := by
    intro k _ rc hrc
    rw [mem_scan] at hrc
    by_cases h0 : k = 0
    · subst h0; exact ⟨rfl, hrc⟩
    · simp [envM, h0] at hrc
  refine ⟨Nat.le_refl _, ⟨?_, ?_, ?_, ?_, ?_, ?_⟩, pair_shows hreg hS, ?_, ?_, hnd.map inj, ?_, ?_, ?_, ?_, ?_, ?_, ?_⟩
  · intro r hr; exact envM_reg.2 ⟨hr.1, (hreg _).1 hr.2⟩
  · intro r hr p e
    have e' : (if r.1 = 0 then (T.parent r.2).map fun p => ((0, p) : Reg) else none) = some p := e
    rw [if_pos hr.1, Option.map_eq_some_iff] at e'
    obtain ⟨q, h1, rfl⟩ := e'
    exact ⟨rfl, hok.up_live r.2 hr.2 q h1⟩
  · intro r hr p e
    have e' : (if r.1 = 0 then (T.parent r.2).map fun p => ((0, p) : Reg) else none) = some p := e
    rw [if_pos hr.1, Option.map_eq_some_iff] at e'
    obtain ⟨q, h1, rfl⟩ := e'
    exact hok.up_gray r.2 hr.2 q h1
  · intro r hr; exact hok.gr_lt r.2 hr.2
  · intro r hr; exact hok.sz_pos r.2 hr.2
  · intro r hr p e
    have e' : (if r.1 = 0 then (T.parent r.2).map fun p => ((0, p) : Reg) else none) = some p := e
    rw [if_pos hr.1, Option.map_eq_some_iff] at e'
    obtain ⟨q, h1, rfl⟩ := e'
    exact hok.sz_lt r.2 hr.2 q h1
  · rintro ⟨k, r⟩ ⟨h1, h2⟩
    dsimp only at h1 h2
    subst h1
    refine (hvalid r h2).trans ?_
    show r ∈ out.reported ↔ (0, r) ∈ out.reported.map fun r => ((0, r) : Reg)
    rw [List.mem_map_of_injective inj]
  · intro r hr
    obtain ⟨q, hq, rfl⟩ := List.mem_map.1 hr
    exact ⟨rfl, hlive q hq⟩
  · show (out.reported.map _).Pairwise _
    rw [List.pairwise_map]
    exact hso
  · intro k hk rc hrc
    obtain ⟨rfl, h1, h2⟩ := hscan k hk rc hrc
    have hp : (rc.2, rc.1) ∈ px := (hpx _).2 ⟨h2, h1⟩
    have e : pxOf (envM w h nreg) 0 rc = (rc.2, rc.1) := rfl
    have hl := hlr _ hp
    show label (Flood.idx w rc.2 rc.1) < nreg ∧ ∃ j, Res _ j (0, label (Flood.idx w rc.2 rc.1)) (0, T.lab (pxOf (envM w h nreg) 0 rc))
    rw [e, ← hlab _ hp]
    refine ⟨(hreg _).1 hl, 0, ?_, rfl⟩
    exact hS.live hok hl
  · intro k hk rc hrc
    obtain ⟨rfl, h1, h2⟩ := hscan k hk rc hrc
    exact (hpx _).2 ⟨h2, h1⟩
  · intro p hp
    have := (hpx p).1 hp
    exact ⟨0, by omega, (p.2, p.1), mem_scan.2 ⟨this.2, this.1⟩, rfl⟩
  · intro k k' hk hk' rc hrc rc' hrc' e
    obtain ⟨rfl, -⟩ := hscan k hk rc hrc
    obtain ⟨rfl, -⟩ := hscan k' hk' rc' hrc'
    refine ⟨rfl, ?_⟩
    obtain ⟨e1, e2⟩ := Prod.mk.inj e
    exact Prod.ext e2 e1
  · rintro ⟨k, r⟩ ⟨h1, h2⟩
    dsimp only at h1 h2
    subst h1
    obtain ⟨p, hp, e⟩ := hrl r h2
    exact ⟨p, hp, by show (0, T.lab p) = _; rw [e]⟩
  · rintro ⟨k, r⟩ ⟨h1, h2⟩ s hs
    dsimp only at h1 h2
    subst h1
    exact hsz r h2 s fun p => (hs p).trans (and_congr_right fun _ => pair_under)

/-! ### The room needed -/

/-- The regions a pixel lies in have different gray levels. -/
theorem under_gray {α : Type} {T : RegionTree α Nat} {p : α} {a b : Nat} (hok : (treeOf T T.isReg 0).Ok)
    (hl : T.isReg (T.lab p)) (ha : T.Under a p) (hb : T.Under b p) (e : T.gray a = T.gray b) : a = b := by
  have lt : ∀ {x y : Nat}, T.isReg x → ReflTransGen (fun a b => T.parent a = some b) x y → T.isReg y ∧ (x = y ∨ T.gray x < T.gray y) := by
    intro x y hx h
    induction h with
    | refl => exact ⟨hx, .inl rfl⟩
    | tail _ hp ih =>
      refine ⟨hok.up_live _ ih.1 _ hp, .inr ?_⟩
      have : T.gray _ < T.gray _ := hok.up_gray _ ih.1 _ hp
      rcases ih.2 with e | e
      · subst e; exact this
      · omega
  have hra := (lt hl ha).1
  have hrb := (lt hl hb).1
  rcases Relation.ReflTransGen.total_of_right_unique (fun x y z h1 h2 => Option.some.inj (h1.symm.trans h2)) ha hb with h | h
  · rcases (lt hra h).2 with e' | e'
    · exact e'
    · omega
  · rcases (lt hrb h).2 with e' | e'
    · exact e'.symm
    · omega

theorem sizes_le {α : Type} {T : RegionTree α Nat} {px : Finset α} (hok : (treeOf T T.isReg 0).Ok)
    (hlr : ∀ p ∈ px, T.isReg (T.lab p)) {l : List Nat} (hnd : l.Nodup) (hl : ∀ r ∈ l, T.isReg r)
    (hsz : ∀ r, T.isReg r → ∀ s : Finset α, (∀ p, p ∈ s ↔ p ∈ px ∧ T.Under r p) → T.size r = s.card) :
    (l.map T.size).sum ≤ 256 * px.card := by
  classical
  have h1 : (l.map T.size).sum = ∑ r ∈ l.toFinset, (px.filter fun p => T.Under r p).card := by
    rw [List.sum_toFinset _ hnd]
    congr 1
    refine List.map_congr_left fun r hr => ?_
    exact hsz r (hl r hr) _ fun p => Finset.mem_filter
  have h2 : ∑ r ∈ l.toFinset, (px.filter fun p => T.Under r p).card
      = ∑ p ∈ px, (l.toFinset.filter fun r => T.Under r p).card :=
    Finset.sum_card_bipartiteAbove_eq_sum_card_bipartiteBelow (fun r p => T.Under r p)
  rw [h1, h2]
  have h3 : ∀ p ∈ px, (l.toFinset.filter fun r => T.Under r p).card ≤ 256 := by
    intro p hp
    have : (l.toFinset.filter fun r => T.Under r p).card ≤ (Finset.range 256).card := by
      refine Finset.card_le_card_of_injOn T.gray (fun r hr => ?_) fun a ha b hb e => ?_
      · rw [Finset.mem_coe, Finset.mem_filter, List.mem_toFinset] at hr
        exact Finset.mem_coe.2 (Finset.mem_range.2 (hok.gr_lt r (hl r hr.1)))
      · rw [Finset.mem_coe, Finset.mem_filter] at ha hb
        exact under_gray hok (hlr p hp) ha.2 hb.2 e
    simpa using this
  have : _ ≤ px.card * 256 := Finset.sum_le_card_nsmul px _ 256 h3
  omega

theorem sumLen_eq (f : Nat → Nat) {l : List Nat} {t : Nat} (ht : t ≤ l.length)
    (h : ∀ i (hi : i < l.length), f i = l[i]) : sumLen f t = (l.take t).sum := by
  induction t with
  | zero => simp [sumLen]
  | succ t ih =>
    rw [sumLen, ih (by omega), h t (by omega), List.take_add_one, List.getElem?_eq_getElem (by omega), List.sum_append]
    simp

theorem sumLen_double {f g : Nat → Nat} {t : Nat} (h : ∀ i, i < t → f i ≤ 2 * g i) : sumLen f t ≤ 2 * sumLen g t := by
  induction t with
  | zero => simp [sumLen]
  | succ t ih =>
    have h1 := ih fun i hi => h i (by omega)
    have h2 := h t (by omega)
    simp only [sumLen]; omega

theorem kids_accs (P : Plan) {t : Nat} (h : ∀ i, i < t → 1 ≤ (P.full i).length) (j : Nat) :
    (P.kids t j).length ≤ (P.accs t j).length := by
  induction t with
  | zero => simp [Plan.kids]
  | succ t ih =>
    have h1 := ih fun i hi => h i (by omega)
    have h2 := h t (by omega)
    simp only [Plan.kids, Plan.accs]
    split
    · simp only [Plan.full, List.length_append, List.length_cons, List.length_nil] at h2 ⊢
      omega
    · exact h1

theorem lenB_le (P : Plan) {t : Nat} (h : ∀ i, i < t → 1 ≤ (P.full i).length) {j : Nat} (hj : j < t) :
    lenB P j ≤ 2 * (P.full j).length := by
  have h1 := h j hj
  have h2 := kids_accs P (t := j) (fun i hi => h i (by omega)) j
  unfold lenB
  split
  · omega
  · simp only [Plan.full, List.length_append] at h1 ⊢
    omega

end Verif.Ms
