import Verif.Model.Connect
import Verif.Spec.Join
import Verif.Proof.Tree
import Mathlib.Data.Finset.Filter
import Mathlib.Data.Finset.Card

/-!
# Joining trees: the invariant of the walk
-/

namespace Verif.Connect

open Function (update)
open Relation (ReflTransGen)
open Verif.Spec (LConn IsComponentTree RegionTree)

variable {ι : Type} [DecidableEq ι]

/-- Reflexive ancestor relation (over raw parent links). -/
def Up (F : Forest ι) : ι → ι → Prop := ReflTransGen (fun a b => (F a).parent = some b)

/-- Parent links as undirected edges. -/
def edge (F : Forest ι) (a b : ι) : Prop := (F a).parent = some b ∨ (F b).parent = some a

/-- The pair waiting to be joined. -/
def pend (s b : Option ι) (x y : ι) : Prop := (s = some x ∧ b = some y) ∨ (s = some y ∧ b = some x)

/-! ### Level connectivity of changed graphs -/

theorem lconn_of_edges {α : Type _} {adj adj' : α → α → Prop} {g : α → Nat}
    (h : ∀ a b, adj a b → LConn adj' g (max (g a) (g b)) a b) {l : Nat} {a b : α}
    (hc : LConn adj g l a b) : LConn adj' g l a b := by
  induction hc with
  | refl => exact .refl
  | tail _ h1 ih => exact ih.trans ((h _ _ h1.1).mono (by omega))

/-! ### Chasing merged regions -/

section
variable {isReg : ι → Prop} {gr : ι → Nat} {F : Forest ι} {m : Nat}

omit [DecidableEq ι] in
theorem chase_res : ∀ {k fuel : Nat} {r x : ι}, Res F k r x → k ≤ fuel →
    chase F fuel (some r) = some (some x)
  | 0, 0, r, x, ⟨h1, h2⟩, _ => by subst h2; simp [chase, h1]
  | 0, fuel + 1, r, x, ⟨h1, h2⟩, _ => by subst h2; simp [chase, h1]
  | k + 1, 0, r, x, _, hle => by omega
  | k + 1, fuel + 1, r, x, ⟨h1, r', h2, h3⟩, hle => by
    simp only [chase, h1, if_true, h2]
    exact chase_res h3 (by omega)

omit [DecidableEq ι] in
theorem Res.live : ∀ {k : Nat} {r x : ι}, Res F k r x → (F x).merged = false
  | 0, r, x, ⟨h1, h2⟩ => h2 ▸ h1
  | k + 1, r, x, ⟨_, r', _, h3⟩ => Res.live h3

omit [DecidableEq ι] in
theorem Res.up : ∀ {k : Nat} {r x : ι}, Res F k r x → Up F r x
  | 0, r, x, ⟨_, h2⟩ => h2 ▸ .refl
  | k + 1, r, x, ⟨_, r', h2, h3⟩ => .head h2 (Res.up h3)

omit [DecidableEq ι] in
theorem Str.par_gray (h : Str isReg gr F m) {r r' : ι} (hp : (F r).parent = some r') : gr r ≤ gr r' := by
  have hr := h.reg_par r r' hp
  cases hm : (F r).merged with
  | false => exact (h.live_lt r hr hm r' hp).le
  | true =>
    obtain ⟨x, h1, h2⟩ := h.merged_eq r hr hm
    rw [h1] at hp
    obtain rfl := Option.some.inj hp
    omega

omit [DecidableEq ι] in
theorem Str.up (h : Str isReg gr F m) {a b : ι} (ha : isReg a) (hu : Up F a b) :
    isReg b ∧ gr a ≤ gr b := by
  induction hu with
  | refl => exact ⟨ha, le_refl _⟩
  | tail _ h1 ih => exact ⟨h.par_reg _ ih.1 _ h1, ih.2.trans (h.par_gray h1)⟩

omit [DecidableEq ι] in
theorem Str.up_lt (h : Str isReg gr F m) {a b : ι} (ha : isReg a) (hl : (F a).merged = false)
    (hu : Up F a b) (hne : a ≠ b) : gr a < gr b := by
  rcases ReflTransGen.cases_head hu with e | ⟨c, h1, h2⟩
  · exact absurd e hne
  · have := h.live_lt a ha hl c h1
    have := (h.up (h.par_reg a ha c h1) h2).2
    omega

omit [DecidableEq ι] in
theorem Str.res_gray (h : Str isReg gr F m) : ∀ {k : Nat} {r x : ι}, isReg r → Res F k r x →
    isReg x ∧ gr x = gr r
  | 0, r, x, hr, ⟨_, h2⟩ => h2 ▸ ⟨hr, rfl⟩
  | k + 1, r, x, hr, ⟨h1, r', h2, h3⟩ => by
    obtain ⟨y, h4, h5⟩ := h.merged_eq r hr h1
    rw [h2] at h4
    obtain rfl := Option.some.inj h4
    obtain ⟨h6, h7⟩ := h.res_gray (h.par_reg r hr r' h2) h3
    exact ⟨h6, by omega⟩

omit [DecidableEq ι] in
/-- Merged chains are connected at their own level, in any graph that keeps their links. -/
theorem Str.res_conn (h : Str isReg gr F m) {adj : ι → ι → Prop}
    (ha : ∀ x y, (F x).merged = true → (F x).parent = some y → adj x y) :
    ∀ {k : Nat} {r x : ι}, isReg r → Res F k r x → LConn adj gr (gr r) r x
  | 0, r, x, hr, ⟨_, h2⟩ => h2 ▸ .refl
  | k + 1, r, x, hr, ⟨h1, r', h2, h3⟩ => by
    obtain ⟨y, h4, h5⟩ := h.merged_eq r hr h1
    rw [h2] at h4
    obtain rfl := Option.some.inj h4
    have := h.res_conn ha (h.par_reg r hr r' h2) h3
    rw [h5] at this
    exact .head ⟨ha _ _ h1 h2, le_refl _, h5.le⟩ this

omit [DecidableEq ι] in
/-- A live region is above `r` exactly when it is above what `r` resolves to. -/
theorem Res.up_iff : ∀ {k : Nat} {r x y : ι}, Res F k r x → (F y).merged = false →
    (Up F r y ↔ Up F x y)
  | 0, r, x, y, ⟨_, h2⟩, _ => by rw [h2]
  | k + 1, r, x, y, ⟨h1, r', h2, h3⟩, hy => by
    rw [← Res.up_iff h3 hy]
    constructor
    · intro hu
      rcases ReflTransGen.cases_head hu with e | ⟨c, h4, h5⟩
      · subst e; rw [h1] at hy; simp at hy
      · rw [h2] at h4; obtain rfl := Option.some.inj h4; exact h5
    · intro hu; exact .head h2 hu

/-- What the parent macro computes. -/
inductive RealPar (F : Forest ι) (s : ι) : Option ι → Prop
  | none (h : (F s).parent = none) : RealPar F s none
  | some (y x : ι) (k : Nat) (h : (F s).parent = some y) (hr : Res F k y x) : RealPar F s (some x)

omit [DecidableEq ι] in
theorem Str.chase_parent (h : Str isReg gr F m) {fuel : Nat} (hf : m ≤ fuel) {s : ι} (hs : isReg s) :
    ∃ sp, chase F fuel (F s).parent = some sp ∧ RealPar F s sp := by
  cases hp : (F s).parent with
  | none => exact ⟨none, by simp [chase], .none hp⟩
  | some y =>
    obtain ⟨k, hk, x, hx⟩ := h.res y (h.par_reg s hs y hp)
    exact ⟨some x, chase_res hx (by omega), .some y x k hp hx⟩

/-- `Up` from an optional region. -/
def UpO (F : Forest ι) (o : Option ι) (r : ι) : Prop := ∃ x, o = some x ∧ Up F x r

omit [DecidableEq ι] in
theorem RealPar.up_iff {s : ι} {sp : Option ι} (h : RealPar F s sp) {r : ι} (hr : (F r).merged = false)
    (hne : s ≠ r) : Up F s r ↔ UpO F sp r := by
  cases h with
  | none h =>
    constructor
    · intro hu
      rcases ReflTransGen.cases_head hu with e | ⟨c, h1, _⟩
      · exact absurd e hne
      · rw [h] at h1; simp at h1
    · rintro ⟨x, h1, _⟩; simp at h1
  | some y x k h hx =>
    constructor
    · intro hu
      rcases ReflTransGen.cases_head hu with e | ⟨c, h1, h2⟩
      · exact absurd e hne
      · rw [h] at h1; obtain rfl := Option.some.inj h1
        exact ⟨x, rfl, (hx.up_iff hr).1 h2⟩
    · rintro ⟨x', h1, h2⟩
      obtain rfl := Option.some.inj h1
      exact .head h ((hx.up_iff hr).2 h2)

end

/-! ### Changing one parent link -/

section
variable {F F' : Forest ι} {s b : ι}

omit [DecidableEq ι] in
theorem up_total {a x y : ι} (h1 : Up F a x) (h2 : Up F a y) : Up F x y ∨ Up F y x :=
  ReflTransGen.total_of_right_unique (fun u v w hv hw => by
    simp only [hv] at hw; exact Option.some.inj hw) h1 h2

omit [DecidableEq ι] in
theorem up_away (hp : ∀ x, x ≠ s → (F' x).parent = (F x).parent) {a r : ι} (ha : ¬ Up F a s) :
    Up F' a r ↔ Up F a r := by
  constructor
  · intro h
    induction h using ReflTransGen.head_induction_on with
    | refl => exact .refl
    | @head x y hxy _ ih =>
      have hx : x ≠ s := by rintro rfl; exact ha .refl
      rw [hp x hx] at hxy
      exact .head hxy (ih (fun h => ha (.head hxy h)))
  · intro h
    induction h using ReflTransGen.head_induction_on with
    | refl => exact .refl
    | @head x y hxy _ ih =>
      have hx : x ≠ s := by rintro rfl; exact ha .refl
      refine .head ?_ (ih (fun h => ha (.head hxy h)))
      rw [hp x hx]; exact hxy

omit [DecidableEq ι] in
theorem up_to (hp : ∀ x, x ≠ s → (F' x).parent = (F x).parent) {a : ι} (ha : Up F a s) : Up F' a s := by
  induction ha using ReflTransGen.head_induction_on with
  | refl => exact .refl
  | @head x y hxy _ ih =>
    by_cases hx : x = s
    · subst hx; exact .refl
    · exact .head (by rw [hp x hx]; exact hxy) ih

omit [DecidableEq ι] in
theorem up_through (hp : ∀ x, x ≠ s → (F' x).parent = (F x).parent) (hs : (F' s).parent = some b)
    (hb : ¬ Up F b s) (hac : ∀ y, (F s).parent = some y → ¬ Up F y s) {a r : ι} (ha : Up F a s) :
    Up F' a r ↔ (Up F a r ∧ Up F r s) ∨ Up F b r := by
  constructor
  · intro h
    induction h using ReflTransGen.head_induction_on with
    | refl => exact .inl ⟨.refl, ha⟩
    | @head x y hxy hyr ih =>
      by_cases hx : x = s
      · subst hx
        rw [hs] at hxy
        obtain rfl := Option.some.inj hxy
        exact .inr ((up_away hp hb).1 hyr)
      · rw [hp x hx] at hxy
        rcases ReflTransGen.cases_head ha with e | ⟨c, h1, h2⟩
        · exact absurd e hx
        · rw [hxy] at h1
          obtain rfl := Option.some.inj h1
          rcases ih h2 with ⟨h3, h4⟩ | h3
          · exact .inl ⟨.head hxy h3, h4⟩
          · exact .inr h3
  · rintro (⟨h1, h2⟩ | h1)
    · induction h1 with
      | refl => exact .refl
      | @tail y z _ hyz ih =>
        have hy : y ≠ s := by rintro rfl; exact hac z hyz h2
        refine .tail (ih (.head hyz h2)) ?_
        rw [hp y hy]; exact hyz
    · exact ReflTransGen.trans (.tail (up_to hp ha) hs) ((up_away hp hb).2 h1)

/-! ### Counting pixels below a region -/

section
variable {α : Type} (px : Finset α) (lab : α → ι)

open Classical in
/-- Number of pixels whose label is `r` or below. -/
noncomputable def cnt (F : Forest ι) (r : ι) : Nat := (px.filter (fun p => Up F (lab p) r)).card

variable {px lab}

omit [DecidableEq ι] in
theorem cnt_congr {r : ι} (h : ∀ p ∈ px, (Up F' (lab p) r ↔ Up F (lab p) r)) :
    cnt px lab F' r = cnt px lab F r := by
  classical
  unfold cnt
  congr 1
  exact Finset.filter_congr h

open Classical in
omit [DecidableEq ι] in
theorem cnt_split (r : ι) : cnt px lab F' r
    = ((px.filter (fun p => Up F (lab p) s)).filter (fun p => Up F' (lab p) r)).card
      + ((px.filter (fun p => ¬ Up F (lab p) s)).filter (fun p => Up F' (lab p) r)).card := by
  unfold cnt
  rw [← Finset.card_filter_add_card_filter_not (s := px.filter (fun p => Up F' (lab p) r))
    (fun p => Up F (lab p) s), Finset.filter_filter, Finset.filter_filter, Finset.filter_filter,
    Finset.filter_filter]
  congr 2 <;> (apply Finset.filter_congr; intro p _; constructor <;> exact fun h => ⟨h.2, h.1⟩)

open Classical in
omit [DecidableEq ι] in
/-- Effect of relinking `s` below `b` on the pixel counts. -/
theorem cnt_relink (hp : ∀ x, x ≠ s → (F' x).parent = (F x).parent) (hs : (F' s).parent = some b)
    (hb : ¬ Up F b s) (hac : ∀ y, (F s).parent = some y → ¬ Up F y s) {r : ι} (hne : s ≠ r)
    (hcyc : ¬ (Up F r s ∧ Up F s r)) :
    cnt px lab F' r + (if Up F s r then cnt px lab F s else 0)
      = cnt px lab F r + (if Up F b r then cnt px lab F s else 0) := by
  by_cases hrs : Up F r s
  · have h1 : ¬ Up F s r := fun h => hcyc ⟨hrs, h⟩
    have h2 : ¬ Up F b r := fun h => hb (ReflTransGen.trans h hrs)
    rw [if_neg h1, if_neg h2, cnt_congr]
    intro p _
    by_cases hps : Up F (lab p) s
    · rw [up_through hp hs hb hac hps]
      constructor
      · rintro (⟨h, _⟩ | h)
        · exact h
        · exact absurd h h2
      · intro h; exact .inl ⟨h, hrs⟩
    · exact up_away hp hps
  · rw [cnt_split (F := F) (F' := F') (s := s), cnt_split (F := F) (F' := F) (s := s) r]
    have e1 : (px.filter (fun p => ¬ Up F (lab p) s)).filter (fun p => Up F' (lab p) r)
        = (px.filter (fun p => ¬ Up F (lab p) s)).filter (fun p => Up F (lab p) r) := by
      apply Finset.filter_congr
      intro p hp'
      exact up_away hp (Finset.mem_filter.1 hp').2
    have e2 : ((px.filter (fun p => Up F (lab p) s)).filter (fun p => Up F' (lab p) r)).card
        = if Up F b r then cnt px lab F s else 0 := by
      split
      · rename_i h
        rw [Finset.filter_true_of_mem]; · rfl
        intro p hp'
        exact (up_through hp hs hb hac (Finset.mem_filter.1 hp').2).2 (.inr h)
      · rename_i h
        rw [Finset.card_eq_zero, Finset.filter_eq_empty_iff]
        intro p hp' hu
        rcases (up_through hp hs hb hac (Finset.mem_filter.1 hp').2).1 hu with ⟨_, h2⟩ | h2
        · exact hrs h2
        · exact h h2
    have e3 : ((px.filter (fun p => Up F (lab p) s)).filter (fun p => Up F (lab p) r)).card
        = if Up F s r then cnt px lab F s else 0 := by
      split
      · rename_i h
        rw [Finset.filter_true_of_mem]; · rfl
        intro p hp'
        exact ReflTransGen.trans (Finset.mem_filter.1 hp').2 h
      · rename_i h
        rw [Finset.card_eq_zero, Finset.filter_eq_empty_iff]
        intro p hp' hu
        rcases up_total (Finset.mem_filter.1 hp').2 hu with h2 | h2
        · exact h h2
        · exact hrs h2
    rw [e1, e2, e3]
    omega

omit [DecidableEq ι] in
theorem cnt_self (hp : ∀ x, x ≠ s → (F' x).parent = (F x).parent) (hs : (F' s).parent = some b)
    (hb : ¬ Up F b s) (hac : ∀ y, (F s).parent = some y → ¬ Up F y s) :
    cnt px lab F' s = cnt px lab F s := by
  apply cnt_congr
  intro p _
  by_cases hps : Up F (lab p) s
  · rw [up_through hp hs hb hac hps]
    exact ⟨fun _ => hps, fun _ => .inl ⟨hps, .refl⟩⟩
  · exact up_away hp hps

end
end

/-! ### Compression of a parent link -/

section
variable {isReg : ι → Prop} {gr : ι → Nat} {F F' : Forest ι} {m : Nat}

omit [DecidableEq ι] in
theorem up_congr (h : ∀ r, (F' r).parent = (F r).parent) : Up F' = Up F := by
  unfold Up; simp only [h]

omit [DecidableEq ι] in
theorem edge_congr (h : ∀ r, (F' r).parent = (F r).parent) : edge F' = edge F := by
  unfold edge; simp only [h]

omit [DecidableEq ι] in
theorem res_congr (hm : ∀ r, (F' r).merged = (F r).merged)
    (hp : ∀ r, (F r).merged = true → (F' r).parent = (F r).parent) :
    ∀ {k : Nat} {r x : ι}, Res F k r x → Res F' k r x
  | 0, r, x, ⟨h1, h2⟩ => ⟨by rw [hm]; exact h1, h2⟩
  | k + 1, r, x, ⟨h1, r', h2, h3⟩ =>
    ⟨by rw [hm]; exact h1, r', by rw [hp r h1]; exact h2, res_congr hm hp h3⟩

omit [DecidableEq ι] in
theorem Str.congr (h : Str isReg gr F m) (hg : ∀ r, (F' r).gray = (F r).gray)
    (hm : ∀ r, (F' r).merged = (F r).merged) (hp : ∀ r, (F' r).parent = (F r).parent) :
    Str isReg gr F' m where
  gray r := by rw [hg]; exact h.gray r
  gray_lt := h.gray_lt
  par_reg r hr r' h1 := h.par_reg r hr r' (by rw [← hp]; exact h1)
  reg_par r r' h1 := h.reg_par r r' (by rw [← hp]; exact h1)
  live_lt r hr h1 r' h2 := h.live_lt r hr (by rw [← hm]; exact h1) r' (by rw [← hp]; exact h2)
  merged_eq r hr h1 := by
    obtain ⟨x, h2, h3⟩ := h.merged_eq r hr (by rw [← hm]; exact h1)
    exact ⟨x, by rw [hp]; exact h2, h3⟩
  res r hr := by
    obtain ⟨k, hk, x, hx⟩ := h.res r hr
    exact ⟨k, hk, x, res_congr hm (fun r _ => hp r) hx⟩

/-- Effect of storing the real parent back. -/
structure Compressed (isReg : ι → Prop) (gr : ι → Nat) (F F1 : Forest ι) (m : Nat) (s : ι)
    (sp : Option ι) : Prop where
  str : Str isReg gr F1 m
  par : (F1 s).parent = sp
  merged : ∀ r, (F1 r).merged = (F r).merged
  size : ∀ r, (F1 r).size = (F r).size
  sp_ok : ∀ x, sp = some x → isReg x ∧ (F x).merged = false ∧ gr s < gr x
  up : ∀ a r, (F r).merged = false → (Up F1 a r ↔ Up F a r)
  conn : ∀ (P : ι → ι → Prop), (∀ x y, P x y → P y x) → ∀ l a b,
    (LConn (fun x y => edge F x y ∨ P x y) gr l a b ↔ LConn (fun x y => edge F1 x y ∨ P x y) gr l a b)

omit [DecidableEq ι] in
theorem edge_symm {x y : ι} (h : edge F x y) : edge F y x := h.symm

theorem compress (h : Str isReg gr F m) {s : ι} (hs : isReg s) (hl : (F s).merged = false)
    {sp : Option ι} (hsp : RealPar F s sp) : Compressed isReg gr F (setParent F s sp) m s sp := by
  cases hsp with
  | none hp =>
    have hpar : ∀ r, (setParent F s none r).parent = (F r).parent := by
      intro r; unfold setParent
      by_cases e : r = s
      · subst e; simp [hp]
      · simp [Function.update_of_ne e]
    have hmer : ∀ r, (setParent F s none r).merged = (F r).merged := by
      intro r; unfold setParent
      by_cases e : r = s
      · subst e; simp
      · simp [Function.update_of_ne e]
    exact {
      str := h.congr (by
        intro r; unfold setParent
        by_cases e : r = s
        · subst e; simp
        · simp [Function.update_of_ne e]) hmer hpar
      par := by rw [hpar]; exact hp
      merged := hmer
      size := by
        intro r; unfold setParent
        by_cases e : r = s
        · subst e; simp
        · simp [Function.update_of_ne e]
      sp_ok := by intro x hx; simp at hx
      up := by intro a r _; rw [up_congr hpar]
      conn := by intro P _ l a b; rw [edge_congr hpar] }
  | some y x k hp hx =>
    have hy := h.par_reg s hs y hp
    obtain ⟨hxr, hxg⟩ := h.res_gray hy hx
    have hlt : gr s < gr x := by have := h.live_lt s hs hl y hp; omega
    have hpar : ∀ r, r ≠ s → (setParent F s (some x) r).parent = (F r).parent := by
      intro r e; unfold setParent; rw [Function.update_of_ne e]
    have hpars : (setParent F s (some x) s).parent = some x := by simp [setParent]
    have hmer : ∀ r, (setParent F s (some x) r).merged = (F r).merged := by
      intro r; unfold setParent
      by_cases e : r = s
      · subst e; simp
      · simp [Function.update_of_ne e]
    have hmp : ∀ r, (F r).merged = true → (setParent F s (some x) r).parent = (F r).parent := by
      intro r hr
      refine hpar r ?_
      rintro rfl; rw [hl] at hr; simp at hr
    have hb : ¬ Up F x s := fun hu => by have := (h.up hxr hu).2; omega
    have hac : ∀ z, (F s).parent = some z → ¬ Up F z s := fun z hz hu => by
      have := h.live_lt s hs hl z hz
      have := (h.up (h.par_reg s hs z hz) hu).2
      omega
    refine
      { str := ?_, par := hpars, merged := hmer, size := ?_, sp_ok := ?_, up := ?_, conn := ?_ }
    · exact {
        gray := by
          intro r; unfold setParent
          by_cases e : r = s
          · subst e; simp [h.gray]
          · simp [Function.update_of_ne e, h.gray]
        gray_lt := h.gray_lt
        par_reg := by
          intro r hr r' h1
          by_cases e : r = s
          · subst e; rw [hpars] at h1; obtain rfl := Option.some.inj h1; exact hxr
          · rw [hpar r e] at h1; exact h.par_reg r hr r' h1
        reg_par := by
          intro r r' h1
          by_cases e : r = s
          · subst e; exact hs
          · rw [hpar r e] at h1; exact h.reg_par r r' h1
        live_lt := by
          intro r hr h0 r' h1
          rw [hmer] at h0
          by_cases e : r = s
          · subst e; rw [hpars] at h1; obtain rfl := Option.some.inj h1; exact hlt
          · rw [hpar r e] at h1; exact h.live_lt r hr h0 r' h1
        merged_eq := by
          intro r hr h0
          rw [hmer] at h0
          rw [hmp r h0]; exact h.merged_eq r hr h0
        res := by
          intro r hr
          obtain ⟨k, hk, z, hz⟩ := h.res r hr
          exact ⟨k, hk, z, res_congr hmer hmp hz⟩ }
    · intro r; unfold setParent
      by_cases e : r = s
      · subst e; simp
      · simp [Function.update_of_ne e]
    · intro z hz; obtain rfl := Option.some.inj hz; exact ⟨hxr, hx.live, hlt⟩
    · intro a r hr
      by_cases has : Up F a s
      · rw [up_through hpar hpars hb hac has]
        constructor
        · rintro (⟨h1, _⟩ | h1)
          · exact h1
          · exact (has.trans (ReflTransGen.head hp hx.up)).trans h1
        · intro har
          rcases up_total har has with h1 | h1
          · exact .inl ⟨har, h1⟩
          · by_cases e : s = r
            · subst e; exact .inl ⟨har, .refl⟩
            · obtain ⟨x', h2, h3⟩ := ((RealPar.some y x k hp hx).up_iff hr e).1 h1
              obtain rfl := Option.some.inj h2
              exact .inr h3
      · exact up_away hpar has
    · intro P hP l a b
      have hsym : ∀ (G : Forest ι) u v, (edge G u v ∨ P u v) → (edge G v u ∨ P v u) :=
        fun G u v hh => hh.elim (fun e => .inl (edge_symm e)) (fun e => .inr (hP _ _ e))
      have hxyF : LConn (fun x y => edge F x y ∨ P x y) gr (gr y) y x :=
        h.res_conn (fun u v _ huv => .inl (.inl huv)) hy hx
      have hxyF1 : LConn (fun u v => edge (setParent F s (some x)) u v ∨ P u v) gr (gr y) y x :=
        h.res_conn (fun u v hu huv => .inl (.inl (by rw [hmp u hu]; exact huv))) hy hx
      have k1 : LConn (fun u v => edge (setParent F s (some x)) u v ∨ P u v) gr (gr y) s y :=
        (LConn.edge (.inl (.inl hpars)) (by omega) (by omega)).trans (hxyF1.symm (hsym _))
      have k2 : LConn (fun x y => edge F x y ∨ P x y) gr (gr y) s x :=
        (LConn.edge (.inl (.inl hp)) (by omega) (by omega)).trans hxyF
      constructor
      · refine lconn_of_edges ?_
        rintro u v ((e | e) | e)
        · by_cases hu : u = s
          · subst hu; rw [hp] at e; obtain rfl := Option.some.inj e
            exact k1.mono (by omega)
          · exact LConn.edge (.inl (.inl (by rw [hpar u hu]; exact e))) (by omega) (by omega)
        · by_cases hv : v = s
          · subst hv; rw [hp] at e; obtain rfl := Option.some.inj e
            exact (k1.symm (hsym _)).mono (by omega)
          · exact LConn.edge (.inl (.inr (by rw [hpar v hv]; exact e))) (by omega) (by omega)
        · exact LConn.edge (.inr e) (by omega) (by omega)
      · refine lconn_of_edges ?_
        rintro u v ((e | e) | e)
        · by_cases hu : u = s
          · subst hu; rw [hpars] at e; obtain rfl := Option.some.inj e
            exact k2.mono (by omega)
          · exact LConn.edge (.inl (.inl (by rw [← hpar u hu]; exact e))) (by omega) (by omega)
        · by_cases hv : v = s
          · subst hv; rw [hpars] at e; obtain rfl := Option.some.inj e
            exact (k2.symm (hsym _)).mono (by omega)
          · exact LConn.edge (.inl (.inr (by rw [← hpar v hv]; exact e))) (by omega) (by omega)
        · exact LConn.edge (.inr e) (by omega) (by omega)

end

end Verif.Connect
