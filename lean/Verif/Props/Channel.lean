import Verif.Model.Channel
import Verif.Spec.Channel
import Mathlib.Data.List.Basic

/-!
# Property of the picture of a result: C37
-/

namespace Verif.Props

open Verif.Channel Verif.Spec

/-- What was painted: number and level of the region, and the point. -/
abbrev Ev := Nat × Nat × (Int × Int)

def startLevel (dark : Bool) : Nat := if dark then 255 else 0

/-- The picture shows what was painted. -/
structure Painted (dark : Bool) (E : List Ev) (c : Image) : Prop where
  none : ∀ p, (∀ e ∈ E, e.2.2 ≠ p) → c.level p = startLevel dark ∧ c.id p = -1
  some : ∀ p, (∃ e ∈ E, e.2.2 = p) → ∃ e ∈ E, e.2.2 = p ∧ c.level p = e.2.1 ∧ c.id p = e.1 ∧
    ∀ e' ∈ E, e'.2.2 = p → if dark then e.2.1 ≤ e'.2.1 else e'.2.1 ≤ e.2.1

theorem paint_ok {W H : Nat} {dark : Bool} {j lvl : Nat} (hl : better dark lvl (startLevel dark) = true) :
    ∀ (ps : List (Int × Int)) (E : List Ev) (c : Image), (∀ p ∈ ps, 0 ≤ p.1 ∧ p.1 < W ∧ 0 ≤ p.2 ∧ p.2 < H) →
    Painted dark E c → ∃ c', paint W H dark j lvl (some lvl) ps c = some c' ∧ Painted dark (E ++ ps.map fun p => (j, lvl, p)) c'
  | [], E, c, _, h => ⟨c, rfl, by rw [List.map_nil, List.append_nil]; exact h⟩
  | p :: ps, E, c, hp, h => by
    have key : ∃ c1, paint W H dark j lvl (some lvl) (p :: ps) c = paint W H dark j lvl (some lvl) ps c1 ∧
        Painted dark (E ++ [(j, lvl, p)]) c1 := by
      rw [paint, if_pos (hp p (by simp))]
      have other : ∀ q, q ≠ p → ((∃ e ∈ E ++ [(j, lvl, p)], e.2.2 = q) ↔ ∃ e ∈ E, e.2.2 = q) := by
        intro q hq
        constructor
        · rintro ⟨e, he, rfl⟩
          rcases List.mem_append.1 he with he | he
          · exact ⟨e, he, rfl⟩
          · rw [List.mem_singleton.1 he] at hq; exact absurd rfl hq
        · rintro ⟨e, he, rfl⟩; exact ⟨e, List.mem_append_left _ he, rfl⟩
      by_cases hb : better dark lvl (c.level p) = true
      · rw [if_pos hb, Option.bind_some]
        refine ⟨_, rfl, ⟨fun q hq => ?_, fun q hq => ?_⟩⟩
        · have hqp : q ≠ p := fun e => hq (j, lvl, p) (by simp) e.symm
          dsimp only
          rw [if_neg hqp, if_neg hqp]
          exact h.none q fun e he => hq e (List.mem_append_left _ he)
        · by_cases hqp : q = p
          · subst hqp
            refine ⟨(j, lvl, q), by simp, rfl, if_pos rfl, if_pos rfl, fun e' he' hq' => ?_⟩
            rcases List.mem_append.1 he' with he' | he'
            · obtain ⟨e, he, e1, e2, e3, e4⟩ := h.some q ⟨e', he', hq'⟩
              have := e4 e' he' hq'
              rw [e2] at hb
              cases dark <;> simp only [better, Bool.false_eq_true, if_false, if_true, decide_eq_true_eq] at this hb ⊢ <;> omega
            · rw [List.mem_singleton.1 he']
              cases dark <;> simp
          · obtain ⟨e, he, e1, e2, e3, e4⟩ := h.some q ((other q hqp).1 hq)
            refine ⟨e, List.mem_append_left _ he, e1, ?_, ?_, fun e' he' hq' => ?_⟩
            · dsimp only; rw [if_neg hqp]; exact e2
            · dsimp only; rw [if_neg hqp]; exact e3
            · rcases List.mem_append.1 he' with he' | he'
              · exact e4 e' he' hq'
              · rw [List.mem_singleton.1 he'] at hq'; exact absurd hq'.symm hqp
      · rw [if_neg hb]
        refine ⟨c, rfl, ⟨fun q hq => h.none q fun e he => hq e (List.mem_append_left _ he), fun q hq => ?_⟩⟩
        by_cases hqp : q = p
        · subst hqp
          by_cases hE : ∃ e ∈ E, e.2.2 = q
          · obtain ⟨e, he, e1, e2, e3, e4⟩ := h.some q hE
            refine ⟨e, List.mem_append_left _ he, e1, e2, e3, fun e' he' hq' => ?_⟩
            rcases List.mem_append.1 he' with he' | he'
            · exact e4 e' he' hq'
            · rw [List.mem_singleton.1 he']
              rw [e2] at hb
              cases dark <;> simp only [better, Bool.false_eq_true, if_false, if_true, decide_eq_true_eq] at hb ⊢ <;> omega
          · have := (h.none q fun e he hq' => hE ⟨e, he, hq'⟩).1
            rw [this] at hb
            exact absurd hl hb
        · obtain ⟨e, he, e1, e2, e3, e4⟩ := h.some q ((other q hqp).1 hq)
          refine ⟨e, List.mem_append_left _ he, e1, e2, e3, fun e' he' hq' => ?_⟩
          rcases List.mem_append.1 he' with he' | he'
          · exact e4 e' he' hq'
          · rw [List.mem_singleton.1 he'] at hq'; exact absurd hq'.symm hqp
    obtain ⟨c1, e1, h1⟩ := key
    obtain ⟨c', e2, h2⟩ := paint_ok hl ps _ c1 (fun q hq => hp q (List.mem_cons_of_mem _ hq)) h1
    refine ⟨c', by rw [e1, e2], ?_⟩
    rw [List.map_cons]
    rwa [List.append_assoc, List.singleton_append] at h2

/-- Everything painted by the regions from number `j` on. -/
def events : Nat → List Comp → List Ev
  | _, [] => []
  | j, r :: rs => (r.2.map fun p => (j, r.1, p)) ++ events (j + 1) rs

theorem mem_events {e : Ev} : ∀ {rs : List Comp} {j : Nat}, e ∈ events j rs ↔
    ∃ i r, rs[i]? = some r ∧ e.1 = j + i ∧ e.2.1 = r.1 ∧ e.2.2 ∈ r.2
  | [], j => by simp [events]
  | r :: rs, j => by
    rw [events, List.mem_append, mem_events]
    constructor
    · rintro (h | ⟨i, r', h1, h2, h3, h4⟩)
      · obtain ⟨p, hp, rfl⟩ := List.mem_map.1 h
        exact ⟨0, r, rfl, rfl, rfl, hp⟩
      · exact ⟨i + 1, r', by simpa using h1, by omega, h3, h4⟩
    · rintro ⟨i, r', h1, h2, h3, h4⟩
      cases i with
      | zero =>
        simp only [List.getElem?_cons_zero, Option.some.injEq] at h1
        subst h1
        refine .inl (List.mem_map.2 ⟨e.2.2, h4, ?_⟩)
        rw [← h3, show j = e.1 by omega]
      | succ i => exact .inr ⟨i, r', by simpa using h1, by omega, h3, h4⟩

theorem paintAll_ok {W H : Nat} {dark : Bool} {other : List Comp} : ∀ (rs : List Comp) (j : Nat) (E : List Ev) (c : Image),
    (∀ r ∈ rs, ∀ p ∈ r.2, 0 ≤ p.1 ∧ p.1 < W ∧ 0 ≤ p.2 ∧ p.2 < H) →
    (∀ r ∈ rs, better dark r.1 (startLevel dark) = true) →
    (∀ i r, rs[i]? = some r → (other[j + i]?).map Prod.fst = some r.1) → Painted dark E c →
    ∃ c', paintAll W H dark other j rs c = some c' ∧ Painted dark (E ++ events j rs) c'
  | [], j, E, c, _, _, _, h => ⟨c, rfl, by rw [events, List.append_nil]; exact h⟩
  | r :: rs, j, E, c, hp, hl, ho, h => by
    have h0 := ho 0 r rfl
    rw [Nat.add_zero] at h0
    obtain ⟨c1, e1, h1⟩ := paint_ok (j := j) (hl r (by simp)) r.2 E c (hp r (by simp)) h
    obtain ⟨c', e2, h2⟩ := paintAll_ok rs (j + 1) _ c1 (fun r hr => hp r (List.mem_cons_of_mem _ hr))
      (fun r hr => hl r (List.mem_cons_of_mem _ hr))
      (fun i r' hi => by rw [show j + 1 + i = j + (i + 1) by omega]; exact ho (i + 1) r' (by simpa using hi)) h1
    refine ⟨c', by rw [paintAll, h0, e1, Option.bind_some, e2], ?_⟩
    rw [events, ← List.append_assoc]
    exact h2

/-- **C37**, the full statement. -/
def ShowsInnermost (W H : Nat) (msers0 msers1 : List Comp) (dark : Bool) : Prop :=
  ∃ c, channelImage W H msers0 msers1 dark = some c ∧ ∀ p, Shows dark (if dark then msers0 else msers1) c.level c.id p

theorem shows_of_painted {dark : Bool} {rs : List Comp} {c : Image} (h : Painted dark (events 0 rs) c) (p : Int × Int) :
    Shows dark rs c.level c.id p := by
  refine ⟨?_, fun hn => (h.none p fun e he hp => ?_).2⟩
  · rintro ⟨r, hr, hp⟩
    obtain ⟨i, hi, hri⟩ := List.getElem_of_mem hr
    obtain ⟨e, he, e1, e2, e3, e4⟩ := h.some p ⟨(i, r.1, p), mem_events.2 ⟨i, r, by rw [List.getElem?_eq_getElem hi, hri], by simp, rfl, hp⟩, rfl⟩
    obtain ⟨k, r', k1, k2, k3, k4⟩ := mem_events.1 he
    refine ⟨k, r', k1, e1 ▸ k4, by rw [e2, k3], by rw [e3, k2]; simp, fun q hq hpq => ?_⟩
    obtain ⟨l, hl, hql⟩ := List.getElem_of_mem hq
    have := e4 (l, q.1, p) (mem_events.2 ⟨l, q, by rw [List.getElem?_eq_getElem hl, hql], by simp, rfl, hpq⟩) rfl
    rw [← k3]
    exact this
  · obtain ⟨i, r, h1, _, _, h4⟩ := mem_events.1 he
    exact hn r (List.mem_of_getElem? h1) (hp ▸ h4)

/-- **C37** (what holds) Dark regions with levels below 255. -/
theorem C37_dark_partial {W H : Nat} {msers0 msers1 : List Comp}
    (hp : ∀ r ∈ msers0, ∀ p ∈ r.2, 0 ≤ p.1 ∧ p.1 < W ∧ 0 ≤ p.2 ∧ p.2 < H) (hl : ∀ r ∈ msers0, r.1 < 255) :
    ShowsInnermost W H msers0 msers1 true := by
  obtain ⟨c, e, h⟩ := paintAll_ok (W := W) (H := H) (dark := true) (other := msers0) msers0 0 [] ⟨fun _ => 255, fun _ => -1⟩ hp
    (fun r hr => by simp [better, startLevel, hl r hr]) (fun i r hi => by rw [Nat.zero_add, hi]; rfl)
    ⟨fun p _ => ⟨rfl, rfl⟩, fun p ⟨e, he, _⟩ => absurd he (by simp)⟩
  exact ⟨c, e, shows_of_painted h⟩

/-- **C37** (what holds) Bright regions with levels above 0, if the dark region of the same number always exists and has
the same level. -/
theorem C37_bright_partial {W H : Nat} {msers0 msers1 : List Comp}
    (hp : ∀ r ∈ msers1, ∀ p ∈ r.2, 0 ≤ p.1 ∧ p.1 < W ∧ 0 ≤ p.2 ∧ p.2 < H) (hl : ∀ r ∈ msers1, 0 < r.1)
    (heq : ∀ (i : Nat) (r : Comp), msers1[i]? = some r → (msers0[i]?).map Prod.fst = some r.1) : ShowsInnermost W H msers0 msers1 false := by
  obtain ⟨c, e, h⟩ := paintAll_ok (W := W) (H := H) (dark := false) (other := msers0) msers1 0 [] ⟨fun _ => 0, fun _ => -1⟩ hp
    (fun r hr => by simp [better, startLevel, hl r hr]) (fun i r hi => by rw [Nat.zero_add]; exact heq i r hi)
    ⟨fun p _ => ⟨rfl, rfl⟩, fun p ⟨e, he, _⟩ => absurd he (by simp)⟩
  exact ⟨c, e, shows_of_painted h⟩

/-- **C37** (violated) Without dark regions, the first bright region with a level above 0 makes the program read outside
the list of dark regions. -/
theorem C37_bright_false {W H : Nat} {r : Comp} {rs : List Comp} (hl : 0 < r.1) (hr : r.2 ≠ []) :
    channelImage W H [] (r :: rs) false = none := by
  obtain ⟨l, ps⟩ := r
  cases ps with
  | nil => exact absurd rfl hr
  | cons p ps =>
    have hb : better false l 0 = true := by simpa [better] using hl
    simp only [channelImage, Bool.false_eq_true, if_false, paintAll, paint, hb, if_true, List.getElem?_nil, Option.map_none,
      Option.bind_none, ite_self]

/-- **C37** (violated) Otherwise the level shown is that of a dark region. -/
theorem C37_bright_level_false : ¬ ShowsInnermost 1 1 [(7, [])] [(200, [(0, 0)])] false := by
  rintro ⟨c, h, hs⟩
  have e : channelImage 1 1 [(7, [])] [(200, [(0, 0)])] false =
      some ⟨fun q => if q = (0, 0) then 7 else 0, fun q => if q = (0, 0) then 0 else -1⟩ := by rfl
  rw [e] at h
  cases h
  obtain ⟨j, r, h1, _, h3, _⟩ := (hs (0, 0)).covered ⟨(200, [(0, 0)]), by simp, by simp⟩
  have hj := List.mem_of_getElem? h1
  simp only [Bool.false_eq_true, if_false, List.mem_singleton] at hj
  subst hj
  simp at h3

/-- **C37** (violated) A dark region of level 255 is not shown. -/
theorem C37_dark_255_false {W H : Nat} {ps : List (Int × Int)} {p : Int × Int} (hp : p ∈ ps) :
    ¬ ShowsInnermost W H [(255, ps)] [] true := by
  rintro ⟨c, h, hs⟩
  have key : ∀ (ps : List (Int × Int)) (c' : Image), (∀ q, c'.level q = 255) → paint W H true 0 255 (some 255) ps c' = some c → c = c' := by
    intro ps
    induction ps with
    | nil => intro c' _ h; exact (Option.some.inj h).symm
    | cons q ps ih =>
      intro c' hc h
      rw [paint] at h
      split at h
      · rw [if_neg (by simp [better, hc])] at h
        exact ih c' hc h
      · cases h
  have h' : paint W H true 0 255 (some 255) ps ⟨fun _ => 255, fun _ => -1⟩ = some c := by
    simp only [channelImage, if_true, paintAll] at h
    rw [Option.bind_eq_some_iff] at h
    obtain ⟨c1, h1, h2⟩ := h
    cases Option.some.inj h2
    exact h1
  have hc := key ps _ (fun _ => rfl) h'
  obtain ⟨j, _, _, _, _, h4, _⟩ := (hs p).covered ⟨(255, ps), by simp, hp⟩
  rw [hc] at h4
  dsimp only at h4
  omega

/-- **C37** The region shown is the innermost one, for regions that are nested with levels that grow outwards (as C01 and
C12 have it). -/
theorem C37_innermost {rs : List Comp} {level : Int × Int → Nat} {id : Int × Int → Int} {p : Int × Int}
    (h : Shows true rs level id p) (hn : ∀ r ∈ rs, ∀ q ∈ rs, p ∈ r.2 → p ∈ q.2 → r.2 ⊆ q.2 ∨ q.2 ⊆ r.2)
    (hl : ∀ r ∈ rs, ∀ q ∈ rs, r.2 ⊆ q.2 → ¬ q.2 ⊆ r.2 → r.1 < q.1) (hc : ∃ r ∈ rs, p ∈ r.2) :
    ∃ j r, id p = (j : Nat) ∧ rs[j]? = some r ∧ p ∈ r.2 ∧ ∀ q ∈ rs, p ∈ q.2 → r.2 ⊆ q.2 := by
  obtain ⟨j, r, h1, h2, h3, h4, h5⟩ := h.covered hc
  refine ⟨j, r, h4, h1, h2, fun q hq hpq => ?_⟩
  have hr := List.mem_of_getElem? h1
  have := h5 q hq hpq
  rw [if_pos rfl] at this
  rcases hn r hr q hq h2 hpq with h | h
  · exact h
  · by_contra hcon
    have := hl q hq r hr h hcon
    omega

/-- Two nested regions and one beside them. -/
example : ShowsInnermost 3 1 [(50, [(0, 0), (1, 0)]), (20, [(1, 0)]), (60, [(2, 0)])] [] true :=
  C37_dark_partial (by decide) (by decide)

example : ShowsInnermost 2 1 [(9, []), (90, [])] [(9, [(0, 0)]), (90, [(0, 0), (1, 0)])] false :=
  C37_bright_partial (by decide) (by decide) (by
    intro i r h
    match i with
    | 0 => cases h; rfl
    | 1 => cases h; rfl
    | i + 2 => simp at h)

end Verif.Props
