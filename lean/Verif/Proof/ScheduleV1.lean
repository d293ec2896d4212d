import Verif.Proof.MergeV1

/-!
# Fast MSER V1: the list of joins
-/

namespace Verif.V1

open Function (update)
open Verif.Spec
open Verif.Partition
open Verif.Props (FloodedV1 treeOfV1 posOf)
open Verif.Connect (Ctx Up Good Lab samePatch addPairs initLab)

variable {hp vp w h n : Nat} {img : Nat → Nat → Nat} {gm : Nat} {eight : Bool} {v : Nat → St} {lab : Nat → Nat × Nat → Nat}
  {L : Nat → Nat → List Nat} {pk : Nat → Nat → Point} {pts : Nat → Point}

/-! ### Borders -/

/-- A border: (`true`, `j`) is the one right of column `j` of patches, (`false`, `r`) the one below row `r`. -/
abbrev Border := Bool × Nat

/-- The join of row (column) `e.1` of a border; `e.2` is `split_patch_index`. -/
def mkJoin (hp vp w h : Nat) (b : Border) (e : Nat × Nat) : Join :=
  if b.1 then
    ((b.2 + hp * partOf vp h e.1, 1, e.1 - starts vp h (partOf vp h e.1)),
     (b.2 + hp * partOf vp h e.1 + 1, 0, e.1 - starts vp h (partOf vp h e.1)), e.2)
  else
    ((hp * b.2 + partOf hp w e.1, 3, e.1 - starts hp w (partOf hp w e.1)),
     (hp * b.2 + partOf hp w e.1 + hp, 2, e.1 - starts hp w (partOf hp w e.1)), e.2)

/-- The two pixels joined. -/
def pairOf (hp vp w h : Nat) (b : Border) (i : Nat) : (Nat × Nat) × (Nat × Nat) :=
  if b.1 then ((starts hp w (b.2 + 1) - 1, i), (starts hp w (b.2 + 1), i))
  else ((i, starts vp h (b.2 + 1) - 1), (i, starts vp h (b.2 + 1)))

/-- The part of the first patch, used for all of them. -/
theorem sel_eq {m t i : Nat} (hm : 1 ≤ m) (ht : m ≤ t) (hi : i < t) :
    (if m - 1 ≤ i / lengths m t 0 then m - 1 else i / lengths m t 0) = partOf m t i ∧
    partOf m t i * lengths m t 0 = starts m t (partOf m t i) := by
  have hspec := (partOf_spec hm hi).1
  by_cases c : m = 1
  · subst c
    have : partOf 1 t i = 0 := by omega
    rw [this, starts_eq, if_pos (Nat.zero_le _)]; simp
  · have hl : lengths m t 0 = t / m := by unfold lengths; rw [if_pos (by omega)]
    rw [hl, starts_eq]
    refine ⟨?_, rfl⟩
    unfold partOf
    rw [if_neg (show ¬ t < m by omega)]
    by_cases c2 : m - 1 ≤ i / (t / m)
    · rw [if_pos c2, Nat.min_eq_right c2]
    · rw [if_neg c2, Nat.min_eq_left (Nat.le_of_not_le c2)]

theorem getD_range (m t : Nat) (f : Nat → Nat) (ht : t < m) : ((List.range m).map f).getD t 0 = f t := by
  rw [List.getD_eq_getElem?_getD, List.getElem?_map, List.getElem?_range ht]; rfl

theorem borderJoins_lr {order : List Nat} {sel : Nat → Nat} {p j : Nat} {split : Nat → Nat} (hvp : 1 ≤ vp)
    (hord : order.Perm (List.range h)) (hsel : ∀ i < h, sel i = partOf vp h i)
    (hmul : ∀ i < h, partOf vp h i * p = starts vp h (partOf vp h i)) :
    borderJoins order sel p ((List.range vp).map fun t => j + hp * t) 1 1 0 split =
      (order.map fun i => (i, split (sel i))).map (mkJoin hp vp w h (true, j)) := by
  unfold borderJoins
  rw [List.map_map]
  refine List.map_congr_left fun i hi => ?_
  have hi' := List.mem_range.1 (hord.mem_iff.1 hi)
  have hs := (partOf_spec hvp hi').1
  simp only [Function.comp, mkJoin, if_true]
  rw [hsel i hi', hmul i hi', getD_range _ _ _ hs]

theorem borderJoins_ud {order : List Nat} {sel : Nat → Nat} {p r : Nat} {split : Nat → Nat} (hhp : 1 ≤ hp)
    (hord : order.Perm (List.range w)) (hsel : ∀ i < w, sel i = partOf hp w i)
    (hmul : ∀ i < w, partOf hp w i * p = starts hp w (partOf hp w i)) :
    borderJoins order sel p ((List.range hp).map fun t => hp * r + t) hp 3 2 split =
      (order.map fun i => (i, split (sel i))).map (mkJoin hp vp w h (false, r)) := by
  unfold borderJoins
  rw [List.map_map]
  refine List.map_congr_left fun i hi => ?_
  have hi' := List.mem_range.1 (hord.mem_iff.1 hi)
  have hs := (partOf_spec hhp hi').1
  simp only [Function.comp, mkJoin]
  rw [hsel i hi', hmul i hi', getD_range _ _ _ hs]
  rfl

/-- Number of joins of a border. -/
def borderSize (w h : Nat) (b : Border) : Nat := if b.1 then h else w

/-- The border a call works on. -/
def callBorder (hp : Nat) (c : StepCall) : Border :=
  (c.leftRight, if c.leftRight then c.indexes.getD 0 0 else c.indexes.getD 0 0 / hp)

/-- The call visits all patches along the border. -/
def CallOK (hp vp : Nat) (c : StepCall) : Prop :=
  if c.leftRight then
    c.step = 1 ∧ c.indexes = (List.range vp).map (fun t => c.indexes.getD 0 0 + hp * t) ∧ c.indexes.getD 0 0 + 1 < hp
  else
    c.step = hp ∧ c.indexes = (List.range hp).map (fun t => hp * (c.indexes.getD 0 0 / hp) + t) ∧
      c.indexes.getD 0 0 / hp + 1 < vp

instance (hp vp : Nat) (c : StepCall) : Decidable (CallOK hp vp c) := by unfold CallOK; infer_instance

theorem stepJoins_spec (hhp : 1 ≤ hp) (hvp : 1 ≤ vp) (hw : hp ≤ w) (hh : vp ≤ h) {c : StepCall} (hc : CallOK hp vp c) :
    ∃ es : List (Nat × Nat), stepJoins (pinfo hp vp w h) w h img gm c = some (es.map (mkJoin hp vp w h (callBorder hp c))) ∧
      (es.map Prod.fst).Perm (List.range (borderSize w h (callBorder hp c))) := by
  obtain ⟨idx, step, lr⟩ := c
  cases lr
  · simp only [CallOK, Bool.false_eq_true, if_false] at hc
    obtain ⟨h1, h2, h3⟩ := hc
    generalize hr : idx.getD 0 0 / hp = r at *
    have hfirst : idx.getD 0 0 = hp * r + 0 := by rw [h2, getD_range _ _ _ (by omega)]
    have hlen : idx.length = hp := by rw [h2]; simp
    have hwd : (pinfo hp vp w h (idx.getD 0 0)).width = lengths hp w 0 := by
      rw [hfirst]; unfold pinfo; dsimp only; rw [Nat.mul_comm, (patch_div (by omega)).1]
    have hp0 : lengths hp w 0 ≠ 0 := (lengths_pos hhp hw).ne'
    have hord := orderIndexes_perm (n := w) (key := keyUD img gm ((pinfo hp vp w h (idx.getD 0 0)).top +
      (pinfo hp vp w h (idx.getD 0 0)).height - 1)) (fun i _ => keyUD_lt _ _ _ _)
    unfold stepJoins callBorder borderSize
    simp only [Bool.false_eq_true, if_false]
    rw [hwd, if_neg hp0, h1, hlen, hr]
    refine ⟨(orderIndexes (keyUD img gm ((pinfo hp vp w h (idx.getD 0 0)).top +
      (pinfo hp vp w h (idx.getD 0 0)).height - 1)) w).map fun i => (i, idx.getD (hp - 1) 0), congrArg some ?_, ?_⟩
    · conv_lhs => arg 4; rw [h2]
      exact borderJoins_ud (vp := vp) (h := h) hhp hord (fun i hi => (sel_eq hhp hw hi).1) (fun i hi => (sel_eq hhp hw hi).2)
    · rw [List.map_map]
      simpa [Function.comp_def] using hord
  · simp only [CallOK, if_true] at hc
    obtain ⟨h1, h2, h3⟩ := hc
    generalize hr : idx.getD 0 0 = j at *
    have hlen : idx.length = vp := by rw [h2]; simp
    have hwd : (pinfo hp vp w h j).height = lengths vp h 0 := by
      unfold pinfo; dsimp only; rw [Nat.div_eq_of_lt (by omega)]
    have hp0 : lengths vp h 0 ≠ 0 := (lengths_pos hvp hh).ne'
    have hord := orderIndexes_perm (n := h) (key := keyLR img gm ((pinfo hp vp w h j).left +
      (pinfo hp vp w h j).width - 1)) (fun i _ => keyLR_lt _ _ _ _)
    unfold stepJoins callBorder borderSize
    simp only [if_true]
    rw [hr, hwd, if_neg hp0, h1, hlen]
    refine ⟨(orderIndexes (keyLR img gm ((pinfo hp vp w h j).left + (pinfo hp vp w h j).width - 1)) h).map fun i =>
      (i, if vp - 1 ≤ i / lengths vp h 0 then vp - 1 else i / lengths vp h 0), congrArg some ?_, ?_⟩
    · conv_lhs => arg 4; rw [h2]
      exact borderJoins_lr (hp := hp) (w := w) hvp hord (fun i hi => (sel_eq hvp hh hi).1) (fun i hi => (sel_eq hvp hh hi).2)
    · rw [List.map_map]
      simpa [Function.comp_def] using hord

/-- A list of joins: border by border, all rows (columns) of each. -/
structure Plan (hp vp w h : Nat) (bl : List Border) (J : List Join) (fl : List (Border × Nat × Nat)) : Prop where
  eq : J = fl.map (fun x => mkJoin hp vp w h x.1 x.2)
  mem : ∀ b i, (b, i) ∈ fl.map (fun x => (x.1, x.2.1)) ↔ b ∈ bl ∧ i < borderSize w h b
  nodup : bl.Nodup → (fl.map (fun x => (x.1, x.2.1))).Nodup
  length : fl.length = (bl.map (borderSize w h)).sum

theorem Plan.nil : Plan hp vp w h [] [] [] :=
  ⟨rfl, by simp, fun _ => by simp, rfl⟩

theorem Plan.cons {bl : List Border} {J : List Join} {fl : List (Border × Nat × Nat)} (hP : Plan hp vp w h bl J fl)
    {b : Border} {es : List (Nat × Nat)} (hes : (es.map Prod.fst).Perm (List.range (borderSize w h b))) :
    Plan hp vp w h (b :: bl) (es.map (mkJoin hp vp w h b) ++ J) (es.map (fun e => (b, e)) ++ fl) := by
  have hk : (es.map (fun e => (b, e))).map (fun x : Border × Nat × Nat => (x.1, x.2.1)) =
      (es.map Prod.fst).map (fun i => (b, i)) := by
    rw [List.map_map, List.map_map]; rfl
  refine ⟨?_, ?_, ?_, ?_⟩
  · rw [List.map_append, List.map_map, hP.eq]; rfl
  · intro b' i
    rw [List.map_append, List.mem_append, hP.mem, hk, List.mem_map, List.mem_cons]
    constructor
    · rintro (⟨i', hi, e⟩ | ⟨h1, h2⟩)
      · rw [Prod.mk.injEq] at e
        obtain ⟨rfl, rfl⟩ := e
        exact ⟨.inl rfl, List.mem_range.1 (hes.mem_iff.1 hi)⟩
      · exact ⟨.inr h1, h2⟩
    · rintro ⟨rfl | h1, h2⟩
      · exact .inl ⟨i, hes.mem_iff.2 (List.mem_range.2 h2), rfl⟩
      · exact .inr ⟨h1, h2⟩
  · intro hnd
    rw [List.nodup_cons] at hnd
    rw [List.map_append, List.nodup_append]
    refine ⟨?_, hP.nodup hnd.2, ?_⟩
    · rw [hk]
      exact (hes.nodup_iff.2 List.nodup_range).map (fun a b e => (Prod.mk.injEq _ _ _ _ ▸ e).2)
    · rintro ⟨b', i⟩ h1 ⟨b'', i'⟩ h2 e
      rw [Prod.mk.injEq] at e
      obtain ⟨rfl, rfl⟩ := e
      rw [hk, List.mem_map] at h1
      obtain ⟨_, _, e⟩ := h1
      rw [Prod.mk.injEq] at e
      exact hnd.1 (e.1 ▸ ((hP.mem b' i).1 h2).1)
  · have := hes.length_eq
    rw [List.length_map, List.length_range] at this
    rw [List.length_append, List.length_map, hP.length, this, List.map_cons, List.sum_cons]

theorem callJoins_plan (hhp : 1 ≤ hp) (hvp : 1 ≤ vp) (hw : hp ≤ w) (hh : vp ≤ h) : ∀ (cs : List StepCall),
    (∀ c ∈ cs, CallOK hp vp c) → ∃ J fl, callJoins (pinfo hp vp w h) w h img gm cs = some J ∧
      Plan hp vp w h (cs.map (callBorder hp)) J fl
  | [], _ => ⟨[], [], rfl, Plan.nil⟩
  | c :: cs, hc => by
    obtain ⟨es, h1, h2⟩ := stepJoins_spec (img := img) (gm := gm) hhp hvp hw hh (hc c (by simp))
    obtain ⟨J, fl, h3, h4⟩ := callJoins_plan hhp hvp hw hh cs (fun c' hc' => hc c' (by simp [hc']))
    refine ⟨_, _, ?_, h4.cons h2⟩
    unfold callJoins
    rw [h1, h3]

/-- The borders in the order in which they are joined. -/
def bordersV1 (n : Nat) : List Border :=
  match n with
  | 2 => [(true, 0)]
  | 4 => [(true, 0), (false, 0)]
  | 8 => calls8V1.map (callBorder 4)
  | 16 => calls16V1.map (callBorder 4)
  | 32 => calls32V1.map (callBorder 8)
  | _ => []

theorem layoutV1_list (hl : layoutV1 n = some (hp, vp)) : (n = 1 ∧ hp = 1 ∧ vp = 1) ∨ (n = 2 ∧ hp = 2 ∧ vp = 1) ∨
    (n = 4 ∧ hp = 2 ∧ vp = 2) ∨ (n = 8 ∧ hp = 4 ∧ vp = 2) ∨ (n = 16 ∧ hp = 4 ∧ vp = 4) ∨ (n = 32 ∧ hp = 8 ∧ vp = 4) := by
  unfold layoutV1 at hl
  split at hl <;> simp at hl <;> omega

theorem joinsV1_plan (hl : layoutV1 n = some (hp, vp)) (hw : hp ≤ w) (hh : vp ≤ h) :
    ∃ J fl, joinsV1 n (pinfo hp vp w h) w h img gm = some J ∧ Plan hp vp w h (bordersV1 n) J fl := by
  rcases layoutV1_list hl with ⟨rfl, rfl, rfl⟩ | ⟨rfl, rfl, rfl⟩ | ⟨rfl, rfl, rfl⟩ | ⟨rfl, rfl, rfl⟩ | ⟨rfl, rfl, rfl⟩ | ⟨rfl, rfl, rfl⟩
  · exact ⟨[], [], rfl, Plan.nil⟩
  · have hord := orderIndexes_perm (n := h) (key := keyLR img gm ((pinfo 2 1 w h 0).width - 1)) (fun i _ => keyLR_lt _ _ _ _)
    have e := borderJoins_lr (hp := 2) (vp := 1) (w := w) (h := h) (sel := fun _ => 0) (p := (pinfo 2 1 w h 0).height)
      (j := 0) (split := fun _ => 0) (by omega) hord
      (fun i hi => by have := (partOf_spec (n := 1) (by omega) hi).1; omega) (fun i hi => (sel_eq (by omega) hh hi).2)
    have hP := Plan.nil.cons (hp := 2) (vp := 1) (w := w) (h := h) (b := (true, 0))
      (es := (orderIndexes (keyLR img gm ((pinfo 2 1 w h 0).width - 1)) h).map fun i => (i, 0))
      (by rw [List.map_map]; simpa [Function.comp_def, borderSize] using hord)
    rw [List.append_nil, ← e] at hP
    exact ⟨_, _, rfl, hP⟩
  · have hord := orderIndexes_perm (n := h) (key := keyLR img gm ((pinfo 2 2 w h 0).width - 1)) (fun i _ => keyLR_lt _ _ _ _)
    have hord' := orderIndexes_perm (n := w) (key := keyUD img gm ((pinfo 2 2 w h 0).height - 1)) (fun i _ => keyUD_lt _ _ _ _)
    have hsel : ∀ {t i : Nat}, 2 ≤ t → i < t → (if i < lengths 2 t 0 then 0 else 1) = partOf 2 t i := by
      intro t i ht hi
      obtain ⟨h1, h2⟩ := sel_eq (m := 2) (by omega) ht hi
      have hpos := lengths_pos (n := 2) (total := t) (i := 0) (by omega) ht
      rw [← h1]
      by_cases c : i < lengths 2 t 0
      · rw [if_pos c, Nat.div_eq_of_lt c, if_neg (by omega)]
      · have := Nat.div_pos (show lengths 2 t 0 ≤ i by omega) hpos
        rw [if_neg c, if_pos (by omega)]
    have e := borderJoins_lr (hp := 2) (vp := 2) (w := w) (h := h) (sel := fun i => if i < (pinfo 2 2 w h 0).height then 0 else 1)
      (p := (pinfo 2 2 w h 0).height) (j := 0) (split := fun v => if v = 0 then 0 else 2) (by omega) hord
      (fun i hi => hsel hh hi) (fun i hi => (sel_eq (by omega) hh hi).2)
    have e' := borderJoins_ud (hp := 2) (vp := 2) (w := w) (h := h) (sel := fun i => if i < (pinfo 2 2 w h 0).width then 0 else 1)
      (p := (pinfo 2 2 w h 0).width) (r := 0) (split := fun _ => 1) (by omega) hord'
      (fun i hi => hsel hw hi) (fun i hi => (sel_eq (by omega) hw hi).2)
    have hP := Plan.nil.cons (hp := 2) (vp := 2) (w := w) (h := h) (b := (false, 0))
      (es := (orderIndexes (keyUD img gm ((pinfo 2 2 w h 0).height - 1)) w).map fun i => (i, 1))
      (by rw [List.map_map]; simpa [Function.comp_def, borderSize] using hord')
    have hP' := hP.cons (b := (true, 0)) (es := (orderIndexes (keyLR img gm ((pinfo 2 2 w h 0).width - 1)) h).map fun i =>
      (i, if (if i < (pinfo 2 2 w h 0).height then 0 else 1) = 0 then 0 else 2))
      (by rw [List.map_map]; simpa [Function.comp_def, borderSize] using hord)
    rw [List.append_nil, ← e', ← e] at hP'
    exact ⟨_, _, rfl, hP'⟩
  · exact callJoins_plan (by omega) (by omega) hw hh calls8V1 (by decide)
  · exact callJoins_plan (by omega) (by omega) hw hh calls16V1 (by decide)
  · exact callJoins_plan (by omega) (by omega) hw hh calls32V1 (by decide)

theorem bordersV1_spec (hl : layoutV1 n = some (hp, vp)) : (bordersV1 n).Nodup ∧
    (∀ j, (true, j) ∈ bordersV1 n ↔ j + 1 < hp) ∧ (∀ r, (false, r) ∈ bordersV1 n ↔ r + 1 < vp) ∧
    ∀ w h, ((bordersV1 n).map (borderSize w h)).sum = (hp - 1) * h + (vp - 1) * w := by
  rcases layoutV1_list hl with ⟨rfl, rfl, rfl⟩ | ⟨rfl, rfl, rfl⟩ | ⟨rfl, rfl, rfl⟩ | ⟨rfl, rfl, rfl⟩ | ⟨rfl, rfl, rfl⟩ | ⟨rfl, rfl, rfl⟩
  all_goals
    refine ⟨by decide, fun j => ?_, fun r => ?_, fun w h => ?_⟩
    · simp [bordersV1, calls8V1, calls16V1, calls32V1, callBorder]
      try omega
    · simp [bordersV1, calls8V1, calls16V1, calls32V1, callBorder]
      try omega
    · simp [bordersV1, calls8V1, calls16V1, calls32V1, callBorder, borderSize]
      try omega

end Verif.V1
