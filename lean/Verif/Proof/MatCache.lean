import Verif.Model.MatCache
import Mathlib.Tactic.Linarith
import Mathlib.Data.List.Count

/-!
# Proofs for the cache of arrays
-/

namespace Verif.MatCache

open Verif.Spec

/-- A memory is cached once, cached arrays have the sizes and type they were made with, and held memories were made. -/
structure Inv (s : State) : Prop where
  nodup : (s.caches.map Entry.mem).Nodup
  made : ∀ e ∈ s.caches, s.made[e.mem]? = some (e.sizes, e.type)
  held : ∀ m ∈ s.held, m < s.made.length

theorem inv_start : Inv start := ⟨by simp [start], by simp [start], by simp [start]⟩

theorem release_sublist (elem : Nat → Nat) (s : State) (d : Int) : ∀ (l : List Entry) (t : Int), (release elem s d l t).Sublist l
  | [], _ => by simp [release]
  | e :: l, t => by
    unfold release
    split
    · split
      · exact List.sublist_cons_self _ _
      · exact (release_sublist elem s d l _).cons _
    · exact (release_sublist elem s d l t).cons_cons _

theorem release_keep (elem : Nat → Nat) (s : State) (d : Int) : ∀ (l : List Entry) (t : Int) (e : Entry), e ∈ l → refs s e.mem ≠ 1 →
    e ∈ release elem s d l t
  | [], _, _, h, _ => by cases h
  | x :: l, t, e, h, hr => by
    unfold release
    rcases List.mem_cons.1 h with rfl | h
    · rw [if_neg hr]; exact List.mem_cons_self
    · split
      · split
        · exact h
        · exact release_keep elem s d l _ e h hr
      · exact List.mem_cons_of_mem _ (release_keep elem s d l t e h hr)

theorem release_used (elem : Nat → Nat) (s : State) (d : Int) (p : Entry → Bool) (hp : ∀ e, p e = true → refs s e.mem ≠ 1) :
    ∀ (l : List Entry) (t : Int), (release elem s d l t).filter p = l.filter p
  | [], _ => rfl
  | e :: l, t => by
    unfold release
    split
    · rename_i hr
      have : p e = false := by
        cases h : p e with
        | false => rfl
        | true => exact absurd hr (hp e h)
      rw [List.filter_cons_of_neg (by simp [this])]
      split
      · rfl
      · exact release_used elem s d p hp l _
    · rw [List.filter_cons, List.filter_cons, release_used elem s d p hp l t]

def bytes (elem : Nat → Nat) (l : List Entry) : Int := (l.map (entryBytes elem)).sum

theorem entryBytes_nonneg (elem : Nat → Nat) (e : Entry) : 0 ≤ entryBytes elem e := by
  unfold entryBytes arrayBytes; exact Int.natCast_nonneg _

theorem bytes_cons (elem : Nat → Nat) (e : Entry) (l : List Entry) : bytes elem (e :: l) = entryBytes elem e + bytes elem l := by
  simp [bytes]

theorem bytes_nonneg (elem : Nat → Nat) : ∀ l : List Entry, 0 ≤ bytes elem l
  | [] => by simp [bytes]
  | e :: l => by
    rw [bytes_cons]
    have := bytes_nonneg elem l
    have := entryBytes_nonneg elem e
    omega

/-- What is left is at most `d`, or is in use. -/
theorem release_bytes (elem : Nat → Nat) (s : State) (d : Int) : ∀ (l : List Entry) (t pre : Int), t = pre + bytes elem l →
    pre + bytes elem (release elem s d l t) ≤ d ∨ release elem s d l t = l.filter fun e => decide (refs s e.mem ≠ 1)
  | [], t, pre, h => by right; rfl
  | e :: l, t, pre, h => by
    unfold release
    rw [bytes_cons] at h
    by_cases hr : refs s e.mem = 1
    · rw [if_pos hr]
      split
      · left; omega
      · rw [List.filter_cons_of_neg (by simp [hr])]
        exact release_bytes elem s d l _ pre (by omega)
    · rw [if_neg hr, List.filter_cons_of_pos (by simp [hr])]
      rcases release_bytes elem s d l t (pre + entryBytes elem e) (by omega) with h' | h'
      · left; rw [bytes_cons]; omega
      · right; rw [h']

theorem fits_some {x y : Int} (h : fits x = some y) : y = x := by
  unfold fits at h; split at h
  · cases h; rfl
  · cases h

theorem sums_spec (elem : Nat → Nat) (s : State) : ∀ (l : List Entry) (t u : Int) (r : Int × Int), sums elem s l t u = some r →
    r.1 = t + bytes elem l ∧ r.2 = u + bytes elem (l.filter fun e => decide (refs s e.mem > 1))
  | [], t, u, r, h => by simp only [sums, Option.some.injEq] at h; subst h; simp [bytes]
  | e :: l, t, u, r, h => by
    unfold sums at h
    simp only [Option.bind_eq_some_iff] at h
    obtain ⟨b, hb, u', hu, t', ht, hr⟩ := h
    have hb := fits_some hb
    have ht := fits_some ht
    obtain ⟨h1, h2⟩ := sums_spec elem s l t' u' r hr
    rw [bytes_cons]
    refine ⟨by omega, ?_⟩
    by_cases hc : refs s e.mem > 1
    · rw [if_pos hc] at hu
      have hu := fits_some hu
      rw [List.filter_cons_of_pos (by simp [hc]), bytes_cons]; omega
    · rw [if_neg hc] at hu
      cases hu
      rw [List.filter_cons_of_neg (by simp [hc])]; exact h2

theorem refs_pos {s : State} {e : Entry} (h : e ∈ s.caches) : 1 ≤ refs s e.mem := by
  unfold refs
  have : 0 < (s.caches.map Entry.mem).count e.mem := List.count_pos_iff.2 (List.mem_map_of_mem h)
  omega

/-- `statistic` changes only the cached arrays: a sublist, with all arrays in use, and not too many bytes. -/
theorem statistic_spec {elem : Nat → Nat} {s s' : State} (h : statistic elem s = some s') :
    s' = { s with caches := s'.caches } ∧ s'.caches.Sublist s.caches ∧ (∀ e ∈ s.caches, refs s e.mem ≠ 1 → e ∈ s'.caches) ∧
    (bytes elem s'.caches ≤ s.limit ∨ bytes elem s'.caches ≤ 2 * bytes elem (s.caches.filter fun e => decide (refs s e.mem > 1))) ∧
    ∀ p : Entry → Bool, (∀ e, p e = true → refs s e.mem ≠ 1) → s'.caches.filter p = s.caches.filter p := by
  unfold statistic at h
  simp only [Option.bind_eq_some_iff] at h
  obtain ⟨r, hr, h⟩ := h
  obtain ⟨h1, h2⟩ := sums_spec elem s _ _ _ _ hr
  split at h
  · simp only [Option.map_eq_some_iff] at h
    obtain ⟨d, hd, h⟩ := h
    have hd := fits_some hd
    split at h
    · subst h
      refine ⟨rfl, release_sublist _ _ _ _ _, fun e he hr => release_keep _ _ _ _ _ e he hr, Or.inr ?_, fun p hp => release_used _ _ _ p hp _ _⟩
      rcases release_bytes elem s d s.caches r.1 0 (by omega) with h' | h'
      · dsimp only; omega
      · dsimp only
        have hf : (s.caches.filter fun e => decide (refs s e.mem ≠ 1)) = s.caches.filter fun e => decide (refs s e.mem > 1) := by
          apply List.filter_congr
          intro e he
          have := refs_pos he
          simp only [decide_eq_decide]
          omega
        rw [h', hf]
        have := bytes_nonneg elem (s.caches.filter fun e => decide (refs s e.mem > 1))
        omega
    · subst h
      exact ⟨rfl, List.Sublist.refl _, fun e he _ => he, Or.inr (by omega), fun _ _ => rfl⟩
  · cases h
    exact ⟨rfl, List.Sublist.refl _, fun e he _ => he, Or.inl (by omega), fun _ _ => rfl⟩

theorem inv_statistic {elem : Nat → Nat} {s s' : State} (hi : Inv s) (h : statistic elem s = some s') : Inv s' := by
  obtain ⟨h1, h2, _, _, _⟩ := statistic_spec h
  rw [h1]
  exact ⟨hi.nodup.sublist (h2.map _), fun e he => hi.made e (h2.subset he), hi.held⟩

theorem inv_create {s : State} (hi : Inv s) (sizes : List Nat) (type : Nat) : Inv (create s sizes type) := by
  refine ⟨hi.nodup, fun e he => ?_, fun m hm => ?_⟩
  · have := hi.made e he
    obtain ⟨hl, _⟩ := List.getElem?_eq_some_iff.1 this
    simp only [create, List.getElem?_append_left hl]
    exact this
  · simp only [create, List.mem_cons, List.length_append, List.length_cons, List.length_nil] at hm ⊢
    rcases hm with rfl | hm
    · omega
    · have := hi.held m hm; omega

theorem inv_cache {s : State} (hi : Inv s) (sizes : List Nat) (type : Nat) :
    Inv { create s sizes type with caches := (create s sizes type).caches ++ [⟨s.made.length, sizes, type⟩] } := by
  have hc := inv_create hi sizes type
  refine ⟨?_, fun e he => ?_, hc.held⟩
  · simp only [create, List.map_append, List.map_cons, List.map_nil]
    refine List.nodup_append.2 ⟨hi.nodup, by simp, ?_⟩
    intro m hm m' hm' hmm
    subst hmm
    obtain ⟨e, he, rfl⟩ := List.mem_map.1 hm
    obtain ⟨hl, _⟩ := List.getElem?_eq_some_iff.1 (hi.made e he)
    rw [List.mem_singleton.1 hm'] at hl
    omega
  · rcases List.mem_append.1 he with he | he
    · exact hc.made e he
    · rw [List.mem_singleton.1 he]; simp [create]

theorem look_spec {s : State} {sizes : List Nat} {type : Nat} {e : Entry} (h : look s sizes type = some e) :
    e ∈ s.caches ∧ refs s e.mem = 1 ∧ e.type = type ∧ e.sizes = sizes := by
  have h1 := List.find?_some h
  simp only [Bool.and_eq_true, beq_iff_eq] at h1
  exact ⟨List.mem_of_find?_eq_some h, h1.1.1.1, h1.1.1.2, h1.2⟩

/-- The result of `get` is held, was not held before, and has the sizes and the type. -/
theorem get_spec {elem : Nat → Nat} {s s' : State} {sizes : List Nat} {type m : Nat} (hi : Inv s) (h : get elem s sizes type = some (s', m)) :
    Inv s' ∧ m ∉ s.held ∧ s'.held = m :: s.held ∧ s'.made[m]? = some (sizes, type) := by
  unfold get at h
  split at h
  · split at h
    · rename_i e he
      cases h
      obtain ⟨h1, h2, h3, h4⟩ := look_spec he
      have hp : 0 < (s.caches.map Entry.mem).count e.mem := List.count_pos_iff.2 (List.mem_map_of_mem h1)
      unfold refs at h2
      have hz : s.held.count e.mem = 0 := by omega
      have hm := hi.made e h1
      refine ⟨⟨hi.nodup, hi.made, fun m hm' => ?_⟩, List.count_eq_zero.1 hz, rfl, ?_⟩
      · rcases List.mem_cons.1 hm' with rfl | hm'
        · exact (List.getElem?_eq_some_iff.1 hm).1
        · exact hi.held m hm'
      · rw [← h3, ← h4]; exact hm
    · dsimp only at h
      simp only [Option.map_eq_some_iff] at h
      obtain ⟨s'', hs, h⟩ := h
      cases h
      have hi' := inv_statistic (inv_cache hi sizes type) hs
      obtain ⟨h1, _, _, _, _⟩ := statistic_spec hs
      refine ⟨hi', fun hm => absurd (hi.held _ hm) (by omega), ?_, ?_⟩
      · rw [h1]; rfl
      · rw [h1]; simp [create]
  · cases h
    exact ⟨inv_create hi sizes type, fun hm => absurd (hi.held _ hm) (by omega), rfl, by simp [create]⟩

theorem inv_step {elem : Nat → Nat} {s s' : State} (hi : Inv s) : ∀ (o : ArrayOp), step elem s o = some s' → Inv s'
  | .get sizes type, h => by
    simp only [step, Option.map_eq_some_iff] at h
    obtain ⟨⟨s'', m⟩, hg, rfl⟩ := h
    exact (get_spec hi hg).1
  | .copy m, h => by
    simp only [step] at h
    split at h
    · rename_i hm
      cases h
      refine ⟨hi.nodup, hi.made, fun x hx => ?_⟩
      rcases List.mem_cons.1 hx with rfl | hx
      · exact hi.held _ hm
      · exact hi.held _ hx
    · cases h
  | .drop m, h => by
    simp only [step] at h
    split at h
    · cases h
      exact ⟨hi.nodup, hi.made, fun x hx => hi.held _ (List.mem_of_mem_erase hx)⟩
    · cases h
  | .enable on, h => by
    simp only [step, Option.some.injEq] at h
    subst h
    cases on
    · exact ⟨by simp, by simp, hi.held⟩
    · exact ⟨hi.nodup, hi.made, hi.held⟩
  | .limit b, h => inv_statistic (s := { s with limit := b }) ⟨hi.nodup, hi.made, hi.held⟩ h

theorem inv_run {elem : Nat → Nat} : ∀ (l : List ArrayOp) {s s' : State}, Inv s → run elem s l = some s' → Inv s'
  | [], s, s', hi, h => by cases h; exact hi
  | o :: l, s, s', hi, h => by
    simp only [run, Option.bind_eq_some_iff] at h
    obtain ⟨s1, h1, h2⟩ := h
    exact inv_run l (inv_step hi o h1) h2

theorem refs_cached {s : State} (hi : Inv s) {e : Entry} (h : e ∈ s.caches) : refs s e.mem = 1 + s.held.count e.mem := by
  unfold refs
  have h1 := List.nodup_iff_count.1 hi.nodup e.mem
  have h2 : 0 < (s.caches.map Entry.mem).count e.mem := List.count_pos_iff.2 (List.mem_map_of_mem h)
  omega

theorem refs_idle {s : State} (hi : Inv s) {e : Entry} (h : e ∈ s.caches) : refs s e.mem = 1 ↔ e.mem ∉ s.held := by
  rw [refs_cached hi h]
  constructor
  · intro h'; exact List.count_eq_zero.1 (by omega)
  · intro h'; rw [List.count_eq_zero.2 h']

/-- The bytes after `statistic`. -/
theorem statistic_bound {elem : Nat → Nat} {s s' : State} (hi : Inv s) (h : statistic elem s = some s') :
    bytes elem s'.caches ≤ s'.limit ∨ bytes elem s'.caches ≤ 2 * bytes elem (s'.caches.filter fun e => decide (e.mem ∈ s'.held)) := by
  obtain ⟨h1, h2, _, h4, h5⟩ := statistic_spec h
  have hl : s'.limit = s.limit := by rw [h1]
  have hh : s'.held = s.held := by rw [h1]
  rw [hl, hh]
  refine h4.imp id fun h4 => ?_
  have hf : (s'.caches.filter fun e => decide (e.mem ∈ s.held)) = s.caches.filter fun e => decide (refs s e.mem > 1) := by
    rw [← h5 (fun e => decide (refs s e.mem > 1)) (fun e he => by simp only [decide_eq_true_eq] at he; omega)]
    apply List.filter_congr
    intro e he
    have := refs_idle hi (h2.subset he)
    have := refs_pos (h2.subset he)
    simp only [decide_eq_decide]
    constructor
    · intro h; by_contra hc; exact (refs_idle hi (h2.subset he)).1 (by omega) h
    · intro h; by_contra hc; have := (refs_idle hi (h2.subset he)).2 hc; omega
  rw [hf]; exact h4

/-- The result of `get` is cached, and all cached arrays in use stay. -/
theorem get_cached {elem : Nat → Nat} {s s' : State} {sizes : List Nat} {type m : Nat} (hi : Inv s) (hon : s.enabled = true)
    (h : get elem s sizes type = some (s', m)) :
    ⟨m, sizes, type⟩ ∈ s'.caches ∧ s'.enabled = true ∧ ∀ e ∈ s.caches, e.mem ∈ s.held → e ∈ s'.caches := by
  unfold get at h
  rw [if_pos hon] at h
  split at h
  · rename_i e he
    cases h
    obtain ⟨h1, _, h3, h4⟩ := look_spec he
    subst h3; subst h4
    exact ⟨h1, hon, fun e he _ => he⟩
  · dsimp only at h
    simp only [Option.map_eq_some_iff] at h
    obtain ⟨s'', hs, h⟩ := h
    cases h
    obtain ⟨h1, h2, h3, _, _⟩ := statistic_spec hs
    have hi' := inv_cache hi sizes type
    refine ⟨h3 _ (by simp) ?_, by rw [h1]; exact hon, fun e he hh => h3 e (by simp [create, he]) ?_⟩
    · intro hr
      exact (refs_idle hi' (e := ⟨s.made.length, sizes, type⟩) (by simp)).1 hr (by simp [create])
    · intro hr
      exact (refs_idle hi' (e := e) (by simp [create, he])).1 hr (by simp [create, hh])

theorem look_idle {s : State} (hi : Inv s) {sizes : List Nat} {type : Nat} :
    (∃ e ∈ s.caches, e.sizes = sizes ∧ e.type = type ∧ e.mem ∉ s.held) ↔ ∃ e, look s sizes type = some e := by
  constructor
  · rintro ⟨e, he, h1, h2, h3⟩
    have : (look s sizes type).isSome := by
      unfold look
      rw [List.find?_isSome]
      exact ⟨e, he, by simp [(refs_idle hi he).2 h3, h1, h2]⟩
    exact Option.isSome_iff_exists.1 this
  · rintro ⟨e, h⟩
    obtain ⟨h1, h2, h3, h4⟩ := look_spec h
    exact ⟨e, h1, h4, h3, (refs_idle hi h1).1 h2⟩

/-- A new memory is made exactly when no idle array fits. -/
theorem get_made {elem : Nat → Nat} {s s' : State} {sizes : List Nat} {type m : Nat} (hi : Inv s) (hon : s.enabled = true)
    (h : get elem s sizes type = some (s', m)) :
    s'.made = s.made ↔ ∃ e ∈ s.caches, e.sizes = sizes ∧ e.type = type ∧ e.mem ∉ s.held := by
  rw [look_idle hi]
  unfold get at h
  rw [if_pos hon] at h
  split at h
  · rename_i e he
    cases h
    exact ⟨fun _ => ⟨e, he⟩, fun _ => rfl⟩
  · rename_i he
    dsimp only at h
    simp only [Option.map_eq_some_iff] at h
    obtain ⟨s'', hs, h⟩ := h
    cases h
    obtain ⟨h1, _, _, _, _⟩ := statistic_spec hs
    constructor
    · intro h; rw [h1] at h
      have := congrArg List.length h
      simp [create] at this
    · rintro ⟨e, h⟩; rw [he] at h; cases h

/-- Threads whose steps do not interleave. -/
theorem threads_spec (sizes : List Nat) (type : Nat) : ∀ (ts : List Bool) (p : Threads), Inv p.s → (∀ t, p.found t = none) → p.got.Nodup →
    (∀ m ∈ p.got, m ∈ p.s.held) → ((ts.flatMap fun t => [t, t]).foldl (threadStep sizes type) p).got.Nodup
  | [], p, _, _, hn, _ => hn
  | t :: ts, p, hi, hf, hn, hg => by
    simp only [List.flatMap_cons, List.cons_append, List.nil_append, List.foldl_cons]
    cases hl : look p.s sizes type with
    | none =>
      have h1 : threadStep sizes type p t = p := by
        have : (fun x => if x = t then none else p.found x) = p.found := by
          funext x; split
          · rw [hf]
          · rfl
        simp [threadStep, hf t, hl, this]
      rw [h1, h1]
      exact threads_spec sizes type ts p hi hf hn hg
    | some e =>
      obtain ⟨h1, h2, _, _⟩ := look_spec hl
      have hm := (refs_idle hi h1).1 h2
      have hq : threadStep sizes type (threadStep sizes type p t) t = ⟨take p.s e, p.found, p.got ++ [e.mem]⟩ := by
        have : (fun x => if x = t then (none : Option Entry) else p.found x) = p.found := by
          funext x; split
          · rw [hf]
          · rfl
        simp only [threadStep, hf t, hl, if_true]
        rw [← this]
        congr 1
        funext x
        split <;> simp_all
      rw [hq]
      refine threads_spec sizes type ts _ ⟨hi.nodup, hi.made, fun x hx => ?_⟩ hf ?_ ?_
      · rcases List.mem_cons.1 hx with rfl | hx
        · exact (List.getElem?_eq_some_iff.1 (hi.made e h1)).1
        · exact hi.held x hx
      · refine List.nodup_append.2 ⟨hn, by simp, ?_⟩
        intro a ha b hb hab
        rw [List.mem_singleton.1 hb] at hab
        subst hab
        exact hm (hg _ ha)
      · intro x hx
        rcases List.mem_append.1 hx with hx | hx
        · exact List.mem_cons_of_mem _ (hg x hx)
        · rw [List.mem_singleton.1 hx]; exact List.mem_cons_self

end Verif.MatCache
