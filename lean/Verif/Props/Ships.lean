import Verif.Model.Ships
import Verif.Spec.Ships

/-!
# C170: ships on a board
-/

namespace Verif.Ships

open Verif.Spec

theorem cellOf_name : ∀ r < 9, ∀ c < 26, cellOf (cellName (r, c)) = some ((c : Int), (r : Int)) := by decide +kernel

theorem mem_upTo (a b x : Int) : x ∈ upTo a b ↔ a ≤ x ∧ x ≤ b := by
  unfold upTo
  simp only [List.mem_map, List.mem_range]
  constructor
  · rintro ⟨k, hk, rfl⟩; omega
  · intro h; exact ⟨(x - a).toNat, by omega, by omega⟩

/-- The points of a ship, with flags `f`. -/
def flagged (f : Int × Int → Bool) (p q : Int × Int) : List ((Int × Int) × Bool) :=
  (upTo p.2 q.2).flatMap fun r => (upTo p.1 q.1).map fun c => ((c, r), f (c, r))

theorem hit_flagged (x : Int × Int) (f : Int × Int → Bool) (p q : Int × Int) :
    hit x (flagged f p q) = flagged (fun y => f y || decide (y = x)) p q := by
  unfold hit flagged
  rw [List.map_flatMap]
  congr 1
  funext r
  rw [List.map_map]
  apply List.map_congr_left
  intro c _
  simp only [Function.comp]
  by_cases h : (c, r) = x
  · simp [h]
  · simp [h]

theorem hitAll_map : ∀ (hs : List (Int × Int)) (ss : List (List ((Int × Int) × Bool))),
    hitAll hs ss = ss.map fun s => hs.foldl (fun s p => hit p s) s
  | [], ss => by simp [hitAll]
  | h :: hs, ss => by
    have := hitAll_map hs (ss.map (hit h))
    unfold hitAll at this ⊢
    rw [List.foldl_cons, this, List.map_map]
    rfl

theorem foldl_hit (p q : Int × Int) : ∀ (hs : List (Int × Int)) (f : Int × Int → Bool),
    hs.foldl (fun s x => hit x s) (flagged f p q) = flagged (fun y => f y || decide (y ∈ hs)) p q
  | [], f => by simp
  | h :: hs, f => by
    rw [List.foldl_cons, hit_flagged, foldl_hit p q hs]
    congr 1
    funext y
    by_cases h1 : y = h <;> by_cases h2 : y ∈ hs <;> simp [h1, h2]

theorem mem_flagged {f : Int × Int → Bool} {p q : Int × Int} {e : (Int × Int) × Bool} :
    e ∈ flagged f p q ↔ p.2 ≤ e.1.2 ∧ e.1.2 ≤ q.2 ∧ p.1 ≤ e.1.1 ∧ e.1.1 ≤ q.1 ∧ e.2 = f e.1 := by
  unfold flagged
  simp only [List.mem_flatMap, List.mem_map, mem_upTo]
  constructor
  · rintro ⟨r, hr, c, hc, rfl⟩
    exact ⟨hr.1, hr.2, hc.1, hc.2, rfl⟩
  · rintro ⟨h1, h2, h3, h4, h5⟩
    obtain ⟨⟨c, r⟩, b⟩ := e
    exact ⟨r, ⟨h1, h2⟩, c, ⟨h3, h4⟩, by simp only at h5; rw [h5]⟩

/-- A cell as a point. -/
def point (p : Nat × Nat) : Int × Int := ((p.2 : Int), (p.1 : Int))

theorem point_mem {p : Nat × Nat} {hits : List (Nat × Nat)} : point p ∈ hits.map point ↔ p ∈ hits := by
  constructor
  · intro h
    obtain ⟨q, hq, he⟩ := List.mem_map.1 h
    have h1 : (q.2 : Int) = p.2 := congrArg Prod.fst he
    have h2 : (q.1 : Int) = p.1 := congrArg Prod.snd he
    have : q = p := Prod.ext (by omega) (by omega)
    rwa [← this]
  · exact fun h => List.mem_map_of_mem h

/-- The points of a ship of the specification, with the hits. -/
def shown (hits : List (Nat × Nat)) (s : Ship) : List ((Int × Int) × Bool) :=
  flagged (fun y => decide (y ∈ hits.map point)) (point (s.top, s.left)) (point (s.bottom, s.right))

theorem mem_shown {hits : List (Nat × Nat)} {s : Ship} {e : (Int × Int) × Bool} :
    e ∈ shown hits s ↔ ∃ p, s.Has p ∧ e = (point p, decide (p ∈ hits)) := by
  unfold shown
  rw [mem_flagged]
  constructor
  · rintro ⟨h1, h2, h3, h4, h5⟩
    obtain ⟨⟨c, r⟩, b⟩ := e
    simp only [point] at h1 h2 h3 h4 h5
    have hp : point (r.toNat, c.toNat) = (c, r) := by
      unfold point
      refine Prod.ext ?_ ?_ <;> simp only <;> omega
    refine ⟨(r.toNat, c.toNat), ⟨by simp only; omega, by simp only; omega, by simp only; omega, by simp only; omega⟩, ?_⟩
    rw [hp, h5, ← hp]
    simp only [decide_eq_decide.2 (point_mem (hits := hits))]
  · rintro ⟨p, ⟨h1, h2, h3, h4⟩, rfl⟩
    refine ⟨?_, ?_, ?_, ?_, ?_⟩
    · simp only [point]; omega
    · simp only [point]; omega
    · simp only [point]; omega
    · simp only [point]; omega
    · exact (decide_eq_decide.2 point_mem).symm

theorem destroyed_shown {hits : List (Nat × Nat)} {s : Ship} : destroyed (shown hits s) = true ↔ s.Sunk hits := by
  unfold destroyed Ship.Sunk
  rw [List.all_eq_true]
  constructor
  · intro h p hp
    have := h _ (mem_shown.2 ⟨p, hp, rfl⟩)
    simpa using this
  · intro h e he
    obtain ⟨p, hp, rfl⟩ := mem_shown.1 he
    simpa using h p hp

theorem isHit_shown {hits : List (Nat × Nat)} {s : Ship} : isHit (shown hits s) = true ↔ ∃ p, s.Has p ∧ p ∈ hits := by
  unfold isHit
  rw [List.any_eq_true]
  constructor
  · rintro ⟨e, he, h⟩
    obtain ⟨p, hp, rfl⟩ := mem_shown.1 he
    exact ⟨p, hp, by simpa using h⟩
  · rintro ⟨p, hp, h⟩
    exact ⟨_, mem_shown.2 ⟨p, hp, rfl⟩, by simpa using h⟩

theorem mapM_map {α β γ : Type} (f : β → Option γ) (g : α → β) (h : α → γ) : ∀ l : List α, (∀ x ∈ l, f (g x) = some (h x)) →
    (l.map g).mapM f = some (l.map h)
  | [], _ => rfl
  | x :: l, hx => by
    rw [List.map_cons, List.mapM_cons, hx x List.mem_cons_self, mapM_map f g h l fun y hy => hx y (List.mem_cons_of_mem _ hy)]
    rfl

end Verif.Ships

namespace Verif.Props

open Verif.Ships Verif.Spec

open Classical in
/-- **C170**, for boards of nine rows and ships whose first corner is the upper left one.  The first number counts the ships of which all cells are
hit, the second those of which some but not all are. -/
theorem C170_ships_partial (ships : List Ship) (hits : List (Nat × Nat)) (hs : ∀ s ∈ ships, s.top < 9 ∧ s.bottom < 9 ∧ s.left < 26 ∧ s.right < 26)
    (hh : ∀ p ∈ hits, p.1 < 9 ∧ p.2 < 26) :
    battle (ships.map fun s => [cellName (s.top, s.left), cellName (s.bottom, s.right)]) (hits.map cellName) =
      some (ships.countP fun s => decide (s.Sunk hits), ships.countP fun s => decide (s.Damaged hits)) := by
  unfold battle
  rw [mapM_map shipOf _ (fun s : Ship => flagged (fun _ => false) (point (s.top, s.left)) (point (s.bottom, s.right))) ships ?_,
    mapM_map cellOf cellName point hits ?_]
  · simp only [Option.bind_some, Option.map_some, hitAll_map, List.map_map, Option.some.injEq]
    have : (fun s : Ship => (hits.map point).foldl (fun s x => hit x s)
        (flagged (fun _ => false) (point (s.top, s.left)) (point (s.bottom, s.right)))) = shown hits := by
      funext s
      rw [foldl_hit]; simp [shown]
    simp only [Function.comp_def, this]
    refine Prod.ext ?_ ?_
    · simp only [List.countP_map]
      apply List.countP_congr
      intro s _
      simp [destroyed_shown]
    · simp only [List.countP_map]
      apply List.countP_congr
      intro s _
      simp only [Function.comp, Bool.and_eq_true, Bool.not_eq_true', isHit_shown, decide_eq_true_eq, Ship.Damaged, ← destroyed_shown,
        Bool.not_eq_true]
      exact and_comm
  · intro p hp
    exact cellOf_name p.1 (hh p hp).1 p.2 (hh p hp).2
  · intro s h
    obtain ⟨h1, h2, h3, h4⟩ := hs s h
    simp only [shipOf, cellOf_name _ h1 _ h3, cellOf_name _ h2 _ h4, Option.bind_some, Option.map_some]
    rfl

/-- The second case of the test of the project. -/
example : battle [["1A".toList, "1B".toList], ["2A".toList, "2B".toList]] ["1A".toList, "1B".toList, "2A".toList] = some (1, 1) ∧
    cellName (1, 1) = "2B".toList := by decide +kernel

/-- **C170 is false** for ten rows: a hit of 10B sinks the ship at 10A. -/
theorem not_C170_rows : battle [[cellName (9, 0), cellName (9, 0)]] [cellName (9, 1)] = some (1, 0) ∧
    ¬ (Ship.mk 9 0 9 0).Sunk [(9, 1)] := by
  refine ⟨by decide +kernel, fun h => ?_⟩
  have := h (9, 0) ⟨by decide, by decide, by decide, by decide⟩
  simp at this

/-- **C170 is false** for a ship given from its right to its left end: it is sunk without a hit. -/
theorem not_C170_corners : battle [[cellName (0, 1), cellName (0, 0)]] [] = some (1, 0) ∧ ¬ (Ship.mk 0 0 0 1).Sunk [] := by
  refine ⟨by decide +kernel, fun h => ?_⟩
  have := h (0, 0) ⟨by decide, by decide, by decide, by decide⟩
  simp at this

end Verif.Props
