/-!
# Ships on a board

`mt_helper::battle_ship`, /repo/basicmath/src/mt_helper.cpp 193–280, after the texts have been split (see C116 for the splitting): a ship is the list
of the names of its corners.
-/

namespace Verif.Ships

/-- Lines 240–244, 261–262: column and row; `none` for names with less than two characters. -/
def cellOf : List Char → Option (Int × Int)
  | r :: c :: _ => some ((c.toNat : Int) - 65, (r.toNat : Int) - 49)
  | _ => none

/-- The numbers from `a` to `b`. -/
def upTo (a b : Int) : List Int := (List.range (b - a + 1).toNat).map fun k : Nat => a + (k : Int)

/-- Lines 246–251: points with flags. -/
def shipPoints (p q : Int × Int) : List ((Int × Int) × Bool) :=
  (upTo p.2 q.2).flatMap fun r => (upTo p.1 q.1).map fun c => ((c, r), false)

/-- Lines 234–254 for one ship; `none` when a corner is missing. -/
def shipOf : List (List Char) → Option (List ((Int × Int) × Bool))
  | a :: b :: _ => (cellOf a).bind fun p => (cellOf b).map fun q => shipPoints p q
  | _ => none

/-- `hit`, 199–205. -/
def hit (p : Int × Int) (s : List ((Int × Int) × Bool)) : List ((Int × Int) × Bool) := s.map fun e => if e.1 = p then (e.1, true) else e

/-- `is_destory`, 207–215. -/
def destroyed (s : List ((Int × Int) × Bool)) : Bool := s.all Prod.snd

/-- `is_hit`, 217–225. -/
def isHit (s : List ((Int × Int) × Bool)) : Bool := s.any Prod.snd

/-- Lines 260–267. -/
def hitAll (hits : List (Int × Int)) (ships : List (List ((Int × Int) × Bool))) : List (List ((Int × Int) × Bool)) :=
  hits.foldl (fun ss p => ss.map (hit p)) ships

/-- `battle_ship`: the two numbers of the result. -/
def battle (ships : List (List (List Char))) (hits : List (List Char)) : Option (Nat × Nat) :=
  (ships.mapM shipOf).bind fun ss => (hits.mapM cellOf).map fun hs =>
  ((hitAll hs ss).countP destroyed, (hitAll hs ss).countP fun s => !destroyed s && isHit s)

end Verif.Ships
