import Verif.Proof.ConnectInit
import Verif.Proof.ConnectLocal
import Verif.Proof.Same
import Mathlib.Data.Fintype.Basic
import Mathlib.Data.Fintype.Card

/-!
# Properties C09, C10, C11, C13: joining trees

`Flooded adj g px pof K P` says: the pixels `px` with adjacency `adj` are divided into `K` patches
by `pof`, and `P k` is the component tree of patch `k` – what flooding produces (C01).
`initForest K P` is the memory at that moment, `joinAll fuel 512 W l` joins a list of region pairs one
after the other, and `forestTree` is the tree that later stages read.  `fuel` bounds the length of
pointer chases, 512 the number of iterations of the loops of `connect`; the theorems show that neither
bound is ever reached.
-/

namespace Verif.Props

open Verif.Spec Verif.Connect
open Relation (ReflTransGen)

section
variable {α : Type} {adj : α → α → Prop} {g : α → Nat} {px : Finset α} {pof : α → Nat} {K : Nat}
  {P : Nat → PatchTree α} {fuel : Nat}

/-- The regions of all patches. -/
abbrev regOf (K : Nat) (P : Nat → PatchTree α) (kr : Nat × Nat) : Prop := kr.1 < K ∧ kr.2 < (P kr.1).nreg

/-- The region a pixel was labelled with by flooding. -/
abbrev labOf (pof : α → Nat) (P : Nat → PatchTree α) (p : α) : Nat × Nat := (pof p, (P (pof p)).lab p)

/-- The pairs of regions belonging to a list of pixel pairs. -/
abbrev labPairs (pof : α → Nat) (P : Nat → PatchTree α) (l : List (α × α)) : List ((Nat × Nat) × (Nat × Nat)) :=
  l.map fun e => (labOf pof P e.1, labOf pof P e.2)

/-- The tree read from a joined forest. -/
abbrev joinedTree (pof : α → Nat) (K : Nat) (P : Nat → PatchTree α) (fuel : Nat) (W : World (Nat × Nat)) :
    RegionTree α (Nat × Nat) := forestTree fuel (regOf K P) (labOf pof P) W.F

private theorem joins (hF : Flooded adj g px pof K P) {l : List (α × α)}
    (hl : ∀ e ∈ l, e.1 ∈ px ∧ e.2 ∈ px) (hf : 512 * l.length ≤ fuel) :
    ∃ W, joinAll fuel 512 ⟨initForest K P, 0⟩ (labPairs pof P l) = some W ∧
      Good (initCtx g px pof K P) (addPairs (samePatch adj pof) l) W ∧ W.merges ≤ 512 * l.length := by
  obtain ⟨W, h1, h2, h3⟩ := joinAll_good (init_lab hF) (fuel := fuel) (le_refl 512) l (init_good hF) hl
    (by simpa using hf)
  exact ⟨W, h1, h2, by simpa using h3⟩

/-- **C09** After any sequence of earlier joins, joining the regions of two pixels `p` and `q` succeeds
and gives the component tree of the graph with the adjacency `p`–`q` added. -/
theorem C09_join_adds_adjacency (hF : Flooded adj g px pof K P) {l : List (α × α)}
    (hl : ∀ e ∈ l, e.1 ∈ px ∧ e.2 ∈ px) {p q : α} (hp : p ∈ px) (hq : q ∈ px)
    (hf : 512 * (l.length + 1) ≤ fuel) :
    ∃ W W', joinAll fuel 512 ⟨initForest K P, 0⟩ (labPairs pof P l) = some W ∧
      IsComponentTree (addPairs (samePatch adj pof) l) g px (joinedTree pof K P fuel W) ∧
      joinAt fuel 512 W (labOf pof P p) (labOf pof P q) = some W' ∧
      IsComponentTree (addPair (addPairs (samePatch adj pof) l) p q) g px (joinedTree pof K P fuel W') := by
  obtain ⟨W, h1, h2, h3⟩ := joins hF hl (fuel := fuel) (by omega)
  obtain ⟨W', h4, h5, h6⟩ := joinAt_good (init_lab hF) h2 hp hq (fuel := fuel) (by omega) (le_refl _)
  exact ⟨W, W', h1, h2.tree (init_lab hF) (by omega), h4, h5.tree (init_lab hF) (by omega)⟩

/-- **C09** The same, read off the tree: after the join two pixels share a region of level at most `t`
exactly when they are connected at level `t` in the enlarged graph. -/
theorem C09_share_region_iff_connected (hF : Flooded adj g px pof K P) {l : List (α × α)}
    (hl : ∀ e ∈ l, e.1 ∈ px ∧ e.2 ∈ px) {p q : α} (hp : p ∈ px) (hq : q ∈ px)
    (hf : 512 * (l.length + 1) ≤ fuel) {W W' : World (Nat × Nat)}
    (hW : joinAll fuel 512 ⟨initForest K P, 0⟩ (labPairs pof P l) = some W)
    (hW' : joinAt fuel 512 W (labOf pof P p) (labOf pof P q) = some W')
    {x y : α} (hx : x ∈ px) (hy : y ∈ px) {t : Nat} (hxt : g x ≤ t) :
    (∃ r, (joinedTree pof K P fuel W').isReg r ∧ (W'.F r).gray ≤ t ∧
      (joinedTree pof K P fuel W').Under r x ∧ (joinedTree pof K P fuel W').Under r y) ↔
    LConn (addPair (addPairs (samePatch adj pof) l) p q) g t x y := by
  obtain ⟨V, V', h1, _, h3, h4⟩ := C09_join_adds_adjacency hF hl hp hq hf
  rw [hW] at h1; obtain rfl := Option.some.inj h1
  rw [hW'] at h3; obtain rfl := Option.some.inj h3
  constructor
  · rintro ⟨r, hr, hg, h5, h6⟩
    exact ((h4.comp r hr x hx h5 y hy).1 h6).mono hg
  · intro hc
    have hs : ∀ a b, addPair (addPairs (samePatch adj pof) l) p q a b →
        addPair (addPairs (samePatch adj pof) l) p q b a := by
      rintro a b ((⟨h, e⟩ | h | h) | h | h)
      · exact .inl (.inl ⟨hF.adj_symm _ _ h, e.symm⟩)
      · exact .inl (.inr (.inr h))
      · exact .inl (.inr (.inl h))
      · exact .inr (.inr ⟨h.2, h.1⟩)
      · exact .inr (.inl ⟨h.2, h.1⟩)
    have hm : ∀ a b, addPair (addPairs (samePatch adj pof) l) p q a b → b ∈ px := by
      rintro a b ((⟨h, e⟩ | h | h) | h | h)
      · exact (hF.adj_px _ _ h).2
      · exact (hl _ h).2
      · exact (hl _ h).1
      · rw [h.2]; exact hq
      · rw [h.2]; exact hp
    obtain ⟨r, r1, r2, r3, _, r5⟩ := h4.threshold hs hm hx hxt
    exact ⟨r, r1, r3, r2, (r5 y hy).2 hc⟩

/-- **C10** After a join the stored size of every live region is the number of pixels of its component
in the joined graph. -/
theorem C10_sizes_exact_after_join (hF : Flooded adj g px pof K P) {l : List (α × α)}
    (hl : ∀ e ∈ l, e.1 ∈ px ∧ e.2 ∈ px) {p q : α} (hp : p ∈ px) (hq : q ∈ px)
    (hf : 512 * (l.length + 1) ≤ fuel) {W W' : World (Nat × Nat)}
    (hW : joinAll fuel 512 ⟨initForest K P, 0⟩ (labPairs pof P l) = some W)
    (hW' : joinAt fuel 512 W (labOf pof P p) (labOf pof P q) = some W')
    {r : Nat × Nat} (hr : regOf K P r) (hlive : (W'.F r).merged = false) :
    ∃ x ∈ px, g x = (W'.F r).gray ∧ ∀ s : Finset α,
      (∀ y, y ∈ s ↔ y ∈ px ∧ LConn (addPair (addPairs (samePatch adj pof) l) p q) g (g x) x y) →
      (W'.F r).size = s.card := by
  obtain ⟨V, V', h1, _, h3, h4⟩ := C09_join_adds_adjacency hF hl hp hq hf
  rw [hW] at h1; obtain rfl := Option.some.inj h1
  rw [hW'] at h3; obtain rfl := Option.some.inj h3
  have hreg : (joinedTree pof K P fuel W').isReg r := ⟨hr, hlive⟩
  obtain ⟨x, hx, ex⟩ := h4.reg_lab r hreg
  have hgx : g x = (W'.F r).gray := by rw [← h4.lab_gray x hx, ex]; rfl
  refine ⟨x, hx, hgx, fun s hs => h4.size_eq r hreg s (fun y => ?_)⟩
  have hu : (joinedTree pof K P fuel W').Under r x := by
    unfold RegionTree.Under; rw [ex]
  rw [hs y]
  constructor
  · rintro ⟨a, b⟩
    exact ⟨a, (h4.comp r hreg x hx hu y a).2 (by rw [hgx] at b; exact b)⟩
  · rintro ⟨a, b⟩
    have := (h4.comp r hreg x hx hu y a).1 b
    exact ⟨a, by rw [hgx]; exact this⟩

/-- **C13** Two orders of the same joins (more generally: two lists with the same pairs, in whatever
order and multiplicity) both succeed and give the same tree. -/
theorem C13_join_order_irrelevant (hF : Flooded adj g px pof K P) (hne : px.Nonempty)
    {l l' : List (α × α)} (hl : ∀ e ∈ l, e.1 ∈ px ∧ e.2 ∈ px)
    (hmem : ∀ e, e ∈ l ↔ e ∈ l') (hf : 512 * l.length ≤ fuel) (hf' : 512 * l'.length ≤ fuel) :
    ∃ W W' f, joinAll fuel 512 ⟨initForest K P, 0⟩ (labPairs pof P l) = some W ∧
      joinAll fuel 512 ⟨initForest K P, 0⟩ (labPairs pof P l') = some W' ∧
      SameTree px (joinedTree pof K P fuel W) (joinedTree pof K P fuel W') f := by
  obtain ⟨W, h1, h2, h3⟩ := joins hF hl hf
  obtain ⟨W', h1', h2', h3'⟩ := joins hF (fun e he => hl e ((hmem e).2 he)) hf'
  have t := h2.tree (init_lab hF) (fuel := fuel) (by omega)
  have t' := h2'.tree (init_lab hF) (fuel := fuel) (by omega)
  have e : addPairs (samePatch adj pof) l = addPairs (samePatch adj pof) l' := by
    funext x y; unfold addPairs; rw [hmem (x, y), hmem (y, x)]
  rw [e] at t
  obtain ⟨f, hf⟩ := t.same t' hne
  exact ⟨W, W', f, h1, h1', hf⟩

/-- **C13** Permutations. -/
theorem C13_permutation (hF : Flooded adj g px pof K P) (hne : px.Nonempty)
    {l l' : List (α × α)} (hl : ∀ e ∈ l, e.1 ∈ px ∧ e.2 ∈ px) (hperm : l.Perm l')
    (hf : 512 * l.length ≤ fuel) :
    ∃ W W' f, joinAll fuel 512 ⟨initForest K P, 0⟩ (labPairs pof P l) = some W ∧
      joinAll fuel 512 ⟨initForest K P, 0⟩ (labPairs pof P l') = some W' ∧
      SameTree px (joinedTree pof K P fuel W) (joinedTree pof K P fuel W') f :=
  C13_join_order_irrelevant hF hne hl (fun _ => hperm.mem_iff) hf (by rw [← hperm.length_eq]; exact hf)

/-- Regions of the patches in `A`. -/
def ofPatches (A : Nat → Prop) (kr : Nat × Nat) : Prop := A kr.1

/-- **C13** Joins between pixels of the patches in `A` read and write only regions of those patches: in
two memories that agree there they do the same, nothing else changes, and the links still do not leave
`A`.  (This is why the quadrants of `merge_tree_parallel_32` can be joined concurrently.) -/
theorem C13_joins_are_local {A : Nat → Prop} {k : List ((Nat × Nat) × (Nat × Nat))}
    {W V W' : World (Nat × Nat)} (hk : ∀ e ∈ k, A e.1.1 ∧ A e.2.1)
    (hclosed : ∀ r, A r.1 → ∀ r', (W.F r).parent = some r' → A r'.1)
    (hagree : ∀ r : Nat × Nat, A r.1 → W.F r = V.F r) (hW' : joinAll fuel 512 W k = some W') :
    ∃ V', joinAll fuel 512 V k = some V' ∧
      (∀ r : Nat × Nat, A r.1 → W'.F r = V'.F r) ∧
      (∀ r : Nat × Nat, ¬ A r.1 → W'.F r = W.F r ∧ V'.F r = V.F r) ∧
      ∀ r, A r.1 → ∀ r', (W'.F r).parent = some r' → A r'.1 := by
  have h := joinAll_local (S := ofPatches A) (fuel := fuel) (steps := 512) k (W := W) (V := V) hclosed hagree hk
  rw [hW'] at h
  cases hV : joinAll fuel 512 V k with
  | none => rw [hV] at h; exact h.elim
  | some V' =>
    rw [hV] at h
    obtain ⟨h1, h2, h3, h4⟩ := h
    exact ⟨V', rfl, h2, fun r hr => ⟨h3 r hr, h4 r hr⟩, h1⟩

/-- **C13** Joins within two disjoint sets of patches can be exchanged; the memory is the same record
for record, not just the tree. -/
theorem C13_disjoint_patches_commute (hF : Flooded adj g px pof K P) {A B : Nat → Prop}
    (hd : ∀ k, A k → ¬ B k) {l l' : List (α × α)}
    (hl : ∀ e ∈ l, (e.1 ∈ px ∧ e.2 ∈ px) ∧ A (pof e.1) ∧ A (pof e.2))
    (hl' : ∀ e ∈ l', (e.1 ∈ px ∧ e.2 ∈ px) ∧ B (pof e.1) ∧ B (pof e.2))
    (hf : 512 * (l.length + l'.length) ≤ fuel) :
    ∃ W W', joinAll fuel 512 ⟨initForest K P, 0⟩ (labPairs pof P (l ++ l')) = some W ∧
      joinAll fuel 512 ⟨initForest K P, 0⟩ (labPairs pof P (l' ++ l)) = some W' ∧ W.F = W'.F := by
  have app : ∀ (k k' : List ((Nat × Nat) × (Nat × Nat))) (V : World (Nat × Nat)) (V' : World (Nat × Nat)),
      joinAll fuel 512 V (k ++ k') = some V' →
      ∃ U, joinAll fuel 512 V k = some U ∧ joinAll fuel 512 U k' = some V' := by
    intro k
    induction k with
    | nil => intro k' V V' h; exact ⟨V, rfl, h⟩
    | cons e k ih =>
      intro k' V V' h
      simp only [List.cons_append, joinAll] at h ⊢
      cases hj : joinAt fuel 512 V e.1 e.2 with
      | none => rw [hj] at h; simp at h
      | some U => rw [hj] at h; exact ih k' U V' h
  have mem1 : ∀ e ∈ l ++ l', e.1 ∈ px ∧ e.2 ∈ px := by
    intro e he; rcases List.mem_append.1 he with h | h
    exacts [(hl e h).1, (hl' e h).1]
  have mem2 : ∀ e ∈ l' ++ l, e.1 ∈ px ∧ e.2 ∈ px := fun e he =>
    mem1 e (List.mem_append.2 (List.mem_append.1 he).symm)
  obtain ⟨W, h1, _⟩ := joins hF mem1 (fuel := fuel) (by simpa using hf)
  obtain ⟨W', h1', _⟩ := joins hF mem2 (fuel := fuel) (by rw [List.length_append]; omega)
  refine ⟨W, W', h1, h1', ?_⟩
  rw [labPairs, List.map_append] at h1 h1'
  obtain ⟨U, u1, u2⟩ := app _ _ _ _ h1
  obtain ⟨U', u1', u2'⟩ := app _ _ _ _ h1'
  have hcl : ∀ A : Nat → Prop, Closed (ofPatches A) (initForest K P) := by
    intro A r hr r' h
    have := (forest_parent h).2.1
    unfold ofPatches at hr ⊢; rw [this]; exact hr
  refine joinAll_comm (S := ofPatches A) (T := ofPatches B) (hcl A) (hcl B) (fun r => hd r.1) ?_ ?_ u1 u2 u1' u2'
  · intro e he; obtain ⟨x, hx, rfl⟩ := List.mem_map.1 he; exact (hl x hx).2
  · intro e he; obtain ⟨x, hx, rfl⟩ := List.mem_map.1 he; exact (hl' x hx).2

end

/-! ### Any forest -/

section
variable {ι : Type} [DecidableEq ι] {isReg : ι → Prop} {gr : ι → Nat} {fuel : Nat}

/-- **C11** Whatever the forest – as long as gray levels strictly increase along the parent links of
live regions, absorbed regions lead in at most `m` steps to a live region of the same level, and levels
are below 256 – `connect` on two live regions ends: its walk needs at most 512 iterations, and so does
the walk to the root that follows; pointer chases of length `m + 512` suffice.  The shape of the forest
is kept. -/
theorem C11_connect_terminates {W : World ι} {m : Nat} (hstr : Str isReg gr W.F m) {a b : ι}
    (ha : isReg a ∧ (W.F a).merged = false) (hb : isReg b ∧ (W.F b).merged = false) :
    ∃ W', connect (m + 512) 512 W (some a) (some b) = some W' ∧ Str isReg gr W'.F (m + 512) := by
  let C : Ctx ι Empty := ⟨isReg, gr, ∅, fun e => e.elim, fun e => e.elim, fun _ _ _ => True, False⟩
  have h : LInv C ⟨W.F, some b, some a, 0, m⟩ :=
    ⟨hstr, ⟨b, rfl, hb⟩, fun x hx => by obtain rfl := Option.some.inj hx; exact ha, .inl rfl,
      fun l p => p.elim, fun ht => ht.elim⟩
  obtain ⟨W', h1, h2, h3⟩ := connect_spec (W := ⟨W.F, m⟩) h (fuel := m + 512) (steps := 512) (le_refl _) (le_refl _)
  have := connect_local (S := fun _ : ι => True) (fuel := m + 512) (steps := 512) (W := ⟨W.F, m⟩) (V := W)
    (a := some a) (b := some b)
    (fun _ _ _ _ => trivial) (fun _ _ => rfl) (fun _ _ => trivial) (fun _ _ => trivial)
  rw [h1] at this
  cases hc : connect (m + 512) 512 W (some a) (some b) with
  | none => rw [hc] at this; exact this.elim
  | some W'' =>
    rw [hc] at this
    obtain ⟨_, k2, _⟩ := this
    have e : W''.F = W'.F := by funext r; exact (k2 r trivial).symm
    refine ⟨W'', rfl, ?_⟩
    rw [e]
    have hs : Str isReg gr W'.F W'.merges := h2.str
    have hres : ∀ r, isReg r → ∃ k, k ≤ m + 512 ∧ ∃ x, Res W'.F k r x := by
      intro r hr
      obtain ⟨k, hk, x⟩ := hs.res r hr
      simp only at h3
      exact ⟨k, by omega, x⟩
    exact { hs with res := hres }

end

/-! ### A concrete case -/

/-- Three pixels in a row with gray values 5, 9, 5, each a patch of its own. -/
def row3 : Nat → PatchTree (Fin 3) := fun k =>
  { nreg := 1, regs := fun _ => ⟨if k = 1 then 9 else 5, none, 1⟩, lab := fun _ => 0 }

def row3Adj (x y : Fin 3) : Prop := x.val + 1 = y.val ∨ y.val + 1 = x.val

def row3Gray (x : Fin 3) : Nat := if x.val = 1 then 9 else 5

theorem row3_flooded : Flooded row3Adj row3Gray Finset.univ Fin.val 3 row3 := by
  refine ⟨?_, fun p _ => p.isLt, fun _ _ _ => ⟨Finset.mem_univ _, Finset.mem_univ _⟩,
    fun x y h => h.symm, fun p _ => by unfold row3Gray; split <;> omega⟩
  intro k hk
  have hmem : ∀ p : Fin 3, p ∈ Finset.univ.filter (fun p : Fin 3 => p.val = k) ↔ p = ⟨k, hk⟩ := by
    intro p; simp [Fin.ext_iff]
  have hU : ∀ r, (row3 k).tree.Under r ⟨k, hk⟩ ↔ r = 0 := by
    intro r
    constructor
    · intro h
      have : ∀ a b : Nat, ReflTransGen (fun a b => (row3 k).tree.parent a = some b) a b → b = a := by
        intro a b h
        induction h with
        | refl => rfl
        | tail _ h2 _ => exact absurd h2 (by simp [row3, PatchTree.tree])
      exact this _ _ h
    · rintro rfl; exact .refl
  refine ⟨?_, ?_, ?_, ?_, ?_, ?_⟩
  · intro p _; show 0 < 1; omega
  · intro p hp
    rw [hmem] at hp; subst hp
    simp [PatchTree.tree, row3, row3Gray]
  · intro r hr
    have : r = 0 := by have : r < 1 := hr; omega
    subst this
    exact ⟨⟨k, hk⟩, (hmem _).2 rfl, rfl⟩
  · intro r _ r' h; simp [PatchTree.tree, row3] at h
  · intro r hr p hp hu q hq
    rw [hmem] at hp hq; subst hp hq
    exact ⟨fun _ => .refl, fun _ => hu⟩
  · intro r hr s hs
    have hr0 : r = 0 := by have : r < 1 := hr; omega
    have : s = {⟨k, hk⟩} := by
      ext p
      rw [hs, hmem, Finset.mem_singleton]
      constructor
      · exact fun h => h.1
      · rintro rfl; exact ⟨rfl, (hU r).2 hr0⟩
    rw [this]; rfl

/-- The hypotheses of C09, C10 and C13 are met by joining the row's two adjacencies. -/
example : ∃ W W', joinAll 1024 512 ⟨initForest 3 row3, 0⟩ (labPairs Fin.val row3 [((0 : Fin 3), (1 : Fin 3))]) = some W ∧
    joinAt 1024 512 W (labOf Fin.val row3 1) (labOf Fin.val row3 2) = some W' := by
  obtain ⟨W, W', h1, _, h2, _⟩ := C09_join_adds_adjacency (fuel := 1024) row3_flooded
    (l := [((0 : Fin 3), (1 : Fin 3))]) (by simp) (p := 1) (q := 2) (by simp) (by simp) (by decide)
  exact ⟨W, W', h1, h2⟩

example : ∃ W W' f, joinAll 1024 512 ⟨initForest 3 row3, 0⟩ (labPairs Fin.val row3 [((0 : Fin 3), (1 : Fin 3)), (1, 2)]) = some W ∧
      joinAll 1024 512 ⟨initForest 3 row3, 0⟩ (labPairs Fin.val row3 [((1 : Fin 3), (2 : Fin 3)), (0, 1)]) = some W' ∧
      SameTree Finset.univ (joinedTree Fin.val 3 row3 1024 W) (joinedTree Fin.val 3 row3 1024 W') f :=
  C13_permutation row3_flooded ⟨0, Finset.mem_univ _⟩ (by simp) (List.Perm.swap _ _ _) (by decide)

/-- The forest of C11: two live regions of levels 3 and 7, the second the parent of the first, and a
third one of level 5 to be joined to it. -/
example : ∃ W', connect 512 512 (⟨fun r : Nat => if r = 0 then ⟨3, some 1, false, 4⟩ else if r = 1 then ⟨7, none, false, 9⟩
    else ⟨5, none, false, 1⟩, 0⟩ : World Nat) (some 0) (some 2) = some W' := by
  obtain ⟨W', h, _⟩ := C11_connect_terminates (m := 0) (isReg := fun r => r < 3)
    (gr := fun r => if r = 0 then 3 else if r = 1 then 7 else 5)
    (W := ⟨fun r : Nat => if r = 0 then ⟨3, some 1, false, 4⟩ else if r = 1 then ⟨7, none, false, 9⟩
      else ⟨5, none, false, 1⟩, 0⟩) (a := 0) (b := 2)
    { gray := by intro r; dsimp only; split <;> [rfl; (split <;> rfl)]
      gray_lt := by intro r _; split <;> [omega; (split <;> omega)]
      par_reg := by
        intro r _ r' h; dsimp only at h; split at h
        · obtain rfl := Option.some.inj h; omega
        · split at h <;> simp at h
      reg_par := by
        intro r r' h; dsimp only at h; split at h
        · omega
        · split at h <;> simp at h
      live_lt := by
        intro r _ _ r' h; dsimp only at h; split at h
        · obtain rfl := Option.some.inj h; subst r; decide
        · split at h <;> simp at h
      merged_eq := by
        intro r _ h; dsimp only at h; split at h
        · simp at h
        · split at h <;> simp at h
      res := fun r _ => ⟨0, le_refl _, r, by
        constructor
        · dsimp only; split <;> [rfl; (split <;> rfl)]
        · rfl⟩ } ⟨by decide, rfl⟩ ⟨by decide, rfl⟩
  exact ⟨W', h⟩

end Verif.Props
