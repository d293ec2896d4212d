import Verif.Proof.IdiapFlood
import Verif.Proof.Grid

/-!
# The Idiap detector: pixels by coordinates
-/

namespace Verif.Idiap

open Verif.Flood (Patch divmod_unique)
open Verif.Spec (pixels mem_pixels Adj4 Adj8 LConn IsComponentTree)
open Relation (ReflTransGen)

/-- Pixel `(x, y)`. -/
def cell (w x y : Nat) : Nat := y * w + x

/-- The neighbourhood. -/
def Near (eight : Bool) (w h : Nat) : Nat × Nat → Nat × Nat → Prop := if eight then Adj8 w h else Adj4 w h

variable {w h : Nat} {img : Nat → Nat → Nat} {gm : Nat} {eight : Bool}

theorem near_symm {p q : Nat × Nat} (hn : Near eight w h p q) : Near eight w h q p := by
  cases eight
  · obtain ⟨h1, h2, h3⟩ := hn
    exact ⟨h2, h1, by omega⟩
  · obtain ⟨h1, h2, h3, h4⟩ := hn
    exact ⟨h2, h1, Ne.symm h3, by omega⟩

theorem near_px {p q : Nat × Nat} (hn : Near eight w h p q) : p ∈ pixels w h ∧ q ∈ pixels w h := by
  cases eight
  · exact ⟨hn.1, hn.2.1⟩
  · exact ⟨hn.1, hn.2.1⟩

theorem cell_mod {x y : Nat} (hx : x < w) : cell w x y % w = x := by
  unfold cell; rw [Nat.mul_comm, Nat.mul_add_mod, Nat.mod_eq_of_lt hx]

theorem cell_div {x y : Nat} (hx : x < w) : cell w x y / w = y := by
  unfold cell; rw [Nat.mul_comm, Nat.mul_add_div (by omega), Nat.div_eq_of_lt hx, Nat.add_zero]

theorem cell_inj {x y x' y' : Nat} (hx : x < w) (hx' : x' < w) (e : cell w x y = cell w x' y') : x = x' ∧ y = y' := by
  have := divmod_unique hx hx' e
  exact ⟨this.2, this.1⟩

theorem mem_px {i : Nat} : i ∈ (patch w h img gm eight).px ↔ ∃ x y, x < w ∧ y < h ∧ i = cell w x y := by
  simp only [patch, Finset.mem_range]
  constructor
  · intro hi
    have hw : 0 < w := by
      rcases Nat.eq_zero_or_pos w with rfl | hw
      · simp at hi
      · exact hw
    refine ⟨i % w, i / w, Nat.mod_lt _ hw, ?_, ?_⟩
    · rw [Nat.div_lt_iff_lt_mul hw, Nat.mul_comm]; exact hi
    · unfold cell; rw [Nat.mul_comm]; exact (Nat.div_add_mod i w).symm
  · rintro ⟨x, y, hx, hy, rfl⟩
    unfold cell
    have : (y + 1) * w ≤ h * w := Nat.mul_le_mul_right _ hy
    rw [Nat.succ_mul] at this
    rw [Nat.mul_comm w h]
    omega

theorem patch_gray {x y : Nat} (hx : x < w) : (patch w h img gm eight).gray (cell w x y) = img x y ^^^ gm := by
  simp only [patch]; rw [cell_mod hx, cell_div hx]

theorem up {x y : Nat} : cell w x (y + 1) = cell w x y + w := by unfold cell; rw [Nat.succ_mul]; omega

/-- A neighbour of a pixel is the pixel itself or a near one. -/
theorem nb_cases {x y k : Nat} (hx : x < w) (hy : y < h) (h1 : 1 ≤ k) (hk : k ≤ if eight then 8 else 4) :
    ∃ x' y', x' < w ∧ y' < h ∧ neighbour w h eight (cell w x y) k = cell w x' y' ∧
      ((x', y') = (x, y) ∨ Near eight w h (x, y) (x', y')) := by
  have hp : (x, y) ∈ pixels w h := mem_pixels.2 ⟨hx, hy⟩
  have same : ∀ n, n = cell w x y → ∃ x' y', x' < w ∧ y' < h ∧ n = cell w x' y' ∧
      ((x', y') = (x, y) ∨ Near eight w h (x, y) (x', y')) := fun n e => ⟨x, y, hx, hy, e, .inl rfl⟩
  cases eight
  · have near : ∀ n x' y', x' < w → y' < h → n = cell w x' y' →
        ((y = y' ∧ (x + 1 = x' ∨ x' + 1 = x)) ∨ (x = x' ∧ (y + 1 = y' ∨ y' + 1 = y))) →
        ∃ x' y', x' < w ∧ y' < h ∧ n = cell w x' y' ∧ ((x', y') = (x, y) ∨ Near false w h (x, y) (x', y')) :=
      fun n x' y' h1 h2 h3 h4 => ⟨x', y', h1, h2, h3, .inr ⟨hp, mem_pixels.2 ⟨h1, h2⟩, h4⟩⟩
    have hk' : k = 1 ∨ k = 2 ∨ k = 3 ∨ k = 4 := by simp at hk; omega
    simp only [neighbour, cell_mod hx, cell_div hx]
    rcases hk' with rfl | rfl | rfl | rfl <;> simp only [Bool.false_eq_true, if_false, neighbour4] <;> split
    any_goals exact same _ rfl
    · exact near _ (x + 1) y (by omega) hy rfl (by omega)
    · exact near _ x (y + 1) hx (by omega) up.symm (by omega)
    · exact near _ (x - 1) y (by omega) hy (by unfold cell; omega) (by omega)
    · obtain ⟨z, rfl⟩ : ∃ z, y = z + 1 := ⟨y - 1, by omega⟩
      exact near _ x z hx (by omega) (by rw [up]; omega) (by omega)
  · have near : ∀ n x' y', x' < w → y' < h → n = cell w x' y' →
        (x ≠ x' ∨ y ≠ y') → x ≤ x' + 1 → x' ≤ x + 1 → y ≤ y' + 1 → y' ≤ y + 1 →
        ∃ x' y', x' < w ∧ y' < h ∧ n = cell w x' y' ∧ ((x', y') = (x, y) ∨ Near true w h (x, y) (x', y')) :=
      fun n x' y' h1 h2 h3 h4 h5 h6 h7 h8 => ⟨x', y', h1, h2, h3, .inr ⟨hp, mem_pixels.2 ⟨h1, h2⟩,
        fun e => by rw [Prod.ext_iff] at e; exact h4.elim (fun h4 => h4 e.1) (fun h4 => h4 e.2), h5, h6, h7, h8⟩⟩
    have hk' : k = 1 ∨ k = 2 ∨ k = 3 ∨ k = 4 ∨ k = 5 ∨ k = 6 ∨ k = 7 ∨ k = 8 := by simp at hk; omega
    simp only [neighbour, cell_mod hx, cell_div hx]
    rcases hk' with rfl | rfl | rfl | rfl | rfl | rfl | rfl | rfl <;> simp only [if_true, neighbour8] <;> split
    any_goals exact same _ rfl
    · exact near _ (x + 1) y (by omega) hy rfl (by omega) (by omega) (by omega) (by omega) (by omega)
    · obtain ⟨z, rfl⟩ : ∃ z, y = z + 1 := ⟨y - 1, by omega⟩
      exact near _ (x + 1) z (by omega) (by omega) (by rw [up]; unfold cell; omega) (by omega) (by omega) (by omega) (by omega) (by omega)
    · obtain ⟨z, rfl⟩ : ∃ z, y = z + 1 := ⟨y - 1, by omega⟩
      exact near _ x z (by omega) (by omega) (by rw [up]; omega) (by omega) (by omega) (by omega) (by omega) (by omega)
    · obtain ⟨z, rfl⟩ : ∃ z, y = z + 1 := ⟨y - 1, by omega⟩
      exact near _ (x - 1) z (by omega) (by omega) (by rw [up]; unfold cell; omega) (by omega) (by omega) (by omega) (by omega) (by omega)
    · exact near _ (x - 1) y (by omega) hy (by unfold cell; omega) (by omega) (by omega) (by omega) (by omega) (by omega)
    · exact near _ (x - 1) (y + 1) (by omega) (by omega) (by rw [up]; unfold cell; omega) (by omega) (by omega) (by omega) (by omega) (by omega)
    · exact near _ x (y + 1) (by omega) (by omega) up.symm (by omega) (by omega) (by omega) (by omega) (by omega)
    · exact near _ (x + 1) (y + 1) (by omega) (by omega) (by rw [up]; unfold cell; omega) (by omega) (by omega) (by omega) (by omega) (by omega)

/-- Every near pixel is a neighbour. -/
theorem nb_all {x y x' y' : Nat} (hn : Near eight w h (x, y) (x', y')) :
    ∃ k, 1 ≤ k ∧ (k ≤ if eight then 8 else 4) ∧ neighbour w h eight (cell w x y) k = cell w x' y' := by
  obtain ⟨hp, hq⟩ := near_px hn
  rw [mem_pixels] at hp hq
  simp only at hp hq
  cases eight
  · obtain ⟨-, -, h3⟩ := hn
    simp only at h3
    simp only [neighbour, cell_mod hp.1, cell_div hp.1, Bool.false_eq_true, if_false]
    rcases h3 with ⟨rfl, rfl | rfl⟩ | ⟨rfl, rfl | rfl⟩
    · exact ⟨1, by omega, by omega, by simp only [neighbour4]; rw [if_pos (by omega)]; rfl⟩
    · exact ⟨3, by omega, by omega, by simp only [neighbour4]; rw [if_pos (by omega)]; unfold cell; omega⟩
    · exact ⟨2, by omega, by omega, by simp only [neighbour4]; rw [if_pos (by omega), up]⟩
    · exact ⟨4, by omega, by omega, by simp only [neighbour4]; rw [if_pos (by omega), up]; omega⟩
  · obtain ⟨-, -, h3, h4, h5, h6, h7⟩ := hn
    simp only at h4 h5 h6 h7
    have h3' : x ≠ x' ∨ y ≠ y' := by
      by_contra hne
      push Not at hne
      exact h3 (Prod.ext hne.1 hne.2)
    simp only [neighbour, cell_mod hp.1, cell_div hp.1, if_true]
    have hy : y' = y + 1 ∨ y = y' + 1 ∨ y' = y := by omega
    have hx : x' = x + 1 ∨ x = x' + 1 ∨ x' = x := by omega
    rcases hy with rfl | rfl | rfl <;> rcases hx with rfl | rfl | rfl
    · exact ⟨8, by omega, by omega, by simp only [neighbour8]; rw [if_pos (by omega), up]; unfold cell; omega⟩
    · exact ⟨6, by omega, by omega, by simp only [neighbour8]; rw [if_pos (by omega), up]; unfold cell; omega⟩
    · exact ⟨7, by omega, by omega, by simp only [neighbour8]; rw [if_pos (by omega), up]⟩
    · exact ⟨2, by omega, by omega, by simp only [neighbour8]; rw [if_pos (by omega), up]; unfold cell; omega⟩
    · exact ⟨4, by omega, by omega, by simp only [neighbour8]; rw [if_pos (by omega), up]; unfold cell; omega⟩
    · exact ⟨3, by omega, by omega, by simp only [neighbour8]; rw [if_pos (by omega), up]; omega⟩
    · exact ⟨1, by omega, by omega, by simp only [neighbour8]; rw [if_pos (by omega)]; rfl⟩
    · exact ⟨5, by omega, by omega, by simp only [neighbour8]; rw [if_pos (by omega)]; unfold cell; omega⟩
    · exact absurd h3' (by omega)

theorem adj_iff {x y x' y' : Nat} (hx : x < w) (hy : y < h) (hx' : x' < w) (hy' : y' < h) (hne : (x', y') ≠ (x, y)) :
    (patch w h img gm eight).adj (cell w x y) (cell w x' y') ↔ Near eight w h (x, y) (x', y') := by
  constructor
  · rintro ⟨-, -, k, k1, k2, k3⟩
    obtain ⟨a, b, h1, h2, h3, h4⟩ := nb_cases hx hy k1 k2
    obtain ⟨rfl, rfl⟩ := cell_inj hx' h1 (k3.symm.trans h3)
    exact h4.resolve_left hne
  · intro hn
    obtain ⟨k, k1, k2, k3⟩ := nb_all hn
    exact ⟨mem_px.2 ⟨x, y, hx, hy, rfl⟩, mem_px.2 ⟨x', y', hx', hy', rfl⟩, k, k1, k2, k3⟩

theorem near4 {p q : Nat × Nat} (hn : Adj4 w h p q) : Near eight w h p q := by
  cases eight
  · exact hn
  · obtain ⟨h1, h2, h3⟩ := hn
    refine ⟨h1, h2, ?_, by omega, by omega, by omega, by omega⟩
    rintro rfl
    omega

theorem patch_ok (hw : 1 ≤ w) (hh : 1 ≤ h) (hg : ∀ x y, x < w → y < h → img x y < 256) (hm : gm < 256) :
    PatchOK (patch w h img gm eight) := by
  have hgray : ∀ i ∈ (patch w h img gm eight).px, (patch w h img gm eight).gray i < 256 := by
    intro i hi
    obtain ⟨x, y, hx, hy, rfl⟩ := mem_px.1 hi
    rw [patch_gray hx]
    exact Nat.xor_lt_two_pow (n := 8) (hg x y hx hy) hm
  refine ⟨⟨?_, fun i hi => by have := hgray i hi; omega, ?_, ?_⟩, hgray, ?_⟩
  · exact mem_px.2 ⟨0, 0, hw, hh, by simp [patch, cell]⟩
  · intro i hi k k1 k2 _
    obtain ⟨x, y, hx, hy, rfl⟩ := mem_px.1 hi
    obtain ⟨x', y', h1, h2, h3, h4⟩ := nb_cases hx hy k1 k2
    show ∃ k', 1 ≤ k' ∧ (k' ≤ if eight then 8 else 4) ∧ neighbour w h eight (neighbour w h eight (cell w x y) k) k' = cell w x y
    rw [h3]
    rcases h4 with h4 | h4
    · rw [Prod.ext_iff] at h4
      obtain ⟨rfl, rfl⟩ := h4
      exact ⟨k, k1, k2, h3⟩
    · exact nb_all (near_symm h4)
  · intro i hi
    obtain ⟨x, y, hx, hy, rfl⟩ := mem_px.1 hi
    have hs : (patch w h img gm eight).start = cell w 0 0 := by simp [patch, cell]
    rw [hs]
    have key : ∀ a b c d, a < w → b < h → c < w → d < h → (c, d) ≠ (a, b) → Adj4 w h (a, b) (c, d) →
        (patch w h img gm eight).adj (cell w a b) (cell w c d) :=
      fun a b c d h1 h2 h3 h4 h5 h6 => (adj_iff h1 h2 h3 h4 h5).2 (near4 h6)
    have hrow : ∀ y, y < h → ReflTransGen (patch w h img gm eight).adj (cell w 0 0) (cell w 0 y) := by
      intro y
      induction y with
      | zero => intro _; exact .refl
      | succ y ih =>
        intro hy
        refine .tail (ih (by omega)) (key 0 y 0 (y + 1) (by omega) (by omega) (by omega) hy (by simp) ⟨mem_pixels.2 ?_, mem_pixels.2 ?_, ?_⟩)
        · simp; omega
        · simp; omega
        · simp
    have hcol : ∀ x, x < w → ReflTransGen (patch w h img gm eight).adj (cell w 0 0) (cell w x y) := by
      intro x
      induction x with
      | zero => intro _; exact hrow y hy
      | succ x ih =>
        intro hx
        refine .tail (ih (by omega)) (key x y (x + 1) y (by omega) hy hx hy (by simp) ⟨mem_pixels.2 ?_, mem_pixels.2 ?_, ?_⟩)
        · simp; omega
        · simp; omega
        · simp
    exact hcol x hx
  · intro i hi k k1 k2
    obtain ⟨x, y, hx, hy, rfl⟩ := mem_px.1 hi
    obtain ⟨x', y', h1, h2, h3, -⟩ := nb_cases hx hy k1 k2
    exact mem_px.2 ⟨x', y', h1, h2, h3⟩

/-- Level connectivity by index and by coordinates. -/
theorem lconn_iff {l : Nat} {p q : Nat × Nat} (hp : p ∈ pixels w h) (hq : q ∈ pixels w h) :
    LConn (patch w h img gm eight).adj (patch w h img gm eight).gray l (cell w p.1 p.2) (cell w q.1 q.2)
      ↔ LConn (Near eight w h) (fun p => img p.1 p.2 ^^^ gm) l p q := by
  constructor
  · intro hc
    have : ∀ i j, LConn (patch w h img gm eight).adj (patch w h img gm eight).gray l i j →
        ∀ p ∈ pixels w h, i = cell w p.1 p.2 → ∀ q ∈ pixels w h, j = cell w q.1 q.2 →
        LConn (Near eight w h) (fun p => img p.1 p.2 ^^^ gm) l p q := by
      intro i j hij p hp hi
      induction hij with
      | refl =>
        intro q hq hj
        rw [mem_pixels] at hp hq
        obtain ⟨h1, h2⟩ := cell_inj hp.1 hq.1 (hi.symm.trans hj)
        obtain rfl : p = q := Prod.ext h1 h2
        exact .refl
      | @tail b c _ h1 ih =>
        intro q hq hj
        obtain ⟨hbm, hcm, _⟩ := h1.1
        obtain ⟨x, y, hx, hy, rfl⟩ := mem_px.1 hbm
        have hm : (x, y) ∈ pixels w h := mem_pixels.2 ⟨hx, hy⟩
        have h2 := ih (x, y) hm rfl
        subst hj
        by_cases hne : q = (x, y)
        · rw [hne]; exact h2
        · obtain ⟨ha, hg1, hg2⟩ := h1
          rw [patch_gray hx] at hg1
          rw [patch_gray (mem_pixels.1 hq).1] at hg2
          exact .tail h2 ⟨(adj_iff hx hy (mem_pixels.1 hq).1 (mem_pixels.1 hq).2 hne).1 ha, hg1, hg2⟩
    exact this _ _ hc p hp rfl q hq rfl
  · intro hc
    clear hq
    induction hc with
    | refl => exact .refl
    | @tail b c _ h1 ih =>
      obtain ⟨hb, hcm⟩ := near_px h1.1
      obtain ⟨k, k1, k2, k3⟩ := nb_all (x := b.1) (y := b.2) (x' := c.1) (y' := c.2) h1.1
      rw [mem_pixels] at hb hcm
      refine .tail ih ⟨⟨mem_px.2 ⟨_, _, hb.1, hb.2, rfl⟩, mem_px.2 ⟨_, _, hcm.1, hcm.2, rfl⟩, k, k1, k2, k3⟩, ?_, ?_⟩
      · rw [patch_gray hb.1]; exact h1.2.1
      · rw [patch_gray hcm.1]; exact h1.2.2

/-- The tree of the flooding, by coordinates and by index in `pool_`. -/
def tree (w : Nat) (lab : Nat → Nat) (pool : Nat → Reg) (used : Nat) : Spec.RegionTree (Nat × Nat) Nat where
  isReg := fun r => 1 ≤ r ∧ r < used
  lab := fun p => lab (cell w p.1 p.2) + 1
  gray := fun r => (pool r).level
  parent := fun r => (pool r).parent
  size := fun r => (pool r).area

theorem tree_isTree {s : Flood.St} {pool : Nat → Reg}
    (hT : IsComponentTree (patch w h img gm eight).adj (patch w h img gm eight).gray (patch w h img gm eight).px (Flood.treeOf s))
    (hlev : ∀ r < s.nreg, (pool (r + 1)).level = (s.regs r).gray)
    (hpar : ∀ r < s.nreg, (pool (r + 1)).parent = (s.regs r).parent.map (· + 1))
    (harea : ∀ r < s.nreg, (pool (r + 1)).area = (s.regs r).size) :
    IsComponentTree (Near eight w h) (fun p => img p.1 p.2 ^^^ gm) (pixels w h) (tree w s.lab pool (s.nreg + 1)) := by
  have hmem : ∀ p ∈ pixels w h, cell w p.1 p.2 ∈ (patch w h img gm eight).px := fun p hp =>
    mem_px.2 ⟨p.1, p.2, (mem_pixels.1 hp).1, (mem_pixels.1 hp).2, rfl⟩
  have hreg : ∀ r, (tree w s.lab pool (s.nreg + 1)).isReg r → ∃ t < s.nreg, r = t + 1 := by
    rintro r ⟨h1, h2⟩; exact ⟨r - 1, by omega, by omega⟩
  have hanc : ∀ a b, a < s.nreg → (ReflTransGen (fun a b => (pool a).parent = some b) (a + 1) (b + 1) ↔
      ReflTransGen (fun a b => (s.regs a).parent = some b) a b) := by
    intro a b ha
    constructor
    · intro hr
      have key : ∀ c d, ReflTransGen (fun a b => (pool a).parent = some b) c d → ∀ a, c = a + 1 → a < s.nreg →
          ∃ b, d = b + 1 ∧ b < s.nreg ∧ ReflTransGen (fun a b => (s.regs a).parent = some b) a b := by
        intro c d hcd a hc ha
        induction hcd with
        | refl => exact ⟨a, hc, ha, .refl⟩
        | tail _ h1 ih =>
          obtain ⟨b, rfl, hb, hab⟩ := ih
          rw [hpar b hb] at h1
          obtain ⟨e, he1, he2⟩ := Option.map_eq_some_iff.1 h1
          exact ⟨e, he2.symm, (hT.parent_reg b hb e he1).1, hab.tail he1⟩
      obtain ⟨b', hb', -, h2⟩ := key _ _ hr a rfl ha
      obtain rfl : b = b' := by omega
      exact h2
    · intro hr
      have : b < s.nreg ∧ ReflTransGen (fun a b => (pool a).parent = some b) (a + 1) (b + 1) := by
        induction hr with
        | refl => exact ⟨ha, .refl⟩
        | tail _ h1 ih =>
          refine ⟨(hT.parent_reg _ ih.1 _ h1).1, ih.2.tail ?_⟩
          rw [hpar _ ih.1, h1]; rfl
      exact this.2
  have hund : ∀ p ∈ pixels w h, ∀ t, (tree w s.lab pool (s.nreg + 1)).Under (t + 1) p ↔ (Flood.treeOf s).Under t (cell w p.1 p.2) :=
    fun p hp t => hanc _ t (hT.lab_reg _ (hmem p hp))
  constructor
  · intro p hp
    have := hT.lab_reg _ (hmem p hp)
    exact ⟨Nat.succ_pos _, Nat.succ_lt_succ this⟩
  · intro p hp
    have h1 := hT.lab_gray _ (hmem p hp)
    rw [patch_gray (mem_pixels.1 hp).1] at h1
    rw [← h1]
    exact hlev _ (hT.lab_reg _ (hmem p hp))
  · intro r hr
    obtain ⟨t, ht, rfl⟩ := hreg r hr
    obtain ⟨i, hi, h1⟩ := hT.reg_lab t ht
    obtain ⟨x, y, hx, hy, rfl⟩ := mem_px.1 hi
    exact ⟨(x, y), mem_pixels.2 ⟨hx, hy⟩, congrArg (· + 1) h1⟩
  · intro r hr r' hp
    obtain ⟨t, ht, rfl⟩ := hreg r hr
    have hp' : (pool (t + 1)).parent = some r' := hp
    rw [hpar t ht] at hp'
    obtain ⟨e, he1, rfl⟩ := Option.map_eq_some_iff.1 hp'
    obtain ⟨h1, h2⟩ := hT.parent_reg t ht e he1
    have h1' : e < s.nreg := h1
    refine ⟨⟨Nat.succ_pos _, Nat.succ_lt_succ h1'⟩, ?_⟩
    show (pool (t + 1)).level < (pool (e + 1)).level
    rw [hlev t ht, hlev e h1']
    exact h2
  · intro r hr p hp hu q hq
    obtain ⟨t, ht, rfl⟩ := hreg r hr
    rw [hund p hp] at hu
    rw [hund q hq]
    have hg : (tree w s.lab pool (s.nreg + 1)).gray (t + 1) = (s.regs t).gray := hlev t ht
    rw [hg, ← lconn_iff hp hq]
    exact hT.comp t ht _ (hmem p hp) hu _ (hmem q hq)
  · intro r hr S hS
    obtain ⟨t, ht, rfl⟩ := hreg r hr
    have hsz : (tree w s.lab pool (s.nreg + 1)).size (t + 1) = (s.regs t).size := harea t ht
    rw [hsz]
    have := hT.size_eq t ht (S.image (fun p => cell w p.1 p.2)) (by
      intro i
      rw [Finset.mem_image]
      constructor
      · rintro ⟨p, hp, rfl⟩
        obtain ⟨h1, h2⟩ := (hS p).1 hp
        exact ⟨hmem p h1, (hund p h1 t).1 h2⟩
      · rintro ⟨h1, h2⟩
        obtain ⟨x, y, hx, hy, rfl⟩ := mem_px.1 h1
        have hm : (x, y) ∈ pixels w h := mem_pixels.2 ⟨hx, hy⟩
        exact ⟨(x, y), (hS _).2 ⟨hm, (hund _ hm t).2 h2⟩, rfl⟩)
    rw [Finset.card_image_of_injOn] at this
    · exact this
    · intro p hp q hq hpq
      have h1 := (mem_pixels.1 ((hS p).1 hp).1)
      have h2 := (mem_pixels.1 ((hS q).1 hq).1)
      obtain ⟨h3, h4⟩ := cell_inj h1.1 h2.1 hpq
      exact Prod.ext h3 h4

end Verif.Idiap
