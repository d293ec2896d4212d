import Verif.Proof.OpenCv3Finish
import Verif.Proof.OpenCvGrid
import Verif.Proof.Process
import Verif.Spec.Interior

/-!
# The OpenCV 3 detector: the image meets the hypotheses of the flooding proof
-/

namespace Verif.OpenCv3

open Function (update)
open Verif.Flood (Patch divmod_unique)
open Verif.FloodMem (offset histOf offset_total reverseLevels reverseLevels_eq xor_255)
open Verif.OpenCv (cell IsC Seen nbO nbO_iff nbO_cell patchO patchO_ok mem_pxO adjO_iff seen_cell patchO_card cell_inj)
open Verif.Recog (Cfg)
open Verif.Spec
open Relation (ReflTransGen)

variable {cols rows gm : Nat} {img : Nat → Nat → Nat}

/-- The image of the inner pixels. -/
abbrev P0 (cols rows : Nat) : Patch := patchO cols (cols - 2) (rows - 2) (fun _ _ => 0) 1

theorem nb_eq : nb cols = nbO cols := by
  funext i k
  rcases k with _ | _ | _ | _ | _ | k <;> rfl

theorem inner_iff (hc : 3 ≤ cols) {i : Nat} :
    (i < cols * rows ∧ inner cols rows i = true) ↔ ∃ p ∈ pixels (cols - 2) (rows - 2), i = cell cols p := by
  have hd := Nat.div_add_mod i cols
  have hm := Nat.mod_lt i (show 0 < cols by omega)
  simp only [inner, Bool.and_eq_true, decide_eq_true_eq]
  constructor
  · rintro ⟨-, ⟨⟨h1, h2⟩, h3⟩, h4⟩
    refine ⟨(i % cols - 1, i / cols - 1), mem_pixels.2 ⟨by dsimp only; omega, by dsimp only; omega⟩, ?_⟩
    unfold cell
    dsimp only
    rw [show i / cols - 1 + 1 = i / cols by omega, show i % cols - 1 + 1 = i % cols by omega, Nat.mul_comm]
    exact hd.symm
  · rintro ⟨⟨x, y⟩, hp, rfl⟩
    have hp := mem_pixels.1 hp
    dsimp only at hp
    have e1 := OpenCv.cell_mod (w := cols - 2) (W := cols) (p := (x, y)) (by omega) (by dsimp only; omega)
    have e2 := OpenCv.cell_div (w := cols - 2) (W := cols) (p := (x, y)) (by omega) (by dsimp only; omega)
    dsimp only at e1 e2
    refine ⟨?_, ?_⟩
    · unfold cell
      dsimp only
      have : (y + 2) * cols ≤ rows * cols := Nat.mul_le_mul_right _ (by omega)
      rw [show y + 2 = (y + 1) + 1 by omega, Nat.succ_mul] at this
      rw [Nat.mul_comm cols]
      omega
    · rw [e1, e2]; omega

theorem px_eq (hc : 3 ≤ cols) : (patch cols rows img gm).px = (P0 cols rows).px := by
  ext i
  rw [mem_pxO, ← inner_iff hc]
  simp [patch]

theorem mem_px (hc : 3 ≤ cols) {i : Nat} : i ∈ (patch cols rows img gm).px ↔ ∃ p ∈ pixels (cols - 2) (rows - 2), i = cell cols p := by
  rw [px_eq hc, mem_pxO]

theorem patch_nb : (patch cols rows img gm).nb = nbO cols := nb_eq

theorem adj_eq (hc : 3 ≤ cols) : (patch cols rows img gm).adj = (P0 cols rows).adj := by
  funext i j
  have h1 : (patch cols rows img gm).nb = (P0 cols rows).nb := nb_eq
  simp only [Patch.adj, px_eq hc, h1]
  rfl

theorem seen_iff (hc : 3 ≤ cols) {i : Nat} : Seen (patch cols rows img gm) i ↔ Seen (P0 cols rows) i := by
  have h1 : (patch cols rows img gm).nb = (P0 cols rows).nb := nb_eq
  simp only [Seen, px_eq hc, h1]
  rfl

theorem gray_px (hgm : gm = 0 ∨ gm = 255) (hg : ∀ x y, x < cols → y < rows → img x y < 256) (hc : 3 ≤ cols) {i : Nat}
    (hi : i < cols * rows) : (patch cols rows img gm).gray i = passGray img gm (i % cols, i / cols) ∧ (patch cols rows img gm).gray i < 256 := by
  have h1 := hg (i % cols) (i / cols) (Nat.mod_lt _ (by omega)) (Nat.div_lt_of_lt_mul hi)
  simp only [patch, passGray]
  rcases hgm with rfl | rfl
  · simp [h1]
  · rw [xor_255 _ h1]; simp; omega

theorem px_lt {i : Nat} (hi : i ∈ (patch cols rows img gm).px) : i < cols * rows ∧ inner cols rows i = true := by
  simpa [patch] using hi

theorem patch_ok (hgm : gm = 0 ∨ gm = 255) (hg : ∀ x y, x < cols → y < rows → img x y < 256) (hc : 3 ≤ cols) (hr : 3 ≤ rows) :
    (patch cols rows img gm).OK := by
  have h0 : (P0 cols rows).OK := patchO_ok (by omega) (by omega) (by omega) (fun _ _ _ _ => by decide)
  have h1 : (patch cols rows img gm).nb = (P0 cols rows).nb := nb_eq
  refine ⟨?_, ?_, ?_, ?_⟩
  · rw [px_eq hc]; exact h0.start_mem
  · intro i hi
    have := (gray_px hgm hg hc (px_lt hi).1).2
    omega
  · rw [px_eq hc, h1]; exact h0.symm
  · rw [px_eq hc, adj_eq hc]; exact h0.conn

theorem px_card (hc : 3 ≤ cols) : (patch cols rows img gm).px.card = (cols - 2) * (rows - 2) := by
  rw [px_eq hc, patchO_card (by omega)]

theorem env_ok (hgm : gm = 0 ∨ gm = 255) (hg : ∀ x y, x < cols → y < rows → img x y < 256) (hc : 3 ≤ cols) (hr : 3 ≤ rows) (cfg : Cfg) :
    EnvOK (env cols rows img gm cfg) := by
  have hok := patch_ok hgm hg hc hr
  have hcard : (patch cols rows img gm).px.card ≤ cols * rows := by
    rw [px_card hc]
    exact Nat.mul_le_mul (by omega) (by omega)
  refine ⟨hok, fun i hi => (gray_px hgm hg hc (px_lt hi).1).2, hcard, ?_, ?_, ?_⟩
  · have := offset_total hok
    have e : offset (histOf (patch cols rows img gm)) 257 = offset (histOf (patch cols rows img gm)) 256 + histOf (patch cols rows img gm) 256 + 1 := rfl
    show offset (histOf (patch cols rows img gm)) 256 ≤ cols * rows + 256
    omega
  · intro i hs
    have hs : Seen (patch cols rows img gm) i := hs
    rw [seen_iff hc] at hs
    have := OpenCv.seen_lt (by omega) hs
    rw [show rows - 2 + 2 = rows by omega] at this
    exact this
  · rintro i hi rfl
    obtain ⟨p, -, e⟩ := (mem_px hc).1 hi
    unfold cell at e
    omega

/-- A cell the pass looks at that is no inner pixel. -/
theorem seen_not (hc : 3 ≤ cols) (hr : 3 ≤ rows) {i : Nat} (hs : Seen (patch cols rows img gm) i) (hi : i ∉ (patch cols rows img gm).px) :
    i < cols * rows ∧ inner cols rows i = false := by
  have h1 : i < cols * rows := by
    rw [seen_iff hc] at hs
    have := OpenCv.seen_lt (by omega) hs
    rwa [show rows - 2 + 2 = rows by omega] at this
  refine ⟨h1, ?_⟩
  by_contra h
  exact hi (by simpa [patch, h1] using h)

/-! ### Memory -/

theorem offset_congr {f g : Nat → Nat} : ∀ {l : Nat}, (∀ k < l, f k = g k) → offset f l = offset g l
  | 0, _ => rfl
  | l + 1, h => by simp only [offset]; rw [offset_congr (fun k hk => h k (by omega)), h l (by omega)]

theorem lay_init {ls hist : Nat → Nat} (e : ∀ l < 256, ls l = hist l) (m : Nat → Option Nat) :
    Lay3 hist (fun a => if a ∈ (List.range 256).map (offset ls) then none else m a) (offset ls) (fun _ => []) where
  top := fun l hl => by simp; exact offset_congr fun k hk => e k (by omega)
  stk := by
    intro l hl
    have : offset ls l = offset hist l := offset_congr fun k hk => e k (by omega)
    simp only [FloodMem.Stk]
    rw [if_pos]
    rw [← this]
    exact List.mem_map.2 ⟨l, by simpa using hl, rfl⟩

theorem counts_eq : counts cols rows img = histOf (patch cols rows img 0) := by
  funext v
  unfold counts histOf
  simp only [patch, Finset.filter_filter, Nat.xor_zero]

theorem counts_rev (hg : ∀ x y, x < cols → y < rows → img x y < 256) (hc : 3 ≤ cols) {v : Nat} (hv : v < 256) :
    reverseLevels (counts cols rows img) v = histOf (patch cols rows img 255) v := by
  rw [reverseLevels_eq _ hv]
  unfold counts histOf
  refine congrArg Finset.card (Finset.ext fun i => ?_)
  rw [Finset.mem_filter, Finset.mem_filter, patch, Finset.mem_filter, Finset.mem_range, and_assoc]
  refine and_congr_right fun hi => and_congr_right fun _ => ?_
  have h1 := hg (i % cols) (i / cols) (Nat.mod_lt _ (by omega)) (Nat.div_lt_of_lt_mul hi)
  dsimp only
  rw [xor_255 _ h1]
  omega

/-- The members as the second pass needs them. -/
structure MemOK (cols rows : Nat) (img : Nat → Nat → Nat) (m : Mem) : Prop where
  levels : m.levels = counts cols rows img
  dir : ∀ i, Seen (patch cols rows img 0) i → i ∉ (patch cols rows img 0).px → m.dir i ≠ 0

theorem pass_eq (hc : 3 ≤ cols) (hr : 3 ≤ rows) (cfg : Cfg) (m : Mem) (fromMin : Bool) (n : Nat) :
    pass cols rows img gm fromMin cfg m n = run (env cols rows img gm cfg) n
      (start (env cols rows img gm cfg) (preprocess cols rows img gm fromMin m).1 (preprocess cols rows img gm fromMin m).2) := by
  have harea : cols + 1 < cols * rows := by
    have : cols * 3 ≤ cols * rows := Nat.mul_le_mul_left _ hr
    omega
  exact if_pos harea

/-- A pass that finds the right layout ends. -/
theorem pass_done (hg : ∀ x y, x < cols → y < rows → img x y < 256) (hc : 3 ≤ cols) (hr : 3 ≤ rows) (cfg : Cfg) {m : Mem} {fromMin : Bool}
    (hm : gm = 0 ∨ (gm = 255 ∧ fromMin = true ∧ MemOK cols rows img m)) {n : Nat} (hn : 5 * ((cols - 2) * (rows - 2)) ≤ n) :
    ∃ v, pass cols rows img gm fromMin cfg m n = .done v ∧ Final (env cols rows img gm cfg) v := by
  have hgm : gm = 0 ∨ gm = 255 := hm.imp_right (·.1)
  rw [pass_eq hc hr]
  have hcard := px_card (rows := rows) (img := img) (gm := gm) hc
  rcases hm with rfl | ⟨rfl, rfl, hm⟩
  · refine run_done (E := env cols rows img 0 cfg) (env_ok hgm hg hc hr cfg) (le_refl _) ?_ ?_ ?_ ?_
    · intro i hi
      obtain ⟨h1, h2⟩ := px_lt (gm := 0) (img := img) hi
      simp [preprocess, h2]
    · intro i hs hi
      obtain ⟨h1, h2⟩ := seen_not (gm := 0) (img := img) hc hr hs hi
      simp [preprocess, h1, h2]
    · have := lay_init (ls := counts cols rows img) (hist := histOf (patch cols rows img 0)) (fun l _ => by rw [counts_eq]) m.heap
      simpa [preprocess, env] using this
    · show 5 * (patch cols rows img 0).px.card ≤ n
      rw [hcard]; exact hn
  · refine run_done (E := env cols rows img 255 cfg) (env_ok hgm hg hc hr cfg) (le_refl _) ?_ ?_ ?_ ?_
    · intro i hi
      obtain ⟨h1, h2⟩ := px_lt (gm := 255) (img := img) hi
      simp [preprocess, h1, h2]
    · intro i hs hi
      have h3 := hm.dir i ((seen_iff hc).2 ((seen_iff (gm := 255) (img := img) hc).1 hs)) (by
        rw [px_eq hc, ← px_eq (img := img) (gm := 255) hc]; exact hi)
      obtain ⟨h1, h2⟩ := seen_not (gm := 255) (img := img) hc hr hs hi
      simp [preprocess, h2, h3]
    · have := lay_init (ls := reverseLevels m.levels) (hist := histOf (patch cols rows img 255))
        (fun l hl => by rw [hm.levels]; exact counts_rev hg hc hl) m.heap
      simpa [preprocess, env] using this
    · show 5 * (patch cols rows img 255).px.card ≤ n
      rw [hcard]; exact hn

theorem run_mono {E : Env} : ∀ {n m : Nat} {s v : St}, run E n s = .done v → n ≤ m → run E m s = .done v
  | 0, _, _, _, h, _ => by simp [run] at h
  | n + 1, 0, _, _, _, h => by omega
  | n + 1, m + 1, s, v, h, hm => by
    unfold run at h ⊢
    revert h
    cases step E s with
    | next s' => exact fun h => run_mono h (by omega)
    | done s' => exact fun h => h
    | ub => exact fun h => h

theorem pass_final (hg : ∀ x y, x < cols → y < rows → img x y < 256) (hc : 3 ≤ cols) (hr : 3 ≤ rows) {cfg : Cfg} {m : Mem} {fromMin : Bool}
    (hm : gm = 0 ∨ (gm = 255 ∧ fromMin = true ∧ MemOK cols rows img m)) {n : Nat} {v : St}
    (hv : pass cols rows img gm fromMin cfg m n = .done v) : Final (env cols rows img gm cfg) v := by
  obtain ⟨v', h1, h2⟩ := pass_done hg hc hr cfg hm (n := n + 5 * ((cols - 2) * (rows - 2))) (by omega)
  rw [pass_eq hc hr] at hv h1
  have h3 := run_mono hv (m := n + 5 * ((cols - 2) * (rows - 2))) (by omega)
  rw [h3] at h1
  injection h1 with h1
  subst h1
  exact h2

/-- After a dark pass the members are as the second pass needs them. -/
theorem mem_ok (hg : ∀ x y, x < cols → y < rows → img x y < 256) (hc : 3 ≤ cols) (hr : 3 ≤ rows) {cfg : Cfg} {m : Mem} {fromMin : Bool}
    {n : Nat} {v : St} (hv : pass cols rows img 0 fromMin cfg m n = .done v) :
    MemOK cols rows img (memOf (preprocess cols rows img 0 fromMin m).1.levels v) :=
  ⟨by simp [memOf, preprocess], (pass_final hg hc hr (.inl rfl) hv).2⟩

/-! ### Components -/

theorem xy_eq {cfg : Cfg} {i : Nat} : xy (env cols rows img gm cfg) i = (i % cols, i / cols) := by
  have := Nat.div_add_mod i cols
  rw [Nat.mul_comm] at this
  simp only [xy, env]
  refine Prod.ext ?_ rfl
  dsimp only
  omega

theorem px_interior (hc : 3 ≤ cols) {i : Nat} (hi : i ∈ (patch cols rows img gm).px) : (i % cols, i / cols) ∈ interior cols rows := by
  obtain ⟨h1, h2⟩ := px_lt hi
  simp only [inner, Bool.and_eq_true, decide_eq_true_eq] at h2
  have := Nat.mod_lt i (show 0 < cols by omega)
  exact Finset.mem_filter.2 ⟨mem_pixels.2 ⟨this, Nat.div_lt_of_lt_mul h1⟩, by dsimp only; omega⟩

theorem interior_px (hc : 3 ≤ cols) {p : Nat × Nat} (hp : p ∈ interior cols rows) :
    p.2 * cols + p.1 ∈ (patch cols rows img gm).px ∧ (p.2 * cols + p.1) % cols = p.1 ∧ (p.2 * cols + p.1) / cols = p.2 := by
  obtain ⟨x, y⟩ := p
  obtain ⟨h1, h2⟩ := Finset.mem_filter.1 hp
  have h1 := mem_pixels.1 h1
  dsimp only at h1 h2 ⊢
  refine ⟨(mem_px hc).2 ⟨(x - 1, y - 1), mem_pixels.2 ⟨by dsimp only; omega, by dsimp only; omega⟩, ?_⟩, ?_, ?_⟩
  · unfold cell
    dsimp only
    rw [show y - 1 + 1 = y by omega, show x - 1 + 1 = x by omega]
  · rw [Nat.mul_comm, Nat.mul_add_mod, Nat.mod_eq_of_lt (by omega)]
  · rw [Nat.mul_comm, Nat.mul_add_div (by omega), Nat.div_eq_of_lt (by omega)]; rfl

theorem adj_iff (hc : 3 ≤ cols) {i j : Nat} (hi : i ∈ (patch cols rows img gm).px) (hj : j ∈ (patch cols rows img gm).px) :
    (patch cols rows img gm).adj i j ↔ AdjInner cols rows (i % cols, i / cols) (j % cols, j / cols) := by
  have hii := px_interior hc hi
  have hjj := px_interior hc hj
  obtain ⟨p, hp, rfl⟩ := (mem_px hc).1 hi
  obtain ⟨q, hq, rfl⟩ := (mem_px hc).1 hj
  have hp' := mem_pixels.1 hp
  have hq' := mem_pixels.1 hq
  rw [adj_eq hc, adjO_iff (by omega) hp hq]
  have e1 := OpenCv.cell_mod (w := cols - 2) (W := cols) (p := p) (by omega) hp'.1
  have e2 := OpenCv.cell_div (w := cols - 2) (W := cols) (p := p) (by omega) hp'.1
  have e3 := OpenCv.cell_mod (w := cols - 2) (W := cols) (p := q) (by omega) hq'.1
  have e4 := OpenCv.cell_div (w := cols - 2) (W := cols) (p := q) (by omega) hq'.1
  rw [e1, e2] at hii
  rw [e3, e4] at hjj
  rw [e1, e2, e3, e4]
  constructor
  · rintro ⟨-, -, h⟩
    refine ⟨hii, hjj, (Finset.mem_filter.1 hii).1, (Finset.mem_filter.1 hjj).1, ?_⟩
    dsimp only; omega
  · rintro ⟨-, -, -, -, h⟩
    dsimp only at h
    exact ⟨hp, hq, by omega⟩

theorem mod_div_inj {i j : Nat} (h1 : i % cols = j % cols) (h2 : i / cols = j / cols) : i = j := by
  rw [← Nat.div_add_mod i cols, ← Nat.div_add_mod j cols, h1, h2]

theorem lconn_iff (hgm : gm = 0 ∨ gm = 255) (hg : ∀ x y, x < cols → y < rows → img x y < 256) (hc : 3 ≤ cols) {l i j : Nat}
    (hi : i ∈ (patch cols rows img gm).px) (hj : j ∈ (patch cols rows img gm).px) :
    LConn (patch cols rows img gm).adj (patch cols rows img gm).gray l i j ↔
      LConn (AdjInner cols rows) (passGray img gm) l (i % cols, i / cols) (j % cols, j / cols) := by
  constructor
  · intro h
    clear hj
    induction h with
    | refl => exact .refl
    | @tail b c _ h1 ih =>
      obtain ⟨ha, hg1, hg2⟩ := h1
      have hb := ha.1
      have hcc := ha.2.1
      rw [(gray_px hgm hg hc (px_lt hb).1).1] at hg1
      rw [(gray_px hgm hg hc (px_lt hcc).1).1] at hg2
      exact .tail ih ⟨(adj_iff hc hb hcc).1 ha, hg1, hg2⟩
  · intro h
    have : ∀ p q, LConn (AdjInner cols rows) (passGray img gm) l p q → ∀ i ∈ (patch cols rows img gm).px, p = (i % cols, i / cols) →
        ∀ j ∈ (patch cols rows img gm).px, q = (j % cols, j / cols) →
        LConn (patch cols rows img gm).adj (patch cols rows img gm).gray l i j := by
      intro p q hpq i hi e
      induction hpq with
      | refl =>
        intro j hj e'
        rw [e] at e'
        injection e' with e1 e2
        obtain rfl := mod_div_inj e1 e2
        exact .refl
      | @tail b c _ h1 ih =>
        intro j hj e'
        obtain ⟨b1, b2, b3⟩ := interior_px (img := img) (gm := gm) hc h1.1.1
        have hb : b = ((b.2 * cols + b.1) % cols, (b.2 * cols + b.1) / cols) := by rw [b2, b3]
        refine .tail (ih _ b1 hb) ⟨(adj_iff hc b1 hj).2 ?_, ?_, ?_⟩
        · rw [← hb, ← e']; exact h1.1
        · rw [(gray_px hgm hg hc (px_lt b1).1).1, ← hb]; exact h1.2.1
        · rw [(gray_px hgm hg hc (px_lt hj).1).1, ← e']; exact h1.2.2
    exact this _ _ h i hi rfl j hj rfl

/-- A component in the buffer is a component of the inner pixels. -/
theorem isC_inner (hgm : gm = 0 ∨ gm = 255) (hg : ∀ x y, x < cols → y < rows → img x y < 256) (hc : 3 ≤ cols) {g : Nat} {l : List Nat}
    (hn : l.Nodup) (hC : IsC (patch cols rows img gm) g l.toFinset) :
    IsInnerRegion cols rows (passGray img gm) g (l.map fun i => (i % cols, i / cols)) := by
  obtain ⟨i, hi⟩ := hC.ne
  have hl : ∀ i ∈ l, i ∈ (patch cols rows img gm).px ∧ (patch cols rows img gm).gray i ≤ g := fun i hi =>
    hC.px i (List.mem_toFinset.2 hi)
  have hi' := List.mem_toFinset.1 hi
  refine ⟨?_, (i % cols, i / cols), px_interior hc (hl i hi').1, ?_, ?_⟩
  · refine List.Nodup.map_on (fun a _ b _ e => ?_) hn
    injection e with e1 e2
    exact mod_div_inj e1 e2
  · rw [← (gray_px hgm hg hc (px_lt (hl i hi').1).1).1]; exact (hl i hi').2
  · intro p
    rw [List.mem_map]
    constructor
    · rintro ⟨j, hj, rfl⟩
      have hjp := (hl j hj).1
      refine ⟨px_interior hc hjp, ?_⟩
      rw [← lconn_iff hgm hg hc (hl i hi').1 hjp, ← hC.comp i hi j hjp]
      exact List.mem_toFinset.2 hj
    · rintro ⟨h1, h2⟩
      obtain ⟨b1, b2, b3⟩ := interior_px (img := img) (gm := gm) hc h1
      have hb : p = ((p.2 * cols + p.1) % cols, (p.2 * cols + p.1) / cols) := by rw [b2, b3]
      refine ⟨_, ?_, hb.symm⟩
      rw [hb, ← lconn_iff hgm hg hc (hl i hi').1 b1, ← hC.comp i hi _ b1] at h2
      exact List.mem_toFinset.1 h2

end Verif.OpenCv3
