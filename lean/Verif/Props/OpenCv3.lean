import Verif.Proof.OpenCv3Grid
import Verif.Props.OpenCv

/-!
# Properties C129–C132: the OpenCV 3 detector

`pass cols rows img gm fromMin cfg m n` is `extract_pixel` of `img_opencv3_mser` with the gray mask `gm` (0 for dark, 255 for bright
regions); `fromMin` tells whether dark regions are searched as well; `m` is what the buffers contain; `n` bounds the steps of its loop.
-/

namespace Verif.Props

open Verif.Spec
open Verif.OpenCv3 (pass Mem memOf preprocess Rec3 env patch FI Final)
open Verif.Recog (Cfg)
open Relation (ReflTransGen)

/-- The image has inner pixels, and its values are bytes. -/
structure Image3 (cols rows : Nat) (img : Nat → Nat → Nat) : Prop where
  wide : 3 ≤ cols
  high : 3 ≤ rows
  byte : ∀ x y, x < cols → y < rows → img x y < 256

/-- What the buffers contain after a dark pass with the result `v`. -/
def left3 (cols rows : Nat) (img : Nat → Nat → Nat) (fromMin : Bool) (m : Mem) (v : OpenCv3.St) : Mem :=
  memOf (preprocess cols rows img 0 fromMin m).1.levels v

/-- A dark pass, or a bright pass after a dark one, has ended with `v`. -/
inductive Ran3 (cols rows : Nat) (img : Nat → Nat → Nat) (cfg : Cfg) : Nat → OpenCv3.St → Prop
  | dark {fromMin m n v} (h : pass cols rows img 0 fromMin cfg m n = .done v) : Ran3 cols rows img cfg 0 v
  | bright {fromMin m n v₀ n' v} (h₀ : pass cols rows img 0 fromMin cfg m n = .done v₀)
      (h : pass cols rows img 255 true cfg (left3 cols rows img fromMin m v₀) n' = .done v) : Ran3 cols rows img cfg 255 v

theorem Ran3.final {cols rows gm : Nat} {img : Nat → Nat → Nat} {cfg : Cfg} {v : OpenCv3.St} (hI : Image3 cols rows img)
    (h : Ran3 cols rows img cfg gm v) : (gm = 0 ∨ gm = 255) ∧ Final (env cols rows img gm cfg) v := by
  cases h with
  | dark h => exact ⟨.inl rfl, OpenCv3.pass_final hI.byte hI.wide hI.high (.inl rfl) h⟩
  | bright h₀ h =>
    exact ⟨.inr rfl, OpenCv3.pass_final hI.byte hI.wide hI.high (.inr ⟨rfl, rfl, OpenCv3.mem_ok hI.byte hI.wide hI.high h₀⟩) h⟩

/-! ### C129: the pass comes to its end -/

/-- C129 for the dark pass: whatever the buffers contain, it ends after at most five steps per inner pixel, without undefined behaviour. -/
theorem C129_dark_partial {cols rows n : Nat} {img : Nat → Nat → Nat} (hI : Image3 cols rows img) (cfg : Cfg) (fromMin : Bool) (m : Mem)
    (hn : 5 * ((cols - 2) * (rows - 2)) ≤ n) : ∃ v, pass cols rows img 0 fromMin cfg m n = .done v := by
  obtain ⟨v, h, -⟩ := OpenCv3.pass_done hI.byte hI.wide hI.high cfg (m := m) (fromMin := fromMin) (.inl rfl) hn
  exact ⟨v, h⟩

/-- C129 for the bright pass after the dark pass. -/
theorem C129_bright_partial {cols rows n n' : Nat} {img : Nat → Nat → Nat} (hI : Image3 cols rows img) (cfg : Cfg) {fromMin : Bool} {m : Mem}
    {v : OpenCv3.St} (hv : pass cols rows img 0 fromMin cfg m n = .done v) (hn : 5 * ((cols - 2) * (rows - 2)) ≤ n') :
    ∃ v', pass cols rows img 255 true cfg (left3 cols rows img fromMin m v) n' = .done v' := by
  obtain ⟨v', h, -⟩ := OpenCv3.pass_done hI.byte hI.wide hI.high cfg (fromMin := true)
    (.inr ⟨rfl, rfl, OpenCv3.mem_ok hI.byte hI.wide hI.high hv⟩) hn
  exact ⟨v', h⟩

/-- C129 is violated by images without inner pixels: with one row the word `ptr0[step + 1]` lies outside of `m_pixbuf`. -/
theorem not_C129_small : ∃ cols rows img, 1 ≤ cols ∧ 1 ≤ rows ∧ (∀ x y, img x y < 256) ∧
    ∀ fromMin cfg m n, pass cols rows img 0 fromMin cfg m n = .ub :=
  ⟨5, 1, fun _ _ => 7, by omega, by omega, fun _ _ => by show 7 < 256; decide, fun _ _ _ _ => rfl⟩

/-! ### C130: the regions -/

/-- `rectOf` is the bounding box. -/
theorem rectOf_box {l : List (Nat × Nat)} (hne : l ≠ []) (hin : ∀ p ∈ l, p.1 < 2147483647 ∧ p.2 < 2147483647) :
    IsBoundingBox (l.map fun p => ((p.1 : Int), (p.2 : Int))) (OpenCv.rectOf l) := by
  have hx := OpenCv.foldl_min Prod.fst l 2147483647
  have hy := OpenCv.foldl_min Prod.snd l 2147483647
  have hX := OpenCv.foldl_max Prod.fst l 0
  have hY := OpenCv.foldl_max Prod.snd l 0
  have att : ∀ (f : Nat × Nat → Nat) (m : Nat), (∀ p ∈ l, m ≤ f p) → (m = 2147483647 ∨ ∃ p ∈ l, f p = m) →
      (∀ p ∈ l, f p < 2147483647) → ∃ p ∈ l, f p = m := by
    rintro f m h1 (h2 | h2) h3
    · obtain ⟨p, hp⟩ := List.exists_mem_of_ne_nil _ hne
      have := h1 p hp
      have := h3 p hp
      omega
    · exact h2
  have att' : ∀ (f : Nat × Nat → Nat) (m : Nat), (∀ p ∈ l, f p ≤ m) → (m = 0 ∨ ∃ p ∈ l, f p = m) → ∃ p ∈ l, f p = m := by
    rintro f m h1 (h2 | h2)
    · obtain ⟨p, hp⟩ := List.exists_mem_of_ne_nil _ hne
      have := h1 p hp
      exact ⟨p, hp, by omega⟩
    · exact h2
  unfold OpenCv.rectOf
  refine ⟨?_, ?_, ?_, ?_, ?_⟩
  · intro p hp
    obtain ⟨q, hq, rfl⟩ := List.mem_map.1 hp
    have := hx.2.1 q hq
    have := hy.2.1 q hq
    have := hX.2.1 q hq
    have := hY.2.1 q hq
    dsimp only
    omega
  · obtain ⟨p, hp, e⟩ := att Prod.fst _ hx.2.1 hx.2.2 (fun p hp => (hin p hp).1)
    exact ⟨_, List.mem_map.2 ⟨p, hp, rfl⟩, congrArg Int.ofNat e⟩
  · obtain ⟨p, hp, e⟩ := att Prod.snd _ hy.2.1 hy.2.2 (fun p hp => (hin p hp).2)
    exact ⟨_, List.mem_map.2 ⟨p, hp, rfl⟩, congrArg Int.ofNat e⟩
  · obtain ⟨p, hp, e⟩ := att' Prod.fst _ hX.2.1 hX.2.2
    refine ⟨_, List.mem_map.2 ⟨p, hp, rfl⟩, ?_⟩
    dsimp only at e ⊢
    omega
  · obtain ⟨p, hp, e⟩ := att' Prod.snd _ hY.2.1 hY.2.2
    refine ⟨_, List.mem_map.2 ⟨p, hp, rfl⟩, ?_⟩
    dsimp only at e ⊢
    omega

section
variable {cols rows gm : Nat} {img : Nat → Nat → Nat} {cfg : Cfg} {v : OpenCv3.St}

/-- At the end every history is one of a complete component. -/
theorem not_opn {E : OpenCv3.Env} {H : Nat → OpenCv3.Hist} {n : Nat} {out : List Rec3} {R : Nat → List Nat} {c : OpenCv3.Comp} {l : List Nat}
    (hc : c.gray = 256) (h : FI E true H n out R {(c, l)}) {i : Nat} (hi : i < n) : ¬ OpenCv3.Opn H {(c, l)} i := by
  rintro ⟨t, ht, -, h2⟩
  rw [Set.mem_singleton_iff] at ht
  subst ht
  have : (H i).val < 256 := h.ti.val i hi
  dsimp only at h2
  omega

theorem points_eq (cfg : Cfg) (l : List Nat) :
    l.map (OpenCv3.xy (env cols rows img gm cfg)) = l.map fun i => (i % cols, i / cols) :=
  List.map_congr_left fun _ _ => OpenCv3.xy_eq

/-- C130, for a dark pass and for a bright pass after it: a region is, each pixel once, a connected component of the inner pixels up to a
gray value, its size is within the limits and the rectangle is its bounding box. -/
theorem C130_regions_partial (hI : Image3 cols rows img) (hR : Ran3 cols rows img cfg gm v) {r : Rec3} (hr : r ∈ v.ts.out) :
    (∃ g < 256, IsInnerRegion cols rows (passGray img gm) g r.points) ∧
    cfg.minPoint ≤ (r.points.length : Int) ∧ (r.points.length : Int) ≤ cfg.maxPoint ∧
    (cols ≤ 2147483647 → rows ≤ 2147483647 → IsBoundingBox (r.points.map fun p => ((p.1 : Int), (p.2 : Int))) r.rect) := by
  obtain ⟨hgm, ⟨c, l, R, hc, hF⟩, -⟩ := hR.final hI
  obtain ⟨j, hj, hno, -, hA⟩ := hF.recs r hr
  have hC := hF.cl j hj hno
  have hp : r.points = (R j).map fun i => (i % cols, i / cols) := by rw [hA.points]; exact points_eq cfg _
  have hreg := OpenCv3.isC_inner hgm hI.byte hI.wide hC.nodup hC.comp
  rw [← hp] at hreg
  have hlen : r.points.length = (v.ts.hists j).size := by rw [hp, List.length_map]; exact hC.len
  refine ⟨⟨_, hF.ti.val j hj, hreg⟩, by rw [hlen]; exact hA.min, by rw [hlen]; exact hA.max, fun h1 h2 => ?_⟩
  rw [hA.rect]
  refine rectOf_box ?_ ?_
  · obtain ⟨x, hx, -⟩ := hC.top
    rw [hp]
    exact List.ne_nil_of_mem (List.mem_map_of_mem hx)
  · intro p hp
    obtain ⟨-, p₀, -, -, hD⟩ := hreg
    have := mem_pixels.1 (Finset.mem_filter.1 ((hD p).1 hp).1).1
    omega

/-- C130: no region is reported twice. -/
theorem C130_once_partial (hI : Image3 cols rows img) (hR : Ran3 cols rows img cfg gm v) :
    v.ts.out.Pairwise fun a b => ¬ ∀ p, p ∈ a.points ↔ p ∈ b.points := by
  obtain ⟨hgm, ⟨c, l, R, hc, hF⟩, -⟩ := hR.final hI
  have hnd := hF.nodup
  rw [List.Nodup, List.pairwise_map] at hnd
  refine hnd.imp_of_mem fun {a b} ha hb hne he => hne ?_
  obtain ⟨i, hi, h1, -, hA⟩ := hF.recs a ha
  obtain ⟨j, hj, h2, -, hB⟩ := hF.recs b hb
  rw [hA.idx, hB.idx]
  refine hF.dist i hi j hj h1 h2 ?_
  ext x
  rw [List.mem_toFinset, List.mem_toFinset]
  have key : ∀ (k : Nat) (x : Nat), (x % cols, x / cols) ∈ (R k).map (fun i => (i % cols, i / cols)) ↔ x ∈ R k := by
    intro k x
    rw [List.mem_map]
    constructor
    · rintro ⟨y, hy, e⟩
      injection e with e1 e2
      rw [← OpenCv3.mod_div_inj e1 e2]; exact hy
    · exact fun h => ⟨x, h, rfl⟩
  have := he (x % cols, x / cols)
  rw [hA.points, hB.points, points_eq, points_eq, key, key] at this
  exact this

/-! ### C131: the variation -/

theorem path_down {E : OpenCv3.Env} {H : Nat → OpenCv3.Hist} {n : Nat} {out : List Rec3} {R : Nat → List Nat} {c : OpenCv3.Comp} {l : List Nat}
    (hc : c.gray = 256) (h : FI E true H n out R {(c, l)}) {i a : Nat} (hi : i < n) (hp : ReflTransGen (OpenCv3.DK (OpenCv3.skel H)) i a) :
    a < n ∧ R a ⊆ R i := by
  induction hp with
  | refl => exact ⟨hi, fun _ h => h⟩
  | @tail x y _ h1 ih =>
    obtain ⟨i1, i2⟩ := ih
    obtain ⟨k1, k2, -⟩ := h.ti.kid x i1 y (OpenCv3.head_mem h1)
    exact ⟨k1, fun z hz => i2 ((h.sub y k1 x k2).2.1 (not_opn hc h i1) hz)⟩

theorem path_up {E : OpenCv3.Env} {H : Nat → OpenCv3.Hist} {n : Nat} {out : List Rec3} {R : Nat → List Nat} {c : OpenCv3.Comp} {l : List Nat}
    (hc : c.gray = 256) (h : FI E true H n out R {(c, l)}) {i b : Nat} (hi : i < n) (hp : ReflTransGen (OpenCv3.PK (OpenCv3.skel H)) i b) :
    b < n ∧ R i ⊆ R b := by
  induction hp with
  | refl => exact ⟨hi, fun _ h => h⟩
  | @tail x y _ h1 ih =>
    obtain ⟨i1, i2⟩ := ih
    obtain ⟨k1, -⟩ := h.ti.par x i1 y h1
    exact ⟨k1, fun z hz => (h.sub x i1 y h1).2.1 (not_opn hc h k1) (i2 hz)⟩

/-- C131: a reported region is a component for the gray value `g` of one of its pixels, and the quotient by which it is judged is that of the
component `Q` for the gray value `g + delta` around it, of a component `q` inside of it for a gray value between `g - delta` and `g`, and of
its own size; this is at most the limit. -/
theorem C131_variation_partial (hI : Image3 cols rows img) (hR : Ran3 cols rows img cfg gm v) (hd : 0 ≤ cfg.delta) {r : Rec3}
    (hr : r ∈ v.ts.out) :
    ∃ g < 256, ∃ Q g₀ q, IsInnerRegion cols rows (passGray img gm) g r.points ∧ (∃ p ∈ r.points, passGray img gm p = g) ∧
      IsInnerRegion cols rows (passGray img gm) (min (g + cfg.delta.toNat) 255) Q ∧ r.points ⊆ Q ∧
      g₀ ≤ g ∧ g ≤ g₀ + cfg.delta.toNat ∧ IsInnerRegion cols rows (passGray img gm) g₀ q ∧ q ⊆ r.points ∧
      0 ≤ cfg.r32 (cfg.r32 ((Q.length : ℚ) - q.length) / cfg.r32 r.points.length) ∧
      cfg.r32 (cfg.r32 ((Q.length : ℚ) - q.length) / cfg.r32 r.points.length) ≤ cfg.stable := by
  obtain ⟨hgm, ⟨c, l, R, hc, hF⟩, -⟩ := hR.final hI
  obtain ⟨j, hj, hno, -, hA⟩ := hF.recs r hr
  have hC := hF.cl j hj hno
  have hinn : ∀ {k g' : Nat}, k < v.nhist → OpenCv.IsC (patch cols rows img gm) g' (R k).toFinset →
      IsInnerRegion cols rows (passGray img gm) g' ((R k).map fun i => (i % cols, i / cols)) := fun hk h =>
    OpenCv3.isC_inner hgm hI.byte hI.wide (hF.cl _ hk (not_opn hc hF hk)).nodup h
  have hp : r.points = (R j).map fun i => (i % cols, i / cols) := by rw [hA.points]; exact points_eq cfg _
  have hsub : ∀ {a b : Nat}, R a ⊆ R b →
      ((R a).map fun i => (i % cols, i / cols)) ⊆ ((R b).map fun i => (i % cols, i / cols)) := fun h => List.map_subset _ h
  rcases hF.var j hj hno hA.var0 with hs | ⟨a, b, ha, hb, ⟨hbn, hbo⟩, -, hvar⟩
  · exact absurd hA.min (by show ¬ cfg.minPoint ≤ _; have : _ < cfg.minPoint := hs; omega)
  have haE : (((OpenCv3.skel v.ts.hists j).val : Int)) = (v.ts.hists j).val := rfl
  obtain ⟨han, has⟩ := path_down hc hF hj ha.path
  obtain ⟨-, hbs⟩ := path_up hc hF hj hb.path
  have hav := hF.ti.down_le hj ha.path
  have hjv : (v.ts.hists j).val < 256 := hF.ti.val j hj
  have hbv : (v.ts.hists b).val < 256 := hF.ti.val b hbn
  have hav' : (v.ts.hists a).val ≤ (v.ts.hists j).val := hav.2
  have hbval : (v.ts.hists b).val ≤ (v.ts.hists j).val + cfg.delta.toNat := by
    by_cases e : b = j
    · subst e; omega
    · have h1 : ((v.ts.hists b).val : Int) ≤ (v.ts.hists j).val + cfg.delta := hb.val e
      omega
  have haval : (v.ts.hists j).val ≤ (v.ts.hists a).val + cfg.delta.toNat := by
    by_cases e : a = j
    · subst e; omega
    · have h1 : ((v.ts.hists j).val : Int) - cfg.delta ≤ (v.ts.hists a).val := ha.val e
      omega
  have hbC := hF.cl b hbn (not_opn hc hF hbn)
  have haC := hF.cl a han (not_opn hc hF han)
  have hQ : OpenCv.IsC (patch cols rows img gm) (min ((v.ts.hists j).val + cfg.delta.toNat) 255) (R b).toFinset := by
    cases hpar : (v.ts.hists b).parent with
    | some p =>
      have h1 : ((v.ts.hists j).val : Int) + cfg.delta < (v.ts.hists p).val := hb.stop p hpar
      have h2 : (v.ts.hists p).val < 256 := hF.ti.val p (hF.ti.par b hbn p hpar).1
      exact (hF.sub b hbn p hpar).2.2 _ (by omega) (by omega)
    | none =>
      rcases hF.orph b hbn hbo hpar with ⟨t, ht, hh⟩ | hs
      · have ht' := ht
        rw [Set.mem_singleton_iff] at ht'
        subst ht'
        refine (hF.own _ ht b hh ?_).2 _ (by omega) ?_
        · dsimp only; omega
        · dsimp only; omega
      · have h1 := hA.min
        have h2 : (R j).length ≤ (R b).length := by
          rw [← List.toFinset_card_of_nodup hC.nodup, ← List.toFinset_card_of_nodup hbC.nodup]
          exact Finset.card_le_card fun x hx => List.mem_toFinset.2 (hbs (List.mem_toFinset.1 hx))
        rw [hC.len, hbC.len] at h2
        omega
  have hlen : ∀ k, (((R k).map fun i => (i % cols, i / cols)).length : ℚ) = ((R k).length : ℚ) := fun k => by rw [List.length_map]
  have hval : (v.ts.hists j).var = cfg.r32 (cfg.r32 ((((R b).map fun i => (i % cols, i / cols)).length : ℚ) -
      ((R a).map fun i => (i % cols, i / cols)).length) / cfg.r32 r.points.length) := by
    rw [hvar, hp, hlen, hlen, hlen, hC.len, haC.len, hbC.len]
    rfl
  refine ⟨(v.ts.hists j).val, hjv, (R b).map fun i => (i % cols, i / cols), (v.ts.hists a).val, (R a).map fun i => (i % cols, i / cols),
    by rw [hp]; exact hinn hj hC.comp, ?_, hinn hbn hQ, by rw [hp]; exact hsub hbs, hav', haval, hinn han haC.comp,
    by rw [hp]; exact hsub has, by rw [← hval]; exact hA.var0, by rw [← hval]; exact hA.var1⟩
  obtain ⟨x, hx, e⟩ := hC.top
  refine ⟨(x % cols, x / cols), by rw [hp]; exact List.mem_map_of_mem hx, ?_⟩
  have hxp := (hC.comp.px x (List.mem_toFinset.2 hx)).1
  rw [← (OpenCv3.gray_px hgm hI.byte hI.wide (OpenCv3.px_lt hxp).1).1]
  exact e

/-! ### C132: the gray level -/

/-- C132, what is reported instead of the gray level: 0. -/
theorem C132_zero_partial (hI : Image3 cols rows img) (hR : Ran3 cols rows img cfg gm v) {r : Rec3} (hr : r ∈ v.ts.out) : r.gray = 0 := by
  obtain ⟨-, ⟨c, l, R, -, hF⟩, -⟩ := hR.final hI
  obtain ⟨j, -, -, -, hA⟩ := hF.recs r hr
  exact hA.gray

end

/-! ### Runs -/

/-- Buffers with zeros. -/
def zeroMem3 : Mem := ⟨fun _ => 0, fun _ => 0, fun _ => none, fun _ => ⟨[], none, 0, 0, 0, 0, false⟩, fun _ => 0⟩

/-- The state from which a pass over these buffers starts, `top` being the places of the stacks. -/
def start3 (cols rows : Nat) (img : Nat → Nat → Nat) (gm : Nat) (cfg : Cfg) (top : Nat → Nat) : OpenCv3.St :=
  OpenCv3.start (env cols rows img gm cfg)
    { zeroMem3 with dir := fun i => if OpenCv3.inner cols rows i then 0 else if i < cols * rows then 5 else 0 } top

theorem pass_start3 {cols rows gm n : Nat} {img : Nat → Nat → Nat} {cfg : Cfg} {fromMin : Bool} (hc : 3 ≤ cols) (hr : 3 ≤ rows)
    (h : gm = 0 ∨ fromMin = false) {top : Nat → Nat} (ht : FloodMem.offset (OpenCv3.counts cols rows img) = top) :
    pass cols rows img gm fromMin cfg zeroMem3 n = OpenCv3.run (env cols rows img gm cfg) n (start3 cols rows img gm cfg top) := by
  rw [OpenCv3.pass_eq hc hr]
  subst ht
  simp only [preprocess, if_pos h, start3, zeroMem3, ite_self]
  rfl

/-- The counts of an image whose values are bytes. -/
theorem counts3 {cols rows : Nat} {img : Nat → Nat → Nat} {cw : Nat → Nat} (hg : ∀ x y, img x y < 256)
    (h1 : ∀ v < 256, OpenCv3.counts cols rows img v = cw v) (h2 : ∀ v, 256 ≤ v → cw v = 0) : OpenCv3.counts cols rows img = cw := by
  funext v
  by_cases hv : v < 256
  · exact h1 v hv
  · rw [h2 v (by omega)]
    unfold OpenCv3.counts
    rw [Finset.card_eq_zero, Finset.filter_eq_empty_iff]
    rintro i - ⟨-, e⟩
    have := hg (i % cols) (i / cols)
    omega

/-- The points reported by a pass that ended. -/
def report3 : OpenCv3.Out → Option (List (List (Nat × Nat)))
  | .done v => some (v.ts.out.map (·.points))
  | _ => none

theorem report3_done {o : OpenCv3.Out} {l : List (List (Nat × Nat))} (h : report3 o = some l) :
    ∃ v, o = .done v ∧ v.ts.out.map (·.points) = l := by
  cases o with
  | done v => exact ⟨v, rfl, by simpa [report3] using h⟩
  | next s => simp [report3] at h
  | ub => simp [report3] at h

/-- Whether undefined behaviour was met. -/
def isUb3 : OpenCv3.Out → Bool
  | .ub => true
  | _ => false

theorem run_ub_mono {E : OpenCv3.Env} : ∀ {n m : Nat} {s : OpenCv3.St}, OpenCv3.run E n s = .ub → n ≤ m → OpenCv3.run E m s = .ub
  | 0, _, _, h, _ => by simp [OpenCv3.run] at h
  | n + 1, 0, _, _, h => by omega
  | n + 1, m + 1, s, h, hm => by
    unfold OpenCv3.run at h ⊢
    revert h
    cases OpenCv3.step E s with
    | next s' => exact fun h => run_ub_mono h (by omega)
    | done s' => exact fun h => h
    | ub => exact fun h => h

/-- Delta 2, sizes 2 to 100, variation 0.25, difference of variations 0. -/
def cfg3 : Cfg := ⟨2, 2, 100, 1 / 4, 0, 0, id, id⟩

/-- An image of 5×5 pixels. -/
def img3 (x y : Nat) : Nat := if x = 2 ∧ y = 2 then 3 else if x < 3 then 5 else 200

theorem img3_lt (x y : Nat) : img3 x y < 256 := by unfold img3; split <;> [omega; split <;> omega]

/-- How many inner pixels of `img3` have the value. -/
def cw3 (v : Nat) : Nat := if v = 3 then 1 else if v = 5 then 5 else if v = 200 then 3 else 0

/-- The places of the stacks for `img3`. -/
def top3 (l : Nat) : Nat := l + (if 3 < l then 1 else 0) + (if 5 < l then 5 else 0) + (if 200 < l then 3 else 0)

theorem img3_counts : OpenCv3.counts 5 5 img3 = cw3 :=
  counts3 img3_lt (by decide +kernel) (fun v hv => by unfold cw3; rw [if_neg (by omega), if_neg (by omega), if_neg (by omega)])

theorem img3_top : FloodMem.offset (OpenCv3.counts 5 5 img3) = top3 := by
  rw [img3_counts]
  funext l
  induction l with
  | zero => rfl
  | succ l ih =>
    simp only [FloodMem.offset, ih, top3, cw3]
    split_ifs <;> omega

set_option maxRecDepth 100000 in
theorem img3_bright_run : report3 (OpenCv3.run (env 5 5 img3 255 cfg3) 52 (start3 5 5 img3 255 cfg3 top3)) =
    some [[(3, 3), (3, 2), (3, 1), (2, 3)]] := by
  decide +kernel

/-- `cfg3` with delta 1. -/
def cfg3d : Cfg := { cfg3 with delta := 1 }

/-- Six of the nine inner pixels of `img3`. -/
def pts3 : List (Nat × Nat) := [(1, 1), (2, 2), (2, 3), (1, 3), (1, 2), (2, 1)]

set_option maxRecDepth 100000 in
theorem img3_dark_run : report3 (OpenCv3.run (env 5 5 img3 0 cfg3d) 45 (start3 5 5 img3 0 cfg3d top3)) =
    some [pts3, pts3 ++ [(3, 1), (3, 3), (3, 2)]] := by
  decide +kernel

/-- An image of 5×5 pixels. -/
def imgU (x y : Nat) : Nat := ([[255, 255, 254], [254, 253, 253], [253, 252, 252]].getD (y - 1) []).getD (x - 1) 0

/-- How many inner pixels of `imgU` have the value. -/
def cwU (v : Nat) : Nat := if v = 252 then 2 else if v = 253 then 3 else if v = 254 then 2 else if v = 255 then 2 else 0

/-- The places of the stacks for `imgU`. -/
def topU (l : Nat) : Nat :=
  l + (if 252 < l then 2 else 0) + (if 253 < l then 3 else 0) + (if 254 < l then 2 else 0) + (if 255 < l then 2 else 0)

theorem imgU_lt (x y : Nat) : imgU x y < 256 := by
  unfold imgU
  rcases y with _ | _ | _ | _ | y <;> rcases x with _ | _ | _ | _ | x <;> simp

theorem imgU_top : FloodMem.offset (OpenCv3.counts 5 5 imgU) = topU := by
  rw [counts3 imgU_lt (cw := cwU) (by decide +kernel)
    (fun v hv => by unfold cwU; rw [if_neg (by omega), if_neg (by omega), if_neg (by omega), if_neg (by omega)])]
  funext l
  induction l with
  | zero => rfl
  | succ l ih =>
    simp only [FloodMem.offset, ih, topU, cwU]
    split_ifs <;> omega

set_option maxRecDepth 100000 in
theorem imgU_run : isUb3 (OpenCv3.run (env 5 5 imgU 255 cfg3) 32 (start3 5 5 imgU 255 cfg3 topU)) = true := by
  decide +kernel

/-! ### Examples and violations -/

theorem img3_ok : Image3 5 5 img3 := ⟨by omega, by omega, fun x y _ _ => img3_lt x y⟩

theorem imgU_ok : Image3 5 5 imgU := ⟨by omega, by omega, fun x y _ _ => imgU_lt x y⟩

/-- The dark pass over `img3` reports two regions. -/
theorem img3_dark : ∃ v, pass 5 5 img3 0 true cfg3d zeroMem3 45 = .done v ∧ ∃ r ∈ v.ts.out, r.points = pts3 := by
  obtain ⟨v, h1, h2⟩ := report3_done img3_dark_run
  have hm : pts3 ∈ v.ts.out.map (·.points) := by rw [h2]; simp
  obtain ⟨r, hr, e⟩ := List.mem_map.1 hm
  exact ⟨v, by rw [pass_start3 (by omega) (by omega) (.inl rfl) img3_top]; exact h1, r, hr, e⟩

/-- The hypotheses of `C129_dark_partial`, `C130_regions_partial`, `C130_once_partial`, `C131_variation_partial` and `C132_zero_partial` can
be met, with a region reported. -/
example : ∃ v, Image3 5 5 img3 ∧ 5 * ((5 - 2) * (5 - 2)) ≤ 45 ∧ Ran3 5 5 img3 cfg3d 0 v ∧ 0 ≤ cfg3d.delta ∧
    ∃ r ∈ v.ts.out, r.points.length = 6 := by
  obtain ⟨v, h1, r, hr, e⟩ := img3_dark
  exact ⟨v, img3_ok, by decide, .dark h1, by decide, r, hr, by rw [e]; rfl⟩

/-- Those of `C129_bright_partial` too. -/
example : ∃ v v', Image3 5 5 img3 ∧ pass 5 5 img3 0 true cfg3d zeroMem3 45 = .done v ∧ Ran3 5 5 img3 cfg3d 255 v' := by
  obtain ⟨v, h1, -⟩ := img3_dark
  obtain ⟨v', h2⟩ := C129_bright_partial img3_ok cfg3d h1 (n' := 45) (by decide)
  exact ⟨v, v', img3_ok, h1, .bright h1 h2⟩

/-- C129 is violated when only bright regions are searched: the stacks are laid out for the values of the image and not for those of the
inverted image, components get lost, and a history becomes its own child. -/
theorem not_C129_bright_only : ∃ cols rows img cfg, Image3 cols rows img ∧
    ∀ n, 5 * ((cols - 2) * (rows - 2)) ≤ n → pass cols rows img 255 false cfg zeroMem3 n = .ub := by
  refine ⟨5, 5, imgU, cfg3, imgU_ok, fun n hn => ?_⟩
  rw [pass_start3 (by omega) (by omega) (.inr rfl) imgU_top]
  refine run_ub_mono (n := 32) ?_ (by omega)
  have := imgU_run
  revert this
  cases OpenCv3.run (env 5 5 imgU 255 cfg3) 32 (start3 5 5 imgU 255 cfg3 topU) with
  | ub => exact fun _ => rfl
  | next s => exact fun h => absurd h (by simp [isUb3])
  | done s => exact fun h => absurd h (by simp [isUb3])

/-- C130 is violated when only bright regions are searched: a reported region is no component at all. -/
theorem not_C130_bright_only : ∃ cols rows img cfg v n, Image3 cols rows img ∧ pass cols rows img 255 false cfg zeroMem3 n = .done v ∧
    ∃ r ∈ v.ts.out, ∀ lev, ¬ IsInnerRegion cols rows (passGray img 255) lev r.points := by
  obtain ⟨v, h1, h2⟩ := report3_done img3_bright_run
  have hm : [(3, 3), (3, 2), (3, 1), (2, 3)] ∈ v.ts.out.map (·.points) := by rw [h2]; simp
  obtain ⟨r, hr, e⟩ := List.mem_map.1 hm
  refine ⟨5, 5, img3, cfg3, v, 52, img3_ok, by rw [pass_start3 (by omega) (by omega) (.inr rfl) img3_top]; exact h1, r, hr, fun lev => ?_⟩
  rw [e]
  rintro ⟨-, p₀, hp₀, hg₀, hD⟩
  have h23 := (hD (2, 3)).1 (by decide)
  have hlev : 250 ≤ lev := by
    have : ∀ p q, LConn (AdjInner 5 5) (passGray img3 255) lev p q → passGray img3 255 p ≤ lev → passGray img3 255 q ≤ lev := by
      intro p q h hp
      cases h with
      | refl => exact hp
      | tail _ h => exact h.2.2
    exact this _ _ h23.2 hg₀
  have h13 : LConn (AdjInner 5 5) (passGray img3 255) lev p₀ (1, 3) := by
    refine .tail h23.2 ⟨⟨h23.1, by decide, by decide, by decide, by decide⟩, ?_, ?_⟩
    · exact hlev
    · exact hlev
  exact absurd ((hD (1, 3)).2 ⟨by decide, h13⟩) (by decide)

/-- C130 is violated at the border: a reported region is no component of the whole image, because border pixels are never looked at. -/
theorem not_C130_border : ∃ cols rows img cfg v n, Image3 cols rows img ∧ pass cols rows img 0 true cfg zeroMem3 n = .done v ∧
    ∃ r ∈ v.ts.out, ∀ lev, ¬ IsRegionAt cols rows (passGray img 0) lev r.points := by
  obtain ⟨v, h1, r, hr, e⟩ := img3_dark
  refine ⟨5, 5, img3, cfg3d, v, 45, img3_ok, h1, r, hr, fun lev => ?_⟩
  rw [e]
  rintro ⟨-, p₀, hp₀, hg₀, hD⟩
  have h11 := (hD (1, 1)).1 (by decide)
  have hlev : 5 ≤ lev := by
    have : ∀ p q, LConn (Adj4 5 5) (passGray img3 0) lev p q → passGray img3 0 p ≤ lev → passGray img3 0 q ≤ lev := by
      intro p q h hp
      cases h with
      | refl => exact hp
      | tail _ h => exact h.2.2
    exact this _ _ h11.2 hg₀
  have h01 : LConn (Adj4 5 5) (passGray img3 0) lev p₀ (0, 1) :=
    .tail h11.2 ⟨⟨h11.1, by decide, by decide⟩, hlev, hlev⟩
  exact absurd ((hD (0, 1)).2 ⟨by decide, h01⟩) (by decide)

/-- C132 is violated: the region is no component for the gray level reported with it. -/
theorem not_C132_level : ∃ cols rows img cfg v n, Image3 cols rows img ∧ pass cols rows img 0 true cfg zeroMem3 n = .done v ∧
    ∃ r ∈ v.ts.out, ¬ IsInnerRegion cols rows (passGray img 0) r.gray r.points := by
  obtain ⟨v, h1, r, hr, e⟩ := img3_dark
  refine ⟨5, 5, img3, cfg3d, v, 45, img3_ok, h1, r, hr, ?_⟩
  rw [C132_zero_partial img3_ok (.dark h1) hr]
  rintro ⟨-, p₀, -, hg₀, -⟩
  have h1 : passGray img3 0 p₀ = img3 p₀.1 p₀.2 := rfl
  rw [h1] at hg₀
  revert hg₀
  unfold img3
  split
  · omega
  · split <;> omega

end Verif.Props
