import Verif.Props.RecognizeV1
import Verif.Proof.ExtractV1
import Verif.Props.ExtractWitness
import Verif.Proof.Snake

/-!
# Properties C68, C69: the records of Fast MSER V1

`x` is what extraction leaves behind: the array of points and one record per reported region.
-/

namespace Verif.Props

open Verif.Spec Verif.Recog Verif.Partition
open Verif.V1 (Point Mem MixedAdj mergeTreesV1 RecV1 XOutV1 extractV1 readRange ReadyV1 topsOf mem_topsOf IsTop Placed
  TopSt topStep Fill threadFill splitTops recMany)

variable {ι : Type} {eight : Bool} {n hp vp w h : Nat} {img : Nat → Nat → Nat} {gm : Nat} {pk : Nat → Nat → Point}
  {border : Nat → Nat → Nat → Option Nat} {v : Nat → V1.St} {pts : Nat → Point} {steps : Nat → Nat} {fuel bound : Nat}
  {cfg : Cfg}

/-! ### What a record should say -/

/-- `l` lists the pixels of region `r`, each once; the record has their number and the gray value at which the
region was formed. -/
structure RecordOf (w h : Nat) (img : Nat → Nat → Nat) (gm : Nat) (T : RegionTree (Nat × Nat) ι) (r : ι)
    (l : List (Nat × Nat)) (rec : RecV1) : Prop where
  nodup : l.Nodup
  mem : ∀ q, q ∈ l ↔ q ∈ pixels w h ∧ T.Under r q
  size : rec.size = l.length
  occurs : ∃ p ∈ l, img p.1 p.2 = rec.gray
  dark : gm = 0 → ∀ p ∈ l, img p.1 p.2 ≤ rec.gray
  bright : gm = 255 → ∀ p ∈ l, rec.gray ≤ img p.1 p.2

/-- The smallest rectangle containing the pixels `l`. -/
structure BoxOf (l : List (Nat × Nat)) (R : Extract.Rect) : Prop where
  inside : ∀ p ∈ l, R.left ≤ (p.1 : Int) ∧ (p.1 : Int) < R.left + R.width ∧ R.top ≤ (p.2 : Int) ∧
    (p.2 : Int) < R.top + R.height
  left : ∃ p ∈ l, (p.1 : Int) = R.left
  right : ∃ p ∈ l, (p.1 : Int) + 1 = R.left + R.width
  top : ∃ p ∈ l, (p.2 : Int) = R.top
  bottom : ∃ p ∈ l, (p.2 : Int) + 1 = R.top + R.height

/-! ### Room for the top regions -/

/-- Reported regions and top regions together are at most one more than the pixels. -/
theorem tops_fit {adj : Nat × Nat → Nat × Nat → Prop} {g : Nat × Nat → Nat} {T : RegionTree (Nat × Nat) ι}
    {isReg : ι → Prop} {m : Nat} (hT : IsComponentTree adj g (pixels w h) T) (hadj : ∀ p q, Adj4 w h p q → adj p q)
    {rep : List ι} (hnd : rep.Nodup) (hrep : ∀ r ∈ rep, T.isReg r)
    (hup : ∀ r ∈ rep, ∃ t ∈ topsOf (treeOf T isReg m) rep, T.Anc r t) :
    rep.length + (topsOf (treeOf T isReg m) rep).length ≤ w * h + 1 := by
  classical
  have htop : ∀ t ∈ topsOf (treeOf T isReg m) rep, ∀ t' ∈ topsOf (treeOf T isReg m) rep, T.Anc t t' → t = t' := by
    intro t ht t' ht' ha
    rcases Relation.reflTransGen_iff_eq_or_transGen.1 ha with e | e
    · exact e.symm
    · exact absurd (mem_topsOf.1 ht').1 ((mem_topsOf.1 ht).2 t' e)
  have hreg : ∀ t ∈ topsOf (treeOf T isReg m) rep, T.isReg t := fun t ht => hrep t (mem_topsOf.1 ht).1
  have hcard : (pixels w h).card = w * h := by simp [pixels]
  have hdis : ∀ t ∈ topsOf (treeOf T isReg m) rep, ∀ t' ∈ topsOf (treeOf T isReg m) rep, ∀ p ∈ pixels w h,
      T.Under t p → T.Under t' p → t = t' := by
    intro t ht t' ht' p hp h1 h2
    rcases RegionTree.Anc.total (T := T) h1 h2 with h | h
    · exact htop t ht t' ht' h
    · exact (htop t' ht' t ht h).symm
  have hA := separated_card (px := pixels w h) (idx := snake w) (adj := Adj4 w h)
    (tops := (topsOf (treeOf T isReg m) rep).toFinset) (mem := fun t p => T.Under t p)
    (out := (pixels w h).filter fun p => ∀ t ∈ topsOf (treeOf T isReg m) rep, ¬ T.Under t p) snake_inj snake_step
    (fun t ht => by
      obtain ⟨p, hp, e⟩ := hT.reg_lab t (hreg t (List.mem_toFinset.1 ht))
      exact ⟨p, hp, by rw [← e]; exact Relation.ReflTransGen.refl⟩)
    (fun t ht t' ht' => hdis t (List.mem_toFinset.1 ht) t' (List.mem_toFinset.1 ht'))
    (fun t ht t' ht' p hp q hq h1 h2 ha => by
      have ht := List.mem_toFinset.1 ht
      have ht' := List.mem_toFinset.1 ht'
      have hs : Adj4 w h q p := by
        obtain ⟨a, b, c⟩ := ha
        refine ⟨b, a, ?_⟩
        omega
      rcases hT.no_touch (hreg t ht) (hreg t' ht') hp hq h1 h2 (hadj _ _ ha) (hadj _ _ hs) with e | e
      · exact htop t ht t' ht' e
      · exact (htop t' ht' t ht e).symm)
    (fun p hp h => Finset.mem_filter.2 ⟨hp, fun t ht => h t (List.mem_toFinset.2 ht)⟩)
  have htn : (topsOf (treeOf T isReg m) rep).Nodup := hnd.filter _
  rw [List.toFinset_card_of_nodup htn] at hA
  have hB : rep.toFinset.card ≤
      ((pixels w h).filter fun p => ¬ ∀ t ∈ topsOf (treeOf T isReg m) rep, ¬ T.Under t p).card := by
    have hsub : rep.toFinset ⊆
        ((pixels w h).filter fun p => ¬ ∀ t ∈ topsOf (treeOf T isReg m) rep, ¬ T.Under t p).image T.lab := by
      intro r hr
      have hr := List.mem_toFinset.1 hr
      obtain ⟨p, hp, e⟩ := hT.reg_lab r (hrep r hr)
      obtain ⟨t, ht, ha⟩ := hup r hr
      refine Finset.mem_image.2 ⟨p, Finset.mem_filter.2 ⟨hp, fun hn => hn t ht ?_⟩, e⟩
      show T.Anc (T.lab p) t
      rw [e]; exact ha
    exact le_trans (Finset.card_le_card hsub) Finset.card_image_le
  rw [List.toFinset_card_of_nodup hnd] at hB
  have := Finset.card_filter_add_card_filter_not (s := pixels w h)
    (fun p => ∀ t ∈ topsOf (treeOf T isReg m) rep, ¬ T.Under t p)
  omega

theorem mixed_of_four {p q : Nat × Nat} (ha : Adj4 w h p q) : MixedAdj eight hp vp w h p q := by
  unfold MixedAdj
  by_cases e : patchOf hp vp w h p = patchOf hp vp w h q
  · exact .inl ⟨V1.adj48 ha, e⟩
  · exact .inr ⟨ha, e⟩

/-! ### From the memory to the records -/

theorem mapM_range {β : Type} {l : List β} {f : Nat → Option β} (hf : ∀ i b, l[i]? = some b → f i = some b) :
    (List.range l.length).mapM f = some l := by
  have key : ∀ (k a : Nat), a + k ≤ l.length → (List.range' a k).mapM f = some ((l.drop a).take k) := by
    intro k
    induction k with
    | zero => intro a _; simp
    | succ k ih =>
      intro a ha
      have hlt : a < l.length := by omega
      rw [List.range'_succ, List.mapM_cons, hf a l[a] (List.getElem?_eq_getElem hlt), ih (a + 1) (by omega)]
      rw [← List.cons_getElem_drop_succ (h := hlt)]
      rfl
  have := key l.length 0 (by omega)
  rw [List.range_eq_range', this]
  simp

section
variable {adj : Nat × Nat → Nat × Nat → Prop} {M : Mem (Nat × Nat)} {L : Nat × Nat → List Nat}
  {isReg : Nat × Nat → Prop} {m : Nat} {lab : Nat × Nat → Nat × Nat}
  {out : Recognized (Nat × Nat)} {arr : List (Nat × Nat)} {gs : List (List (Nat × Nat) × (Nat × Nat))}
  {cand : Nat × Nat → Prop} {T : RegionTree (Nat × Nat) (Nat × Nat)}

theorem ready_of (hM : MergedV1 adj w h img gm M T L) (hok : (treeOf T isReg m).Ok)
    (hR : Result T cfg cand out arr gs) (hcand : ∀ r, cand r → T.isReg r)
    (hpar : ∀ r, T.isReg r → (out.R r).parent = T.parent r) : ReadyV1 (treeOf T isReg m) M L out where
  ok := hok
  par := hpar
  valid := by
    intro r hr
    rcases hR.flags r hr with ⟨a, b⟩ | ⟨a, b⟩
    · exact ⟨fun _ => b, fun _ => a⟩
    · exact ⟨fun e => absurd (a.symm.trans e) (by decide), fun e => absurd e b⟩
  live := fun r hr => hcand r ((hR.mem r).1 (hR.sub r hr))
  once := hR.rep_nodup
  size := fun r hr => (hM.size r hr).1
  head := fun r hr => (hM.run r hr).head
  tail := fun r hr => (hM.run r hr).last
  chain := fun r hr => (hM.run r hr).linked.imp fun _ _ h => h.1
  sub := fun r hr p hp => hM.sub r hr p hp
  nodup := fun r hr => List.Nodup.of_map _ (hM.nodup r hr)
  apart := by
    intro r r' hr hr' p hp hp'
    have h1 := (hM.mem r hr (posIn M p)).1 (List.mem_map_of_mem hp)
    have h2 := (hM.mem r' hr' (posIn M p)).1 (List.mem_map_of_mem hp')
    rcases RegionTree.Anc.total (T := T) h1.2 h2.2 with e | e
    · rcases Relation.reflTransGen_iff_eq_or_transGen.1 e with e | e
      · exact .inl e.symm
      · exact .inr (.inl e)
    · rcases Relation.reflTransGen_iff_eq_or_transGen.1 e with e | e
      · exact .inl e
      · exact .inr (.inr e)

/-- What a record says, if its points are placed well. -/
theorem record_of (hI : ImageOK w h img gm) (hM : MergedV1 adj w h img gm M T L) (hg : ∀ r, T.gray r = (M.regs r).gray)
    {r : Nat × Nat} (hr : T.isReg r) {x : XOutV1} {rec : RecV1} {a : Nat} (hP : Placed M gm n (L r) x r rec a) :
    RecordOf w h img gm T r ((L r).map (posIn M)) rec := by
  have hle : ∀ p ∈ (L r).map (posIn M), p ∈ pixels w h ∧ img p.1 p.2 ^^^ gm ≤ T.gray r := by
    intro p hp
    obtain ⟨h1, h2⟩ := (hM.mem r hr p).1 hp
    exact ⟨h1, (hM.tree.under_reg h1 h2).2⟩
  have hgray : rec.gray = T.gray r ^^^ gm := by rw [hP.gray, hg]
  obtain ⟨p0, hp0, e0⟩ := hM.tree.reg_lab r hr
  have hocc : img p0.1 p0.2 = rec.gray := by
    have := hM.tree.lab_gray p0 hp0
    rw [e0] at this
    rw [hgray, this, Nat.xor_assoc, Nat.xor_self, Nat.xor_zero]
  have hin : p0 ∈ (L r).map (posIn M) := (hM.mem r hr p0).2 ⟨hp0, by
    show T.Anc (T.lab p0) r
    rw [e0]; exact Relation.ReflTransGen.refl⟩
  refine ⟨hM.nodup r hr, hM.mem r hr, by rw [hP.size, List.length_map], ⟨p0, hin, hocc⟩, ?_, ?_⟩
  · rintro rfl p hp
    have := (hle p hp).2
    rw [hgray]
    simpa using this
  · rintro rfl p hp
    obtain ⟨h1, h2⟩ := hle p hp
    rw [mem_pixels] at h1
    have h3 := hI.img_lt _ _ h1.1 h1.2
    rw [FloodMem.xor_255 _ h3] at h2
    have h4 : T.gray r < 256 := by
      have := hM.tree.lab_gray p0 hp0
      rw [e0] at this
      rw [this]
      rw [mem_pixels] at hp0
      exact Nat.xor_lt_two_pow (n := 8) (hI.img_lt _ _ hp0.1 hp0.2) (by decide)
    rw [hgray, FloodMem.xor_255 _ h4]
    omega

theorem box_of (hM : MergedV1 adj w h img gm M T L) {r : Nat × Nat} (hr : T.isReg r) (ps : Nat → Point) :
    BoxOf ((L r).map (posIn M)) (recMany M ps gm r).rect := by
  have hR := hM.rect r hr
  unfold recMany
  constructor
  · intro p hp
    obtain ⟨a, ha, rfl⟩ := List.mem_map.1 hp
    have := hR.inside a ha
    simp only [posIn]
    omega
  · obtain ⟨a, ha, e⟩ := hR.left
    exact ⟨_, List.mem_map_of_mem ha, by simp only [posIn]; omega⟩
  · obtain ⟨a, ha, e⟩ := hR.right
    exact ⟨_, List.mem_map_of_mem ha, by simp only [posIn]; omega⟩
  · obtain ⟨a, ha, e⟩ := hR.top
    exact ⟨_, List.mem_map_of_mem ha, by simp only [posIn]; omega⟩
  · obtain ⟨a, ha, e⟩ := hR.bottom
    exact ⟨_, List.mem_map_of_mem ha, by simp only [posIn]; omega⟩

theorem read_of {r : Nat × Nat} {x : XOutV1} {rec : RecV1} {a : Nat} (hn : n ≠ 1) (hP : Placed M gm n (L r) x r rec a) :
    readRange x rec = some ((L r).map (posIn M)) := by
  have h1 := (hP.many hn).1
  unfold readRange
  rw [h1, hP.size]
  simp only [Int.toNat_natCast]
  have hlen : ((L r).map (posIn M)).length = (L r).length := List.length_map _
  rw [← hlen]
  refine mapM_range ?_
  intro i b hi
  rw [List.getElem?_map, Option.map_eq_some_iff] at hi
  obtain ⟨p, hp, rfl⟩ := hi
  obtain ⟨hlt, _⟩ := List.getElem?_eq_some_iff.1 hp
  have := hP.fits
  rw [if_pos (by omega)]
  have e : ((a : Int) + (i : Int)).toNat = a + i := by omega
  rw [e]
  exact hP.cells i p hp

end

/-! ### The whole -/

/-- Flooding, joining, recognition and extraction of V1 together.  The first `k` top regions are copied. -/
theorem extractedV1 (hl : layoutV1 n = some (hp, vp)) (hw : hp ≤ w) (hh : vp ≤ h) (hI : ImageOK w h img gm)
    (hc : w * h < 2 ^ 31) (hr : AllEnded eight n hp vp w h img gm pk border steps v) (hb : 513 ≤ bound)
    (hf : bound * ((hp - 1) * h + (vp - 1) * w + 1) ≤ fuel) (var : Nat × Nat → ℚ)
    (h32 : Rounding cfg.r32) (h64 : Rounding cfg.r64) (hst : -1 ≤ cfg.stable) (hd : cfg.dup < cfg.r64 (3 / 5)) :
    ∃ M lab L out arr gs m, mergeTreesV1 n hp vp w h img gm v pts fuel bound = some M ∧
      MergedV1 (MixedAdj eight hp vp w h) w h img gm M (mergedTreeV1 n v lab fuel M) L ∧
      recognizeV1 cfg Prod.fst fuel n (regsV1 v) (heapSize n w h) (ofForest M.forest var) = some out ∧
      Result (mergedTreeV1 n v lab fuel M) cfg (Selected (mergedTreeV1 n v lab fuel M) (limits cfg)) out arr gs ∧
      (∀ r ∈ out.reported, Selected (mergedTreeV1 n v lab fuel M) (limits cfg) r) ∧
      ReadyV1 (treeOf (mergedTreeV1 n v lab fuel M) (fun kr => kr.1 < n ∧ kr.2 < (v kr.1).nreg) m) M L out ∧
      1 ≤ n ∧ 256 ≤ fuel ∧
      (topsOf (treeOf (mergedTreeV1 n v lab fuel M) (fun kr => kr.1 < n ∧ kr.2 < (v kr.1).nreg) m)
        out.reported).length ≤ heapSize n w h - out.reported.length + 1 := by
  obtain ⟨M, lab, L, out, arr, gs, m, h1, h2, h3, h4, hm, hok, hO⟩ :=
    recogV1 (pts := pts) hl hw hh hI hc hr hb hf var h32 h64 hst hd
  have hcand : ∀ r, Selected (mergedTreeV1 n v lab fuel M) (limits cfg) r → (mergedTreeV1 n v lab fuel M).isReg r :=
    fun r hs => hs.reg
  have hready := ready_of (cfg := cfg) h2 hok h4 hcand (fun r hr => hO.par r hr (.inl rfl))
  have hsel : ∀ r ∈ out.reported, Selected (mergedTreeV1 n v lab fuel M) (limits cfg) r :=
    fun r hr => (h4.mem r).1 (h4.sub r hr)
  have hfit := tops_fit (isReg := fun kr : Nat × Nat => kr.1 < n ∧ kr.2 < (v kr.1).nreg) (m := m) h2.tree
    (fun p q ha => mixed_of_four ha) h4.rep_nodup (fun r hr => (hsel r hr).reg) (by
      intro r hr
      obtain ⟨t, ht, htop, hor⟩ := hready.find_top 256 r hr (by omega)
      refine ⟨t, mem_topsOf.2 ⟨ht, htop⟩, ?_⟩
      rcases hor with rfl | e
      · exact Relation.ReflTransGen.refl
      · exact Relation.TransGen.to_reflTransGen e)
  have hnpos : 1 ≤ n := by
    obtain ⟨hn', h5, h6, _⟩ := layoutV1_cases (w := w) (h := h) hl
    rw [hn']; exact Nat.mul_pos h5 h6
  have hf' : 256 ≤ fuel := by
    have : bound * 1 ≤ bound * ((hp - 1) * h + (vp - 1) * w + 1) := Nat.mul_le_mul_left _ (by omega)
    omega
  have hrl := regions_le h2.tree out.reported h4.rep_nodup (fun r hr => (hsel r hr).reg)
  have hcard : (pixels w h).card = w * h := by simp [pixels]
  have hcomm := Nat.mul_comm h w
  exact ⟨M, lab, L, out, arr, gs, m, h1, h2, h3, h4, hsel, hready, hnpos, hf', by unfold heapSize; omega⟩

/-- The size in the tree is the length of the list. -/
theorem size_length {adj : Nat × Nat → Nat × Nat → Prop} {M : Mem (Nat × Nat)} {L : Nat × Nat → List Nat}
    {lab : Nat × Nat → Nat × Nat} (h2 : MergedV1 adj w h img gm M (mergedTreeV1 n v lab fuel M) L) {r : Nat × Nat}
    (hr : (mergedTreeV1 n v lab fuel M).isReg r) : (mergedTreeV1 n v lab fuel M).size r = (L r).length := by
  have : (mergedTreeV1 n v lab fuel M).size r = (M.regs r).size.toNat := rfl
  rw [this, (h2.size r hr).1, Int.toNat_natCast]

/-- **C68** (partial) With 2 threads, or with more if every reported region has at least `n - 1` pixels: extraction
ends, and there is one record per reported region from which `image_from_mser` reads exactly the pixels of the
region; size, gray level and rectangle of the record are right.  (The full property: for every thread number and
configuration; see `C68_small_regions_lost`.) -/
theorem C68_records_partial (hl : layoutV1 n = some (hp, vp)) (hw : hp ≤ w) (hh : vp ≤ h) (hI : ImageOK w h img gm)
    (hc : w * h < 2 ^ 31) (hr : AllEnded eight n hp vp w h img gm pk border steps v) (hb : 513 ≤ bound)
    (hf : bound * ((hp - 1) * h + (vp - 1) * w + 1) ≤ fuel) (var : Nat × Nat → ℚ)
    (h32 : Rounding cfg.r32) (h64 : Rounding cfg.r64) (hst : -1 ≤ cfg.stable) (hd : cfg.dup < cfg.r64 (3 / 5))
    (hn1 : n ≠ 1) (hn : n = 2 ∨ (n : Int) ≤ cfg.minPoint + 1) :
    ∃ M lab out arr gs x, mergeTreesV1 n hp vp w h img gm v pts fuel bound = some M ∧
      IsComponentTree (MixedAdj eight hp vp w h) (fun p => img p.1 p.2 ^^^ gm) (pixels w h)
        (mergedTreeV1 n v lab fuel M) ∧
      recognizeV1 cfg Prod.fst fuel n (regsV1 v) (heapSize n w h) (ofForest M.forest var) = some out ∧
      Result (mergedTreeV1 n v lab fuel M) cfg (Selected (mergedTreeV1 n v lab fuel M) (limits cfg)) out arr gs ∧
      extractV1 n gm fuel (heapSize n w h) M out = some x ∧
      List.Forall₂ (fun r rec => ∃ l, readRange x rec = some l ∧
        RecordOf w h img gm (mergedTreeV1 n v lab fuel M) r l rec ∧ BoxOf l rec.rect) out.reported x.recs := by
  obtain ⟨M, lab, L, out, arr, gs, m, h1, h2, h3, h4, hsel, hready, hn0, hf', hcap⟩ :=
    extractedV1 (pts := pts) hl hw hh hI hc hr hb hf var h32 h64 hst hd
  obtain ⟨x, k, h5, hk, _, rec, e, hall, _⟩ := V1.extractV1_spec hready (n := n) (gm := gm) hn0 hf' hcap
  refine ⟨M, lab, out, arr, gs, x, h1, h2.tree, h3, h4, h5, ?_⟩
  rw [e, List.forall₂_map_right_iff, List.forall₂_same]
  intro r hr
  have hreg := (hsel r hr).reg
  have hk' := hk (by
    rcases hn with hn | hn
    · exact .inl (by omega)
    · refine .inr fun r hr => ?_
      have hs := hsel r (mem_topsOf.1 hr).1
      have := hs.min
      rw [size_length h2 hs.reg] at this
      have : (limits cfg).minPoint = cfg.minPoint := rfl
      omega)
  obtain ⟨t, ht, htop, hor⟩ := hready.find_top 256 r hr (by omega)
  obtain ⟨a, hP⟩ := hall r hr t (by rw [hk', List.take_length]; exact mem_topsOf.2 ⟨ht, htop⟩) hor
  refine ⟨_, read_of hn1 hP, record_of hI h2 (fun _ => rfl) hreg hP, ?_⟩
  rw [(hP.many hn1).2]
  exact box_of h2 hreg _

/-- **C69** (partial) With one thread the records cannot be read: in place of the pointer to the pixels there are two
numbers, the first and the last index of the region's pixels in the array of points.  These are right, as are size
and gray level; the rectangle is left empty. -/
theorem C69_one_thread_partial (hw : 1 ≤ w) (hh : 1 ≤ h) (hI : ImageOK w h img gm)
    (hc : w * h < 2 ^ 31) (hr : AllEnded eight 1 1 1 w h img gm pk border steps v) (hb : 513 ≤ bound)
    (hf : bound ≤ fuel) (var : Nat × Nat → ℚ)
    (h32 : Rounding cfg.r32) (h64 : Rounding cfg.r64) (hst : -1 ≤ cfg.stable) (hd : cfg.dup < cfg.r64 (3 / 5)) :
    ∃ M lab out arr gs x, mergeTreesV1 1 1 1 w h img gm v pts fuel bound = some M ∧
      IsComponentTree (MixedAdj eight 1 1 w h) (fun p => img p.1 p.2 ^^^ gm) (pixels w h)
        (mergedTreeV1 1 v lab fuel M) ∧
      recognizeV1 cfg Prod.fst fuel 1 (regsV1 v) (heapSize 1 w h) (ofForest M.forest var) = some out ∧
      Result (mergedTreeV1 1 v lab fuel M) cfg (Selected (mergedTreeV1 1 v lab fuel M) (limits cfg)) out arr gs ∧
      extractV1 1 gm fuel (heapSize 1 w h) M out = some x ∧
      List.Forall₂ (fun r rec => readRange x rec = none ∧ rec.rect = Extract.Rect.zero ∧
        ∃ (a : Nat) (l : List (Nat × Nat)), RecordOf w h img gm (mergedTreeV1 1 v lab fuel M) r l rec ∧
          rec.points = .pair a ((a : Int) + l.length - 1) ∧ ∀ i q, l[i]? = some q → x.mem (a + i) = some q)
        out.reported x.recs := by
  obtain ⟨M, lab, L, out, arr, gs, m, h1, h2, h3, h4, hsel, hready, hn0, hf', hcap⟩ :=
    extractedV1 (n := 1) (hp := 1) (vp := 1) (pts := pts) rfl hw hh hI hc hr hb (by simpa using hf) var h32 h64 hst hd
  obtain ⟨x, k, h5, hk, _, rec, e, hall, _⟩ := V1.extractV1_spec hready (n := 1) (gm := gm) hn0 hf' hcap
  refine ⟨M, lab, out, arr, gs, x, h1, h2.tree, h3, h4, h5, ?_⟩
  rw [e, List.forall₂_map_right_iff, List.forall₂_same]
  intro r hr
  have hreg := (hsel r hr).reg
  have hk' := hk (.inl (by omega))
  obtain ⟨t, ht, htop, hor⟩ := hready.find_top 256 r hr (by omega)
  obtain ⟨a, hP⟩ := hall r hr t (by rw [hk', List.take_length]; exact mem_topsOf.2 ⟨ht, htop⟩) hor
  obtain ⟨hp1, hp2⟩ := hP.one rfl
  have hpos := hready.pos (show (treeOf _ _ _).live r from hreg)
  refine ⟨?_, hp2, a, _, record_of hI h2 (fun _ => rfl) hreg hP, ?_, ?_⟩
  · unfold readRange
    rw [hp1, hP.size]
    simp only
    rw [if_neg (by omega)]
  · rw [List.length_map]; exact hp1
  · intro i q hi
    rw [List.getElem?_map, Option.map_eq_some_iff] at hi
    obtain ⟨p, hp, rfl⟩ := hi
    exact hP.cells i p hp

/-! ### Threads do not disturb each other -/

/-- **C68** The threads of extraction write to different cells of the array and to different linked points, whatever
the other threads have done so far (they change only references).  So it does not matter in which order they run. -/
theorem C68_threads_disjoint (hl : layoutV1 n = some (hp, vp)) (hw : hp ≤ w) (hh : vp ≤ h) (hI : ImageOK w h img gm)
    (hc : w * h < 2 ^ 31) (hr : AllEnded eight n hp vp w h img gm pk border steps v) (hb : 513 ≤ bound)
    (hf : bound * ((hp - 1) * h + (vp - 1) * w + 1) ≤ fuel) (var : Nat × Nat → ℚ)
    (h32 : Rounding cfg.r32) (h64 : Rounding cfg.r64) (hst : -1 ≤ cfg.stable) (hd : cfg.dup < cfg.r64 (3 / 5))
    (hn1 : n ≠ 1) :
    ∃ M out, mergeTreesV1 n hp vp w h img gm v pts fuel bound = some M ∧
      recognizeV1 cfg Prod.fst fuel n (regsV1 v) (heapSize n w h) (ofForest M.forest var) = some out ∧
      (out.reported ≠ [] → ∃ s : TopSt (Nat × Nat),
        out.reported.foldlM (topStep true fuel (heapSize n w h - out.reported.length)) ⟨out.R, []⟩ = some s ∧
        ∀ j k, j < k → k < n → ∀ a a' b b' : Fill,
          (∀ p, (a.pts p).next = (M.pts p).next) → (∀ p, (b.pts p).next = (M.pts p).next) →
          threadFill M.regs (s.tops.map fun r => (M.regs r).size.toNat).sum s.tops
            (splitTops n (s.tops.map fun r => (M.regs r).size.toNat)) a j = some a' →
          threadFill M.regs (s.tops.map fun r => (M.regs r).size.toNat).sum s.tops
            (splitTops n (s.tops.map fun r => (M.regs r).size.toNat)) b k = some b' →
          (∀ c, a'.mem c = a.mem c ∨ b'.mem c = b.mem c) ∧ ∀ p, a'.pts p = a.pts p ∨ b'.pts p = b.pts p) := by
  obtain ⟨M, lab, L, out, arr, gs, m, h1, h2, h3, h4, hsel, hready, hn0, hf', hcap⟩ :=
    extractedV1 (pts := pts) hl hw hh hI hc hr hb hf var h32 h64 hst hd
  refine ⟨M, out, h1, h3, fun hne => ?_⟩
  obtain ⟨x, k0, _, _, hS, _⟩ := V1.extractV1_spec hready (n := n) (gm := gm) hn0 hf' hcap
  obtain ⟨e, hS, _⟩ := hS hn1 hne
  obtain ⟨R', e'⟩ := V1.topStep_fold hready.ok hready.live (multi := true) (fuel := fuel)
    (cap := heapSize n w h - out.reported.length) hf' out.reported ⟨out.R, []⟩ hready.once (fun _ h => h)
    (fun x hx _ => hready.par x hx) hready.valid (by simpa [topsOf] using hcap)
  refine ⟨⟨R', topsOf (treeOf (mergedTreeV1 n v lab fuel M) (fun kr => kr.1 < n ∧ kr.2 < (v kr.1).nreg) m)
    out.reported⟩, by rw [e']; rfl, ?_⟩
  intro j k hjk hk a a' b b' ha hb' ea eb
  have hL := hready.listed
  have hsz : ((topsOf (treeOf (mergedTreeV1 n v lab fuel M) (fun kr => kr.1 < n ∧ kr.2 < (v kr.1).nreg) m)
      out.reported).map fun r => (M.regs r).size.toNat) = (topsOf (treeOf (mergedTreeV1 n v lab fuel M)
      (fun kr => kr.1 < n ∧ kr.2 < (v kr.1).nreg) m) out.reported).map fun r => (L r).length :=
    List.map_congr_left fun r hr => hL.size r hr
  refine V1.threads_apart (e := e) (by rw [hsz]; exact hS) hL hready.tops_nodup (le_of_eq ?_) hjk hk ha hb' ea eb
  rw [hsz, List.length_flatMap]

/-! ### An image with seven dots -/

/-- Seven isolated black pixels in the first of two rows. -/
def dotsImg : Nat → Nat → Nat := fun x y => if x % 2 = 0 ∧ y = 0 then 0 else 1

theorem dots_ok : ImageOK 13 2 dotsImg 0 :=
  ⟨by decide, by decide, fun x y _ _ => by unfold dotsImg; split <;> decide, by decide⟩

theorem dots_val (p : Nat × Nat) : dotsImg p.1 p.2 = 0 ∧ p.1 % 2 = 0 ∧ p.2 = 0 ∨
    dotsImg p.1 p.2 = 1 ∧ ¬ (p.1 % 2 = 0 ∧ p.2 = 0) := by
  unfold dotsImg
  by_cases h : p.1 % 2 = 0 ∧ p.2 = 0
  · exact .inl ⟨if_pos h, h⟩
  · exact .inr ⟨if_neg h, h⟩

/-- The dots. -/
def dots : Finset (Nat × Nat) := (pixels 13 2).filter fun p => dotsImg p.1 p.2 = 0

theorem dots_lconn {p q : Nat × Nat} (hp : dotsImg p.1 p.2 = 0)
    (h : LConn (Adj4 13 2) (fun p => dotsImg p.1 p.2) 0 p q) : p = q := by
  rcases Relation.ReflTransGen.cases_head h with e | ⟨b, ⟨⟨_, _, ha⟩, _, hb⟩, _⟩
  · exact e
  · exfalso
    have hb : dotsImg b.1 b.2 ≤ 0 := hb
    have h1 := dots_val p
    have h2 := dots_val b
    omega

theorem dots_tree {ι : Type} {T : RegionTree (Nat × Nat) ι}
    (hT : IsComponentTree (Adj4 13 2) (fun p => dotsImg p.1 p.2) (pixels 13 2) T) {p : Nat × Nat} (hp : p ∈ dots) :
    (∀ q ∈ pixels 13 2, T.Under (T.lab p) q ↔ p = q) ∧ T.gray (T.lab p) = 0 ∧ T.size (T.lab p) = 1 := by
  obtain ⟨h1, h2⟩ := Finset.mem_filter.1 hp
  have hg : T.gray (T.lab p) = 0 := by rw [hT.lab_gray p h1]; exact h2
  have hu : ∀ q ∈ pixels 13 2, T.Under (T.lab p) q ↔ p = q := by
    intro q hq
    rw [hT.comp _ (hT.lab_reg p h1) p h1 .refl q hq, hg]
    exact ⟨fun h => dots_lconn h2 h, fun e => by rw [e]; exact .refl⟩
  refine ⟨hu, hg, ?_⟩
  rw [hT.size_eq _ (hT.lab_reg p h1) {p}]
  · simp
  · intro q
    rw [Finset.mem_singleton]
    constructor
    · rintro rfl; exact ⟨h1, .refl⟩
    · rintro ⟨hq, h⟩; exact ((hu q hq).1 h).symm

/-- What is reported: the dots. -/
theorem dots_reported {T : RegionTree (Nat × Nat) (Nat × Nat)}
    (hT : IsComponentTree (Adj4 13 2) (fun p => dotsImg p.1 p.2) (pixels 13 2) T)
    {out : Recognized (Nat × Nat)} {arr : List (Nat × Nat)} {gs : List (List (Nat × Nat) × (Nat × Nat))}
    (hR : Result T lenientCfg (Selected T (limits lenientCfg)) out arr gs) :
    (∀ r ∈ out.reported, T.isReg r ∧ T.gray r = 0 ∧ T.size r = 1) ∧ out.reported.length = 7 := by
  classical
  have hrep : ∀ r, r ∈ out.reported ↔ ∃ p ∈ dots, T.lab p = r := by
    intro r
    constructor
    · intro hr
      have hs := (hR.mem r).1 (hR.sub r hr)
      obtain ⟨p, hp, e⟩ := hT.reg_lab r hs.reg
      refine ⟨p, Finset.mem_filter.2 ⟨hp, ?_⟩, e⟩
      rcases dots_val p with h | h
      · exact h.1
      · exfalso
        obtain ⟨r', e'⟩ := Option.ne_none_iff_exists'.1 hs.parent
        obtain ⟨h1, h2⟩ := hT.parent_reg r hs.reg r' e'
        obtain ⟨q, hq, eq⟩ := hT.reg_lab r' h1
        have g1 := hT.lab_gray p hp
        have g2 := hT.lab_gray q hq
        rw [e] at g1
        rw [eq] at g2
        have := dots_val q
        omega
    · rintro ⟨p, hp, rfl⟩
      obtain ⟨h1, h2⟩ := Finset.mem_filter.1 hp
      refine lenient_reported hT ?_ (by decide) hR h1 (q := (1, 0)) (by decide) ?_
      · intro q _; have := dots_val q; omega
      · intro hl
        rw [h2] at hl
        have := dots_lconn h2 hl
        subst this
        revert h2
        decide
  refine ⟨?_, ?_⟩
  · intro r hr
    obtain ⟨p, hp, rfl⟩ := (hrep r).1 hr
    exact ⟨hT.lab_reg p (Finset.mem_filter.1 hp).1, (dots_tree hT hp).2⟩
  · rw [← List.toFinset_card_of_nodup hR.rep_nodup]
    have : out.reported.toFinset = dots.image T.lab := by
      ext r
      rw [List.mem_toFinset, hrep, Finset.mem_image]
    rw [this, Finset.card_image_of_injOn]
    · decide
    · intro p hp q hq e
      have hq' := (Finset.mem_filter.1 (Finset.mem_coe.1 hq)).1
      refine ((dots_tree hT (Finset.mem_coe.1 hp)).1 q hq').1 ?_
      rw [e]; exact .refl

theorem dots_split : V1.threadRange (splitTops 4 (List.replicate 7 1)) 3 = [4] := by decide +kernel

/-- **C68** is false of the code: from the image with seven dots, four threads extract only five.  The records of the
other two point before the array. -/
theorem C68_small_regions_lost (var : Nat × Nat → ℚ) : ∃ v M out x,
    AllEnded false 4 2 2 13 2 dotsImg 0 pk border
      (fun k => 5 * ((pinfo 2 2 13 2 k).width * (pinfo 2 2 13 2 k).height)) v ∧
    mergeTreesV1 4 2 2 13 2 dotsImg 0 v pts 10000 513 = some M ∧
    recognizeV1 lenientCfg Prod.fst 10000 4 (regsV1 v) (heapSize 4 13 2) (ofForest M.forest var) = some out ∧
    extractV1 4 0 10000 (heapSize 4 13 2) M out = some x ∧ x.recs.length = 7 ∧
    ∀ i, i = 5 ∨ i = 6 → ∃ rec, x.recs[i]? = some rec ∧ rec.size = 1 ∧ rec.points = .addr (-1) ∧
      readRange x rec = none := by
  classical
  obtain ⟨v, hv⟩ := C64_all_patches_end (eight := false) (pk := pk) (border := border) (n := 4) (hp := 2) (vp := 2) rfl
    (by decide) (by decide) dots_ok (by decide)
  obtain ⟨M, lab, L, out, arr, gs, m, h1, h2, h3, h4, hsel, hready, hn0, hf', hcap⟩ :=
    extractedV1 (pts := pts) (fuel := 10000) (bound := 513) (cfg := lenientCfg) (n := 4) (hp := 2) (vp := 2) rfl (by decide) (by decide)
      dots_ok (by decide) hv (by decide) (by decide) var rounding_id rounding_id (by norm_num [lenientCfg])
      (by norm_num [lenientCfg])
  have hT := h2.tree
  rw [mixed_four] at hT
  simp only [Nat.xor_zero] at hT
  obtain ⟨hd, hlen⟩ := dots_reported hT h4
  have htops : topsOf (treeOf (mergedTreeV1 4 v lab 10000 M) (fun kr => kr.1 < 4 ∧ kr.2 < (v kr.1).nreg) m) out.reported =
      out.reported := by
    unfold topsOf
    rw [List.filter_eq_self]
    intro r hr
    rw [decide_eq_true_eq]
    intro a ha har
    have := (above_facts hready.ok (hd r hr).1 ha).2.1
    have e1 := (hd r hr).2.1
    have e2 := (hd a har).2.1
    have : (mergedTreeV1 4 v lab 10000 M).gray r < (mergedTreeV1 4 v lab 10000 M).gray a := this
    omega
  obtain ⟨x, k, h5, _, hS, rec, e, _, hlost⟩ := V1.extractV1_spec hready (n := 4) (gm := 0) hn0 hf' hcap
  rw [htops] at hS hlost
  have hL1 : ∀ r ∈ out.reported, (L r).length = 1 := by
    intro r hr; rw [← size_length h2 (hd r hr).1]; exact (hd r hr).2.2
  have hsz : (out.reported.map fun r => (L r).length) = List.replicate 7 1 := by
    rw [List.eq_replicate_iff]
    refine ⟨by simpa using hlen, ?_⟩
    intro b hb
    obtain ⟨r, hr, rfl⟩ := List.mem_map.1 hb
    exact hL1 r hr
  obtain ⟨ee, hS, hk⟩ := hS (by decide) (by intro hc; rw [hc] at hlen; cases hlen)
  rw [hsz] at hS
  have hr3 : _ = List.range' (ee 3) (ee 4 - ee 3) := hS.range 3 (by decide)
  rw [dots_split] at hr3
  have hk5 : k = 5 := by
    have hle := congrArg List.length hr3
    rw [List.length_range'] at hle
    have h6 : ee 4 - ee 3 = 1 := by simpa using hle.symm
    rw [h6] at hr3
    have : ee 3 = 4 := by simpa [List.range'] using hr3.symm
    have hm : ee 3 ≤ ee 4 := hS.mono 3 (by decide)
    have : ee 4 = k := hk
    omega
  subst hk5
  refine ⟨v, M, out, x, hv, h1, h3, h5, by rw [e, List.length_map]; exact hlen, ?_⟩
  intro i hi
  have hlt : i < out.reported.length := by omega
  have hmem : out.reported[i] ∈ out.reported := List.getElem_mem hlt
  have hrec := hlost out.reported[i] hmem (by
    rintro t ht (e0 | e0)
    · rw [List.mem_take_iff_getElem] at ht
      obtain ⟨j, hj, ej⟩ := ht
      have := (List.Nodup.getElem_inj_iff h4.rep_nodup).1 (ej.trans e0.symm)
      omega
    · have : IsTop _ out.reported out.reported[i] := (mem_topsOf.1 (by rw [htops]; exact hmem)).2
      exact this t e0 (List.mem_of_mem_take ht))
  have hreg := (hd _ hmem).1
  have hrun := h2.run _ hreg
  have hhead : (M.regs out.reported[i]).head ∈ L out.reported[i] := List.mem_of_mem_head? (by rw [hrun.head]; rfl)
  have hnone := h2.pure _ hreg _ hhead
  have hsize : (M.regs out.reported[i]).size = 1 := by rw [(h2.size _ hreg).1, hL1 _ hmem]; rfl
  refine ⟨rec out.reported[i], ?_, ?_, ?_, ?_⟩
  · rw [e, List.getElem?_map, List.getElem?_eq_getElem hlt]; rfl
  · rw [hrec.2]; exact hsize
  · rw [hrec.2]; unfold recMany; simp only [hnone]; rfl
  · rw [hrec.2]
    unfold readRange recMany
    simp only [hnone, hsize]
    rfl

/-- **C69** is false of the code: with one thread none of the seven records can be read. -/
theorem C69_unreadable (var : Nat × Nat → ℚ) : ∃ v M out x,
    AllEnded false 1 1 1 13 2 dotsImg 0 pk border
      (fun k => 5 * ((pinfo 1 1 13 2 k).width * (pinfo 1 1 13 2 k).height)) v ∧
    mergeTreesV1 1 1 1 13 2 dotsImg 0 v pts 10000 513 = some M ∧
    recognizeV1 lenientCfg Prod.fst 10000 1 (regsV1 v) (heapSize 1 13 2) (ofForest M.forest var) = some out ∧
    extractV1 1 0 10000 (heapSize 1 13 2) M out = some x ∧ x.recs.length = 7 ∧
    ∀ rec ∈ x.recs, readRange x rec = none := by
  obtain ⟨v, hv⟩ := C64_all_patches_end (eight := false) (pk := pk) (border := border) (n := 1) (hp := 1) (vp := 1) rfl
    (by decide) (by decide) dots_ok (by decide)
  obtain ⟨M, lab, out, arr, gs, x, h1, hT, h3, h4, h5, hall⟩ := C69_one_thread_partial (pts := pts) (fuel := 10000)
    (bound := 513) (cfg := lenientCfg) (by decide) (by decide) dots_ok (by decide) hv (by decide) (by decide) var
    rounding_id rounding_id (by norm_num [lenientCfg]) (by norm_num [lenientCfg])
  rw [mixed_four] at hT
  simp only [Nat.xor_zero] at hT
  obtain ⟨_, hlen⟩ := dots_reported hT h4
  refine ⟨v, M, out, x, hv, h1, h3, h5, by rw [← hall.length_eq]; exact hlen, ?_⟩
  intro rec hrec
  obtain ⟨i, hi, rfl⟩ := List.getElem_of_mem hrec
  have := (List.forall₂_iff_get.1 hall).2 i (by rw [hall.length_eq]; exact hi) hi
  exact this.1

/-- The dots meet the hypotheses of `C68_records_partial` with two threads. -/
example : ∃ v, AllEnded false 2 2 1 13 2 dotsImg 0 pk border
      (fun k => 5 * ((pinfo 2 1 13 2 k).width * (pinfo 2 1 13 2 k).height)) v ∧
    layoutV1 2 = some (2, 1) ∧ ImageOK 13 2 dotsImg 0 ∧ (lenientCfg.dup < lenientCfg.r64 (3 / 5)) := by
  obtain ⟨v, hv⟩ := C64_all_patches_end (eight := false) (pk := pk) (border := border) (n := 2) (hp := 2) (vp := 1) rfl
    (by decide) (by decide) dots_ok (by decide)
  exact ⟨v, hv, rfl, dots_ok, by norm_num [lenientCfg]⟩

end Verif.Props
