import Verif.Model.MatMerge
import Verif.Props.MatCopy
import Verif.Props.MatRun
import Mathlib.Data.List.Nodup

/-!
# C114, C115: repeating and joining arrays
-/

namespace Verif.Props

open Verif.Spec Verif.Mat

/-! ### Several copies into one new array -/

/-- What `set(other)` needs of sizes and types. -/
structure Fits (v s : Mat) : Prop where
  ne : v.dims ≠ []
  sizes : matSizes s = matSizes v
  chan : s.chan = v.chan
  depth : s.depth = v.depth
  pos : 0 < v.chan
  one : ∀ n ∈ matSizes v, 1 ≤ n
  av : Aligned v
  as : Aligned s

theorem setAll_spec (l : List (Mat × Mat)) (H : Heap) (hf : ∀ x ∈ l, Fits x.1 x.2 ∧ MatApart x.1)
    (hv : ∀ x ∈ l, MatLive H x.1) (hs : ∀ x ∈ l, MatLive H x.2) (hd : ∀ x ∈ l, ∀ y ∈ l, MatDisjoint x.1 y.2)
    (hp : l.Pairwise fun x y => MatDisjoint x.1 y.1) :
    ∃ H', setAll (l.map fun (x : Mat × Mat) => (some x.1, x.2)) H = some H' ∧
      (∀ x ∈ l, ∀ idx c b, MatIndex (matSizes x.1) idx → 0 ≤ c → c < x.1.chan → 0 ≤ b → b < x.1.unit →
        H' (matByte x.1 idx c b) = H (matByte x.2 idx c b)) ∧
      ∀ a, (∀ x ∈ l, ¬ MatHas x.1 a) → H' a = H a := by
  induction l generalizing H with
  | nil => exact ⟨H, rfl, by simp, fun _ _ => rfl⟩
  | cons x l ih =>
    obtain ⟨v, s⟩ := x
    obtain ⟨f, ap⟩ : Fits v s ∧ MatApart v := hf (v, s) (by simp)
    obtain ⟨H1, e1, c1, c2⟩ := C106_copy_partial H v s f.ne f.sizes f.chan f.depth f.pos f.one f.av f.as (hv (v, s) (by simp))
      (hs (v, s) (by simp)) ap (hd (v, s) (by simp) (v, s) (by simp))
    have keep : ∀ a, H a ≠ none → H1 a ≠ none := by
      intro a ha
      by_cases h : MatHas v a
      · obtain ⟨idx, c, b, hi, p0, p1, p2, p3, rfl⟩ := h
        rw [c1 idx c b hi p0 p1 p2 p3]
        have live : MatLive H s := hs (v, s) (by simp)
        exact live _ ⟨idx, c, b, by rw [f.sizes]; exact hi, p0, by have := f.chan; omega, p2, by
          have := unit_of_depth f.depth; omega, rfl⟩
      · rw [c2 a h]; exact ha
    rw [List.pairwise_cons] at hp
    obtain ⟨H2, e2, d1, d2⟩ := ih H1 (fun x hx => hf x (by simp [hx])) (fun x hx a ha => keep a (hv x (by simp [hx]) a ha))
      (fun x hx a ha => keep a (hs x (by simp [hx]) a ha)) (fun x hx y hy => hd x (by simp [hx]) y (by simp [hy])) hp.2
    refine ⟨H2, ?_, ?_, ?_⟩
    · rw [List.map_cons, setAll, e1]; exact e2
    · intro x hx idx c b hi p0 p1 p2 p3
      rcases List.mem_cons.1 hx with rfl | hx
      · have hh : MatHas v (matByte v idx c b) := ⟨idx, c, b, hi, p0, p1, p2, p3, rfl⟩
        rw [d2 _ fun y hy hy' => hp.1 y hy _ hh hy']
        exact c1 idx c b hi p0 p1 p2 p3
      · rw [d1 x hx idx c b hi p0 p1 p2 p3]
        apply c2
        intro hh
        have f' := (hf x (by simp [hx])).1
        exact hd (v, s) (by simp) x (by simp [hx]) _ hh ⟨idx, c, b, by rw [f'.sizes]; exact hi, p0, by have := f'.chan; omega, p2,
          by have := unit_of_depth f'.depth; omega, rfl⟩
    · intro a ha
      rw [d2 a fun x hx => ha x (by simp [hx])]
      exact c2 a (ha (v, s) (by simp))

theorem tiles_spec (H : Heap) (a : Int) (junk : Int → Nat) (sizes : List Int) (depth : Fin 10) (chan : Int)
    (h0 : ∀ n ∈ sizes, 0 ≤ n) (fresh : ∀ x, a ≤ x → x < a + allocSize sizes depth chan → H x = none) (l : List (Mat × Mat))
    (hl : ∀ x ∈ l, Fits x.1 x.2 ∧ MatLive H x.2 ∧ ∃ f k, MatView x.1 (create a sizes depth chan) f k)
    (hp : l.Pairwise fun x y => MatDisjoint x.1 y.1) :
    ∃ H', setAll (l.map fun (x : Mat × Mat) => (some x.1, x.2)) (alloc H a (allocSize sizes depth chan) junk) = some H' ∧
      (∀ x ∈ l, ∀ idx c b, MatIndex (matSizes x.1) idx → 0 ≤ c → c < x.1.chan → 0 ≤ b → b < x.1.unit →
        H' (matByte x.1 idx c b) = H (matByte x.2 idx c b)) ∧
      ∀ x, x < a ∨ a + allocSize sizes depth chan ≤ x → H' x = H x := by
  have hcr := C102_create a sizes depth chan h0
  have hold : ∀ x, H x ≠ none → alloc H a (allocSize sizes depth chan) junk x = H x := by
    intro x hx
    rw [alloc, if_neg]
    rintro ⟨p, q⟩
    exact hx (fresh x p q)
  have hin : ∀ x ∈ l, ∀ y, MatHas x.1 y → a ≤ y ∧ y < a + allocSize sizes depth chan := by
    intro x hx y hy
    obtain ⟨_, _, f, k, hview⟩ := hl x hx
    exact (hcr.2.2 y).1 (matView_inside hview y hy)
  obtain ⟨H', e, c1, c2⟩ := setAll_spec l (alloc H a (allocSize sizes depth chan) junk)
    (fun x hx => by
      obtain ⟨hf, _, f, k, hview⟩ := hl x hx
      exact ⟨hf, matView_apart hview hcr.2.1⟩)
    (fun x hx y hy => by
      rw [alloc, if_pos (hin x hx y hy)]
      simp)
    (fun x hx y hy => by
      have := (hl x hx).2.1 y hy
      rw [hold y this]; exact this)
    (fun x hx y hy z hz hz' => by
      have h2 := hin x hx z hz
      exact (hl y hy).2.1 z hz' (fresh z h2.1 h2.2)) hp
  refine ⟨H', e, ?_, ?_⟩
  · intro x hx idx c b hi p0 p1 p2 p3
    obtain ⟨hf, live, _⟩ := hl x hx
    rw [c1 x hx idx c b hi p0 p1 p2 p3]
    exact hold _ (live _ ⟨idx, c, b, by rw [hf.sizes]; exact hi, p0, by have := hf.chan; omega, p2, by
      have := unit_of_depth hf.depth; omega, rfl⟩)
  · intro x hx
    rw [c2 x fun y hy hh => by have := hin y hy x hh; omega, alloc, if_neg (by omega)]

/-- A view of a view. -/
theorem matView_trans {w v m : Mat} {f g : List Int → List Int} {s t : Int} (h : MatView w v g t) (h' : MatView v m f s) :
    MatView w m (fun idx => f (g idx)) (s + t) where
  depth := h.depth.trans h'.depth
  chan := by have := h.chan; have := h'.chan; omega
  index := fun idx hi => h'.index _ (h.index idx hi)
  inj := fun idx idx' hi hi' e => h.inj idx idx' hi hi' (h'.inj _ _ (h.index idx hi) (h.index idx' hi') e)
  addr := fun idx c hi => by rw [h.addr idx c hi, h'.addr _ _ (h.index idx hi), add_assoc]

/-- Views of an array share no byte when they show different elements or different channels. -/
theorem views_apart {v w m : Mat} {f g : List Int → List Int} {s t : Int} (hm : MatApart m) (h : MatView v m f s)
    (h' : MatView w m g t) (hd : ∀ idx idx' c c', MatIndex (matSizes v) idx → MatIndex (matSizes w) idx' → 0 ≤ c → c < v.chan →
      0 ≤ c' → c' < w.chan → ¬ (f idx = g idx' ∧ s + c = t + c')) : MatDisjoint v w := by
  rintro a ⟨idx, c, b, hi, p0, p1, p2, p3, rfl⟩ ⟨idx', c', b', hi', q0, q1, q2, q3, e⟩
  have hu := unit_of_depth h.depth
  have hu' := unit_of_depth h'.depth
  have hc := h.chan
  have hc' := h'.chan
  rw [matByte, matByte, h.addr idx c hi, h'.addr idx' c' hi'] at e
  have := hm (f idx) (s + c) b (g idx') (t + c') b' (h.index idx hi) (h'.index idx' hi') (by omega) (by omega) (by omega)
    (by omega) p2 (by omega) q2 (by omega) e
  exact hd idx idx' c c' hi hi' p0 p1 q0 q1 ⟨this.1, this.2.1⟩

theorem subLoop_step (ds : List Dim) (rs : List Range) (p : Int) (h : rs.length = ds.length) :
    (subLoop ds rs p).2.map Dim.step = ds.map Dim.step := by
  induction ds generalizing rs p with
  | nil => cases rs <;> simp [subLoop]
  | cons d ds ih =>
    cases rs with
    | nil => simp at h
    | cons r rs => simp [subLoop, ih rs _ (by simpa using h)]

/-- Parts of an array have the steps of the array. -/
theorem sub_aligned {m v : Mat} {rs : List Range} (h : Verif.Mat.sub m rs = some v) (ha : Aligned m) : Aligned v := by
  rw [Verif.Mat.sub] at h
  split at h
  · rw [← Option.some.inj h]; exact ha
  · split at h
    · simp at h
    · rename_i hl
      have hst := subLoop_step m.dims rs m.data (by simpa using hl)
      rw [← Option.some.inj h]
      obtain ⟨d, k, hd, e⟩ := ha
      have : ((subLoop m.dims rs m.data).2.map Dim.step).getLast? = some d.step := by rw [hst, List.getLast?_map, hd]; rfl
      rw [List.getLast?_map] at this
      obtain ⟨d', hd', e'⟩ := Option.map_eq_some_iff.1 this
      exact ⟨d', k, hd', by rw [e', e]; rfl⟩

theorem subChannel_aligned {m : Mat} (s e : Int) (ha : Aligned m) : Aligned (subChannel m s e) := by
  rw [subChannel]
  split
  · exact ha
  · exact ha

theorem dims_ne {m : Mat} (h : matSizes m ≠ []) : m.dims ≠ [] := fun e => h (by rw [matSizes, e]; rfl)

/-! ### The positions of `mt_array_index_iterator` -/

theorem posInc_digits (gs : List Digit) :
    posInc (gs.map fun (g : Digit) => (g.size, g.pos)) = (incLast gs).map fun (g : Digit) => (g.size, g.pos) := by
  induction gs with
  | nil => rfl
  | cons g gs ih =>
    cases gs with
    | nil => rfl
    | cons e es =>
      rw [List.map_cons, List.map_cons] at *
      rw [posInc, incLast, ih, List.map_cons]
      · simp
      · simp

theorem posCarry_digits (gs : List Digit) :
    posCarry (gs.map fun (g : Digit) => (g.size, g.pos)) = (carry gs).map fun (g : Digit) => (g.size, g.pos) := by
  induction gs with
  | nil => rfl
  | cons g gs ih =>
    rw [List.map_cons, posCarry, ih, carry]
    cases carry gs with
    | nil => rfl
    | cons e es =>
      simp only [List.map_cons]
      by_cases h : e.pos = e.size
      · rw [if_pos h, if_pos h]
        simp
      · rw [if_neg h, if_neg h]
        simp

theorem digits_pos (ns idx : List Int) (h : idx.length = ns.length) :
    ((digits 0 (ns.map fun (n : Int) => (⟨n, 0⟩ : Dim)) idx).map fun (g : Digit) => (g.size, g.pos)) = List.zip ns idx := by
  induction ns generalizing idx with
  | nil => simp [digits]
  | cons n ns ih =>
    cases idx with
    | nil => simp at h
    | cons i is =>
      rw [List.map_cons, digits, List.map_cons, List.zip_cons_cons]
      simp only [mul_zero, add_zero]
      rw [ih is (by simpa using h)]

theorem posRun_eq (ns : List Int) (h1 : ∀ n ∈ ns, 1 ≤ n) (f : Nat) :
    ∀ r : Nat, (r : Int) < matCount ns → matCount ns ≤ r + 1 + f →
      posRun (matCount ns) f (r + 1) (List.zip ns (unrank ns r)) =
        (List.range' (r + 1) ((matCount ns).toNat - (r + 1))).map fun (k : Nat) => unrank ns k := by
  have hsz : (ns.map fun (n : Int) => (⟨n, 0⟩ : Dim)).map Dim.size = ns := by simp [Function.comp_def]
  induction f with
  | zero =>
    intro r hr hf
    rw [posRun, show (matCount ns).toNat - (r + 1) = 0 by omega]
    simp
  | succ f ih =>
    intro r hr hf
    rw [posRun]
    by_cases he : (r : Int) + 1 = matCount ns
    · rw [if_pos he, show (matCount ns).toNat - (r + 1) = 0 by omega]
      simp
    · rw [if_neg he]
      have hn := carry_next 0 (ns.map fun (n : Int) => (⟨n, 0⟩ : Dim)) (by
        intro d hd
        obtain ⟨n, hn, rfl⟩ := List.mem_map.1 hd
        exact h1 n hn) r (by omega) (by rw [hsz]; exact hr)
      rw [hsz] at hn
      have hstep : posCarry (posInc (List.zip ns (unrank ns r))) = List.zip ns (unrank ns (r + 1)) := by
        rw [← digits_pos ns _ (unrank_length _ _), posInc_digits, posCarry_digits, hn, digits_pos ns _ (unrank_length _ _)]
      simp only [hstep]
      rw [show (matCount ns).toNat - (r + 1) = (matCount ns).toNat - (r + 1 + 1) + 1 by omega, List.range'_succ, List.map_cons]
      congr 1
      · have := List.map_snd_zip (l₁ := ns) (l₂ := unrank ns (r + 1)) (by rw [unrank_length])
        push_cast; exact this
      · have := ih (r + 1) (by omega) (by push_cast; omega)
        push_cast at this ⊢
        exact this

/-- The positions are all indices in row-major order. -/
theorem positions_eq (ns : List Int) (h1 : ∀ n ∈ ns, 1 ≤ n) : positions ns = matAll ns := by
  have hc := matCount_pos h1
  rw [matAll_eq ns fun n hn => by have := h1 n hn; omega]
  rw [positions, foldl_count, one_mul]
  have hz : (ns.map fun (n : Int) => (n, (0 : Int))) = List.zip ns (unrank ns 0) := by
    rw [unrank_zero]
    clear h1 hc
    induction ns with
    | nil => rfl
    | cons n ns ih => rw [List.length_cons, List.replicate_succ, List.map_cons, List.zip_cons_cons, ih]
  simp only [hz]
  have := posRun_eq ns h1 (matCount ns).toNat 0 (by push_cast; omega) (by push_cast; omega)
  rw [Nat.cast_zero, zero_add] at this
  rw [this, List.map_snd_zip (by rw [unrank_length])]
  obtain ⟨k, hk⟩ : ∃ k, (matCount ns).toNat = k + 1 := ⟨(matCount ns).toNat - 1, by omega⟩
  rw [hk, List.range_eq_range', List.range'_succ, List.map_cons]
  simp

/-! ### C114: `repeat` -/

theorem sub_chan {m v : Mat} {rs : List Range} (h : Verif.Mat.sub m rs = some v) : v.chan = m.chan := by
  rw [Verif.Mat.sub] at h
  split at h
  · rw [← Option.some.inj h]
  · split at h
    · simp at h
    · rw [← Option.some.inj h]

theorem tile_check (ds : List Dim) (sizes ns pos : List Int) (hd : ds.map Dim.size = List.zipWith (fun (x y : Int) => x * y) sizes ns)
    (h1 : ∀ n ∈ sizes, 1 ≤ n) (hp : MatIndex ns pos) : subCheck ds (tileRanges sizes pos) = true := by
  induction ds generalizing sizes ns pos with
  | nil => simp [subCheck]
  | cons d ds ih =>
    cases sizes with
    | nil => simp at hd
    | cons n sizes =>
      cases hp with
      | nil => simp at hd
      | @cons k i ns pos hki hp =>
        rw [List.map_cons, List.zipWith_cons_cons, List.cons.injEq] at hd
        rw [tileRanges, List.zipWith_cons_cons, subCheck, Bool.and_eq_true, decide_eq_true_eq]
        have hn := h1 n (by simp)
        refine ⟨⟨by simp only; omega, ?_⟩, ih sizes ns pos hd.2 (fun n hn => h1 n (by simp [hn])) hp⟩
        simp only
        rw [hd.1]
        nlinarith [hki.1, hki.2]

theorem tile_sizes (sizes ns pos : List Int) (hl : ns.length = sizes.length) (hp : MatIndex ns pos) :
    (tileRanges sizes pos).map (fun r => r.stop - r.start) = sizes ∧ (tileRanges sizes pos).length = sizes.length := by
  have hpl : pos.length = sizes.length := by rw [← MatIndex.length hp, hl]
  clear hp
  refine ⟨?_, by rw [tileRanges, List.length_zipWith]; omega⟩
  induction sizes generalizing pos ns with
  | nil => simp [tileRanges]
  | cons n sizes ih =>
    cases pos with
    | nil => simp at hpl
    | cons p pos =>
      have := ih (ns.drop 1) pos (by simp; simp at hl; omega) (by simpa using hpl)
      rw [tileRanges] at *
      rw [List.zipWith_cons_cons, List.map_cons, this]
      simp

theorem tile_start (sizes ns pos : List Int) (h1 : ∀ n ∈ sizes, 1 ≤ n) (hp : MatIndex ns pos) :
    ∀ r ∈ tileRanges sizes pos, 0 ≤ r.start := by
  intro r hr
  rw [tileRanges] at hr
  obtain ⟨i, hi, rfl⟩ := List.getElem_of_mem hr
  rw [List.getElem_zipWith]
  rw [List.length_zipWith] at hi
  have hpi : i < pos.length := by omega
  have hni : i < ns.length := by rw [MatIndex.length hp]; exact hpi
  have := (matIndex_get hp i ns[i] pos[i] (List.getElem?_eq_getElem hni) (List.getElem?_eq_getElem hpi)).1
  have := h1 sizes[i] (List.getElem_mem (by omega))
  exact mul_nonneg (by assumption) (by omega)

/-- Where a repeated element comes from. -/
def modIdx (sizes idx : List Int) : List Int := List.zipWith (fun (n i : Int) => i % n) sizes idx

/-- In which repetition it lies. -/
def divIdx (sizes idx : List Int) : List Int := List.zipWith (fun (n i : Int) => i / n) sizes idx

theorem divMod_spec (sizes ns idx : List Int) (h1 : ∀ n ∈ sizes, 1 ≤ n) (hl : ns.length = sizes.length)
    (hi : MatIndex (List.zipWith (fun (x y : Int) => x * y) sizes ns) idx) :
    MatIndex ns (divIdx sizes idx) ∧ MatIndex sizes (modIdx sizes idx) ∧
      addStarts (tileRanges sizes (divIdx sizes idx)) (modIdx sizes idx) = idx := by
  induction sizes generalizing ns idx with
  | nil =>
    have : ns = [] := List.length_eq_zero_iff.1 hl
    subst this
    cases hi
    exact ⟨matIndex_nil, matIndex_nil, rfl⟩
  | cons n sizes ih =>
    cases ns with
    | nil => simp at hl
    | cons k ns =>
      rw [List.zipWith_cons_cons] at hi
      cases hi with
      | @cons _ i _ idx hik hi =>
        obtain ⟨a, b, c⟩ := ih ns idx (fun n hn => h1 n (by simp [hn])) (by simpa using hl) hi
        have hn : 0 < n := by have := h1 n (by simp); omega
        have e := Int.emod_add_mul_ediv i n
        have m0 := Int.emod_nonneg i hn.ne'
        have m1 := Int.emod_lt_of_pos i hn
        refine ⟨matIndex_cons.2 ⟨⟨Int.ediv_nonneg hik.1 hn.le, Int.ediv_lt_of_lt_mul hn (by rw [mul_comm]; exact hik.2)⟩, a⟩,
          matIndex_cons.2 ⟨⟨m0, m1⟩, b⟩, ?_⟩
        simp only [divIdx, modIdx, tileRanges, addStarts, List.zipWith_cons_cons] at c ⊢
        rw [c]
        congr 1
        rw [mul_comm]; omega

theorem tile_inj (sizes pos pos' x x' : List Int) (hp : pos.length = sizes.length) (hp' : pos'.length = sizes.length)
    (hx : MatIndex sizes x) (hx' : MatIndex sizes x')
    (e : addStarts (tileRanges sizes pos) x = addStarts (tileRanges sizes pos') x') : pos = pos' := by
  induction hx generalizing pos pos' x' with
  | nil =>
    rw [List.length_eq_zero_iff.1 hp, List.length_eq_zero_iff.1 hp']
  | @cons n i sizes x hi _ ih =>
    cases hx' with
    | @cons _ i' _ x' hi' hx' =>
      cases pos with
      | nil => simp at hp
      | cons p pos =>
        cases pos' with
        | nil => simp at hp'
        | cons p' pos' =>
          rw [addStarts, addStarts, tileRanges, tileRanges] at e
          simp only [List.zipWith_cons_cons, List.cons.injEq] at e
          rw [ih pos pos' x' (by simpa using hp) (by simpa using hp') hx' e.2]
          congr 1
          have h1 : (p - p') * n = i' - i := by linarith [e.1]
          rcases lt_trichotomy p p' with h | h | h
          · nlinarith [hi.1, hi.2, hi'.1, hi'.2]
          · exact h
          · nlinarith [hi.1, hi.2, hi'.1, hi'.2]

/-- One tile of the result. -/
def tile (r : Mat) (sizes : List Int) (chan : Int) (x : List Int × Nat) : Mat :=
  subChannel ((Verif.Mat.sub r (tileRanges sizes x.1)).getD r) (x.2 * chan) (x.2 * chan + chan)

/-- What `repeat` is for. -/
def Repeated (H H' : Heap) (m r : Mat) (ns : List Int) (nch : Nat) : Prop :=
  matSizes r = List.zipWith (fun (x y : Int) => x * y) (matSizes m) ns ∧ r.depth = m.depth ∧ r.chan = m.chan * nch ∧
    ∀ idx c b, MatIndex (matSizes r) idx → 0 ≤ c → c < r.chan → 0 ≤ b → b < r.unit →
      H' (matByte r idx c b) = H (matByte m (modIdx (matSizes m) idx) (c % m.chan) b)

/-- C114: `repeat` gives every element the value of the element at the index modulo the sizes, and changes only new memory. -/
theorem C114_repeat (H : Heap) (m : Mat) (ns : List Int) (nch : Nat) (a : Int) (junk : Int → Nat) (hne : m.dims ≠ [])
    (hc : 0 < m.chan) (h1 : ∀ n ∈ matSizes m, 1 ≤ n) (am : Aligned m) (lm : MatLive H m) (hl : ns.length = m.dims.length)
    (hn : ∀ n ∈ ns, 1 ≤ n) (hch : 1 ≤ nch)
    (fresh : ∀ x, a ≤ x → x < a + memorySize m * matCount ns * nch → H x = none) :
    ∃ H' r, repeatMat H m ns nch a junk = some (H', r) ∧ Repeated H H' m r ns nch ∧
      ∀ x, x < a ∨ a + memorySize m * matCount ns * nch ≤ x → H' x = H x := by
  have hls : ns.length = (matSizes m).length := by rw [matSizes, List.length_map]; exact hl
  rw [repeatMat]
  simp only
  rw [show m.dims.map Dim.size = matSizes m from rfl, if_neg (by simpa using hl)]
  by_cases hone : (ns.all fun (n : Int) => decide (n ≤ 1)) = true ∧ nch = 1
  · rw [if_pos hone]
    have hns : ns = List.replicate ns.length 1 := by
      apply List.eq_replicate_of_mem
      intro n h
      have h2 := List.all_eq_true.1 hone.1 n h
      rw [decide_eq_true_eq] at h2
      have := hn n h
      omega
    have hcount : matCount ns = 1 := by
      rw [hns]
      generalize ns.length = k
      induction k with
      | zero => rfl
      | succ k ih => rw [List.replicate_succ, matCount, ih]; rfl
    rw [hcount, hone.2] at fresh ⊢
    simp only [Nat.cast_one, mul_one] at fresh ⊢
    obtain ⟨H', r, e, rs, rd, rc, _, _, _, hcp, hout⟩ := C107_clone H m a junk hne hc h1 am lm fresh
    have hz : List.zipWith (fun (x y : Int) => x * y) (matSizes m) ns = matSizes m := by
      rw [hns, hls]
      clear e rs hcp
      generalize matSizes m = l
      induction l with
      | nil => rfl
      | cons x l ih => rw [List.length_cons, List.replicate_succ, List.zipWith_cons_cons, ih, mul_one]
    refine ⟨H', r, e, ⟨by rw [hz, rs], rd, by rw [rc]; simp, ?_⟩, hout⟩
    intro idx c b hi c0 c1 b0 b1
    rw [rs] at hi
    have hu := unit_of_depth rd
    rw [hcp idx c b hi c0 (by omega) b0 (by omega), Int.emod_eq_of_lt c0 (by omega)]
    congr 2
    have hm : ∀ (l idx : List Int), MatIndex l idx → modIdx l idx = idx := by
      intro l idx hi
      induction hi with
      | nil => rfl
      | @cons n i l idx hni _ ih => rw [modIdx] at *; rw [List.zipWith_cons_cons, ih, Int.emod_eq_of_lt hni.1 hni.2]
    rw [hm _ _ hi]
  · rw [if_neg hone]
    generalize hdst : List.zipWith (fun (x y : Int) => x * y) (matSizes m) ns = dst
    have hd0 : ∀ n ∈ dst, 0 ≤ n := by
      intro n h
      rw [← hdst] at h
      obtain ⟨i, hi, rfl⟩ := List.getElem_of_mem h
      rw [List.getElem_zipWith]
      rw [List.length_zipWith] at hi
      have := h1 (matSizes m)[i] (List.getElem_mem (by omega))
      have := hn ns[i] (List.getElem_mem (by omega))
      exact mul_nonneg (by omega) (by omega)
    have hcnt : matCount dst = matCount (matSizes m) * matCount ns := by
      rw [← hdst]
      have : ∀ (l k : List Int), k.length = l.length →
          matCount (List.zipWith (fun (x y : Int) => x * y) l k) = matCount l * matCount k := by
        intro l
        induction l with
        | nil => intro k h; rw [List.length_eq_zero_iff.1 h]; rfl
        | cons x l ih =>
          intro k h
          cases k with
          | nil => simp at h
          | cons y k => rw [List.zipWith_cons_cons, matCount, matCount, matCount, ih k (by simpa using h)]; ring
      exact this _ _ hls
    have hsize : allocSize dst m.depth (m.chan * nch) = memorySize m * matCount ns * nch := by
      rw [allocSize, foldl_count, hcnt, memorySize, elementNumber_eq, Mat.elemSize, Mat.unit]; ring
    have hcr := C102_create a dst m.depth (m.chan * nch) hd0
    generalize hr : create a dst m.depth (m.chan * nch) = r at hcr
    have hrc : r.chan = m.chan * nch := by rw [← hr]; rfl
    have hrd : r.depth = m.depth := by rw [← hr]; rfl
    have hsne : matSizes m ≠ [] := by simpa [matSizes] using hne
    have hdne : dst ≠ [] := by
      rw [← hdst]
      intro h
      have := congrArg List.length h
      rw [List.length_zipWith, List.length_nil] at this
      have := List.length_pos_iff.2 hsne
      omega
    have hra : Aligned r := by rw [← hr]; exact aligned_create _ _ _ _ hdne
    have hrl : r.dims.length = (matSizes m).length := by
      have := congrArg List.length hcr.1
      rw [← hdst, List.length_zipWith, matSizes, List.length_map] at this
      omega
    -- every tile is a view of the result
    have htile : ∀ pos (c : Nat), MatIndex ns pos → c < nch → ∃ v, Verif.Mat.sub r (tileRanges (matSizes m) pos) = some v ∧
        matSizes (tile r (matSizes m) m.chan (pos, c)) = matSizes m ∧ (tile r (matSizes m) m.chan (pos, c)).chan = m.chan ∧
        MatView (tile r (matSizes m) m.chan (pos, c)) r (addStarts (tileRanges (matSizes m) pos)) (c * m.chan) ∧
        Aligned (tile r (matSizes m) m.chan (pos, c)) := by
      intro pos c hpos hcn
      obtain ⟨t1, t2⟩ := tile_sizes (matSizes m) ns pos hls hpos
      have hrne : tileRanges (matSizes m) pos ≠ [] := by
        intro h; rw [h] at t2; exact hsne (List.length_eq_zero_iff.1 t2.symm)
      have hv : ∃ v, Verif.Mat.sub r (tileRanges (matSizes m) pos) = some v := by
        rw [Verif.Mat.sub, if_neg hrne, if_neg (by rw [t2, hrl]; simp)]
        exact ⟨_, rfl⟩
      obtain ⟨v, hv⟩ := hv
      obtain ⟨hview, hvs⟩ := C97_sub_partial r v _ hrne (tile_check r.dims (matSizes m) ns pos (by
        rw [hdst]; exact hcr.1) h1 hpos) hv (tile_start _ ns pos h1 hpos)
      rw [t1] at hvs
      have hvc := sub_chan hv
      have hle : (c : Int) * m.chan + m.chan ≤ v.chan := by
        rw [hvc, hrc]
        have : ((c : Int) + 1) * m.chan ≤ nch * m.chan := mul_le_mul_of_nonneg_right (by omega) hc.le
        nlinarith
      obtain ⟨w1, w2, w3⟩ := C101_channels v (c * m.chan) (c * m.chan + m.chan) (mul_nonneg (by omega) hc.le) hle
      have ht : tile r (matSizes m) m.chan (pos, c) = subChannel v (c * m.chan) (c * m.chan + m.chan) := by
        rw [tile]; simp only; rw [hv]; rfl
      refine ⟨v, hv, by rw [ht, w3, hvs], by rw [ht, w2]; omega, ?_, by
        rw [ht]; exact subChannel_aligned _ _ (sub_aligned hv hra)⟩
      have := matView_trans w1 hview
      rw [zero_add] at this
      rw [ht]
      exact this
    have hmem : ∀ x ∈ (matAll ns).product (List.range nch), MatIndex ns x.1 ∧ x.2 < nch := by
      intro x hx
      obtain ⟨p, q⟩ := List.pair_mem_product.1 hx
      exact ⟨(mem_matAll fun n h => by have := hn n h; omega).1 p, List.mem_range.1 q⟩
    have hlist : ((positions ns).flatMap fun pos => (List.range nch).map fun (c : Nat) =>
        ((Verif.Mat.sub r (tileRanges (matSizes m) pos)).map fun v => subChannel v (c * m.chan) (c * m.chan + m.chan), m)) =
        (((matAll ns).product (List.range nch)).map fun x => (tile r (matSizes m) m.chan x, m)).map
          fun (x : Mat × Mat) => (some x.1, x.2) := by
      rw [positions_eq ns hn, List.product, List.map_map, List.map_flatMap, List.flatMap_def, List.flatMap_def]
      congr 1
      apply List.map_congr_left
      intro pos hpos
      rw [List.map_map]
      apply List.map_congr_left
      intro c hcn
      obtain ⟨v, hv, _⟩ := htile pos c ((mem_matAll fun n h => by have := hn n h; omega).1 hpos) (List.mem_range.1 hcn)
      simp only [Function.comp_apply, tile, hv, Option.map_some, Option.getD_some]
    have hpair : ((((matAll ns).product (List.range nch)).map fun x => (tile r (matSizes m) m.chan x, m))).Pairwise
        fun (x y : Mat × Mat) => MatDisjoint x.1 y.1 := by
      rw [List.pairwise_map]
      have hnd : ((matAll ns).product (List.range nch)).Nodup := by
        apply List.Nodup.product
        · apply List.Nodup.of_map (matRank ns)
          rw [(C105_order ns fun n h => by have := hn n h; omega).2]
          exact List.Nodup.map (fun x y h => by exact_mod_cast h) List.nodup_range
        · exact List.nodup_range
      refine List.Pairwise.imp_of_mem ?_ hnd
      rintro ⟨pos, c⟩ ⟨pos', c'⟩ hx hy hxy
      obtain ⟨p1, p2⟩ := hmem _ hx
      obtain ⟨q1, q2⟩ := hmem _ hy
      obtain ⟨_, _, s1, k1, v1, _⟩ := htile pos c p1 p2
      obtain ⟨_, _, s2, k2, v2, _⟩ := htile pos' c' q1 q2
      apply views_apart hcr.2.1 v1 v2
      rintro idx idx' i i' hi hi' i0 i1 i0' i1' ⟨e1, e2⟩
      rw [s1] at hi
      rw [s2] at hi'
      rw [k1] at i1
      rw [k2] at i1'
      have := tile_inj (matSizes m) pos pos' idx idx' (by rw [← MatIndex.length p1, hls]) (by rw [← MatIndex.length q1, hls])
        hi hi' e1
      apply hxy
      have hcc : (c : Int) = c' := by
        have h1 : ((c : Int) - c') * m.chan = i' - i := by linarith
        rcases lt_trichotomy (c : Int) c' with h | h | h
        · nlinarith
        · exact h
        · nlinarith
      rw [this, Int.ofNat.inj hcc]
    obtain ⟨H', e, t1, t2⟩ := tiles_spec H a junk dst m.depth (m.chan * nch) hd0 (by rw [hsize]; exact fresh)
      (((matAll ns).product (List.range nch)).map fun x => (tile r (matSizes m) m.chan x, m)) (by
        intro y hy
        obtain ⟨⟨pos, c⟩, hx, rfl⟩ := List.mem_map.1 hy
        obtain ⟨p1, p2⟩ := hmem _ hx
        obtain ⟨_, _, s1, k1, v1, al⟩ := htile pos c p1 p2
        rw [hr]
        exact ⟨⟨dims_ne (by rw [s1]; exact hsne), s1.symm, k1.symm, by simp only; rw [v1.depth, hrd], by simp only; omega,
          by rw [s1]; exact h1, al, am⟩, lm, _, _, v1⟩) hpair
    rw [← hlist] at e
    refine ⟨H', r, by rw [e]; rfl, ⟨by rw [hdst]; exact hcr.1, hrd, hrc, ?_⟩, by rw [← hsize]; exact t2⟩
    intro idx ch b hi c0 c1 b0 b1
    rw [hcr.1, ← hdst] at hi
    obtain ⟨d1, d2, d3⟩ := divMod_spec (matSizes m) ns idx h1 hls hi
    have e1 := Int.emod_add_mul_ediv ch m.chan
    have m0 := Int.emod_nonneg ch hc.ne'
    have m1 := Int.emod_lt_of_pos ch hc
    have q0 : 0 ≤ ch / m.chan := Int.ediv_nonneg c0 hc.le
    have q1 : ch / m.chan < nch := Int.ediv_lt_of_lt_mul hc (by rw [hrc] at c1; linarith [mul_comm (nch : Int) m.chan])
    obtain ⟨_, _, s1, k1, v1, _⟩ := htile (divIdx (matSizes m) idx) (ch / m.chan).toNat d1 (by omega)
    have hcast : (((ch / m.chan).toNat : Nat) : Int) = ch / m.chan := by omega
    have := t1 (tile r (matSizes m) m.chan (divIdx (matSizes m) idx, (ch / m.chan).toNat), m) (by
      apply List.mem_map.2
      refine ⟨(divIdx (matSizes m) idx, (ch / m.chan).toNat), ?_, rfl⟩
      apply List.pair_mem_product.2
      exact ⟨(mem_matAll fun n h => by have := hn n h; omega).2 d1, List.mem_range.2 (by omega)⟩)
      (modIdx (matSizes m) idx) (ch % m.chan) b (by simp only; rw [s1]; exact d2) m0 (by simp only; rw [k1]; exact m1) b0 (by
        simp only; rw [unit_of_depth v1.depth]; exact b1)
    simp only at this
    rw [← this, matByte, matByte, v1.addr _ _ (by rw [s1]; exact d2), d3, hcast]
    congr 3
    linarith [mul_comm m.chan (ch / m.chan)]

example : ∃ (H : Heap) (m : Mat) (ns : List Int) (nch : Nat) (a : Int), m.dims ≠ [] ∧ 0 < m.chan ∧ (∀ n ∈ matSizes m, 1 ≤ n) ∧
    Aligned m ∧ MatLive H m ∧ ns.length = m.dims.length ∧ (∀ n ∈ ns, 1 ≤ n) ∧ 1 ≤ nch ∧
    ∀ x, a ≤ x → x < a + memorySize m * matCount ns * nch → H x = none := by
  refine ⟨fun x => if x < 200 then some 0 else none, create 0 [4, 5] 2 3, [2, 3], 2, 300, by decide, by decide, by decide,
    aligned_create _ _ _ _ (by decide), ?_, by decide, by decide, by decide, fun x hx _ => if_neg (by omega)⟩
  intro x hx
  have h1 := ((C102_create 0 [4, 5] 2 3 (by decide)).2.2 x).1 hx
  have : allocSize [4, 5] 2 3 = 120 := by decide
  show (if x < 200 then some 0 else none) ≠ none
  rw [if_pos (by omega)]
  simp

/-! ### C115: joining arrays -/

/-- What joining channels is for: the channels of every element come after those of the elements before. -/
def MergedChannels (H H' : Heap) (es : List Mat) (r : Mat) : Prop :=
  (∀ e ∈ es, matSizes r = matSizes e ∧ r.depth = e.depth) ∧ r.chan = (es.map Mat.chan).sum ∧
    ∀ pre e post, es = pre ++ e :: post → ∀ idx c b, MatIndex (matSizes e) idx → 0 ≤ c → c < e.chan → 0 ≤ b → b < e.unit →
      H' (matByte r idx ((pre.map Mat.chan).sum + c) b) = H (matByte e idx c b)

theorem chanSum_nonneg {es : List Mat} (hc : ∀ e ∈ es, 0 < e.chan) : 0 ≤ (es.map Mat.chan).sum := by
  induction es with
  | nil => simp
  | cons e es ih =>
    rw [List.map_cons, List.sum_cons]
    have := ih fun e he => hc e (by simp [he])
    have := hc e (by simp)
    omega

theorem chanTiles_spec (r : Mat) (es : List Mat) (k : Int) (hc : ∀ e ∈ es, 0 < e.chan) :
    ∃ l : List (Mat × Mat), chanTiles r k es = l.map (fun (x : Mat × Mat) => (some x.1, x.2)) ∧
      (∀ x ∈ l, x.2 ∈ es ∧ ∃ s, k ≤ s ∧ s + x.2.chan ≤ k + (es.map Mat.chan).sum ∧ x.1 = subChannel r s (s + x.2.chan)) ∧
      (∀ pre e post, es = pre ++ e :: post →
        (subChannel r (k + (pre.map Mat.chan).sum) (k + (pre.map Mat.chan).sum + e.chan), e) ∈ l) ∧
      l.Pairwise fun x y => ∃ s t, k ≤ s ∧ x.1 = subChannel r s (s + x.2.chan) ∧ y.1 = subChannel r t (t + y.2.chan) ∧
        s + x.2.chan ≤ t ∧ t + y.2.chan ≤ k + (es.map Mat.chan).sum := by
  induction es generalizing k with
  | nil => exact ⟨[], rfl, by simp, by simp, List.Pairwise.nil⟩
  | cons e es ih =>
    obtain ⟨l, h1, h2, h3, h4⟩ := ih (k + e.chan) fun e he => hc e (by simp [he])
    have hs := chanSum_nonneg fun x (hx : x ∈ es) => hc x (by simp [hx])
    have he := hc e (by simp)
    refine ⟨(subChannel r k (k + e.chan), e) :: l, by rw [chanTiles, h1]; rfl, ?_, ?_, ?_⟩
    · intro x hx
      rw [List.map_cons, List.sum_cons]
      rcases List.mem_cons.1 hx with rfl | hx
      · exact ⟨by simp, k, le_refl _, by simp only; omega, rfl⟩
      · obtain ⟨p, s, q1, q2, q3⟩ := h2 x hx
        exact ⟨by simp [p], s, by omega, by omega, q3⟩
    · intro pre x post hpre
      cases pre with
      | nil =>
        obtain ⟨rfl, _⟩ := List.cons.inj hpre
        simp
      | cons y pre =>
        obtain ⟨rfl, hp⟩ := List.cons.inj hpre
        rw [List.map_cons, List.sum_cons, ← add_assoc]
        exact List.mem_cons_of_mem _ (h3 pre x post hp)
    · rw [List.pairwise_cons]
      rw [List.map_cons, List.sum_cons]
      refine ⟨?_, h4.imp fun ⟨s, t, a, b, c, d, f⟩ => ⟨s, t, by omega, b, c, d, by omega⟩⟩
      intro x hx
      obtain ⟨p, s, q1, q2, q3⟩ := h2 x hx
      exact ⟨k, s, le_refl _, rfl, q3, q1, by omega⟩

/-- C115: `merge_align_channel` of arrays with the same sizes and depth. -/
theorem C115_channels (H : Heap) (es : List Mat) (share : Bool) (a : Int) (junk : Int → Nat) (sizes : List Int) (depth : Fin 10)
    (hes : es ≠ []) (hsz : ∀ e ∈ es, matSizes e = sizes) (hdep : ∀ e ∈ es, e.depth = depth) (hne : sizes ≠ [])
    (h1 : ∀ n ∈ sizes, 1 ≤ n) (hc : ∀ e ∈ es, 0 < e.chan) (al : ∀ e ∈ es, Aligned e) (live : ∀ e ∈ es, MatLive H e)
    (fresh : ∀ x, a ≤ x → x < a + allocSize sizes depth (es.map Mat.chan).sum → H x = none) :
    ∃ H' r, mergeChannel H es share a junk = some (H', r) ∧ MergedChannels H H' es r ∧
      ∀ x, x < a ∨ a + allocSize sizes depth (es.map Mat.chan).sum ≤ x → H' x = H x := by
  cases es with
  | nil => exact absurd rfl hes
  | cons e es =>
    rw [mergeChannel]
    by_cases hsh : es = [] ∧ share = true
    · rw [if_pos hsh]
      obtain ⟨rfl, _⟩ := hsh
      refine ⟨H, e, rfl, ⟨by simp, by simp, ?_⟩, fun _ _ => rfl⟩
      intro pre x post hp idx c b _ _ _ _ _
      cases pre with
      | nil =>
        obtain ⟨rfl, _⟩ := List.cons.inj hp
        simp
      | cons y pre => simp at hp
    · rw [if_neg hsh]
      have htot : (e :: es).foldl (fun (r : Int) (x : Mat) => r + x.chan) 0 = ((e :: es).map Mat.chan).sum := by
        have : ∀ (l : List Mat) (k : Int), l.foldl (fun (r : Int) (x : Mat) => r + x.chan) k = k + (l.map Mat.chan).sum := by
          intro l
          induction l with
          | nil => simp
          | cons y l ih => intro k; rw [List.foldl_cons, ih, List.map_cons, List.sum_cons, add_assoc]
        rw [this, zero_add]
      simp only
      rw [htot, show e.dims.map Dim.size = sizes from hsz e (by simp), hdep e (by simp)]
      have h0 : ∀ n ∈ sizes, 0 ≤ n := fun n hn => by have := h1 n hn; omega
      have hcr := C102_create a sizes depth ((e :: es).map Mat.chan).sum h0
      have hal := aligned_create a sizes depth ((e :: es).map Mat.chan).sum hne
      obtain ⟨l, l1, l2, l3, l4⟩ := chanTiles_spec (create a sizes depth ((e :: es).map Mat.chan).sum) (e :: es) 0 hc
      have hrc : (create a sizes depth ((e :: es).map Mat.chan).sum).chan = ((e :: es).map Mat.chan).sum := rfl
      have hrd : (create a sizes depth ((e :: es).map Mat.chan).sum).depth = depth := rfl
      obtain ⟨H', eq, t1, t2⟩ := tiles_spec H a junk sizes depth ((e :: es).map Mat.chan).sum h0 fresh l (by
        intro x hx
        obtain ⟨p, s, q1, q2, q3⟩ := l2 x hx
        obtain ⟨w1, w2, w3⟩ := C101_channels (create a sizes depth ((e :: es).map Mat.chan).sum) s (s + x.2.chan) q1
          (by rw [hrc]; omega)
        rw [← q3] at w1 w2 w3
        rw [hcr.1] at w3
        have := hc x.2 p
        exact ⟨⟨dims_ne (by rw [w3]; exact hne), by rw [w3, hsz x.2 p], by omega, by rw [w1.depth, hdep x.2 p]; rfl, by omega,
          by rw [w3]; exact h1, by rw [q3]; exact subChannel_aligned _ _ hal, al x.2 p⟩, live x.2 p, _, _, w1⟩) (by
        refine List.Pairwise.imp_of_mem ?_ l4
        rintro x y hx hy ⟨s, t, k0, e1, e2, hst, htop⟩
        have hpx := hc x.2 (l2 x hx).1
        have hpy := hc y.2 (l2 y hy).1
        have w1 := C101_channels (create a sizes depth ((e :: es).map Mat.chan).sum) s (s + x.2.chan) k0 (by rw [hrc]; omega)
        have w2 := C101_channels (create a sizes depth ((e :: es).map Mat.chan).sum) t (t + y.2.chan) (by omega)
          (by rw [hrc]; omega)
        rw [← e1] at w1
        rw [← e2] at w2
        apply views_apart hcr.2.1 w1.1 w2.1
        rintro idx idx' c c' _ _ c0 c1 c0' c1' ⟨_, h⟩
        have := w1.2.1
        omega)
      rw [← l1] at eq
      refine ⟨H', create a sizes depth ((e :: es).map Mat.chan).sum, by rw [eq]; rfl,
        ⟨fun x hx => ⟨by rw [hcr.1, hsz x hx], by rw [hrd, hdep x hx]⟩, hrc, ?_⟩, t2⟩
      intro pre x post hp idx c b hi c0 c1 b0 b1
      have hx : x ∈ e :: es := by rw [hp]; simp
      have hm := l3 pre x post hp
      rw [zero_add] at hm
      obtain ⟨_, s, q1, q2, q3⟩ := l2 _ hm
      have hpre : 0 ≤ (pre.map Mat.chan).sum := chanSum_nonneg fun y hy => hc y (by rw [hp]; simp [hy])
      have hpost : 0 ≤ (post.map Mat.chan).sum := chanSum_nonneg fun y hy => hc y (by rw [hp]; simp [hy])
      obtain ⟨w1, w2, w3⟩ := C101_channels (create a sizes depth ((e :: es).map Mat.chan).sum) (pre.map Mat.chan).sum
        ((pre.map Mat.chan).sum + x.chan) hpre (by
          rw [hrc, hp, List.map_append, List.map_cons, List.sum_append, List.sum_cons]; omega)
      rw [hcr.1] at w3
      have hi' : MatIndex (matSizes (subChannel (create a sizes depth ((e :: es).map Mat.chan).sum) (pre.map Mat.chan).sum
        ((pre.map Mat.chan).sum + x.chan))) idx := by rw [w3, ← hsz x hx]; exact hi
      have hux : x.unit = (create a sizes depth ((e :: es).map Mat.chan).sum).unit := unit_of_depth (by rw [hdep x hx]; rfl)
      have := t1 _ hm idx c b hi' c0 (by simp only; omega) b0 (by simp only; rw [unit_of_depth w1.depth, ← hux]; exact b1)
      rw [← this]
      simp only
      rw [matByte, matByte, w1.addr idx c hi']
      rfl

theorem fresh_free {H : Heap} {a b : Int} (h : ∀ x, b ≤ x → H x = none) (hab : b ≤ a) (n : Int) :
    ∀ x, a ≤ x → x < a + n → H x = none := fun x hx _ => h x (by omega)

example : ∃ (H : Heap) (es : List Mat) (sizes : List Int) (depth : Fin 10) (a : Int), es.length = 2 ∧ (∀ e ∈ es, matSizes e = sizes) ∧
    (∀ e ∈ es, e.depth = depth) ∧ sizes ≠ [] ∧ (∀ n ∈ sizes, 1 ≤ n) ∧ (∀ e ∈ es, 0 < e.chan) ∧ (∀ e ∈ es, Aligned e) ∧
    (∀ e ∈ es, MatLive H e) ∧ ∀ x, a ≤ x → x < a + allocSize sizes depth (es.map Mat.chan).sum → H x = none := by
  refine ⟨fun x => if x < 200 then some 0 else none, [create 0 [2, 3] 2 3, create 100 [2, 3] 2 1], [2, 3], 2, 300, rfl, by decide,
    by decide, by decide, by decide, by decide, ?_, ?_, fun x hx _ => if_neg (by omega)⟩
  · intro e he
    simp only [List.mem_cons, List.not_mem_nil, or_false] at he
    rcases he with rfl | rfl <;> exact aligned_create _ _ _ _ (by decide)
  · intro e he x hx
    simp only [List.mem_cons, List.not_mem_nil, or_false] at he
    show (if x < 200 then some 0 else none) ≠ none
    rcases he with rfl | rfl
    · have h1 := ((C102_create 0 [2, 3] 2 3 (by decide)).2.2 x).1 hx
      have : allocSize [2, 3] 2 3 = 36 := by decide
      rw [if_pos (by omega)]; simp
    · have h1 := ((C102_create 100 [2, 3] 2 1 (by decide)).2.2 x).1 hx
      have : allocSize [2, 3] 2 1 = 12 := by decide
      rw [if_pos (by omega)]; simp

/-- The size of dimension `dim`. -/
def sizeAt (dim : Nat) (m : Mat) : Int := (matSizes m).getD dim 0

/-- What joining along a dimension is for: the elements come behind each other. -/
def MergedDim (H H' : Heap) (es : List Mat) (dim : Nat) (r : Mat) : Prop :=
  (∀ e ∈ es, r.depth = e.depth ∧ r.chan = e.chan ∧ (matSizes e).set dim 0 = (matSizes r).set dim 0) ∧
    sizeAt dim r = (es.map (sizeAt dim)).sum ∧
    ∀ pre e post, es = pre ++ e :: post → ∀ idx c b, MatIndex (matSizes e) idx → 0 ≤ c → c < e.chan → 0 ≤ b → b < e.unit →
      H' (matByte r (addAt dim (pre.map (sizeAt dim)).sum idx) c b) = H (matByte e idx c b)

/-- The property: whenever the sizes agree in all other dimensions. -/
def MergeDimRight : Prop :=
  ∀ (H : Heap) (e : Mat) (es : List Mat) (dim : Nat) (share : Bool) (a b : Int) (junk : Int → Nat), dim < e.dims.length →
    (∀ x ∈ e :: es, (matSizes x).set dim 0 = (matSizes e).set dim 0 ∧ x.depth = e.depth ∧ x.chan = e.chan) →
    (∀ x ∈ e :: es, ∀ n ∈ matSizes x, 1 ≤ n) → 0 < e.chan → (∀ x ∈ e :: es, Aligned x) → (∀ x ∈ e :: es, MatLive H x) →
    (∀ x, b ≤ x → H x = none) → b ≤ a →
    ∃ H' r, mergeDim H (e :: es) dim share a junk = some (H', r) ∧ MergedDim H H' (e :: es) dim r

theorem dimTiles_spec (r : Mat) (n : Int) (dim : Nat) (es : List Mat) (k : Int) (hn : 0 ≤ n)
    (hsub : ∀ s, k ≤ s → s + n ≤ k + n * es.length → ∃ v, subRange r ⟨s, s + n⟩ dim = some v) :
    ∃ l : List (Mat × Mat), dimTiles r n dim k es = l.map (fun (x : Mat × Mat) => (some x.1, x.2)) ∧
      (∀ x ∈ l, x.2 ∈ es ∧ ∃ s, k ≤ s ∧ s + n ≤ k + n * es.length ∧ subRange r ⟨s, s + n⟩ dim = some x.1) ∧
      (∀ pre e post, es = pre ++ e :: post → ∃ v, subRange r ⟨k + n * pre.length, k + n * pre.length + n⟩ dim = some v ∧ (v, e) ∈ l) ∧
      l.Pairwise fun x y => ∃ s t, k ≤ s ∧ subRange r ⟨s, s + n⟩ dim = some x.1 ∧ subRange r ⟨t, t + n⟩ dim = some y.1 ∧
        s + n ≤ t ∧ t + n ≤ k + n * es.length := by
  induction es generalizing k with
  | nil => exact ⟨[], rfl, by simp, by simp, List.Pairwise.nil⟩
  | cons e es ih =>
    have hlen : n * ((e :: es).length : Int) = n + n * es.length := by rw [List.length_cons]; push_cast; ring
    have hnl : 0 ≤ n * (es.length : Int) := mul_nonneg hn (by omega)
    rw [hlen] at hsub ⊢
    obtain ⟨l, h1, h2, h3, h4⟩ := ih (k + n) fun s a b => hsub s (by omega) (by omega)
    obtain ⟨v, hv⟩ := hsub k (le_refl _) (by omega)
    refine ⟨(v, e) :: l, by rw [dimTiles, h1, hv]; rfl, ?_, ?_, ?_⟩
    · intro x hx
      rcases List.mem_cons.1 hx with rfl | hx
      · exact ⟨by simp, k, le_refl _, by omega, hv⟩
      · obtain ⟨p, s, q1, q2, q3⟩ := h2 x hx
        exact ⟨by simp [p], s, by omega, by omega, q3⟩
    · intro pre x post hpre
      cases pre with
      | nil =>
        obtain ⟨rfl, _⟩ := List.cons.inj hpre
        exact ⟨v, by simpa using hv, by simp⟩
      | cons y pre =>
        obtain ⟨_, hp⟩ := List.cons.inj hpre
        obtain ⟨w, w1, w2⟩ := h3 pre x post hp
        refine ⟨w, ?_, List.mem_cons_of_mem _ w2⟩
        rw [← w1, show k + n * ((y :: pre).length : Int) = k + n + n * pre.length by rw [List.length_cons]; push_cast; ring]
    · rw [List.pairwise_cons]
      refine ⟨?_, h4.imp fun ⟨s, t, a, b, c, d, f⟩ => ⟨s, t, by omega, b, c, d, by omega⟩⟩
      intro x hx
      obtain ⟨p, s, q1, q2, q3⟩ := h2 x hx
      exact ⟨k, s, le_refl _, hv, q3, q1, by omega⟩

theorem subRange_aligned {m v : Mat} {r : Range} {k : Nat} (h : subRange m r k = some v) (ha : Aligned m) :
    Aligned v ∧ v.chan = m.chan := by
  rw [subRange] at h
  split at h
  · simp at h
  · exact ⟨sub_aligned h ha, sub_chan h⟩

theorem addAt_get (k : Nat) (s i : Int) (idx : List Int) (h : idx[k]? = some i) : (addAt k s idx)[k]? = some (s + i) := by
  rw [addAt, List.getElem?_modify]; simp [h]

/-- C115: `merge_align_dim` of up to four dimensions when all elements have the same size in the joined dimension. -/
theorem C115_dim_partial (H : Heap) (es : List Mat) (dim : Nat) (share : Bool) (a : Int) (junk : Int → Nat) (sizes : List Int)
    (depth : Fin 10) (chan n : Int) (hes : es ≠ []) (hsz : ∀ e ∈ es, matSizes e = sizes)
    (hdep : ∀ e ∈ es, e.depth = depth ∧ e.chan = chan) (h4 : sizes.length ≤ 4) (hdim : sizes[dim]? = some n)
    (h1 : ∀ n ∈ sizes, 1 ≤ n) (hc : 0 < chan) (al : ∀ e ∈ es, Aligned e) (live : ∀ e ∈ es, MatLive H e)
    (fresh : ∀ x, a ≤ x → x < a + allocSize (sizes.set dim (n * es.length)) depth chan → H x = none) :
    ∃ H' r, mergeDim H es dim share a junk = some (H', r) ∧ MergedDim H H' es dim r ∧
      ∀ x, x < a ∨ a + allocSize (sizes.set dim (n * es.length)) depth chan ≤ x → H' x = H x := by
  have hdl := some_lt hdim
  have hn1 : 1 ≤ n := h1 n (List.mem_of_getElem? hdim)
  have hat : ∀ e ∈ es, sizeAt dim e = n := by
    intro e he
    rw [sizeAt, hsz e he, List.getD_eq_getElem?_getD, hdim]; rfl
  have hsum : ∀ l : List Mat, (∀ e ∈ l, e ∈ es) → (l.map (sizeAt dim)).sum = n * l.length := by
    intro l hl
    induction l with
    | nil => simp
    | cons e l ih =>
      rw [List.map_cons, List.sum_cons, ih fun x hx => hl x (by simp [hx]), hat e (hl e (by simp)), List.length_cons]
      push_cast; ring
  cases es with
  | nil => exact absurd rfl hes
  | cons e es =>
    rw [mergeDim]
    by_cases hsh : es = [] ∧ share = true
    · rw [if_pos hsh]
      obtain ⟨rfl, _⟩ := hsh
      refine ⟨H, e, rfl, ⟨by simp, by simp, ?_⟩, fun _ _ => rfl⟩
      intro pre x post hp idx c b _ _ _ _ _
      cases pre with
      | nil =>
        obtain ⟨rfl, _⟩ := List.cons.inj hp
        simp only [List.map_nil, List.sum_nil, addAt, zero_add]
        rw [show (fun (x : Int) => x) = id from rfl, List.modify_id]
      | cons y pre => simp at hp
    · rw [if_neg hsh]
      have hse := hsz e (by simp)
      have hed : ∃ d, e.dims[dim]? = some d ∧ d.size = n := by
        rw [← hse, matSizes, List.getElem?_map] at hdim
        obtain ⟨d, h, h'⟩ := Option.map_eq_some_iff.1 hdim
        exact ⟨d, h, h'⟩
      obtain ⟨d, hd, hdn⟩ := hed
      rw [hd]
      simp only
      have hlong : ∀ x ∈ e :: es, x.dims.length = sizes.length := by
        intro x hx
        rw [← hsz x hx, matSizes, List.length_map]
      rw [if_neg (by
        intro h
        obtain ⟨x, hx, h2⟩ := List.any_eq_true.1 h
        have := hlong x (by simp [hx])
        rw [decide_eq_true_eq] at h2
        omega)]
      have hfold : es.foldl (fun (r : Int) (x : Mat) => r + ((x.dims.map Dim.size).getD dim 0)) d.size = n * (e :: es).length := by
        have : ∀ (l : List Mat) (k : Int), l.foldl (fun (r : Int) (x : Mat) => r + ((x.dims.map Dim.size).getD dim 0)) k =
            k + (l.map (sizeAt dim)).sum := by
          intro l
          induction l with
          | nil => simp
          | cons y l ih => intro k; rw [List.foldl_cons, ih, List.map_cons, List.sum_cons, add_assoc]; rfl
        rw [this, hsum es fun x hx => by simp [hx], hdn, List.length_cons]
        push_cast; ring
      rw [hfold, hdn, show e.dims.map Dim.size = sizes from hse, (hdep e (by simp)).1, (hdep e (by simp)).2]
      generalize hN : n * ((e :: es).length : Int) = N at *
      have hNn : n ≤ N := by
        rw [← hN, List.length_cons]; push_cast
        have : 0 ≤ n * (es.length : Int) := mul_nonneg (by omega) (by omega)
        nlinarith
      have h0 : ∀ x ∈ sizes.set dim N, 0 ≤ x := by
        intro x hx
        rcases List.mem_or_eq_of_mem_set hx with h | rfl
        · have := h1 x h; omega
        · omega
      have hsne : sizes ≠ [] := by intro h; rw [h] at hdl; simp at hdl
      have hcr := C102_create a (sizes.set dim N) depth chan h0
      have hal := aligned_create a (sizes.set dim N) depth chan (by simpa using hsne)
      generalize hr : create a (sizes.set dim N) depth chan = r at hcr hal
      have hrc : r.chan = chan := by rw [← hr]; rfl
      have hrd : r.depth = depth := by rw [← hr]; rfl
      have hrl : r.dims.length = sizes.length := by
        have := congrArg List.length hcr.1
        rw [matSizes, List.length_map, List.length_set] at this
        exact this
      have hrdim : ∃ d', r.dims[dim]? = some d' ∧ d'.size = N := by
        have : (matSizes r)[dim]? = some N := by rw [hcr.1, List.getElem?_set_self hdl]
        rw [matSizes, List.getElem?_map] at this
        exact Option.map_eq_some_iff.1 this
      obtain ⟨d', hd', hdN⟩ := hrdim
      have hview : ∀ s, 0 ≤ s → s + n ≤ N → ∃ v, subRange r ⟨s, s + n⟩ dim = some v ∧ matSizes v = sizes ∧
          MatView v r (addAt dim s) 0 := by
        intro s s0 s1
        obtain ⟨v, v1, v2, v3⟩ := C97_range_partial r ⟨s, s + n⟩ dim d' hd' (by
          intro x hx
          exact h0 _ (by rw [← hcr.1]; exact List.mem_map.2 ⟨x, hx, rfl⟩)) (by omega) s0 (by simp only; omega) (by simp only; omega)
        refine ⟨v, v1, ?_, v3⟩
        rw [v2, hcr.1, List.set_set]
        simp only [add_sub_cancel_left]
        have := List.getElem?_eq_getElem hdl
        rw [hdim] at this
        rw [Option.some.inj this, List.set_getElem_self]
      obtain ⟨l, l1, l2, l3, l4⟩ := dimTiles_spec r n dim (e :: es) 0 (by omega) (by
        intro s s0 s1
        rw [hN, zero_add] at s1
        obtain ⟨v, hv, _⟩ := hview s s0 s1
        exact ⟨v, hv⟩)
      rw [hN, zero_add] at l2 l4
      obtain ⟨H', eq, t1, t2⟩ := tiles_spec H a junk (sizes.set dim N) depth chan h0 fresh l (by
        intro x hx
        obtain ⟨p, s, q1, q2, q3⟩ := l2 x hx
        obtain ⟨v, v1, v2, v3⟩ := hview s q1 q2
        rw [v1] at q3
        have e1 : x.1 = v := (Option.some.inj q3).symm
        obtain ⟨a1, a2⟩ := subRange_aligned v1 hal
        rw [hr, e1]
        exact ⟨⟨dims_ne (by rw [v2]; exact hsne), by rw [v2, hsz x.2 p], by rw [a2, hrc, (hdep x.2 p).2],
          by rw [v3.depth, hrd, (hdep x.2 p).1], by omega, by rw [v2]; exact h1, a1, al x.2 p⟩, live x.2 p, _, _, v3⟩) (by
        refine List.Pairwise.imp_of_mem ?_ l4
        rintro x y hx hy ⟨s, t, k0, e1, e2, hst, htop⟩
        obtain ⟨v, v1, v2, v3⟩ := hview s k0 (by omega)
        obtain ⟨w, w1, w2, w3⟩ := hview t (by omega) htop
        rw [v1] at e1
        rw [w1] at e2
        rw [← Option.some.inj e1, ← Option.some.inj e2]
        apply views_apart hcr.2.1 v3 w3
        rintro idx idx' c c' hi hi' _ _ _ _ ⟨h, _⟩
        rw [v2] at hi
        rw [w2] at hi'
        have hl : dim < idx.length := by rw [← MatIndex.length hi]; exact hdl
        have hl' : dim < idx'.length := by rw [← MatIndex.length hi']; exact hdl
        have li := List.getElem?_eq_getElem hl
        have li' := List.getElem?_eq_getElem hl'
        have b1 := matIndex_get hi dim n _ hdim li
        have b2 := matIndex_get hi' dim n _ hdim li'
        have := congrArg (fun (z : List Int) => z[dim]?) h
        rw [addAt_get _ _ _ _ li, addAt_get _ _ _ _ li', Option.some.injEq] at this
        omega)
      rw [← l1] at eq
      refine ⟨H', r, by rw [eq]; rfl, ⟨fun x hx => ⟨by rw [hrd, (hdep x hx).1], by rw [hrc, (hdep x hx).2], ?_⟩, ?_, ?_⟩, t2⟩
      · rw [hsz x hx, hcr.1, List.set_set]
      · rw [hsum _ fun x hx => hx, hN, sizeAt, hcr.1, List.getD_eq_getElem?_getD, List.getElem?_set_self hdl]; rfl
      · intro pre x post hp idx c b hi c0 c1 b0 b1
        have hx : x ∈ e :: es := by rw [hp]; simp
        obtain ⟨v, v1, v2⟩ := l3 pre x post hp
        rw [zero_add] at v1
        rw [hsum pre fun y hy => by rw [hp]; simp [hy]]
        have hpn : n * (pre.length : Int) + n ≤ N := by
          rw [← hN, hp, List.length_append, List.length_cons]
          push_cast
          have : 0 ≤ n * (post.length : Int) := mul_nonneg (by omega) (by omega)
          nlinarith
        obtain ⟨w, w1, w2, w3⟩ := hview (n * pre.length) (mul_nonneg (by omega) (by omega)) hpn
        rw [v1] at w1
        have hvw := Option.some.inj w1
        subst hvw
        obtain ⟨a1, a2⟩ := subRange_aligned v1 hal
        have hi' : MatIndex (matSizes v) idx := by rw [w2, ← hsz x hx]; exact hi
        have hux : x.unit = v.unit := unit_of_depth (by rw [(hdep x hx).1, w3.depth, hrd])
        have := t1 _ v2 idx c b hi' c0 (by simp only; rw [a2, hrc, ← (hdep x hx).2]; exact c1) b0 (by simp only; omega)
        rw [← this]
        simp only
        rw [matByte, matByte, w3.addr idx c hi', zero_add]

example : ∃ (H : Heap) (es : List Mat) (dim : Nat) (sizes : List Int) (depth : Fin 10) (chan n a : Int), es.length = 2 ∧
    (∀ e ∈ es, matSizes e = sizes) ∧ (∀ e ∈ es, e.depth = depth ∧ e.chan = chan) ∧ sizes.length ≤ 4 ∧ sizes[dim]? = some n ∧
    (∀ n ∈ sizes, 1 ≤ n) ∧ 0 < chan ∧ (∀ e ∈ es, Aligned e) ∧ (∀ e ∈ es, MatLive H e) ∧
    ∀ x, a ≤ x → x < a + allocSize (sizes.set dim (n * es.length)) depth chan → H x = none := by
  refine ⟨fun x => if x < 200 then some 0 else none, [create 0 [2, 3] 2 3, create 100 [2, 3] 2 3], 1, [2, 3], 2, 3, 3, 300, rfl,
    by decide, by decide, by decide, rfl, by decide, by decide, ?_, ?_, fun x hx _ => if_neg (by omega)⟩
  · intro e he
    simp only [List.mem_cons, List.not_mem_nil, or_false] at he
    rcases he with rfl | rfl <;> exact aligned_create _ _ _ _ (by decide)
  · intro e he x hx
    simp only [List.mem_cons, List.not_mem_nil, or_false] at he
    show (if x < 200 then some 0 else none) ≠ none
    have : allocSize [2, 3] 2 3 = 36 := by decide
    rcases he with rfl | rfl
    · have h1 := ((C102_create 0 [2, 3] 2 3 (by decide)).2.2 x).1 hx
      rw [if_pos (by omega)]; simp
    · have h1 := ((C102_create 100 [2, 3] 2 3 (by decide)).2.2 x).1 hx
      rw [if_pos (by omega)]; simp

/-- The size of the first element is used for all: joining two rows and one row writes behind the new memory. -/
theorem not_C115_dim : ¬ MergeDimRight := by
  intro h
  obtain ⟨H', r, e, _⟩ := h (fun x => if x < 100 then some 0 else none) (create 0 [2, 2] 0 1) [create 50 [1, 2] 0 1] 0 true 100 100
    (fun _ => 0) (by decide) (by decide) (by decide) (by decide) (by
      intro e he
      simp only [List.mem_cons, List.not_mem_nil, or_false] at he
      rcases he with rfl | rfl <;> exact aligned_create _ _ _ _ (by decide)) (by
      intro e he x hx
      simp only [List.mem_cons, List.not_mem_nil, or_false] at he
      show (if x < 100 then some 0 else none) ≠ none
      rcases he with rfl | rfl
      · have h1 := ((C102_create 0 [2, 2] 0 1 (by decide)).2.2 x).1 hx
        have : allocSize [2, 2] 0 1 = 4 := by decide
        rw [if_pos (by omega)]; simp
      · have h1 := ((C102_create 50 [1, 2] 0 1 (by decide)).2.2 x).1 hx
        have : allocSize [1, 2] 0 1 = 2 := by decide
        rw [if_pos (by omega)]; simp) (fun x hx => if_neg (by omega)) (le_refl _)
  have : mergeDim (fun x => if x < 100 then some 0 else none) [create 0 [2, 2] 0 1, create 50 [1, 2] 0 1] 0 true 100 (fun _ => 0) =
      none := by decide
  rw [this] at e
  simp at e

end Verif.Props
