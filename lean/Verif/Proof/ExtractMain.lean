import Verif.Proof.ExtractPrep
import Verif.Proof.ExtractVisit

/-!
# The whole extraction
-/

namespace Verif.Extract

open Verif.Recog (Flag)

/-- The record into which the pixel at cell `c` of patch `k` goes, −1 if none. -/
noncomputable def codeAt (label : Nat → Nat → Nat) (X0 : XForest) (nu : Reg → Option Reg)
    (arr : List Reg) (k c : Nat) : Int :=
  codeOf arr (nearOf X0 nu (k, label k c))

/-- The plan without the memory types. -/
noncomputable def planBase (E : Env) (label : Nat → Nat → Nat) (X0 : XForest)
    (nu : Reg → Option Reg) (arr : List Reg) : Plan where
  N := arr.length
  up := fun j => (arr[j]?).bind fun r => (nu r).map fun q => arr.idxOf q
  sh := fun _ => false
  own := fun k j => linked E k (codeAt label X0 nu arr k) j (scan (E.pi k).width (E.pi k).height)

/-- The plan of an extraction. -/
noncomputable def planOf (E : Env) (label : Nat → Nat → Nat) (thr : Int) (X0 : XForest)
    (nu : Reg → Option Reg) (arr : List Reg) : Plan :=
  { planBase E label X0 nu arr with
    sh := fun j => decide (((planBase E label X0 nu arr).kids j j).length = 0 ∨
      (((planBase E label X0 nu arr).full j).length : Int) ≤ thr) }

theorem Plan.accs_sh (P : Plan) (sh : Nat → Bool) (t j : Nat) :
    ({ P with sh := sh } : Plan).accs t j = P.accs t j := by
  induction t generalizing j with
  | zero => rfl
  | succ t ih => simp only [Plan.accs, ih]

theorem Plan.kids_sh (P : Plan) (sh : Nat → Bool) (t j : Nat) :
    ({ P with sh := sh } : Plan).kids t j = P.kids t j := by
  induction t generalizing j with
  | zero => rfl
  | succ t ih => simp only [Plan.kids, ih]

theorem Plan.full_sh (P : Plan) (sh : Nat → Bool) (j : Nat) :
    ({ P with sh := sh } : Plan).full j = P.full j := by
  simp only [Plan.full, Plan.accs_sh]

/-- What the earlier phases must hand over for extraction to work: the region objects, the list of
reported regions, the labels. -/
structure Ready0 (E : Env) (fuel : Nat) (label : Nat → Nat → Nat) (X0 : XForest) (arr : List Reg)
    (rk : Reg → Nat) (F : Nat) (nu : Reg → Option Reg) : Prop where
  n4 : 4 ≤ E.n
  climbs : Climbs E rk F nu X0
  fuel : F + 1 ≤ fuel
  index : ∀ r, IsReg E r → (X0 r).index = r.2
  fresh : ∀ r, IsReg E r → (X0 r).assigned = false
  valid : ∀ r, IsReg E r → ((X0 r).flag = .valid ↔ r ∈ arr)
  arr_reg : ∀ r ∈ arr, IsReg E r
  nodup : arr.Nodup
  order : ∀ i j (hi : i < arr.length) (hj : j < arr.length), nu arr[i] = some arr[j] → i < j
  labels : ∀ k, k < 4 → ∀ rc ∈ scan (E.pi k).width (E.pi k).height,
    label k (Flood.idx (E.pi k).width rc.2 rc.1) < E.nreg k

/-- The recorded sizes are right, and no reported region is the union of smaller ones. -/
structure Ready1 (E : Env) (fuel : Nat) (label : Nat → Nat → Nat) (X0 : XForest) (arr : List Reg)
    (rk : Reg → Nat) (F : Nat) (nu : Reg → Option Reg) : Prop extends
    Ready0 E fuel label X0 arr rk F nu where
  size : ∀ j (h : j < arr.length),
    (X0 arr[j]).pix = ((planBase E label X0 nu arr).full j).length
  own : ∀ j, j < arr.length → ∃ k, k < 4 ∧ (planBase E label X0 nu arr).own k j ≠ []

/-- The image is not too wide. -/
structure Ready (E : Env) (fuel : Nat) (label : Nat → Nat → Nat) (X0 : XForest) (arr : List Reg)
    (rk : Reg → Nat) (F : Nat) (nu : Reg → Option Reg) : Prop extends
    Ready1 E fuel label X0 arr rk F nu where
  coord : ∀ k, k < 4 → (E.pi k).left + (E.pi k).width ≤ 65535

section
variable {E : Env} {fuel : Nat} {label : Nat → Nat → Nat} {X0 : XForest} {arr : List Reg}
  {rk : Reg → Nat} {F : Nat} {nu : Reg → Option Reg} {thr : Int}

theorem Ready0.nu_mem (R : Ready0 E fuel label X0 arr rk F nu) {r q : Reg} (hr : IsReg E r)
    (h : nu r = some q) : q ∈ arr := by
  have hc := R.climbs.climb r hr
  rw [h] at hc
  have hq := (climbValid_reg R.climbs.toRanked (fun p hp => (R.climbs.par r p hr hp).1) hc).1
  exact (R.valid q hq).mp (climbValid_valid hc)

theorem Ready0.fitting (R : Ready0 E fuel label X0 arr rk F nu) :
    Fitting (planOf E label thr X0 nu arr) nu arr thr := by
  refine ⟨rfl, ?_, ?_, ?_⟩
  · intro j h q hq
    have hmem := R.nu_mem (R.arr_reg arr[j] (by simp)) hq
    refine ⟨arr.idxOf q, List.idxOf_lt_length_iff.mpr hmem, List.getElem_idxOf _, ?_⟩
    simp [planOf, planBase, h, hq]
  · intro j h hn
    simp [planOf, planBase, h, hn]
  · intro j _
    simp only [planOf, Plan.kids_sh, Plan.full_sh, decide_eq_true_eq]

theorem Ready0.up (R : Ready0 E fuel label X0 arr rk F nu) {i j : Nat} (hi : i < arr.length)
    (h : (planOf E label thr X0 nu arr).up i = some j) :
    ∃ hj : j < arr.length, nu arr[i] = some arr[j] := by
  simp only [planOf, planBase, List.getElem?_eq_getElem hi, Option.bind_some] at h
  cases hn : nu arr[i] with
  | none => rw [hn] at h; simp at h
  | some q =>
    rw [hn] at h
    simp only [Option.map_some, Option.some.injEq] at h
    have hmem := R.nu_mem (R.arr_reg arr[i] (by simp)) hn
    have hlt := List.idxOf_lt_length_iff.mpr hmem
    subst h
    exact ⟨hlt, by rw [List.getElem_idxOf]⟩

theorem Ready0.ok (R : Ready0 E fuel label X0 arr rk F nu) : (planOf E label thr X0 nu arr).Ok := by
  have hfit := R.fitting (thr := thr)
  have hlt : ∀ i j, i < (planOf E label thr X0 nu arr).N →
      (planOf E label thr X0 nu arr).up i = some j →
      i < j ∧ j < (planOf E label thr X0 nu arr).N := by
    intro i j hi h
    obtain ⟨hj, hn⟩ := R.up hi h
    exact ⟨R.order i j hi hj hn, hj⟩
  refine ⟨hlt, ?_⟩
  intro i j hi h hsh
  obtain ⟨hij, hj⟩ := hlt i j hi h
  rw [hfit.sh j hj] at hsh
  rw [hfit.sh i hi]
  right
  have hmem : i ∈ (planOf E label thr X0 nu arr).kids j j := Plan.mem_kids.mpr ⟨hij, h⟩
  rcases hsh with h0 | h1
  · rw [List.length_eq_zero_iff] at h0
    rw [h0] at hmem
    simp at hmem
  · have hle := Plan.accs_mono (P := planOf E label thr X0 nu arr) (Nat.succ_le_of_lt hij) j
    rw [Plan.accs_succ h, List.length_append] at hle
    have : ((planOf E label thr X0 nu arr).accs j j).length
        ≤ ((planOf E label thr X0 nu arr).full j).length := by
      simp only [Plan.full, List.length_append]; omega
    omega

theorem codeAt_range (R : Ready0 E fuel label X0 arr rk F nu) {k c : Nat}
    (hr : IsReg E (k, label k c)) :
    codeAt label X0 nu arr k c = -1 ∨
      ∃ j, j < arr.length ∧ codeAt label X0 nu arr k c = ((j : Nat) : Int) := by
  simp only [codeAt, nearOf]
  split
  · rename_i hv
    right
    exact ⟨_, List.idxOf_lt_length_iff.mpr ((R.valid _ hr).mp hv), rfl⟩
  · cases hn : nu (k, label k c) with
    | none => left; rfl
    | some q => right; exact ⟨_, List.idxOf_lt_length_iff.mpr (R.nu_mem hr hn), rfl⟩

theorem Plan.cum_sum (P : Plan) (k t : Nat) :
    P.cum k t = ((List.range t).map fun j => (P.own k j).length).sum := by
  induction t with
  | zero => rfl
  | succ t ih => simp [Plan.cum, ih, List.range_succ]

theorem linked_congr {k : Nat} {f g : Nat → Int} {j : Nat} {l : List (Nat × Nat)}
    (h : ∀ rc ∈ l, f (Flood.idx (E.pi k).width rc.2 rc.1) = g (Flood.idx (E.pi k).width rc.2 rc.1)) :
    linked E k f j l = linked E k g j l := by
  simp only [linked]
  congr 1
  apply List.filter_congr
  intro rc hrc
  rw [h rc hrc]

theorem Lay.congrS {P : Plan} {m : Mem} {L : Nat → Nat → Nat} {S S' : Nat → Nat → List Pt}
    {d : Nat → Int} {tab : Nat → List Nat} (lay : Lay P m L S d tab)
    (h : ∀ i, i < P.N → ∀ k, k < 4 → S k i = S' k i) : Lay P m L S' d tab :=
  ⟨lay.head, fun i hi k hk => by rw [← h i hi k hk]; exact lay.pts i hi k hk, lay.table⟩

/-- The rectangle of the own pixels of record `j` in block `k`. -/
def boxOf (P : Plan) (junk : Int × Int × Int) (k j : Nat) : Int × Int × Int × Int :=
  (P.own k j).foldl (fun b p => growBox b p.1 p.2) (-1, junk.1, junk.2.1, junk.2.2)

theorem toI16_ne {x : Int} (h0 : 0 ≤ x) (h1 : x < 65535) : toI16 x ≠ -1 := by
  simp only [toI16]; omega

theorem growBox_ne {b : Int × Int × Int × Int} {x y : Int} (h0 : 0 ≤ x) (h1 : x < 65535) :
    (growBox b x y).1 ≠ -1 := by
  have := toI16_ne h0 h1
  simp only [growBox]
  split
  · exact this
  · rename_i h
    dsimp only
    split
    · exact this
    · exact h

theorem grows_ne {l : List Pt} (hl : ∀ p ∈ l, 0 ≤ p.1 ∧ p.1 < 65535) :
    ∀ {b : Int × Int × Int × Int}, l ≠ [] ∨ b.1 ≠ -1 →
      (l.foldl (fun b p => growBox b p.1 p.2) b).1 ≠ -1 := by
  induction l with
  | nil => intro b h; rcases h with h | h; exact absurd rfl h; exact h
  | cons p l ih =>
    intro b _
    rw [List.foldl_cons]
    have := hl p (by simp)
    exact ih (fun q hq => hl q (by simp [hq])) (Or.inr (growBox_ne this.1 this.2))

theorem joinBox_ne {a b : Int × Int × Int × Int} (h : a.1 ≠ -1 ∨ b.1 ≠ -1) :
    (joinBox a b).1 ≠ -1 := by
  obtain ⟨l, t, r, bo⟩ := a
  obtain ⟨l2, t2, r2, bo2⟩ := b
  simp only at h
  simp only [joinBox]
  split
  · rename_i e; rcases h with h | h; exact h; exact absurd e h
  · split
    · rename_i e _; exact e
    · rename_i h1 h2
      dsimp only
      split
      · exact h1
      · exact h2

theorem ownBox_ne {box : Nat → Nat → Int × Int × Int × Int} {i k : Nat} (hk : k < 4)
    (h : (box k i).1 ≠ -1) : (ownBox box i).1 ≠ -1 := by
  simp only [ownBox, List.foldl_cons, List.foldl_nil]
  have : k = 0 ∨ k = 1 ∨ k = 2 ∨ k = 3 := by omega
  rcases this with rfl | rfl | rfl | rfl
  · exact joinBox_ne (Or.inl (joinBox_ne (Or.inl (joinBox_ne (Or.inl (joinBox_ne (Or.inr h)))))))
  · exact joinBox_ne (Or.inl (joinBox_ne (Or.inl (joinBox_ne (Or.inr h)))))
  · exact joinBox_ne (Or.inl (joinBox_ne (Or.inr h)))
  · exact joinBox_ne (Or.inr h)

theorem mem_scan {w h : Nat} {rc : Nat × Nat} : rc ∈ scan w h ↔ rc.1 < h ∧ rc.2 < w := by
  obtain ⟨r, c⟩ := rc
  simp [scan]

theorem bind_of {α β : Type} {a : Option α} {f : α → Option β} {x : α} {y : Option β}
    (h : a = some x) (h' : f x = y) : a.bind f = y := by
  rw [h]; exact h'

/-- What extraction delivers, in terms of the plan. -/
structure Delivered (P : Plan) (X0 : XForest) (arr : List Reg) (junk : Int × Int × Int)
    (X : Extracted) : Prop where
  count : X.count = P.N
  memSize : X.memSize = P.size
  ms : MsOk P X.ms
  done : Done P P.N X.mem
  size : ∀ j, j < P.N → (X.ms j).size = (P.full j).length
  gray : ∀ j (h : j < arr.length), (X.ms j).gray = (X0 arr[j]).gray
  rect : ∀ j, j < P.N → (X.ms j).rect = P.rects (ownRect (boxOf P junk)) P.N j

theorem extract4_spec (R : Ready E fuel label X0 arr rk F nu) (gm : Nat)
    (heap0 : Reg → Option Int) (junk : Int × Int × Int) :
    ∃ X, extract4 E thr gm fuel label heap0 junk X0 arr = some X ∧
      Delivered (planOf E label thr X0 nu arr) X0 arr junk X := by
  have ok := R.ok (thr := thr)
  have hfit := R.fitting (thr := thr)
  have hown : ∀ k j, (planOf E label thr X0 nu arr).own k j
      = linked E k (codeAt label X0 nu arr k) j (scan (E.pi k).width (E.pi k).height) :=
    fun _ _ => rfl
  have hfull : ∀ j, (planOf E label thr X0 nu arr).full j = (planBase E label X0 nu arr).full j :=
    fun j => Plan.full_sh _ _ j
  have hbown : ∀ k j, (planOf E label thr X0 nu arr).own k j
      = (planBase E label X0 nu arr).own k j := fun _ _ => rfl
  have hN : arr.length = (planOf E label thr X0 nu arr).N := rfl
  generalize hP : planOf E label thr X0 nu arr = P at *
  -- first loop
  obtain ⟨s1, e1, i1⟩ := mark_loop (E := E) (X0 := X0) (arr := arr) gm R.arr_reg R.nodup R.index heap0
  -- second loop
  have c1 : Climbs E rk F nu s1.X := climbs_short R.climbs
    (fun r _ => by rw [i1.node]) (fun r _ => by left; rw [i1.node])
  obtain ⟨s2, e2, i2⟩ := type_loop (thr := thr) (X0 := X0) (fuel := fuel) ok hfit R.arr_reg R.nodup
    (by have := R.fuel; omega) (s0 := s1) (E := E) (rk := rk) (F := F) (nu := nu) (by
      refine ⟨c1, ?_, ?_, ?_, ?_, ?_, ?_, ?_, ?_, rfl⟩
      · intro r
        have h := i1.node r
        rw [h]
      · intro j h; exact (i1.done j h h).1
      · intro j h; exact (i1.done j h h).2
      · intro j h hj; omega
      · intro j hj
        rw [← hN] at hj
        rw [i1.ms j hj hj, R.size j hj, hfull]
      · intro j _ hj; omega
      · intro j _; exact (i1.fresh j).2.2
      · rw [i1.memSize]; simp [Plan.off, Plan.cum])
  -- third loop
  have hvalid2 : ∀ r, (s2.X r).flag = (X0 r).flag ∧ (s2.X r).index = (X0 r).index ∧
      (s2.X r).assigned = (X0 r).assigned ∧ (s2.X r).gray = (X0 r).gray := by
    intro r; rw [i2.node]; exact ⟨rfl, rfl, rfl, rfl⟩
  have hnear : ∀ r, nearOf s2.X nu r = nearOf X0 nu r := by
    intro r; simp only [nearOf, (hvalid2 r).1]
  have hidx2 : ∀ r, IsReg E r → (s2.X r).index = r.2 := by
    intro r hr; rw [(hvalid2 r).2.1]; exact R.index r hr
  obtain ⟨s3, e3, i3, h3⟩ := assign_loop (arr := arr) i2.climbs R.fuel hidx2 (s2.X, s2.heap) (by
    refine ⟨fun _ => rfl, ?_⟩
    intro r hr hor
    rcases hor with h | h
    · have hmem := (R.valid r hr).mp (by rw [← (hvalid2 r).1]; exact h)
      obtain ⟨j, hj, rfl⟩ := List.getElem_of_mem hmem
      dsimp only
      rw [i2.heap, i1.heap j hj hj]
      simp only [nearOf, if_pos h, codeOf_get R.nodup hj]
    · dsimp only at h
      rw [(hvalid2 r).2.2.1, R.fresh r hr] at h
      cases h)
  -- counting
  have hcode : ∀ k c, IsReg E (k, label k c) →
      s3.2 (k, label k c) = some (codeAt label X0 nu arr k c) := by
    intro k c hr
    rw [h3 _ hr, hnear]; rfl
  have hregc : ∀ k, k < 4 → ∀ rc ∈ scan (E.pi k).width (E.pi k).height,
      IsReg E (k, label k (Flood.idx (E.pi k).width rc.2 rc.1)) := by
    intro k hk rc hrc
    have := R.n4
    exact ⟨by omega, R.labels k hk rc hrc⟩
  have hrange : ∀ k, k < 4 → ∀ rc ∈ scan (E.pi k).width (E.pi k).height,
      codeAt label X0 nu arr k (Flood.idx (E.pi k).width rc.2 rc.1) = -1 ∨
      ∃ j, j < P.N ∧ codeAt label X0 nu arr k (Flood.idx (E.pi k).width rc.2 rc.1)
        = ((j : Nat) : Int) := by
    intro k hk rc hrc
    rw [← hN]
    exact codeAt_range R.toReady0 (hregc k hk rc hrc)
  have count : ∀ k, k < 4 → ∃ c, countPatch E P.N s3.2 label k = some c ∧
      (∀ rc ∈ scan (E.pi k).width (E.pi k).height, c.link (Flood.idx (E.pi k).width rc.2 rc.1)
        = codeAt label X0 nu arr k (Flood.idx (E.pi k).width rc.2 rc.1)) ∧
      (∀ j, j < P.N → c.cnt j = ((P.own k j).length : Int)) ∧
      c.total = (P.cum k P.N : Int) := by
    intro k hk
    obtain ⟨c, e, a, b, d⟩ := count_loop (E := E) (N := P.N) (k := k) (heap := s3.2)
      (label := label k) (link := codeAt label X0 nu arr k)
      (fun rc hrc => ⟨R.labels k hk rc hrc, hcode k _ (hregc k hk rc hrc)⟩) (hrange k hk)
      (scan (E.pi k).width (E.pi k).height) [] ⟨fun c => (label k c : Int), fun _ => 0, 0⟩ rfl
      (by simp) (by intro j _; simp [linked]) (by simp [linked])
    refine ⟨c, ?_, ?_, ?_, ?_⟩
    · simp only [countPatch]
      have := R.n4
      rw [if_pos (by omega)]
      exact e
    · intro rc hrc; exact a rc hrc
    · intro j hj
      rw [b j hj, hown]
      rfl
    · rw [d, Plan.cum_sum]
      congr 1
      congr 1
      apply List.map_congr_left
      intro j _
      rw [hown]
      rfl
  obtain ⟨c0, ec0, l0, n0, t0⟩ := count 0 (by omega)
  obtain ⟨c1', ec1, l1, n1, t1⟩ := count 1 (by omega)
  obtain ⟨c2', ec2, l2, n2, t2⟩ := count 2 (by omega)
  obtain ⟨c3', ec3, l3, n3, t3⟩ := count 3 (by omega)
  have hM : s2.memSize = (P.size : Int) := by
    rw [i2.memSize, hN]; rfl
  -- headers
  obtain ⟨cs, hcs⟩ : ∃ cs : Nat → CountSt, cs = fun k : Nat =>
      if k = 0 then c0 else if k = 1 then c1' else if k = 2 then c2' else c3' := ⟨_, rfl⟩
  have hcsl : ∀ k, k < 4 → ∀ rc ∈ scan (E.pi k).width (E.pi k).height,
      (cs k).link (Flood.idx (E.pi k).width rc.2 rc.1)
        = codeAt label X0 nu arr k (Flood.idx (E.pi k).width rc.2 rc.1) := by
    intro k hk
    have : k = 0 ∨ k = 1 ∨ k = 2 ∨ k = 3 := by omega
    rw [hcs]
    rcases this with rfl | rfl | rfl | rfl
    · exact l0
    · exact l1
    · exact l2
    · exact l3
  have hcsn : ∀ k, k < 4 → ∀ j, j < P.N → (cs k).cnt j = ((P.own k j).length : Int) := by
    intro k hk
    have : k = 0 ∨ k = 1 ∨ k = 2 ∨ k = 3 := by omega
    rw [hcs]
    rcases this with rfl | rfl | rfl | rfl
    · exact n0
    · exact n1
    · exact n2
    · exact n3
  have hnode3 : ∀ r, (s3.1 r).pix = (s2.X r).pix ∧ (s3.1 r).kids = (s2.X r).kids ∧
      (s3.1 r).parent = (s2.X r).parent ∧ (s3.1 r).flag = (s2.X r).flag ∧
      (s3.1 r).gray = (s2.X r).gray := by
    intro r; rw [i3.node r]; exact ⟨rfl, rfl, rfl, rfl, rfl⟩
  obtain ⟨s4, e4, i4⟩ := head_loop (P := P) (X0 := s3.1) (ms0 := s2.ms) (arr := arr)
    (s := ⟨s3.1, s2.ms, fun _ => none, fun k : Nat => if k = 0 then 0
      else if k = 1 then s2.memSize - c3'.total - c2'.total - c1'.total
      else if k = 2 then s2.memSize - c3'.total - c2'.total
      else s2.memSize - c3'.total, fun k => (cs k).cnt⟩) hN R.nodup
    (by
      intro t ht
      rw [(hnode3 _).1, i2.pix t ht]
      rw [Plan.accs_up ok (Nat.le_of_lt ht) (Nat.le_of_eq hN)])
    (by
      intro t ht
      rw [(hnode3 _).2.1, i2.kids t ht]
      rw [Plan.kids_up ok (Nat.le_of_lt ht) (Nat.le_of_eq hN)])
    (by intro t ht; exact i2.mtype t ht (by rw [hN]; exact ht))
    (by
      refine ⟨?_, ?_, ?_, fun _ => rfl, ?_, ?_⟩
      · intro j hj; omega
      · intro k hk
        have : k = 0 ∨ k = 1 ∨ k = 2 ∨ k = 3 := by omega
        dsimp only
        rw [hM, t1, t2, t3]
        rcases this with rfl | rfl | rfl | rfl
        · simp [Plan.starts, Plan.off]
        · simp only [Plan.starts, Plan.base, Plan.cum, Plan.size]; simp
        · simp only [Plan.starts, Plan.base, Plan.cum, Plan.size]; simp
        · simp only [Plan.starts, Plan.base, Plan.cum, Plan.size]; simp
      · intro k hk j hj
        dsimp only
        rw [if_neg (by omega)]
        exact hcsn k hk j hj
      · intro j h hj; omega
      · intro j hj
        rw [if_neg (by omega)])
  have hpos : ∀ k, k < 4 → ∀ j, j < P.N → s4.cnt k j = (P.sec k j : Int) := by
    intro k hk j hj
    rw [i4.cnt k hk j hj, if_pos hj]
  -- pixels
  have fill : ∀ k, k < 4 → ∀ (m : Mem) (S : Nat → Nat → List Pt),
      Lay P m (fun k i => (P.own k i).length) S (fun _ => 0) (fun _ => []) →
      (∀ i, i < P.N → ∀ l, l < 4 → S l i = if l < k then P.own l i else []) →
      ∃ f, fillPatch E P.size P.N (fun k => (cs k).link) s4.cnt m k junk = some f ∧
        Lay P f.mem (fun k i => (P.own k i).length)
          (fun l i => if l < k + 1 then P.own l i else []) (fun _ => 0) (fun _ => []) ∧
        (∀ j, j < P.N → f.box j = boxOf P junk k j) := by
    intro k hk m S lay hS
    have hl : ∀ j, j < P.N → P.own k j
        = linked E k ((cs k).link) j (scan (E.pi k).width (E.pi k).height) := by
      intro j _
      rw [hown]
      exact (linked_congr (hcsl k hk)).symm
    obtain ⟨f, e, a, b⟩ := fill_loop (P := P) (E := E) (k := k) hk (link := (cs k).link)
      (L := fun k i => (P.own k i).length) hl
      (by
        intro rc hrc
        rw [hcsl k hk rc hrc]
        exact hrange k hk rc hrc)
      (-1, junk.1, junk.2.1, junk.2.2) (scan (E.pi k).width (E.pi k).height) []
      ⟨m, s4.cnt k, fun _ => (-1, junk.1, junk.2.1, junk.2.2)⟩ rfl
      (lay.congrS fun i hi l hl4 => by
        rw [hS i hi l hl4]
        simp only [during, linked, List.filter_nil, List.map_nil]
        by_cases h : l = k
        · rw [if_pos h, if_neg (by omega)]
        · rw [if_neg h])
      (by intro j hj; dsimp only; rw [hpos k hk j hj]; simp [linked])
      (by intro j hj; simp [linked])
    refine ⟨f, ?_, ?_, ?_⟩
    · simp only [fillPatch]
      have := R.n4
      rw [if_pos (by omega)]
      exact e
    · refine a.congrS fun i hi l hl4 => ?_
      simp only [during, List.nil_append]
      by_cases h : l = k
      · rw [if_pos h, if_pos (by omega), h, hl i hi]
      · rw [if_neg h]
        by_cases h' : l < k
        · rw [if_pos h', if_pos (by omega)]
        · rw [if_neg h', if_neg (by omega)]
    · intro j hj
      rw [b j hj, List.nil_append, ← hl j hj]
      rfl
  have lay0 : Lay P s4.mem (fun k i => (P.own k i).length) (fun _ _ => []) (fun _ => 0)
      (fun _ => []) :=
    ⟨fun i hi => (i4.heads i hi).1, fun i _ k _ t ht => by simp at ht,
      fun i hi hs => (i4.heads i hi).2 hs⟩
  obtain ⟨f0, ef0, lay1, b0⟩ := fill 0 (by omega) s4.mem _ lay0 (fun i _ l _ => by
    rw [if_neg (by omega)])
  obtain ⟨f1, ef1, lay2, b1⟩ := fill 1 (by omega) f0.mem _ lay1 (fun i _ l _ => by simp only)
  obtain ⟨f2, ef2, lay3, b2⟩ := fill 2 (by omega) f1.mem _ lay2 (fun i _ l _ => by simp only)
  obtain ⟨f3, ef3, lay4, b3⟩ := fill 3 (by omega) f2.mem _ lay3 (fun i _ l _ => by simp only)
  have done0 : Done P 0 f3.mem := by
    have h : ∀ k i, P.seg 0 k i = P.own k i := by
      intro k i
      simp only [Plan.seg, Plan.accs]
      by_cases h : k = 0
      · subst h; simp
      · simp [h]
    have hr : P.rel 0 = fun _ => 0 := by funext i; simp [Plan.rel]
    have hk : P.kids 0 = fun _ => [] := rfl
    simp only [Done, h, hr, hk]
    refine lay4.congrS fun i _ k hk4 => ?_
    rw [if_pos (by omega), h]
  obtain ⟨box, hbox⟩ : ∃ box : Nat → Nat → Int × Int × Int × Int, box = fun k : Nat =>
      if k = 0 then f0.box else if k = 1 then f1.box else if k = 2 then f2.box else f3.box :=
    ⟨_, rfl⟩
  have hboxk : ∀ k, k < 4 → ∀ j, j < P.N → box k j = boxOf P junk k j := by
    intro k hk
    have : k = 0 ∨ k = 1 ∨ k = 2 ∨ k = 3 := by omega
    rw [hbox]
    rcases this with rfl | rfl | rfl | rfl
    · exact b0
    · exact b1
    · exact b2
    · exact b3
  have hobox : ∀ j, j < P.N → ownBox box j = ownBox (boxOf P junk) j := by
    intro j hj
    simp only [ownBox, List.foldl_cons, List.foldl_nil]
    rw [hboxk 0 (by omega) j hj, hboxk 1 (by omega) j hj, hboxk 2 (by omega) j hj,
      hboxk 3 (by omega) j hj]
  have horect : ∀ t j, t ≤ P.N → P.rects (ownRect box) t j = P.rects (ownRect (boxOf P junk)) t j := by
    intro t
    induction t with
    | zero => intro j _; rfl
    | succ t ih =>
      intro j ht
      simp only [Plan.rects, ih _ (Nat.le_of_succ_le ht)]
      have : ownRect box t = ownRect (boxOf P junk) t := by
        simp only [ownRect, hobox t (by omega)]
      rw [this]
  have hne : ∀ j, j < P.N → (ownBox box j).1 ≠ -1 := by
    intro j hj
    obtain ⟨k, hk, hnil⟩ := R.own j (by rw [hN]; exact hj)
    rw [← hbown] at hnil
    refine ownBox_ne hk ?_
    rw [hboxk k hk j hj]
    refine grows_ne ?_ (Or.inl hnil)
    intro p hp
    rw [hown] at hp
    simp only [linked, List.mem_map, List.mem_filter] at hp
    obtain ⟨rc, ⟨hrc, _⟩, rfl⟩ := hp
    rw [mem_scan] at hrc
    have := R.coord k hk
    simp only [ptOf]
    omega
  have hX4 : ∀ r, (s4.X r).parent = (s3.1 r).parent ∧ (s4.X r).flag = (s3.1 r).flag := by
    intro r; rw [i4.node]; exact ⟨rfl, rfl⟩
  obtain ⟨s5, e5, d5, m5, r5, k5⟩ := join_loop (P := P) ok (X := s4.X) (arr := arr) hN (box := box)
    (by
      intro t ht
      have hpar : (s4.X arr[t]).parent = nu arr[t] := by
        rw [(hX4 _).1, (hnode3 _).2.2.1]; exact i2.par t ht ht
      simp only [parentRecord, hpar]
      cases hn : nu arr[t] with
      | none => exact (hfit.up_none t ht hn).symm
      | some q =>
        obtain ⟨i, hi, hq, hu⟩ := hfit.up_some t ht q hn
        have hv : (s4.X q).flag = .valid := by
          rw [(hX4 _).2, (hnode3 _).2.2.2.1, (hvalid2 _).1]
          have hmem : q ∈ arr := by rw [← hq]; simp
          exact (R.valid q (R.arr_reg q hmem)).mpr hmem
        dsimp only
        rw [if_pos hv, hu, ← hq, i4.index i hi (by rw [← hN]; exact hi)])
    hne (s := ⟨s4.ms, f3.mem⟩) done0
    (by
      refine ⟨?_, ?_⟩
      · intro i hi; dsimp only; rw [i4.ms i hi, if_pos hi]
      · intro i hi; dsimp only; rw [i4.ms i hi, if_pos hi]
        exact i2.mtype i hi (by rw [hN]; exact hi))
    (by
      intro j hj; dsimp only; rw [i4.ms j hj, if_pos hj]; exact i2.rect j hj)
  refine ⟨⟨P.N, s5.ms, s5.mem, P.size⟩, ?_, ⟨rfl, rfl, m5, d5, ?_, ?_, ?_⟩⟩
  · rw [← hN] at ec0 ec1 ec2 ec3 ef0 ef1 ef2 ef3 e5 ⊢
    rw [← hM] at e4 ef0 ef1 ef2 ef3 e5 ⊢
    rw [hcs] at e4 ef0 ef1 ef2 ef3
    rw [hbox] at e5
    exact bind_of e1 (bind_of e2 (bind_of e3 (bind_of ec0 (bind_of ec1 (bind_of ec2 (bind_of ec3
      (bind_of e4 (bind_of ef0 (bind_of ef1 (bind_of ef2 (bind_of ef3 (bind_of e5 rfl))))))))))))
  · intro j hj
    dsimp only
    rw [(k5 j).1]
    dsimp only
    rw [i4.ms j hj, if_pos hj]
    exact i2.size j hj
  · intro j h
    have hj : j < P.N := by rw [← hN]; exact h
    dsimp only
    rw [(k5 j).2]
    dsimp only
    rw [i4.ms j hj, if_pos hj, List.getElem?_eq_getElem h]
    dsimp only [Option.map_some, Option.getD_some]
    rw [(hnode3 _).2.2.2.2, (hvalid2 _).2.2.2]
  · intro j hj
    dsimp only
    rw [r5 j hj]
    exact horect P.N j (Nat.le_refl _)

end

end Verif.Extract
