import Verif.Proof.MsFinish

/-!
# The ms detector: preparing the extraction
-/

namespace Verif.Ms

open Function (update)
open Verif.Extract

variable {P : Plan} {E : Env} {rk : Reg → Nat} {F fuel : Nat} {nu : Reg → Option Reg} {X0 : XForest} {arr : List Reg}

/-! ### One turn of the linking loops -/

theorem link_step {kids : Bool} {X : XForest} {r : Reg} {size : Nat} (hX : Climbs E rk F nu X) (hr : IsReg E r)
    (hF : F ≤ fuel) :
    ∃ X', linkM kids fuel X size r = some X' ∧ Climbs E rk F nu X' ∧
      (∀ q, X' q = { X q with
        parent := (X' q).parent
        pix := if nu r = some q then (X q).pix + size else (X q).pix
        kids := if nu r = some q ∧ kids = true then (X q).kids + 1 else (X q).kids }) ∧
      (X' r).parent = nu r ∧ ∀ q, (X q).parent = nu q → (X' q).parent = nu q := by
  have hcl := climbValid_mono (hX.climb _ hr) hF
  have hpr : ∀ q, (X r).parent = some q → IsReg E q := fun q hq => (hX.par _ q hr hq).1
  obtain ⟨X1, hX1⟩ : ∃ X1, X1 = countM kids X size (nu r) := ⟨_, rfl⟩
  have x1 : ∀ q, X1 q = { X q with
      pix := if nu r = some q then (X q).pix + size else (X q).pix
      kids := if nu r = some q ∧ kids = true then (X q).kids + 1 else (X q).kids } := by
    intro q
    rw [hX1]
    cases nu r with
    | none => simp [countM]
    | some p =>
      simp only [countM]
      by_cases e : q = p
      · subst e; rw [Function.update_self]; cases kids <;> simp
      · rw [Function.update_of_ne e]
        have : ¬ (some p = some q) := fun h => e (Option.some.inj h).symm
        simp [this]
  have x1p : ∀ q, (X1 q).parent = (X q).parent ∧ (X1 q).flag = (X q).flag := by
    intro q; rw [x1 q]; exact ⟨rfl, rfl⟩
  have x2f : ∀ q, IsReg E q → (update X1 r { X1 r with parent := nu r } q).flag = (X q).flag := by
    intro q _
    by_cases e : q = r
    · subst e; rw [Function.update_self]; exact (x1p _).2
    · rw [Function.update_of_ne e]; exact (x1p q).2
  have x2p : ∀ q, IsReg E q → (update X1 r { X1 r with parent := nu r } q).parent = (X q).parent ∨
      (update X1 r { X1 r with parent := nu r } q).parent = nu q := by
    intro q _
    by_cases e : q = r
    · subst e; rw [Function.update_self]; exact Or.inr rfl
    · rw [Function.update_of_ne e]; exact Or.inl (x1p q).1
  obtain ⟨X3, e3, c3, s3, k3⟩ := compress_spec (nu := nu) (E := E) (rk := rk) (F := F) (real := nu r) fuel
    (update X1 r { X1 r with parent := nu r }) (X r).parent (climbs_short hX x2f x2p) hpr
    (climbValid_short hX x2f x2p fuel _ _ hpr hcl)
  refine ⟨X3, ?_, c3, ?_, ?_, ?_⟩
  · simp only [linkM, hcl]
    rw [hX1] at e3
    exact e3
  · intro q
    have h1 := s3 q
    by_cases e : q = r
    · subst e
      rw [Function.update_self] at h1
      rw [h1]
      dsimp only
      rw [x1 q]
    · rw [Function.update_of_ne e] at h1
      rw [h1]
      dsimp only
      rw [x1 q]
  · apply k3
    rw [Function.update_self]
  · intro q hq
    apply k3
    by_cases e : q = r
    · subst e; rw [Function.update_self]
    · rw [Function.update_of_ne e, (x1p q).1]; exact hq

/-- State of the region objects after `t` turns. -/
structure LinkInv (kids : Bool) (P : Plan) (E : Env) (rk : Reg → Nat) (F : Nat) (nu : Reg → Option Reg) (X0 : XForest)
    (arr : List Reg) (t : Nat) (X : XForest) : Prop where
  climbs : Climbs E rk F nu X
  node : ∀ r, X r = { X0 r with parent := (X r).parent, pix := (X r).pix, kids := (X r).kids }
  pix : ∀ j (h : j < arr.length), (X arr[j]).pix = (P.accs t j).length
  counts : kids = true → ∀ j (h : j < arr.length), (X arr[j]).kids = (P.kids t j).length
  keep : kids = false → ∀ j (h : j < arr.length), (X arr[j]).kids = j
  par : ∀ j (h : j < arr.length), j < t → (X arr[j]).parent = nu arr[j]

theorem link_inv {kids : Bool} {thr : Int} (hP : Fitting P nu arr thr) (hreg : ∀ r ∈ arr, IsReg E r) (hnd : arr.Nodup)
    (hF : F ≤ fuel) {t : Nat} (ht : t < arr.length) {X : XForest} (inv : LinkInv kids P E rk F nu X0 arr t X) :
    ∃ X', linkM kids fuel X (P.full t).length arr[t] = some X' ∧ LinkInv kids P E rk F nu X0 arr (t + 1) X' := by
  obtain ⟨X', e, c, n, p, k⟩ := link_step (kids := kids) (size := (P.full t).length) inv.climbs
    (hreg arr[t] (by simp)) hF
  have hinj : ∀ i j (hi : i < arr.length) (hj : j < arr.length), arr[i] = arr[j] → i = j :=
    fun i j hi hj e' => (List.Nodup.getElem_inj_iff hnd).mp e'
  have hup : ∀ j (h : j < arr.length), nu arr[t] = some arr[j] ↔ P.up t = some j := by
    intro j h
    constructor
    · intro hn
      obtain ⟨i, hi, hq, hu⟩ := hP.up_some t ht _ hn
      rw [hu, hinj i j hi h hq]
    · intro hu
      cases hn : nu arr[t] with
      | none => rw [hP.up_none t ht hn] at hu; cases hu
      | some q =>
        obtain ⟨i, hi, hq, hu'⟩ := hP.up_some t ht _ hn
        rw [hu] at hu'
        obtain rfl := Option.some.inj hu'
        rw [hq]
  refine ⟨X', e, c, ?_, ?_, ?_, ?_, ?_⟩
  · intro r
    rw [n r]
    dsimp only
    rw [inv.node r]
  · intro j h
    rw [n]
    dsimp only
    by_cases hu : P.up t = some j
    · rw [if_pos ((hup j h).2 hu), Plan.accs_succ hu, List.length_append, inv.pix j h]
    · rw [if_neg (fun h' => hu ((hup j h).1 h')), Plan.accs_succ_ne hu, inv.pix j h]
  · intro hk j h
    rw [n]
    dsimp only
    by_cases hu : P.up t = some j
    · rw [if_pos ⟨(hup j h).2 hu, hk⟩, Plan.kids_succ hu, List.length_append, inv.counts hk j h]; rfl
    · rw [if_neg (fun h' => hu ((hup j h).1 h'.1)), Plan.kids_succ_ne hu, inv.counts hk j h]
  · intro hk j h
    rw [n]
    dsimp only
    rw [if_neg (by rw [hk]; simp)]
    exact inv.keep hk j h
  · intro j h hj
    by_cases e' : j = t
    · subst e'; exact p
    · exact k _ (inv.par j h (by omega))

/-! ### Offsets -/

/-- The sum of the first `t` lengths. -/
def sumLen (f : Nat → Nat) : Nat → Nat
  | 0 => 0
  | t + 1 => sumLen f t + f t

theorem sumLen_mono (f : Nat → Nat) {a b : Nat} (h : a ≤ b) : sumLen f a ≤ sumLen f b := by
  induction b with
  | zero => obtain rfl : a = 0 := by omega
            exact le_refl _
  | succ b ih =>
    rcases Nat.lt_or_ge a (b + 1) with h' | h'
    · have := ih (by omega); simp only [sumLen]; omega
    · obtain rfl : a = b + 1 := by omega
      exact le_refl _

theorem sumLen_lt (f : Nat → Nat) {a b : Nat} (h : a < b) : sumLen f a + f a ≤ sumLen f b :=
  sumLen_mono f (Nat.succ_le_of_lt h)

theorem sumLen_congr {f g : Nat → Nat} {t : Nat} (h : ∀ i, i < t → f i = g i) : sumLen f t = sumLen g t := by
  induction t with
  | zero => rfl
  | succ t ih => simp only [sumLen, ih fun i hi => h i (by omega), h t (by omega)]

/-! ### Threshold −1 or `INT_MAX` -/

/-- State after `t` turns of the loop 598–620. -/
structure MarkAInv (own : Bool) (gm : Nat) (X0 : XForest) (arr : List Reg) (full : Nat → Nat) (t : Nat) (s : PrepM) :
    Prop where
  node : ∀ r, s.X r = { X0 r with pix := (s.X r).pix, kids := (s.X r).kids }
  done : ∀ j (h : j < arr.length), j < t → (s.X arr[j]).pix = 0 ∧ (s.X arr[j]).kids = j
  todo : ∀ j (h : j < arr.length), t ≤ j → (s.X arr[j]).pix = full j
  ms : ∀ j (h : j < arr.length), j < t → (s.ms j).size = full j ∧ (s.ms j).gray = (X0 arr[j]).gray ^^^ gm ∧
    (s.ms j).mtype = (if own then .self else .share) ∧ (s.ms j).arr = (if own then j + 1 else 0) ∧
    (s.ms j).points = (if own then 0 else (sumLen full j : Int)) ∧ (s.ms j).rect.left = -1
  heap : ∀ j (h : j < arr.length), j < t → s.heap arr[j] = some (j : Int)
  memSize : own = false → s.memSize = (sumLen full t : Int)

theorem markA_loop {own : Bool} {gm : Nat} {full : Nat → Nat} (hreg : ∀ r ∈ arr, IsReg E r) (hnd : arr.Nodup)
    (hidx : ∀ r, IsReg E r → (X0 r).index = r.2) (hsize : ∀ j (h : j < arr.length), (X0 arr[j]).pix = full j)
    (heap0 : Reg → Option Int) :
    ∃ s, arr.zipIdx.foldlM (markA E gm own) ⟨X0, fun _ => RecM.fresh, heap0, 0⟩ = some s ∧
      MarkAInv own gm X0 arr full arr.length s := by
  apply foldlM_zipIdx (I := MarkAInv own gm X0 arr full)
  · intro t ht s inv
    have hr := hreg arr[t] (by simp)
    have hi : (s.X arr[t]).index = arr[t].2 := by rw [inv.node]; exact hidx _ hr
    have hg : (s.X arr[t]).gray = (X0 arr[t]).gray := by rw [inv.node]
    have hp := inv.todo t ht (le_refl t)
    have hne : ∀ j (h : j < arr.length), j ≠ t → arr[j] ≠ arr[t] := by
      intro j h e e'; exact e ((List.Nodup.getElem_inj_iff hnd).mp e')
    have hr' : arr[t].1 < E.n ∧ (s.X arr[t]).index < E.nreg arr[t].1 := by rw [hi]; exact hr
    have hpair : (arr[t].1, (s.X arr[t]).index) = arr[t] := by rw [hi]
    refine ⟨_, by simp only [markA]; rw [if_pos hr', hpair], ?_⟩
    refine ⟨?_, ?_, ?_, ?_, ?_, ?_⟩
    · intro r
      dsimp only
      by_cases e : r = arr[t]
      · subst e
        rw [Function.update_self]
        dsimp only
        rw [inv.node]
      · rw [Function.update_of_ne e]; exact inv.node r
    · intro j h hj
      dsimp only
      by_cases e : j = t
      · subst e; rw [Function.update_self]; exact ⟨rfl, rfl⟩
      · rw [Function.update_of_ne (hne j h e)]; exact inv.done j h (by omega)
    · intro j h hj
      dsimp only
      rw [Function.update_of_ne (hne j h (by omega))]; exact inv.todo j h (by omega)
    · intro j h hj
      dsimp only
      by_cases e : j = t
      · subst e
        rw [Function.update_self]
        refine ⟨hp, by rw [← hg], rfl, rfl, ?_, rfl⟩
        cases ho : own with
        | true => rfl
        | false => exact inv.memSize ho
      · rw [Function.update_of_ne e]; exact inv.ms j h (by omega)
    · intro j h hj
      dsimp only
      by_cases e : j = t
      · subst e; rw [Function.update_self]
      · rw [Function.update_of_ne (hne j h e)]; exact inv.heap j h (by omega)
    · intro ho
      dsimp only
      rw [ho, if_neg (by simp), inv.memSize ho, hp]
      simp only [sumLen]; push_cast; rfl
  · refine ⟨fun _ => rfl, ?_, ?_, ?_, ?_, fun _ => rfl⟩
    · intro j h hj; omega
    · intro j h _; exact hsize j h
    · intro j h hj; omega
    · intro j h hj; omega

/-- In the loop 649–680 nothing changes at reported regions. -/
theorem assignA_eq {X2 : XForest} (h2 : Climbs E rk F nu X2) (hF : F ≤ fuel)
    (hpar : ∀ r, IsReg E r → (X2 r).flag = .valid → (X2 r).parent = nu r) {r : Reg} (hr : IsReg E r)
    {s : XForest × (Reg → Option Int)} (inv : AssignInv E X2 nu arr s) :
    assignA E fuel s r = assignOne E fuel s r := by
  have hn : ∀ r, (s.1 r).parent = (X2 r).parent ∧ (s.1 r).flag = (X2 r).flag := by
    intro r; rw [inv.node r]; exact ⟨rfl, rfl⟩
  unfold assignA
  by_cases hv : (s.1 r).flag = .valid
  · have hp := hpar r hr (by rw [← (hn r).2]; exact hv)
    have hc : climbValid s.1 fuel (s.1 r).parent = some (nu r) := by
      rw [(hn r).1]
      exact climbValid_short h2 (fun q _ => (hn q).2) (fun q _ => .inl (hn q).1) fuel _ _
        (fun q hq => (h2.par r q hr hq).1) (climbValid_mono (h2.climb r hr) hF)
    rw [if_pos hv, hc]
    dsimp only
    have hu : update s.1 r { s.1 r with parent := nu r } = s.1 := by
      rw [← hp, ← (hn r).1]
      exact Function.update_eq_self r s.1
    rw [hu]
    unfold assignOne
    rw [if_pos hv]
  · rw [if_neg hv]

/-! ### Other thresholds -/

/-- State after `t` turns of the loop 683–691. -/
structure MarkBInv (gm : Nat) (X0 : XForest) (arr : List Reg) (full : Nat → Nat) (heap0 : Reg → Option Int) (t : Nat)
    (s : PrepM) : Prop where
  node : ∀ r, s.X r = { X0 r with pix := (s.X r).pix, kids := (s.X r).kids }
  done : ∀ j (h : j < arr.length), j < t → (s.X arr[j]).pix = 0 ∧ (s.X arr[j]).kids = 0
  todo : ∀ j (h : j < arr.length), t ≤ j → (s.X arr[j]).pix = full j
  ms : ∀ j (h : j < arr.length), j < t → (s.ms j).size = full j ∧ (s.ms j).gray = (X0 arr[j]).gray ^^^ gm ∧
    (s.ms j).rect.left = -1
  arr : ∀ j, (s.ms j).arr = 0
  heap : s.heap = heap0
  memSize : s.memSize = 0

theorem markB_loop {gm : Nat} {full : Nat → Nat} (hnd : arr.Nodup)
    (hsize : ∀ j (h : j < arr.length), (X0 arr[j]).pix = full j) (heap0 : Reg → Option Int) :
    MarkBInv gm X0 arr full heap0 arr.length (arr.zipIdx.foldl (markB gm) ⟨X0, fun _ => RecM.fresh, heap0, 0⟩) := by
  apply foldl_zipIdx (I := MarkBInv gm X0 arr full heap0)
  · intro t ht s inv
    have hg : (s.X arr[t]).gray = (X0 arr[t]).gray := by rw [inv.node]
    have hp := inv.todo t ht (le_refl t)
    have hne : ∀ j (h : j < arr.length), j ≠ t → arr[j] ≠ arr[t] := by
      intro j h e e'; exact e ((List.Nodup.getElem_inj_iff hnd).mp e')
    refine ⟨?_, ?_, ?_, ?_, ?_, inv.heap, inv.memSize⟩
    · intro r
      simp only [markB]
      by_cases e : r = arr[t]
      · subst e
        rw [Function.update_self]
        dsimp only
        rw [inv.node]
      · rw [Function.update_of_ne e]; exact inv.node r
    · intro j h hj
      simp only [markB]
      by_cases e : j = t
      · subst e; rw [Function.update_self]; exact ⟨rfl, rfl⟩
      · rw [Function.update_of_ne (hne j h e)]; exact inv.done j h (by omega)
    · intro j h hj
      simp only [markB]
      rw [Function.update_of_ne (hne j h (by omega))]; exact inv.todo j h (by omega)
    · intro j h hj
      simp only [markB]
      by_cases e : j = t
      · subst e
        rw [Function.update_self]
        exact ⟨hp, by rw [← hg], rfl⟩
      · rw [Function.update_of_ne e]; exact inv.ms j h (by omega)
    · intro j
      simp only [markB]
      by_cases e : j = t
      · subst e; rw [Function.update_self]; exact inv.arr j
      · rw [Function.update_of_ne e]; exact inv.arr j
  · refine ⟨fun _ => rfl, ?_, ?_, ?_, fun _ => rfl, rfl, rfl⟩
    · intro j h hj; omega
    · intro j h _; exact hsize j h
    · intro j h hj; omega

/-- Number of points of record `j`. -/
def lenB (P : Plan) (j : Nat) : Nat :=
  if P.sh j then (P.full j).length else 1 + (P.own 0 j).length + (1 + (P.kids j j).length) / 2

/-- State after `t` turns of the loop 693–724. -/
structure TypeBInv (P : Plan) (E : Env) (rk : Reg → Nat) (F : Nat) (nu : Reg → Option Reg) (X0 : XForest)
    (arr : List Reg) (ms0 : Nat → RecM) (t : Nat) (s : PrepM) : Prop where
  link : LinkInv true P E rk F nu X0 arr t s.X
  node : ∀ j, s.ms j = { ms0 j with mtype := (s.ms j).mtype }
  mtype : ∀ j, j < t → (s.ms j).mtype = if P.sh j then .share else .recursive
  heap : ∀ j (h : j < arr.length), j < t → s.heap arr[j] = some (j : Int)
  memSize : s.memSize = (sumLen (lenB P) t : Int)

theorem typeB_loop {thr : Int} (hP : Fitting P nu arr thr) (hone : ∀ k j, k ≠ 0 → P.own k j = [])
    (hreg : ∀ r ∈ arr, IsReg E r) (hnd : arr.Nodup) (hF : F ≤ fuel) (hidx : ∀ r, IsReg E r → (X0 r).index = r.2)
    {ms0 : Nat → RecM} (hsz : ∀ j, j < P.N → (ms0 j).size = (P.full j).length) {s0 : PrepM}
    (h0 : TypeBInv P E rk F nu X0 arr ms0 0 s0) :
    ∃ s, arr.zipIdx.foldlM (typeB E thr fuel) s0 = some s ∧ TypeBInv P E rk F nu X0 arr ms0 arr.length s := by
  apply foldlM_zipIdx (I := TypeBInv P E rk F nu X0 arr ms0) _ _ _ _ h0
  intro t ht s inv
  have htN : t < P.N := by rw [hP.N]; exact ht
  have hr := hreg arr[t] (by simp)
  have hi : (s.X arr[t]).index = arr[t].2 := by rw [inv.link.node]; exact hidx _ hr
  have hk := inv.link.counts rfl t ht
  have hp := inv.link.pix t ht
  have hm : (s.ms t).size = (P.full t).length := by rw [inv.node]; exact hsz t htN
  have hne : ∀ j (h : j < arr.length), j ≠ t → arr[j] ≠ arr[t] := by
    intro j h e e'; exact e ((List.Nodup.getElem_inj_iff hnd).mp e')
  have hr' : arr[t].1 < E.n ∧ (s.X arr[t]).index < E.nreg arr[t].1 := by rw [hi]; exact hr
  have hpair : (arr[t].1, (s.X arr[t]).index) = arr[t] := by rw [hi]
  obtain ⟨X', e', inv'⟩ := link_inv hP hreg hnd hF ht inv.link
  have hsh : ((s.X arr[t]).kids = 0 ∨ ((s.ms t).size : Int) ≤ thr) ↔ P.sh t = true := by
    rw [hP.sh t htN, hk, hm]
  refine ⟨_, by simp only [typeB]; rw [if_pos hr', hpair, hm, e'], ?_⟩
  refine ⟨inv', ?_, ?_, ?_, ?_⟩
  · intro j
    dsimp only
    by_cases e : j = t
    · subst e
      rw [Function.update_self]
      have := inv.node j
      rw [this] at hm ⊢
      dsimp only at hm ⊢
      rw [hm]
    · rw [Function.update_of_ne e]; exact inv.node j
  · intro j hj
    dsimp only
    by_cases e : j = t
    · subst e
      rw [Function.update_self]
      dsimp only
      rw [← hm]
      by_cases h : P.sh j = true
      · rw [if_pos (hsh.2 h), if_pos h]
      · rw [if_neg (fun h' => h (hsh.1 h')), if_neg h]
    · rw [Function.update_of_ne e]; exact inv.mtype j (by omega)
  · intro j h hj
    dsimp only
    by_cases e : j = t
    · subst e; rw [Function.update_self]
    · rw [Function.update_of_ne (hne j h e)]; exact inv.heap j h (by omega)
  · dsimp only
    have hfull : (P.full t).length = (P.own 0 t).length + (P.accs t t).length := by
      simp [Plan.full, hone 1 t (by decide), hone 2 t (by decide), hone 3 t (by decide)]
    rw [← hm]
    simp only [sumLen, lenB]
    by_cases h : P.sh t = true
    · rw [if_pos (hsh.2 h), if_pos h, inv.memSize, hm]; push_cast; rfl
    · rw [if_neg (fun h' => h (hsh.1 h')), if_neg h, inv.memSize, hm, hp, hk]
      push_cast; omega

/-- The areas when there are headers. -/
def areasB (P : Plan) : Areas where
  arr := fun _ => 0
  off := sumLen (lenB P)
  mt := fun j => if P.sh j then .share else .recursive
  asz := fun b => if b = 0 then (sumLen (lenB P) P.N : Int) else 0

theorem areasB_len (P : Plan) (j : Nat) : (areasB P).len P j = lenB P j := by
  unfold Areas.len lenB areasB
  by_cases h : P.sh j = true
  · simp [h]
  · simp [h]

theorem areasB_fit (ok : P.Ok) (hone : ∀ k j, k ≠ 0 → P.own k j = []) : (areasB P).Fit P := by
  refine ⟨ok, hone, ?_, ?_, ?_, ?_⟩
  · intro j hj
    rw [areasB_len]
    have := sumLen_lt (lenB P) hj
    simp only [areasB, if_true]
    omega
  · intro i j _ _ hne _
    rw [areasB_len, areasB_len]
    rcases Nat.lt_or_ge i j with h | h
    · left; exact sumLen_lt _ h
    · right; exact sumLen_lt _ (by omega)
  · intro i j hi hu h
    have hs : P.sh j = true := by
      by_contra hc
      apply h
      simp [areasB, hc]
    have := ok.sh_up i j hi hu hs
    simp [areasB, this]
  · right
    intro j
    simp only [areasB]
    split <;> simp

/-- State after `t` turns of the loop 729–746. -/
structure HeadBInv (P : Plan) (X2 : XForest) (ms0 : Nat → RecM) (arr : List Reg) (t : Nat) (s : HeadM) : Prop where
  node : ∀ r, s.X r = { X2 r with kids := (s.X r).kids }
  done : ∀ j (h : j < arr.length), j < t → (s.X arr[j]).kids = j
  todo : ∀ j (h : j < arr.length), t ≤ j → (s.X arr[j]).kids = (X2 arr[j]).kids
  ms : ∀ j, s.ms j = { ms0 j with points := (s.ms j).points }
  points : ∀ j, j < t → (s.ms j).points = (sumLen (lenB P) j : Int) + (areasB P).d j
  off : s.off = (sumLen (lenB P) t : Int)
  cont : ∀ j, j < t → Cont (areasB P) P (fun b => if b = 0 then s.mem else fun _ => none) j [] []

theorem pts_nil (m : Mem) (b : Int) : Pts m b [] := by
  intro t ht
  simp at ht

theorem headB_loop (ok : P.Ok) (hone : ∀ k j, k ≠ 0 → P.own k j = []) (hN : arr.length = P.N) (hnd : arr.Nodup)
    {X2 : XForest} {ms0 : Nat → RecM} (hsz : ∀ j, j < P.N → (ms0 j).size = (P.full j).length)
    (hmt : ∀ j, j < P.N → (ms0 j).mtype = if P.sh j then .share else .recursive)
    (hpix : ∀ j (h : j < arr.length), (X2 arr[j]).pix = (P.accs j j).length)
    (hkids : ∀ j (h : j < arr.length), (X2 arr[j]).kids = (P.kids j j).length) :
    ∃ s, arr.zipIdx.foldlM (headB (sumLen (lenB P) P.N : Int)) ⟨X2, ms0, fun _ => none, 0⟩ = some s ∧
      HeadBInv P X2 ms0 arr arr.length s := by
  have hA := areasB_fit ok hone
  apply foldlM_zipIdx (I := HeadBInv P X2 ms0 arr)
  · intro t ht s inv
    have htN : t < P.N := by omega
    have hne : ∀ j (h : j < arr.length), j ≠ t → arr[j] ≠ arr[t] := by
      intro j h e e'; exact e ((List.Nodup.getElem_inj_iff hnd).mp e')
    have hm : (s.ms t).mtype = if P.sh t then .share else .recursive := by rw [inv.ms]; exact hmt t htN
    have hs : (s.ms t).size = (P.full t).length := by rw [inv.ms]; exact hsz t htN
    have hp : (s.X arr[t]).pix = (P.accs t t).length := by rw [inv.node]; exact hpix t ht
    have hk : (s.X arr[t]).kids = (P.kids t t).length := by rw [inv.todo t ht (le_refl t)]; exact hkids t ht
    have hfull : (P.full t).length = (P.own 0 t).length + (P.accs t t).length := by
      rw [hA.full_eq, List.length_append]
    -- the region objects
    have hX : ∀ X' : XForest, X' = update s.X arr[t] { s.X arr[t] with kids := t } →
        (∀ r, X' r = { X2 r with kids := (X' r).kids }) ∧
        (∀ j (h : j < arr.length), j < t + 1 → (X' arr[j]).kids = j) ∧
        (∀ j (h : j < arr.length), t + 1 ≤ j → (X' arr[j]).kids = (X2 arr[j]).kids) := by
      rintro X' rfl
      refine ⟨fun r => ?_, fun j h hj => ?_, fun j h hj => ?_⟩
      · by_cases e : r = arr[t]
        · subst e
          rw [Function.update_self]
          dsimp only
          rw [inv.node]
        · rw [Function.update_of_ne e]; exact inv.node r
      · by_cases e : j = t
        · subst e; rw [Function.update_self]
        · rw [Function.update_of_ne (hne j h e)]; exact inv.done j h (by omega)
      · rw [Function.update_of_ne (hne j h (by omega))]; exact inv.todo j h (by omega)
    obtain ⟨x1, x2, x3⟩ := hX _ rfl
    have hw := hA.within t htN
    rw [areasB_len] at hw
    simp only [areasB, if_true] at hw
    by_cases hsh : P.sh t = true
    · refine ⟨⟨update s.X arr[t] { s.X arr[t] with kids := t }, update s.ms t { s.ms t with points := s.off }, s.mem,
        s.off + (s.ms t).size⟩, ?_, ?_⟩
      · simp only [headB]
        rw [if_pos (by rw [hm, if_pos hsh])]
      · have hd : (areasB P).d t = 0 := by simp [Areas.d, areasB, hsh]
        refine ⟨x1, x2, x3, fun j => ?_, fun j hj => ?_, ?_, fun j hj => ?_⟩
        · dsimp only
          by_cases e : j = t
          · subst e; rw [Function.update_self]; rw [inv.ms j]
          · rw [Function.update_of_ne e]; exact inv.ms j
        · dsimp only
          by_cases e : j = t
          · subst e; rw [Function.update_self, hd]; simpa using inv.off
          · rw [Function.update_of_ne e]; exact inv.points j (by omega)
        · dsimp only
          rw [inv.off, hs]
          simp only [sumLen, lenB, hsh, if_true]; push_cast; rfl
        · by_cases e : j = t
          · subst e
            have hr : (areasB P).mt j ≠ .recursive := by simp [areasB, hsh]
            exact ⟨pts_nil _ _, by simp, fun h => absurd h hr, fun h => absurd h hr, fun h => absurd h hr,
              fun h => absurd h hr⟩
          · exact inv.cont j (by omega)
    · have hlen : lenB P t = 1 + (P.own 0 t).length + (1 + (P.kids t t).length) / 2 := by simp [lenB, hsh]
      have hoff := inv.off
      have hown : ((s.ms t).size : Int) - (s.X arr[t]).pix = (P.own 0 t).length := by rw [hs, hp, hfull]; push_cast; omega
      have w1 : wr (sumLen (lenB P) P.N : Int) s.mem (2 * s.off) (((s.ms t).size : Int) - (s.X arr[t]).pix) = some _ :=
        wr_some (by omega) (by omega)
      have w2 : wr (sumLen (lenB P) P.N : Int) (update s.mem (2 * s.off) (some (((s.ms t).size : Int) - (s.X arr[t]).pix)))
          (2 * s.off + 1) 0 = some _ := wr_some (by omega) (by omega)
      refine ⟨⟨update s.X arr[t] { s.X arr[t] with kids := t }, update s.ms t { s.ms t with points := s.off + 1 },
        update (update s.mem (2 * s.off) (some (((s.ms t).size : Int) - (s.X arr[t]).pix))) (2 * s.off + 1) (some 0),
        s.off + (1 + ((s.ms t).size : Int) - (s.X arr[t]).pix + (1 + ((s.X arr[t]).kids : Int)) / 2)⟩, ?_, ?_⟩
      · simp only [headB]
        rw [if_neg (by rw [hm, if_neg hsh]; simp), w1, Option.bind_some, w2, Option.bind_some]
      · have hd : (areasB P).d t = 1 := by simp [Areas.d, areasB, hsh]
        refine ⟨x1, x2, x3, fun j => ?_, fun j hj => ?_, ?_, fun j hj => ?_⟩
        · dsimp only
          by_cases e : j = t
          · subst e; rw [Function.update_self]; rw [inv.ms j]
          · rw [Function.update_of_ne e]; exact inv.ms j
        · dsimp only
          by_cases e : j = t
          · subst e; rw [Function.update_self, hd]; dsimp only; rw [hoff]; simp
          · rw [Function.update_of_ne e]; exact inv.points j (by omega)
        · dsimp only
          rw [hoff, hs, hp, hk]
          simp only [sumLen, hlen]; push_cast; omega
        · have hoffA : ((areasB P).off t : Int) = s.off := by rw [hoff]; rfl
          by_cases e : j = t
          · subst e
            refine ⟨pts_nil _ _, by simp, fun _ => ?_, fun _ => ?_, fun _ u hu => by simp at hu, fun _ => by simp⟩
            · dsimp only [areasB]
              rw [if_pos rfl, ← hoff, Function.update_of_ne (by omega), Function.update_self, hown]
            · dsimp only [areasB]
              rw [if_pos rfl, ← hoff, Function.update_self]; rfl
          · refine (inv.cont j (by omega)).other hA htN (by omega) e fun b c hbc => ?_
            dsimp only
            by_cases hb : b = 0
            · rw [if_pos hb, if_pos hb]
              have hc : ¬ (2 * s.off ≤ c ∧ c < 2 * (s.off + lenB P t)) := by
                intro h
                apply hbc
                rw [areasB_len, hoffA]
                exact ⟨hb, h⟩
              rw [Function.update_of_ne (by rintro rfl; apply hc; omega), Function.update_of_ne (by rintro rfl; apply hc; omega)]
            · rw [if_neg hb, if_neg hb]
  · refine ⟨fun _ => rfl, ?_, fun _ _ _ => rfl, fun _ => rfl, ?_, rfl, ?_⟩
    · intro j h hj; omega
    · intro j hj; omega
    · intro j hj; omega

/-- The areas without headers. -/
def areasA (own : Bool) (full : Nat → Nat) (asz : Nat → Int) : Areas where
  arr := fun j => if own then j + 1 else 0
  off := fun j => if own then 0 else sumLen full j
  mt := fun _ => if own then .self else .share
  asz := asz

theorem areasA_fit {own : Bool} {asz : Nat → Int} (ok : P.Ok) (hone : ∀ k j, k ≠ 0 → P.own k j = [])
    (h1 : own = true → ∀ j, j < P.N → asz (j + 1) = (P.full j).length)
    (h2 : own = false → (sumLen (fun j => (P.full j).length) P.N : Int) ≤ asz 0) :
    (areasA own (fun j => (P.full j).length) asz).Fit P := by
  have hlen : ∀ j, (areasA own (fun j => (P.full j).length) asz).len P j = (P.full j).length := by
    intro j; unfold Areas.len areasA; cases own <;> simp
  refine ⟨ok, hone, ?_, ?_, ?_, ?_⟩
  · intro j hj
    rw [hlen]
    cases own with
    | true => simp only [areasA, if_true]; rw [h1 rfl j hj]; simp
    | false =>
      have := h2 rfl
      have := sumLen_lt (fun j => (P.full j).length) hj
      simp only [areasA]
      simp
      omega
  · intro i j _ _ hne he
    rw [hlen, hlen]
    cases own with
    | true => simp only [areasA, if_true] at he; omega
    | false =>
      simp only [areasA, Bool.false_eq_true, if_false]
      rcases Nat.lt_or_ge i j with h | h
      · left; exact sumLen_lt (fun j => (P.full j).length) h
      · right; exact sumLen_lt (fun j => (P.full j).length) (show j < i by omega)
  · intro i j _ _ _
    cases own <;> simp [areasA]
  · cases own
    · right; intro j; simp [areasA]
    · left; intro j; simp [areasA]

/-! ### The whole extraction -/

theorem extractM_spec {label : Nat → Nat} {thr : Int} (R : Ready1 E fuel (fun _ => label) X0 arr rk F nu)
    (hl : (E.pi 0).left = 0) (ht : (E.pi 0).top = 0)
    (he : ∀ k, k ≠ 0 → scan (E.pi k).width (E.pi k).height = []) (gm pixels : Nat) (heap0 : Reg → Option Int)
    (hpix : thr = intMax → pixels < 2 ^ 31)
    (htot : thr = intMax →
      sumLen (fun j => ((planOf E (fun _ => label) thr X0 nu arr).full j).length) arr.length ≤ pixels)
    (hmem : thr ≠ -1 → thr ≠ intMax → sumLen (lenB (planOf E (fun _ => label) thr X0 nu arr)) arr.length < 2 ^ 31) :
    ∃ A Y, extractM E thr gm fuel pixels label heap0 X0 arr = some Y ∧
      A.Fit (planOf E (fun _ => label) thr X0 nu arr) ∧ DoneM A (planOf E (fun _ => label) thr X0 nu arr) Y ∧
      ∀ j (h : j < arr.length), (Y.ms j).gray = (X0 arr[j]).gray ^^^ gm := by
  have ok := R.ok (thr := thr)
  have hfit := R.fitting (thr := thr)
  have hbfull : ∀ j, (planBase E (fun _ => label) X0 nu arr).full j = (planOf E (fun _ => label) thr X0 nu arr).full j :=
    fun j => (Plan.full_sh _ _ j).symm
  have hone : ∀ k j, k ≠ 0 → (planOf E (fun _ => label) thr X0 nu arr).own k j = [] := by
    intro k j hk
    show linked E k _ j (scan (E.pi k).width (E.pi k).height) = []
    rw [he k hk]; rfl
  have hN : arr.length = (planOf E (fun _ => label) thr X0 nu arr).N := rfl
  have hcodes : ∀ rc ∈ scan (E.pi 0).width (E.pi 0).height,
      codeAt (fun _ => label) X0 nu arr 0 (Flood.idx (E.pi 0).width rc.2 rc.1) = -1 ∨
      ∃ j, j < (planOf E (fun _ => label) thr X0 nu arr).N ∧
        codeAt (fun _ => label) X0 nu arr 0 (Flood.idx (E.pi 0).width rc.2 rc.1) = ((j : Nat) : Int) := by
    intro rc hrc
    exact codeAt_range R.toReady0 ⟨by have := R.n4; omega, R.labels 0 (by decide) rc hrc⟩
  have hown : ∀ j, j < (planOf E (fun _ => label) thr X0 nu arr).N → (planOf E (fun _ => label) thr X0 nu arr).own 0 j =
      linked E 0 (codeAt (fun _ => label) X0 nu arr 0) j (scan (E.pi 0).width (E.pi 0).height) := fun j _ => rfl
  have hnon : ∀ j, j < (planOf E (fun _ => label) thr X0 nu arr).N →
      (planOf E (fun _ => label) thr X0 nu arr).own 0 j ≠ [] := by
    intro j hj
    obtain ⟨k, _, hk⟩ := R.own j hj
    by_cases e : k = 0
    · subst e; exact hk
    · exact absurd (hone k j e) hk
  have hupq : ∀ j (h : j < arr.length) q, nu arr[j] = some q → (X0 q).flag = .valid ∧
      ∃ i, ∃ h' : i < arr.length, arr[i] = q ∧ (planOf E (fun _ => label) thr X0 nu arr).up j = some i := by
    intro j h q hq
    refine ⟨?_, hfit.up_some j h q hq⟩
    have hm := R.nu_mem (R.arr_reg arr[j] (by simp)) hq
    exact (R.valid q (R.arr_reg q hm)).2 hm
  have hsize : ∀ j (h : j < arr.length), (X0 arr[j]).pix = ((planOf E (fun _ => label) thr X0 nu arr).full j).length := by
    intro j h; rw [R.size j h, hbfull]
  generalize hP : planOf E (fun _ => label) thr X0 nu arr = P at *
  -- what is common to both ways
  have hcommon : ∀ {X X2 : XForest} {s3 : XForest × (Reg → Option Int)}, Climbs E rk F nu X2 →
      (∀ r, X2 r = { X0 r with parent := (X2 r).parent, pix := (X2 r).pix, kids := (X2 r).kids }) →
      AssignInv E X2 nu arr s3 → (∀ r, IsReg E r → s3.2 r = some (codeOf arr (nearOf X2 nu r))) →
      (∀ j (h : j < arr.length), (X2 arr[j]).parent = nu arr[j]) →
      (∀ j (h : j < arr.length), (X2 arr[j]).kids = j) →
      (∀ rc ∈ scan (E.pi 0).width (E.pi 0).height,
        label (Flood.idx (E.pi 0).width rc.2 rc.1) < E.nreg 0 ∧
        s3.2 (0, label (Flood.idx (E.pi 0).width rc.2 rc.1)) =
          some (codeAt (fun _ => label) X0 nu arr 0 (Flood.idx (E.pi 0).width rc.2 rc.1))) ∧
      (∀ j (h : j < arr.length), parentM s3.1 arr[j] = P.up j) := by
    intro X X2 s3 c2 n2 i3 h3 p2 k2
    have hf : ∀ r, (X2 r).flag = (X0 r).flag := fun r => by rw [n2 r]
    have hn3 : ∀ r, (s3.1 r).parent = (X2 r).parent ∧ (s3.1 r).flag = (X2 r).flag ∧ (s3.1 r).kids = (X2 r).kids := by
      intro r; rw [i3.node r]; exact ⟨rfl, rfl, rfl⟩
    refine ⟨fun rc hrc => ?_, fun j h => ?_⟩
    · have hr : label (Flood.idx (E.pi 0).width rc.2 rc.1) < E.nreg 0 := R.labels 0 (by decide) rc hrc
      refine ⟨hr, ?_⟩
      rw [h3 _ ⟨by have := R.n4; dsimp only; omega, hr⟩]
      simp only [codeAt, nearOf, hf]
    · unfold parentM
      rw [(hn3 _).1, p2 j h]
      cases hn : nu arr[j] with
      | none => exact (hfit.up_none j h hn).symm
      | some q =>
        obtain ⟨hv, i, hi, hq, hu⟩ := hupq j h q hn
        dsimp only
        rw [if_pos (by rw [(hn3 q).2.1, hf]; exact hv), (hn3 q).2.2, ← hq, k2 i hi, hu]
  by_cases hz : arr.length = 0
  · refine ⟨⟨fun _ => 0, fun _ => 0, fun _ => .self, fun _ => 0⟩, _, by unfold extractM; rw [if_pos hz], ?_, ?_, ?_⟩
    · have : P.N = 0 := by omega
      exact ⟨ok, hone, fun j hj => by omega, fun i j hi => by omega, fun i j hi => by omega, .inl fun _ => rfl⟩
    · have : P.N = 0 := by omega
      exact ⟨this.symm, rfl, fun j hj => by omega, fun j hj => by omega, fun j hj => by omega, fun j hj => by omega,
        fun j hj => by omega, fun j hj => by omega⟩
    · intro j h; omega
  by_cases hA : thr = -1 ∨ thr = intMax
  · -- without headers
    obtain ⟨own, hown'⟩ : ∃ own, own = decide (thr = -1) := ⟨_, rfl⟩
    have hcond : own = true ∨ pixels < 2 ^ 31 := by
      by_cases h : thr = -1
      · left; rw [hown']; simpa using h
      · right; exact hpix (hA.resolve_left h)
    obtain ⟨s1, e1, i1⟩ := markA_loop (own := own) (gm := gm) (full := fun j => (P.full j).length) (E := E)
      R.arr_reg R.nodup R.index hsize heap0
    have c1 : Climbs E rk F nu s1.X := climbs_short R.climbs
      (fun r _ => by rw [i1.node]) (fun r _ => by left; rw [i1.node])
    obtain ⟨X2, e2, i2⟩ := foldlM_zipIdx (linkA fuel s1.ms) arr (LinkInv false P E rk F nu X0 arr)
      (by
        intro t ht X inv
        have := link_inv (kids := false) hfit R.arr_reg R.nodup (F := F) (fuel := fuel) (by have := R.fuel; omega) ht inv
        simp only [linkA]
        rw [(i1.ms t ht ht).1]
        exact this) s1.X
      ⟨c1, fun r => by rw [i1.node r], fun j h => (i1.done j h h).1, fun h => (nomatch h), fun _ j h => (i1.done j h h).2,
        fun j h hj => by omega⟩
    have hf2 : ∀ r, (X2 r).flag = (X0 r).flag ∧ (X2 r).index = (X0 r).index ∧ (X2 r).assigned = (X0 r).assigned := by
      intro r; rw [i2.node r]; exact ⟨rfl, rfl, rfl⟩
    obtain ⟨s3, e3, i3, h3⟩ := assign_loop_of (arr := arr) (fuel := fuel) i2.climbs R.fuel
      (fun r hr => by rw [(hf2 r).2.1]; exact R.index r hr) (X2, s1.heap)
      (by
        refine ⟨fun _ => rfl, ?_⟩
        intro r hr hor
        rcases hor with h | h
        · have hmem := (R.valid r hr).mp (by rw [← (hf2 r).1]; exact h)
          obtain ⟨j, hj, rfl⟩ := List.getElem_of_mem hmem
          dsimp only
          rw [i1.heap j hj hj]
          simp only [nearOf, if_pos h, codeOf_get R.nodup hj]
        · dsimp only at h
          rw [(hf2 r).2.2, R.fresh r hr] at h
          cases h)
      (f := assignA E fuel)
      (fun r hr s inv => assignA_eq i2.climbs (by have := R.fuel; omega) (by
        intro q hq hv
        obtain ⟨j, hj, rfl⟩ := List.getElem_of_mem ((R.valid q hq).mp (by rw [← (hf2 q).1]; exact hv))
        exact i2.par j hj hj) hr inv)
    obtain ⟨g1, g2⟩ := hcommon (X := X0) i2.climbs i2.node i3 h3 (fun j h => i2.par j h h) (i2.keep rfl)
    have hFit := areasA_fit (own := own) (asz := sizesM (if own = true then 0 else (pixels : Int)) s1.ms) ok hone
      (fun _ j hj => by
        show ((s1.ms j).size : Int) = _
        rw [(i1.ms j (by omega) (by omega)).1])
      (fun ho => by
        have : thr = intMax := by
          rcases hA with h | h
          · rw [ho] at hown'; simp [h] at hown'
          · exact h
        have := htot this
        show _ ≤ if own = true then (0 : Int) else (pixels : Int)
        rw [if_neg (by rw [ho]; simp), ← hN]
        exact_mod_cast this)
    have hd : ∀ j, (areasA own (fun j => (P.full j).length) (sizesM (if own = true then 0 else (pixels : Int)) s1.ms)).mt j
        ≠ .recursive := by intro j; cases own <;> simp [areasA]
    obtain ⟨Y, eY, dY, gY⟩ := finishM_spec hFit (E := E) (code := codeAt (fun _ => label) X0 nu arr 0) (label := label)
      (arr := arr) (X := s3.1) (heap := s3.2) (s := ⟨s1.ms, fun _ _ => none⟩)
      { N := hN, left := hl, top := ht, lab := g1, codes := hcodes, own := hown, ne := hnon, up := g2
        pix := fun j h => by
          rw [i3.node]
          show (X2 arr[j]).pix = _
          rw [i2.pix j h, Plan.accs_up ok (Nat.le_of_lt h) (by omega)]
        area := fun j hj => (i1.ms j (by omega) (by omega)).2.2.2.1
        mtype := fun j hj => (i1.ms j (by omega) (by omega)).2.2.1
        size := fun j hj => (i1.ms j (by omega) (by omega)).1
        points := fun j hj => by
          show (s1.ms j).points = _
          rw [(i1.ms j (by omega) (by omega)).2.2.2.2.1]
          have : (areasA own (fun j => (P.full j).length) (sizesM (if own = true then 0 else (pixels : Int)) s1.ms)).d j = 0 := by
            unfold Areas.d; rw [if_neg (hd j)]
          rw [this]
          cases own <;> simp [areasA]
        rect := fun j hj => (i1.ms j (by omega) (by omega)).2.2.2.2.2
        cont := fun j hj => ⟨pts_nil _ _, by simp, fun h => absurd h (hd j), fun h => absurd h (hd j),
          fun h => absurd h (hd j), fun h => absurd h (hd j)⟩ }
    refine ⟨_, Y, ?_, hFit, dY, ?_⟩
    · unfold extractM
      rw [if_neg hz, if_pos hA]
      dsimp only
      rw [← hown', if_pos hcond, e1, Option.bind_some, e2, Option.bind_some, e3, Option.bind_some]
      exact eY
    · intro j h
      rw [gY j (by omega)]
      exact (i1.ms j h h).2.1
  · -- with headers
    rw [not_or] at hA
    have i1 := markB_loop (gm := gm) (full := fun j => (P.full j).length) R.nodup hsize heap0
    generalize hs1 : arr.zipIdx.foldl (markB gm) ⟨X0, fun _ => RecM.fresh, heap0, 0⟩ = s1 at i1
    have c1 : Climbs E rk F nu s1.X := climbs_short R.climbs
      (fun r _ => by rw [i1.node]) (fun r _ => by left; rw [i1.node])
    obtain ⟨s2, e2, i2⟩ := typeB_loop (thr := thr) (fuel := fuel) (X0 := X0) (ms0 := s1.ms) (s0 := s1) hfit hone R.arr_reg
      R.nodup (by have := R.fuel; omega) R.index (fun j hj => (i1.ms j (by omega) (by omega)).1)
      ⟨⟨c1, fun r => by rw [i1.node r], fun j h => (i1.done j h h).1, fun _ j h => (i1.done j h h).2, fun h => (nomatch h),
        fun j h hj => by omega⟩, fun _ => rfl, fun j hj => by omega, fun j h hj => by omega, i1.memSize⟩
    have hms2 : ∀ j, j < P.N → (s2.ms j).size = (P.full j).length ∧
        (s2.ms j).mtype = (if P.sh j then .share else .recursive) ∧ (s2.ms j).arr = 0 ∧ (s2.ms j).rect.left = -1 := by
      intro j hj
      refine ⟨?_, i2.mtype j (by omega), ?_, ?_⟩
      · rw [i2.node]; exact (i1.ms j (by omega) (by omega)).1
      · rw [i2.node]; exact i1.arr j
      · rw [i2.node]; exact (i1.ms j (by omega) (by omega)).2.2
    have hM : s2.memSize = (sumLen (lenB P) P.N : Int) := by rw [i2.memSize, hN]
    obtain ⟨s3, e3, i3⟩ := headB_loop (P := P) (X2 := s2.X) (ms0 := s2.ms) ok hone hN R.nodup
      (fun j hj => (hms2 j hj).1) (fun j hj => (hms2 j hj).2.1)
      (fun j h => by rw [i2.link.pix j h, Plan.accs_up ok (Nat.le_of_lt h) (by omega)])
      (fun j h => by rw [i2.link.counts rfl j h, Plan.kids_up ok (Nat.le_of_lt h) (by omega)])
    have hn3 : ∀ r, s3.X r = { X0 r with parent := (s3.X r).parent, pix := (s3.X r).pix, kids := (s3.X r).kids } := by
      intro r
      rw [i3.node r]
      dsimp only
      rw [i2.link.node r]
    have hf3 : ∀ r, (s3.X r).flag = (X0 r).flag ∧ (s3.X r).index = (X0 r).index ∧ (s3.X r).assigned = (X0 r).assigned := by
      intro r; rw [hn3 r]; exact ⟨rfl, rfl, rfl⟩
    have hp3 : ∀ r, (s3.X r).parent = (s2.X r).parent ∧ (s3.X r).pix = (s2.X r).pix ∧ (s3.X r).flag = (s2.X r).flag := by
      intro r; rw [i3.node r]; exact ⟨rfl, rfl, rfl⟩
    have c3 : Climbs E rk F nu s3.X := climbs_short i2.link.climbs (fun r _ => (hp3 r).2.2) (fun r _ => .inl (hp3 r).1)
    obtain ⟨s4, e4, i4, h4⟩ := assign_loop (arr := arr) (fuel := fuel) c3 R.fuel
      (fun r hr => by rw [(hf3 r).2.1]; exact R.index r hr) (s3.X, s2.heap)
      (by
        refine ⟨fun _ => rfl, ?_⟩
        intro r hr hor
        rcases hor with h | h
        · have hmem := (R.valid r hr).mp (by rw [← (hf3 r).1]; exact h)
          obtain ⟨j, hj, rfl⟩ := List.getElem_of_mem hmem
          dsimp only
          rw [i2.heap j hj hj]
          simp only [nearOf, if_pos h, codeOf_get R.nodup hj]
        · dsimp only at h
          rw [(hf3 r).2.2, R.fresh r hr] at h
          cases h)
    obtain ⟨g1, g2⟩ := hcommon (X := X0) c3 hn3 i4 h4 (fun j h => by rw [(hp3 _).1]; exact i2.link.par j h h)
      (fun j h => i3.done j h h)
    have hFit := areasB_fit ok hone
    have hms3 : ∀ j, j < P.N → (s3.ms j).size = (P.full j).length ∧
        (s3.ms j).mtype = (if P.sh j then .share else .recursive) ∧ (s3.ms j).arr = 0 ∧ (s3.ms j).rect.left = -1 := by
      intro j hj
      rw [i3.ms]; exact hms2 j hj
    obtain ⟨Y, eY, dY, gY⟩ := finishM_spec hFit (E := E) (code := codeAt (fun _ => label) X0 nu arr 0) (label := label)
      (arr := arr) (X := s4.1) (heap := s4.2) (s := ⟨s3.ms, fun b => if b = 0 then s3.mem else fun _ => none⟩)
      { N := hN, left := hl, top := ht, lab := g1, codes := hcodes, own := hown, ne := hnon, up := g2
        pix := fun j h => by
          rw [i4.node]
          show (s3.X arr[j]).pix = _
          rw [(hp3 _).2.1, i2.link.pix j h, Plan.accs_up ok (Nat.le_of_lt h) (by omega)]
        area := fun j hj => (hms3 j hj).2.2.1
        mtype := fun j hj => (hms3 j hj).2.1
        size := fun j hj => (hms3 j hj).1
        points := fun j hj => i3.points j (by omega)
        rect := fun j hj => (hms3 j hj).2.2.2
        cont := fun j hj => i3.cont j (by omega) }
    refine ⟨_, Y, ?_, hFit, dY, ?_⟩
    · unfold extractM
      rw [if_neg hz, if_neg (not_or.2 hA)]
      dsimp only
      rw [hs1, e2, Option.bind_some, if_pos (by rw [hM, ← hN]; have := hmem hA.1 hA.2; exact_mod_cast this), hM, e3,
        Option.bind_some, e4, Option.bind_some]
      exact eY
    · intro j h
      rw [gY j (by omega)]
      show (s3.ms j).gray = _
      rw [i3.ms j]
      show (s2.ms j).gray = _
      rw [i2.node j]
      exact (i1.ms j h h).2.1

end Verif.Ms
