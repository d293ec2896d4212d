import Verif.Proof.ExtractMain
import Verif.Proof.RecogSpec

/-!
# Extraction and the region tree: which pixels go into which record
-/

namespace Verif.Extract

open Relation (ReflTransGen)
open Verif.Recog (Flag Shows treeOf toForest Recognized)
open Verif.Connect (Res RealPar Str Up)
open Verif.Spec (RegionTree)

/-! ### Chains of links -/

/-- Reflexive ancestor relation over the stored links. -/
def UpX (X : XForest) : Reg → Reg → Prop := ReflTransGen fun a b => (X a).parent = some b

theorem climb_first {X : XForest} {f : Nat} : ∀ {o : Option Reg} {q : Reg},
    climbValid X f o = some (some q) → ∃ r, o = some r ∧ UpX X r q ∧
      ∀ q', (X q').flag = .valid → UpX X r q' → UpX X q q' := by
  induction f with
  | zero => intro o q h; cases o <;> simp [climbValid] at h
  | succ f ih =>
    intro o q h
    cases o with
    | none => simp [climbValid] at h
    | some r =>
      refine ⟨r, rfl, ?_⟩
      simp only [climbValid] at h
      split at h
      · obtain rfl := Option.some.inj (Option.some.inj h)
        exact ⟨.refl, fun q' _ hq' => hq'⟩
      · rename_i hv
        obtain ⟨s, hs, h1, h2⟩ := ih h
        refine ⟨.head hs h1, fun q' hq' hu => h2 q' hq' ?_⟩
        rcases ReflTransGen.cases_head hu with e | ⟨c, hc, hc'⟩
        · subst e; exact absurd hq' hv
        · rw [hs] at hc; obtain rfl := Option.some.inj hc; exact hc'

theorem climb_none {X : XForest} {f : Nat} : ∀ {r : Reg}, climbValid X f (some r) = some none →
    ∀ q', UpX X r q' → (X q').flag ≠ .valid := by
  induction f with
  | zero => intro r h; simp [climbValid] at h
  | succ f ih =>
    intro r h q' hu
    simp only [climbValid] at h
    split at h
    · simp at h
    · rename_i hv
      rcases ReflTransGen.cases_head hu with e | ⟨c, hc, hc'⟩
      · subst e; exact hv
      · rw [hc] at h; exact ih h q' hc'

section
variable {E : Env} {fuel : Nat} {label : Nat → Nat → Nat} {X0 : XForest} {arr : List Reg}
  {rk : Reg → Nat} {F : Nat} {nu : Reg → Option Reg} {thr : Int}

theorem near_some (hX : Climbs E rk F nu X0) {r q : Reg} (hr : IsReg E r)
    (h : nearOf X0 nu r = some q) : (X0 q).flag = .valid ∧ UpX X0 r q ∧
      ∀ q', (X0 q').flag = .valid → UpX X0 r q' → UpX X0 q q' := by
  simp only [nearOf] at h
  split at h
  · rename_i hv
    obtain rfl := Option.some.inj h
    exact ⟨hv, .refl, fun _ _ h => h⟩
  · rename_i hv
    have hc := hX.climb r hr
    rw [h] at hc
    refine ⟨climbValid_valid hc, ?_⟩
    obtain ⟨s, hs, h1, h2⟩ := climb_first hc
    refine ⟨.head hs h1, fun q' hq' hu => h2 q' hq' ?_⟩
    rcases ReflTransGen.cases_head hu with e | ⟨c, hc, hc'⟩
    · subst e; exact absurd hq' hv
    · rw [hs] at hc; obtain rfl := Option.some.inj hc; exact hc'

theorem near_none (hX : Climbs E rk F nu X0) {r : Reg} (hr : IsReg E r)
    (h : nearOf X0 nu r = none) : ∀ q', UpX X0 r q' → (X0 q').flag ≠ .valid := by
  simp only [nearOf] at h
  split at h
  · cases h
  · rename_i hv
    have hc := hX.climb r hr
    rw [h] at hc
    intro q' hu
    rcases ReflTransGen.cases_head hu with e | ⟨c, hp, hc'⟩
    · subst e; exact hv
    · rw [hp] at hc; exact climb_none hc q' hc'

theorem nu_up (hX : Climbs E rk F nu X0) {r q : Reg} (hr : IsReg E r) (h : nu r = some q) :
    UpX X0 r q ∧ ∀ q', (X0 q').flag = .valid → UpX X0 r q' → q' = r ∨ UpX X0 q q' := by
  have hc := hX.climb r hr
  rw [h] at hc
  obtain ⟨s, hs, h1, h2⟩ := climb_first hc
  refine ⟨.head hs h1, fun q' hq' hu => ?_⟩
  rcases ReflTransGen.cases_head hu with e | ⟨c, hc, hc'⟩
  · exact .inl e.symm
  · rw [hs] at hc; obtain rfl := Option.some.inj hc; exact .inr (h2 q' hq' hc')

theorem nu_none (hX : Climbs E rk F nu X0) {r : Reg} (hr : IsReg E r) (h : nu r = none) :
    ∀ q', UpX X0 r q' → (X0 q').flag = .valid → q' = r := by
  have hc := hX.climb r hr
  rw [h] at hc
  intro q' hu hv
  rcases ReflTransGen.cases_head hu with e | ⟨c, hp, hc'⟩
  · exact e.symm
  · rw [hp] at hc; exact absurd hv (climb_none hc q' hc')

/-! ### Chains of records -/

theorem Ready0.chain (R : Ready0 E fuel label X0 arr rk F nu) {c i : Nat} (hc : c < arr.length)
    (hi : i < arr.length) :
    ReflTransGen (fun a b => (planOf E label thr X0 nu arr).up a = some b) c i ↔
      UpX X0 arr[c] arr[i] := by
  constructor
  · intro h
    have gen : ∀ a b, ReflTransGen (fun a b => (planOf E label thr X0 nu arr).up a = some b) a b →
        ∀ ha : a < arr.length, ∃ hb : b < arr.length, UpX X0 arr[a] arr[b] := by
      intro a b hab ha
      induction hab with
      | refl => exact ⟨ha, .refl⟩
      | tail _ h1 ih =>
        obtain ⟨hb, hu⟩ := ih
        obtain ⟨hj, hn⟩ := R.up hb h1
        exact ⟨hj, hu.trans (nu_up R.climbs (R.arr_reg _ (by simp)) hn).1⟩
    exact (gen c i h hc).2
  · intro h
    have gen : ∀ n c (hc : c < arr.length), arr.length - c ≤ n → UpX X0 arr[c] arr[i] →
        ReflTransGen (fun a b => (planOf E label thr X0 nu arr).up a = some b) c i := by
      intro n
      induction n with
      | zero => intro c hc h; omega
      | succ n ih =>
        intro c hc hn hu
        have hvi : (X0 arr[i]).flag = .valid :=
          (R.valid _ (R.arr_reg _ (by simp))).mpr (by simp)
        have hrc := R.arr_reg arr[c] (by simp)
        cases hnu : nu arr[c] with
        | none =>
          have := nu_none R.climbs hrc hnu _ hu hvi
          have : i = c := (List.Nodup.getElem_inj_iff R.nodup).mp this
          rw [this]
        | some q =>
          obtain ⟨d, hd, hq⟩ := List.getElem_of_mem (R.nu_mem hrc hnu)
          rcases (nu_up R.climbs hrc hnu).2 _ hvi hu with e | e
          · have : i = c := (List.Nodup.getElem_inj_iff R.nodup).mp e
            rw [this]
          · have hcd : c < d := R.order c d hc hd (by rw [hnu, hq])
            have h1 : (planOf E label thr X0 nu arr).up c = some d := by
              obtain ⟨j, hj, hjq, hu⟩ := (R.fitting (thr := thr)).up_some c hc q hnu
              have : j = d := (List.Nodup.getElem_inj_iff R.nodup).mp (hjq.trans hq.symm)
              rw [hu, this]
            rw [← hq] at e
            exact .head h1 (ih d hd (by omega) e)
    exact gen arr.length c hc (by omega) h

theorem Plan.rep_chain {P : Plan} {t c j : Nat} (h : P.rep t c = some j) :
    ReflTransGen (fun a b => P.up a = some b) c j := by
  induction t generalizing j with
  | zero => obtain rfl := Option.some.inj h; exact .refl
  | succ t ih =>
    simp only [Plan.rep] at h
    split at h
    · rename_i h1; exact (ih h1).tail h
    · exact ih h

theorem Plan.chain_le {P : Plan} (ok : P.Ok) {a b : Nat} (ha : a < P.N)
    (h : ReflTransGen (fun a b => P.up a = some b) a b) : a ≤ b ∧ b < P.N := by
  induction h with
  | refl => exact ⟨Nat.le_refl _, ha⟩
  | tail _ h1 ih => have := ok.up_lt _ _ ih.2 h1; omega

theorem Plan.chain_rep {P : Plan} (ok : P.Ok) {t c j : Nat} (hc : c < P.N) (hj : t ≤ j)
    (h : ReflTransGen (fun a b => P.up a = some b) c j) :
    ∃ d, P.rep t c = some d ∧ t ≤ d ∧ ReflTransGen (fun a b => P.up a = some b) d j := by
  induction t with
  | zero => exact ⟨c, rfl, Nat.zero_le _, h⟩
  | succ t ih =>
    obtain ⟨d, h1, h2, h3⟩ := ih (by omega)
    simp only [Plan.rep]
    by_cases e : d = t
    · subst e
      rw [if_pos h1]
      rcases ReflTransGen.cases_head h3 with e | ⟨x, hx, hx'⟩
      · omega
      · have hd := (Plan.chain_le ok hc (Plan.rep_chain h1)).2
        exact ⟨x, hx, (ok.up_lt _ _ hd hx).1, hx'⟩
    · rw [if_neg (by rw [h1]; simpa using e)]
      exact ⟨d, h1, by omega, h3⟩

theorem Plan.mem_descs {P : Plan} (ok : P.Ok) {i c : Nat} (hi : i < P.N) :
    (c ∈ P.descs i i ∨ c = i) ↔ c < P.N ∧ ReflTransGen (fun a b => P.up a = some b) c i := by
  simp only [Plan.descs, List.mem_filter, List.mem_range, decide_eq_true_eq]
  constructor
  · rintro (⟨h1, h2⟩ | rfl)
    · exact ⟨by omega, Plan.rep_chain h2⟩
    · exact ⟨hi, .refl⟩
  · rintro ⟨h1, h2⟩
    have hle := (Plan.chain_le ok h1 h2).1
    rcases Nat.lt_or_ge c i with h | h
    · left
      obtain ⟨d, h3, h4, h5⟩ := Plan.chain_rep ok h1 (Nat.le_refl i) h2
      have := (Plan.chain_le ok (Plan.chain_le ok h1 (Plan.rep_chain h3)).2 h5).1
      have : d = i := by omega
      rw [this] at h3
      exact ⟨h, h3⟩
    · right; omega

/-- All pixels of record `i`, record by record. -/
def Plan.list (P : Plan) (i : Nat) : List Pt := (P.descs i i ++ [i]).flatMap P.all

theorem Plan.list_eq (P : Plan) (i : Nat) :
    P.list i = (P.descs i i).flatMap P.all ++ P.all i := by
  simp [Plan.list]

/-! ### Cells -/

/-- The cells of the four patches. -/
def cells (E : Env) : List (Nat × Nat × Nat) :=
  (List.range 4).flatMap fun k => (scan (E.pi k).width (E.pi k).height).map fun rc => (k, rc)

theorem mem_cells {x : Nat × Nat × Nat} :
    x ∈ cells E ↔ x.1 < 4 ∧ x.2 ∈ scan (E.pi x.1).width (E.pi x.1).height := by
  obtain ⟨k, rc⟩ := x
  simp only [cells, List.mem_flatMap, List.mem_range, List.mem_map, Prod.mk.injEq]
  constructor
  · rintro ⟨a, h1, b, h2, rfl, rfl⟩; exact ⟨h1, h2⟩
  · rintro ⟨h1, h2⟩; exact ⟨k, h1, rc, h2, rfl, rfl⟩

theorem nodup_scan (w h : Nat) : (scan w h).Nodup := by
  unfold scan
  rw [List.nodup_flatMap]
  refine ⟨fun r _ => List.nodup_range.map fun a b e => (Prod.mk.inj e).2, ?_⟩
  refine List.nodup_range.pairwise_of_forall_ne ?_
  intro a _ b _ hab x hx hy
  simp only [List.mem_map] at hx hy
  obtain ⟨_, _, rfl⟩ := hx
  obtain ⟨_, _, e⟩ := hy
  exact hab (Prod.mk.inj e).1.symm

theorem nodup_cells : (cells E).Nodup := by
  unfold cells
  rw [List.nodup_flatMap]
  refine ⟨fun r _ => (nodup_scan _ _).map fun a b e => (Prod.mk.inj e).2, ?_⟩
  refine List.nodup_range.pairwise_of_forall_ne ?_
  intro a _ b _ hab x hx hy
  simp only [List.mem_map] at hx hy
  obtain ⟨_, _, rfl⟩ := hx
  obtain ⟨_, _, e⟩ := hy
  exact hab (Prod.mk.inj e).1.symm

theorem nodup_groups {α β : Type} {C : List α} {pt : α → β} {f : α → Int} (hC : (C.map pt).Nodup)
    {S : List Nat} (hS : S.Nodup) :
    (S.flatMap fun c : Nat => (C.filter fun x => f x = (c : Int)).map pt).Nodup := by
  rw [List.nodup_flatMap]
  refine ⟨fun c _ => hC.sublist (List.filter_sublist.map pt), ?_⟩
  refine hS.pairwise_of_forall_ne ?_
  intro a _ b _ hab x hx hy
  simp only [List.mem_map, List.mem_filter, decide_eq_true_eq] at hx hy
  obtain ⟨u, ⟨hu, hua⟩, rfl⟩ := hx
  obtain ⟨v, ⟨hv, hvb⟩, e⟩ := hy
  have : v = u := List.inj_on_of_nodup_map hC hv hu e
  subst this
  rw [hua] at hvb
  exact hab (by exact_mod_cast hvb)

theorem all_eq (c : Nat) : (planOf E label thr X0 nu arr).all c =
    ((cells E).filter fun x => codeAt label X0 nu arr x.1 (Flood.idx (E.pi x.1).width x.2.2 x.2.1)
      = (c : Int)).map fun x => ptOf E x.1 x.2 := by
  have h4 : List.range 4 = [0, 1, 2, 3] := rfl
  simp only [Plan.all, planOf, planBase, linked, cells, h4, List.flatMap_cons, List.flatMap_nil,
    List.append_nil, List.filter_append, List.map_append, List.filter_map, List.map_map,
    List.append_assoc]
  rfl

end

/-! ### The region tree -/

/-- The pixel of cell `rc` of patch `k`. -/
def pxOf (E : Env) (k : Nat) (rc : Nat × Nat) : Nat × Nat :=
  (rc.2 + (E.pi k).left, rc.1 + (E.pi k).top)

/-- A pixel as a point of the result. -/
def toPt (p : Nat × Nat) : Pt := ((p.1 : Int), (p.2 : Int))

theorem toPt_inj {p q : Nat × Nat} (h : toPt p = toPt q) : p = q := by
  simp only [toPt, Prod.mk.injEq] at h
  exact Prod.ext (by exact_mod_cast h.1) (by exact_mod_cast h.2)

theorem ptOf_eq (E : Env) (k : Nat) (rc : Nat × Nat) : ptOf E k rc = toPt (pxOf E k rc) := by
  simp [ptOf, toPt, pxOf]

/-- What flooding, joining and recognition leave behind. -/
structure Handover0 (E : Env) (label : Nat → Nat → Nat) (px : Finset (Nat × Nat))
    (T : RegionTree (Nat × Nat) Reg) (m : Nat) (out : Recognized Reg) : Prop where
  n4 : 4 ≤ E.n
  ok : (treeOf T (IsReg E) m).Ok
  shows_ : Shows (treeOf T (IsReg E) m) out.R
  valid : ∀ r, T.isReg r → ((out.R r).flag = .valid ↔ r ∈ out.reported)
  live : ∀ r ∈ out.reported, T.isReg r
  nodup : out.reported.Nodup
  sorted : out.reported.Pairwise fun x y => T.gray x ≤ T.gray y
  labels : ∀ k, k < 4 → ∀ rc ∈ scan (E.pi k).width (E.pi k).height,
    label k (Flood.idx (E.pi k).width rc.2 rc.1) < E.nreg k ∧
    ∃ j, Res (toForest out.R) j (k, label k (Flood.idx (E.pi k).width rc.2 rc.1))
      (T.lab (pxOf E k rc))
  cell : ∀ k, k < 4 → ∀ rc ∈ scan (E.pi k).width (E.pi k).height, pxOf E k rc ∈ px
  cover : ∀ p ∈ px, ∃ k, k < 4 ∧ ∃ rc ∈ scan (E.pi k).width (E.pi k).height, pxOf E k rc = p
  inj : ∀ k k', k < 4 → k' < 4 → ∀ rc ∈ scan (E.pi k).width (E.pi k).height,
    ∀ rc' ∈ scan (E.pi k').width (E.pi k').height, pxOf E k rc = pxOf E k' rc' → k = k' ∧ rc = rc'
  lab : ∀ r, T.isReg r → ∃ p ∈ px, T.lab p = r
  size : ∀ r, T.isReg r → ∀ s : Finset (Nat × Nat), (∀ p, p ∈ s ↔ p ∈ px ∧ T.Under r p) →
    T.size r = s.card

/-- And the image is not too wide. -/
structure Handover (E : Env) (label : Nat → Nat → Nat) (px : Finset (Nat × Nat))
    (T : RegionTree (Nat × Nat) Reg) (m : Nat) (out : Recognized Reg) : Prop extends
    Handover0 E label px T m out where
  coord : ∀ k, k < 4 → (E.pi k).left + (E.pi k).width ≤ 65535

section
variable {E : Env} {label : Nat → Nat → Nat} {px : Finset (Nat × Nat)}
  {T : RegionTree (Nat × Nat) Reg} {m : Nat} {out : Recognized Reg} {junk : Reg → Nat}

theorem res_len {F : Connect.Forest Reg} : ∀ {k k' : Nat} {r x x' : Reg}, Res F k r x → Res F k' r x' →
    k = k' ∧ x = x'
  | 0, 0, r, x, x', ⟨_, h⟩, ⟨_, h'⟩ => ⟨rfl, h.symm.trans h'⟩
  | 0, k' + 1, r, x, x', ⟨h, _⟩, ⟨h', _⟩ => by rw [h] at h'; cases h'
  | k + 1, 0, r, x, x', ⟨h, _⟩, ⟨h', _⟩ => by rw [h'] at h; cases h
  | k + 1, k' + 1, r, x, x', ⟨_, y, h1, h2⟩, ⟨_, y', h1', h2'⟩ => by
    rw [h1] at h1'
    obtain rfl := Option.some.inj h1'
    obtain ⟨e1, e2⟩ := res_len h2 h2'
    exact ⟨by omega, e2⟩

theorem Handover0.ranked (H : Handover0 E label px T m out) :
    ∃ rk : Reg → Nat, Ranked E rk (ofRecognized out.R junk) ∧
      ∀ r, IsReg E r → rk r < 257 * (m + 1) := by
  classical
  have hS : Str (IsReg E) T.gray (toForest out.R) m := H.shows_.str
  have hex : ∀ r, ∃ k, IsReg E r → k ≤ m ∧ ∃ x, Res (toForest out.R) k r x := by
    intro r
    by_cases hr : IsReg E r
    · obtain ⟨k, h1, h2⟩ := hS.res r hr; exact ⟨k, fun _ => ⟨h1, h2⟩⟩
    · exact ⟨0, fun h => absurd h hr⟩
  choose len hlen using hex
  refine ⟨fun r => (256 - T.gray r) * (m + 1) + len r, ⟨?_⟩, ?_⟩
  · intro r q hr hp
    have hp' : (toForest out.R r).parent = some q := hp
    have hq := hS.par_reg r hr q hp'
    refine ⟨hq, ?_⟩
    obtain ⟨l1, x1, r1⟩ := hlen r hr
    obtain ⟨l2, x2, r2⟩ := hlen q hq
    cases hm : (toForest out.R r).merged with
    | true =>
      obtain ⟨q', h1, h2⟩ := hS.merged_eq r hr hm
      rw [hp'] at h1
      obtain rfl := Option.some.inj h1
      have : Res (toForest out.R) (len q + 1) r x2 := ⟨hm, q, hp', r2⟩
      have := (res_len r1 this).1
      rw [h2]; omega
    | false =>
      have h1 := hS.live_lt r hr hm q hp'
      have h2 := hS.gray_lt q hq
      have h3 : (256 - T.gray q) + 1 ≤ 256 - T.gray r := by omega
      have := Nat.mul_le_mul_right (m + 1) h3
      rw [Nat.add_mul] at this
      omega
  · intro r hr
    obtain ⟨l1, _⟩ := hlen r hr
    have : (256 - T.gray r) * (m + 1) ≤ 256 * (m + 1) := Nat.mul_le_mul_right _ (by omega)
    show (256 - T.gray r) * (m + 1) + len r < _
    omega

theorem Handover0.climbs (H : Handover0 E label px T m out) :
    ∃ rk nu, Climbs E rk (257 * (m + 1)) nu (ofRecognized out.R junk) := by
  classical
  obtain ⟨rk, hR, hb⟩ := H.ranked (junk := junk)
  have hex : ∀ r, ∃ o, IsReg E r → climbValid (ofRecognized out.R junk) (257 * (m + 1))
      (ofRecognized out.R junk r).parent = some o := by
    intro r
    by_cases hr : IsReg E r
    · obtain ⟨o, ho⟩ := climbValid_total hR (257 * (m + 1)) (ofRecognized out.R junk r).parent
        (fun q hq => ⟨(hR.par r q hr hq).1, hb q (hR.par r q hr hq).1⟩)
      exact ⟨o, fun _ => ho⟩
    · exact ⟨none, fun h => absurd h hr⟩
  choose nu hnu using hex
  exact ⟨rk, nu, hR, hnu⟩

theorem Handover0.merged_iff (H : Handover0 E label px T m out) {r : Reg} (hr : IsReg E r) :
    (toForest out.R r).merged = true ↔ ¬ T.isReg r := by
  have := H.shows_.merged r hr
  rw [show (toForest out.R r).merged = decide ((out.R r).flag = .merged) from rfl, decide_eq_true_iff]
  exact this

theorem Handover0.isReg (H : Handover0 E label px T m out) {r : Reg} (hr : T.isReg r) : IsReg E r :=
  H.ok.reg r hr

theorem Handover0.live_merged (H : Handover0 E label px T m out) {r : Reg} (hr : T.isReg r) :
    (toForest out.R r).merged = false := by
  have := (H.merged_iff (H.isReg hr)).not.2 (not_not.2 hr)
  simpa using this

theorem Handover0.up_tree (H : Handover0 E label px T m out) {x q : Reg} (hx : T.isReg x)
    (hq : T.isReg q) : Up (toForest out.R) x q ↔ ReflTransGen (fun a b => T.parent a = some b) x q := by
  have hS : Str (IsReg E) T.gray (toForest out.R) m := H.shows_.str
  have hpar : ∀ r, T.isReg r → RealPar (toForest out.R) r (T.parent r) := H.shows_.par
  have hlive : ∀ r, T.isReg r → ∀ p, T.parent r = some p → T.isReg p := H.ok.up_live
  constructor
  · have gen : ∀ n x, T.isReg x → 256 - T.gray x ≤ n → Up (toForest out.R) x q →
        ReflTransGen (fun a b => T.parent a = some b) x q := by
      intro n
      induction n with
      | zero =>
        intro x hx hn _
        have := hS.gray_lt x (H.isReg hx); omega
      | succ n ih =>
        intro x hx hn hu
        rcases ReflTransGen.cases_head hu with e | ⟨y, hy, hu'⟩
        · rw [e]
        · have hp := hpar x hx
          cases hz : T.parent x with
          | none =>
            rw [hz] at hp
            cases hp with
            | none h => rw [h] at hy; cases hy
          | some z =>
            rw [hz] at hp
            cases hp with
            | some y' _ k h1 h2 =>
              rw [hy] at h1
              obtain rfl := Option.some.inj h1
              have hzl := hlive x hx z hz
              have hg : T.gray x < T.gray z := H.ok.up_gray x hx z hz
              exact .head hz (ih z hzl (by omega) ((h2.up_iff (H.live_merged hq)).1 hu'))
    exact gen 256 x hx (by omega)
  · intro h
    have gen : ∀ a b, ReflTransGen (fun a b => T.parent a = some b) a b → T.isReg a →
        T.isReg b ∧ Up (toForest out.R) a b := by
      intro a b hab ha
      induction hab with
      | refl => exact ⟨ha, .refl⟩
      | @tail b c _ h1 ih =>
        obtain ⟨hb, hu⟩ := ih
        have hp := hpar b hb
        rw [h1] at hp
        refine ⟨hlive b hb c h1, hu.trans ?_⟩
        cases hp with
        | some y _ k h2 h3 => exact .head h2 h3.up
    exact (gen x q h hx).2

/-- The chain of links of a pixel's region object meets exactly the regions the pixel is in. -/
theorem Handover0.under (H : Handover0 E label px T m out) {k : Nat} (hk : k < 4) {rc : Nat × Nat}
    (hrc : rc ∈ scan (E.pi k).width (E.pi k).height) {q : Reg} (hq : T.isReg q) :
    UpX (ofRecognized out.R junk) (k, label k (Flood.idx (E.pi k).width rc.2 rc.1)) q ↔
      T.Under q (pxOf E k rc) := by
  obtain ⟨hl, j, hres⟩ := H.labels k hk rc hrc
  have hreg : IsReg E (k, label k (Flood.idx (E.pi k).width rc.2 rc.1)) := ⟨by have := H.n4; omega, hl⟩
  have hS : Str (IsReg E) T.gray (toForest out.R) m := H.shows_.str
  have hx : T.isReg (T.lab (pxOf E k rc)) := by
    by_contra hn
    have h1 := (H.merged_iff (hS.res_gray hreg hres).1).2 hn
    rw [hres.live] at h1; cases h1
  have e : UpX (ofRecognized out.R junk) = Up (toForest out.R) := rfl
  rw [e, hres.up_iff (H.live_merged hq), H.up_tree hx hq]
  rfl

variable {thr : Int} {fuel : Nat} {rk : Reg → Nat} {nu : Reg → Option Reg}

theorem Handover0.ready0 (H : Handover0 E label px T m out) (hf : 257 * (m + 1) + 1 ≤ fuel)
    (hc : Climbs E rk (257 * (m + 1)) nu (ofRecognized out.R junk)) :
    Ready0 E fuel label (ofRecognized out.R junk) out.reported rk (257 * (m + 1)) nu := by
  have hS : Str (IsReg E) T.gray (toForest out.R) m := H.shows_.str
  have hvalid : ∀ r, IsReg E r → ((ofRecognized out.R junk r).flag = .valid ↔ r ∈ out.reported) := by
    intro r hr
    constructor
    · intro h
      have h' : (out.R r).flag = .valid := h
      refine (H.valid r ?_).1 h'
      by_contra hn
      have := (H.shows_.merged r hr).2 hn
      rw [h'] at this; cases this
    · intro h
      exact (H.valid r (H.live r h)).2 h
  refine ⟨H.n4, hc, hf, fun _ _ => rfl, fun _ _ => rfl, hvalid, fun r hr => H.isReg (H.live r hr),
    H.nodup, ?_, fun k hk rc hrc => (H.labels k hk rc hrc).1⟩
  intro i j hi hj hn
  have hli := H.live out.reported[i] (by simp)
  have hne : out.reported[i] ≠ out.reported[j] := by
    intro e
    have hcl := hc.climb _ (H.isReg hli)
    rw [hn] at hcl
    cases hp : (ofRecognized out.R junk out.reported[i]).parent with
    | none => rw [hp] at hcl; simp [climbValid] at hcl
    | some p =>
      have h1 := hc.par _ p (H.isReg hli) hp
      rw [hp] at hcl
      have h2 := (climbValid_reg hc.toRanked (fun r hr => by
        obtain rfl := Option.some.inj hr; exact h1.1) hcl).2 p rfl
      rw [e] at h1
      omega
  have hup := (nu_up hc (H.isReg hli) hn).1
  have hlt : T.gray out.reported[i] < T.gray out.reported[j] :=
    hS.up_lt (H.isReg hli) (H.live_merged hli) hup hne
  by_contra hge
  rcases Nat.lt_or_eq_of_le (Nat.le_of_not_lt hge) with h | h
  · have := List.pairwise_iff_getElem.1 H.sorted j i hj hi h
    omega
  · subst h; exact hne rfl

theorem Handover0.map_cells (H : Handover0 E label px T m out) :
    ((cells E).map fun x => ptOf E x.1 x.2).Nodup := by
  refine List.Nodup.map_on ?_ nodup_cells
  rintro ⟨k, rc⟩ hx ⟨k', rc'⟩ hy e
  rw [mem_cells] at hx hy
  dsimp only at hx hy e
  rw [ptOf_eq, ptOf_eq] at e
  obtain ⟨rfl, rfl⟩ := H.inj k k' hx.1 hy.1 rc hx.2 rc' hy.2 (toPt_inj e)
  rfl

theorem descs_nodup (P : Plan) (i : Nat) : (P.descs i i ++ [i]).Nodup := by
  rw [List.nodup_append]
  refine ⟨List.nodup_range.filter _, by simp, ?_⟩
  intro a ha b hb
  simp only [Plan.descs, List.mem_filter, List.mem_range] at ha
  simp only [List.mem_singleton] at hb
  omega

theorem Handover0.list_nodup (H : Handover0 E label px T m out) (i : Nat) :
    ((planOf E label thr (ofRecognized out.R junk) nu out.reported).list i).Nodup := by
  unfold Plan.list
  have := nodup_groups (f := fun x : Nat × Nat × Nat =>
    codeAt label (ofRecognized out.R junk) nu out.reported x.1 (Flood.idx (E.pi x.1).width x.2.2 x.2.1))
    H.map_cells (descs_nodup (planOf E label thr (ofRecognized out.R junk) nu out.reported) i)
  have e : (planOf E label thr (ofRecognized out.R junk) nu out.reported).all = _ :=
    funext fun c => all_eq c
  rw [e]
  exact this

theorem Handover0.mem_list (H : Handover0 E label px T m out) (hf : 257 * (m + 1) + 1 ≤ fuel)
    (hc : Climbs E rk (257 * (m + 1)) nu (ofRecognized out.R junk)) {i : Nat}
    (hi : i < out.reported.length) (pt : Pt) :
    pt ∈ (planOf E label thr (ofRecognized out.R junk) nu out.reported).list i ↔
      ∃ p ∈ px, T.Under out.reported[i] p ∧ pt = toPt p := by
  have R := H.ready0 hf hc
  have ok := R.ok (thr := thr)
  have hli := H.live out.reported[i] (by simp)
  have hvi : (ofRecognized out.R junk out.reported[i]).flag = .valid :=
    (R.valid _ (H.isReg hli)).2 (by simp)
  have hreg : ∀ k, k < 4 → ∀ rc ∈ scan (E.pi k).width (E.pi k).height,
      IsReg E (k, label k (Flood.idx (E.pi k).width rc.2 rc.1)) :=
    fun k hk rc hrc => ⟨by have := H.n4; omega, (H.labels k hk rc hrc).1⟩
  have hmem : ∀ c, c ∈ (planOf E label thr (ofRecognized out.R junk) nu out.reported).descs i i ++ [i] ↔
      c < out.reported.length ∧
        ReflTransGen (fun a b => (planOf E label thr (ofRecognized out.R junk) nu out.reported).up a
          = some b) c i := by
    intro c
    rw [List.mem_append, List.mem_singleton]
    exact Plan.mem_descs ok hi
  unfold Plan.list
  rw [List.mem_flatMap]
  constructor
  · rintro ⟨c, hcm, hpt⟩
    obtain ⟨hcl, hch⟩ := (hmem c).1 hcm
    rw [all_eq, List.mem_map] at hpt
    obtain ⟨⟨k, rc⟩, hx, rfl⟩ := hpt
    rw [List.mem_filter, mem_cells, decide_eq_true_eq] at hx
    obtain ⟨⟨hk, hrc⟩, hcode⟩ := hx
    dsimp only at hk hrc hcode ⊢
    refine ⟨pxOf E k rc, H.cell k hk rc hrc, ?_, ptOf_eq E k rc⟩
    rw [← H.under (junk := junk) hk hrc hli]
    have hu := (R.chain hcl hi).1 hch
    cases hn : nearOf (ofRecognized out.R junk) nu (k, label k (Flood.idx (E.pi k).width rc.2 rc.1)) with
    | none => simp only [codeAt, hn, codeOf] at hcode; omega
    | some q =>
      obtain ⟨hv, h1, _⟩ := near_some hc (hreg k hk rc hrc) hn
      simp only [codeAt, hn, codeOf] at hcode
      have hqr : q ∈ out.reported := by
        by_contra hnm
        have := List.idxOf_eq_length hnm
        omega
      have hq : out.reported[c] = q := by
        have : out.reported.idxOf q = c := by exact_mod_cast hcode
        subst this
        exact List.getElem_idxOf _
      rw [hq] at hu
      exact h1.trans hu
  · rintro ⟨p, hp, hun, rfl⟩
    obtain ⟨k, hk, rc, hrc, rfl⟩ := H.cover p hp
    have hu := (H.under (junk := junk) hk hrc hli).2 hun
    cases hn : nearOf (ofRecognized out.R junk) nu (k, label k (Flood.idx (E.pi k).width rc.2 rc.1)) with
    | none => exact absurd hvi (near_none hc (hreg k hk rc hrc) hn _ hu)
    | some q =>
      obtain ⟨hv, h1, h2⟩ := near_some hc (hreg k hk rc hrc) hn
      have hup : UpX (ofRecognized out.R junk) q out.reported[i] := h2 _ hvi hu
      have hS : Str (IsReg E) T.gray (toForest out.R) m := H.shows_.str
      have hqreg : IsReg E q := (hS.up (hreg k hk rc hrc) h1).1
      obtain ⟨c, hcl, rfl⟩ := List.getElem_of_mem ((R.valid q hqreg).1 hv)
      refine ⟨c, (hmem c).2 ⟨hcl, (R.chain hcl hi).2 hup⟩, ?_⟩
      rw [all_eq, List.mem_map]
      refine ⟨(k, rc), ?_, ptOf_eq E k rc⟩
      rw [List.mem_filter, mem_cells, decide_eq_true_eq]
      refine ⟨⟨hk, hrc⟩, ?_⟩
      simp only [codeAt, hn]
      exact codeOf_get H.nodup hcl

theorem Handover0.list_length (H : Handover0 E label px T m out) (hf : 257 * (m + 1) + 1 ≤ fuel)
    (hc : Climbs E rk (257 * (m + 1)) nu (ofRecognized out.R junk)) {i : Nat}
    (hi : i < out.reported.length) :
    ((planOf E label thr (ofRecognized out.R junk) nu out.reported).list i).length
      = T.size out.reported[i] := by
  classical
  have hli := H.live out.reported[i] (by simp)
  rw [H.size _ hli (px.filter fun p => T.Under out.reported[i] p) (fun p => Finset.mem_filter)]
  rw [← List.toFinset_card_of_nodup (H.list_nodup i)]
  rw [← Finset.card_image_of_injective _ (f := toPt) (fun _ _ e => toPt_inj e)]
  congr 1
  ext pt
  rw [List.mem_toFinset, H.mem_list hf hc hi, Finset.mem_image]
  constructor
  · rintro ⟨p, h1, h2, rfl⟩; exact ⟨p, Finset.mem_filter.2 ⟨h1, h2⟩, rfl⟩
  · rintro ⟨p, h1, rfl⟩; exact ⟨p, (Finset.mem_filter.1 h1).1, (Finset.mem_filter.1 h1).2, rfl⟩

theorem Handover0.ready1 (H : Handover0 E label px T m out) (hf : 257 * (m + 1) + 1 ≤ fuel)
    (hc : Climbs E rk (257 * (m + 1)) nu (ofRecognized out.R junk)) :
    Ready1 E fuel label (ofRecognized out.R junk) out.reported rk (257 * (m + 1)) nu := by
  have R := H.ready0 hf hc
  refine ⟨R, ?_, ?_⟩
  · intro j hj
    have ok := R.ok (thr := 0)
    have h1 := (Plan.full_perm ok hj).length_eq
    rw [← Plan.list_eq, H.list_length hf hc hj] at h1
    have h2 : (planOf E label 0 (ofRecognized out.R junk) nu out.reported).full j
        = (planBase E label (ofRecognized out.R junk) nu out.reported).full j := Plan.full_sh _ _ j
    rw [← h2, h1]
    exact H.shows_.size _
  · intro j hj
    have hlj := H.live out.reported[j] (by simp)
    have hvj : (ofRecognized out.R junk out.reported[j]).flag = .valid :=
      (R.valid _ (H.isReg hlj)).2 (by simp)
    obtain ⟨p, hp, hlab⟩ := H.lab _ hlj
    obtain ⟨k, hk, rc, hrc, rfl⟩ := H.cover p hp
    obtain ⟨hl, n, hres⟩ := H.labels k hk rc hrc
    have hreg : IsReg E (k, label k (Flood.idx (E.pi k).width rc.2 rc.1)) :=
      ⟨by have := H.n4; omega, hl⟩
    have hS : Str (IsReg E) T.gray (toForest out.R) m := H.shows_.str
    rw [hlab] at hres
    refine ⟨k, hk, ?_⟩
    have hnear : nearOf (ofRecognized out.R junk) nu (k, label k (Flood.idx (E.pi k).width rc.2 rc.1))
        = some out.reported[j] := by
      have hu : UpX (ofRecognized out.R junk) (k, label k (Flood.idx (E.pi k).width rc.2 rc.1))
          out.reported[j] := hres.up
      cases hn : nearOf (ofRecognized out.R junk) nu (k, label k (Flood.idx (E.pi k).width rc.2 rc.1)) with
      | none => exact absurd hvj (near_none hc hreg hn _ hu)
      | some q =>
        obtain ⟨hv, h1, h2⟩ := near_some hc hreg hn
        have hqj := h2 _ hvj hu
        have hqreg : IsReg E q := (hS.up hreg h1).1
        have hql : T.isReg q := H.live q ((R.valid q hqreg).1 hv)
        have hjq : Up (toForest out.R) out.reported[j] q := (hres.up_iff (H.live_merged hql)).1 h1
        by_contra hne
        have hne' : q ≠ out.reported[j] := fun e => hne (by rw [e])
        have := hS.up_lt hqreg (H.live_merged hql) hqj hne'
        have := (hS.up (H.isReg hlj) hjq).2
        omega
    have : ptOf E k rc ∈ (planBase E label (ofRecognized out.R junk) nu out.reported).own k j := by
      simp only [planBase, linked, List.mem_map, List.mem_filter, decide_eq_true_eq]
      refine ⟨rc, ⟨hrc, ?_⟩, rfl⟩
      simp only [codeAt, hnear]
      exact codeOf_get H.nodup hj
    exact List.ne_nil_of_mem this

/-- Extraction works, and reading back gives exactly the pixels of the reported regions. -/
theorem Handover.extract (H : Handover E label px T m out) (hf : 257 * (m + 1) + 1 ≤ fuel) (gm : Nat)
    (thr : Int) (heap0 : Reg → Option Int) (jk : Int × Int × Int) (junk : Reg → Nat) :
    ∃ X P, extract4 E thr gm fuel label heap0 jk (ofRecognized out.R junk) out.reported = some X ∧
      P.Ok ∧ Delivered P (ofRecognized out.R junk) out.reported jk X ∧ P.N = out.reported.length ∧
      (∀ i, (P.list i).Nodup) ∧
      (∀ i (hi : i < out.reported.length), (P.list i).length = T.size out.reported[i] ∧
        (P.full i).length = T.size out.reported[i] ∧
        ∀ pt, pt ∈ P.list i ↔ ∃ p ∈ px, T.Under out.reported[i] p ∧ pt = toPt p) ∧
      (∀ k i, ∀ pt ∈ P.own k i, ∃ rc ∈ scan (E.pi k).width (E.pi k).height, pt = toPt (pxOf E k rc)) ∧
      (∀ i, i < out.reported.length → ∃ k, k < 4 ∧ P.own k i ≠ []) := by
  obtain ⟨rk, nu, hc⟩ := H.climbs (junk := junk)
  have R : Ready E fuel label (ofRecognized out.R junk) out.reported rk (257 * (m + 1)) nu :=
    ⟨H.ready1 hf hc, H.coord⟩
  obtain ⟨X, e, D⟩ := extract4_spec (thr := thr) R gm heap0 jk
  refine ⟨X, _, e, R.ok, D, rfl, fun i => H.list_nodup i, fun i hi => ⟨H.list_length hf hc hi, ?_,
    fun pt => H.mem_list hf hc hi pt⟩, fun k i pt hpt => ?_, fun i hi => R.own i hi⟩
  swap
  · simp only [planOf, planBase, linked, List.mem_map, List.mem_filter] at hpt
    obtain ⟨rc, ⟨hrc, _⟩, rfl⟩ := hpt
    exact ⟨rc, hrc, ptOf_eq E k rc⟩
  have h1 := (Plan.full_perm (R.ok (thr := thr)) hi).length_eq
  rw [← Plan.list_eq, H.list_length hf hc hi] at h1
  exact h1

end

end Verif.Extract
