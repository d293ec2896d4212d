import Mathlib.Logic.Relation
import Verif.Model.OpenCv3

/-!
# The OpenCV 3 detector: the tree of histories

`updateTree` ends, follows no null pointer and stores the variations.
-/

namespace Verif.OpenCv3

open Function (update)
open Relation (ReflTransGen)

/-- The members of a history that `updateTree` does not write. -/
structure Skel where
  kids : List Nat
  parent : Option Nat
  val : Nat
  size : Nat
  head : Nat

/-- The members of a history that `updateTree` does not write. -/
def sk (h : Hist) : Skel := ⟨h.kids, h.parent, h.val, h.size, h.head⟩

/-- All of them. -/
def skel (H : Nat → Hist) : Nat → Skel := fun i => sk (H i)

/-- Children and parents fit together, levels grow towards the parents. -/
structure TI (S : Nat → Skel) (n : Nat) : Prop where
  val : ∀ i < n, (S i).val < 256
  kid : ∀ i < n, ∀ k ∈ (S i).kids, k < n ∧ (S k).parent = some i ∧ (S k).val < (S i).val
  par : ∀ i < n, ∀ p, (S i).parent = some p → p < n ∧ (S i).val < (S p).val

/-- The histories whose component is complete. -/
structure ClI (S : Nat → Skel) (n : Nat) (cl : Nat → Prop) : Prop where
  lt : ∀ i, cl i → i < n
  pos : ∀ i, cl i → 0 < (S i).size
  kid : ∀ i, cl i → ∀ k ∈ (S i).kids, cl k ∧ (S k).size ≤ (S i).size

/-- `b` is the first child of `a`. -/
def DK (S : Nat → Skel) (a b : Nat) : Prop := (S a).kids.head? = some b

/-- `b` is the parent of `a`. -/
def PK (S : Nat → Skel) (a b : Nat) : Prop := (S a).parent = some b

/-- The history `h0` belonging to `i`. -/
structure IsH0 (S : Nat → Skel) (d : Int) (i a : Nat) : Prop where
  path : ReflTransGen (DK S) i a
  val : a ≠ i → ((S i).val : Int) - d ≤ (S a).val
  stop : ∀ k, DK S a k → ((S k).val : Int) < (S i).val - d

/-- The start of the search for `h1`. -/
structure PreH1 (S : Nat → Skel) (d : Int) (i b : Nat) : Prop where
  path : ReflTransGen (PK S) i b
  val : b ≠ i → ((S b).val : Int) ≤ (S i).val + d

/-- The history `h1` belonging to `i`. -/
structure IsH1 (S : Nat → Skel) (d : Int) (i b : Nat) : Prop extends PreH1 S d i b where
  stop : ∀ p, PK S b p → ((S i).val : Int) + d < (S p).val

/-- `v` is the variation of `i`; unless `fin`, the history `h1` is final. -/
def VarOK (E : Env) (S : Nat → Skel) (fin : Bool) (i : Nat) (v : ℚ) : Prop :=
  ∃ a b, IsH0 S E.cfg.delta i a ∧ IsH1 S E.cfg.delta i b ∧
    (fin = true ∨ (S b).parent ≠ none ∨ ((S i).val : Int) + E.cfg.delta ≤ (S b).val) ∧
    v = E.cfg.r32 (E.cfg.r32 ((S b).size - (S a).size) / E.cfg.r32 (S i).size)

variable {E : Env} {next : Nat → Nat} {n : Nat} {cl : Nat → Prop} {S : Nat → Skel} {d : Int}

theorem TI.val_le (hT : TI S n) {i b : Nat} (hi : i < n) (h : ReflTransGen (PK S) i b) : b < n ∧ (S i).val ≤ (S b).val := by
  induction h with
  | refl => exact ⟨hi, le_refl _⟩
  | tail _ h1 ih =>
    obtain ⟨h2, h3⟩ := ih
    obtain ⟨h4, h5⟩ := hT.par _ h2 _ h1
    exact ⟨h4, by omega⟩

theorem head_mem {l : List Nat} {k : Nat} (h : l.head? = some k) : k ∈ l := List.mem_of_head? h

theorem TI.down_le (hT : TI S n) {i a : Nat} (hi : i < n) (h : ReflTransGen (DK S) i a) : a < n ∧ (S a).val ≤ (S i).val := by
  induction h with
  | refl => exact ⟨hi, le_refl _⟩
  | tail _ h1 ih =>
    obtain ⟨h2, h3⟩ := ih
    obtain ⟨h4, h5, h6⟩ := hT.kid _ h2 _ (head_mem h1)
    exact ⟨h4, by omega⟩

/-- The loop 31. -/
theorem up0_spec {H : Nat → Hist} (hT : TI (skel H) n) {i : Nat} (hi : i < n) : ∀ (f j : Nat),
    ReflTransGen (DK (skel H)) i j → (∀ k, DK (skel H) j k → ((skel H k).val : Int) < (skel H i).val - d) →
    (skel H i).val < (skel H j).val + f →
    ∃ r, up0 H d i f j = some r ∧ IsH0 (skel H) d i r
  | 0, j, hp, _, hf => by
    have := (hT.down_le hi hp).2
    omega
  | f + 1, j, hp, hs, hf => by
    unfold up0
    by_cases hc : j ≠ i ∧ ((H j).val : Int) < ((H i).val : Int) - d
    · rw [if_pos hc]
      rcases ReflTransGen.cases_tail hp with e | ⟨j', h1, h2⟩
      · exact absurd e hc.1
      · have hj' := (hT.down_le hi h1).1
        obtain ⟨k1, k2, k3⟩ := hT.kid _ hj' _ (head_mem h2)
        have k2' : (H j).parent = some j' := k2
        rw [k2']
        simp only
        refine up0_spec hT hi f j' h1 (fun k hk => ?_) (by omega)
        have : k = j := by
          have h3 : DK (skel H) j' k := hk
          unfold DK at h2 h3
          rw [h2] at h3; exact (Option.some.inj h3).symm
        subst this
        exact hc.2
    · rw [if_neg hc]
      refine ⟨j, rfl, hp, fun hne => ?_, hs⟩
      by_contra h
      exact hc ⟨hne, by simp only [skel, sk] at h; omega⟩

/-- The loop 36. -/
theorem down_spec {H : Nat → Hist} (hT : TI (skel H) n) {i : Nat} (hi : i < n) : ∀ (f j : Nat),
    ReflTransGen (DK (skel H)) i j → (j ≠ i → ((skel H i).val : Int) - d ≤ (skel H j).val) → (skel H j).val < f →
    ∃ r, down H d (H i).val f j = some r ∧ IsH0 (skel H) d i r
  | 0, j, _, _, hf => by omega
  | f + 1, j, hp, hv, hf => by
    have hj := (hT.down_le hi hp).1
    unfold down
    cases hk : (H j).kids with
    | nil =>
      refine ⟨j, rfl, hp, hv, fun k hk' => ?_⟩
      simp [DK, skel, sk, hk] at hk'
    | cons k ks =>
      have hd : DK (skel H) j k := by simp [DK, skel, sk, hk]
      obtain ⟨k1, k2, k3⟩ := hT.kid _ hj _ (head_mem hd)
      simp only
      by_cases hc : ((H i).val : Int) - d ≤ ((H k).val : Int)
      · rw [if_pos hc]
        exact down_spec hT hi f k (.tail hp hd) (fun _ => hc) (by omega)
      · rw [if_neg hc]
        refine ⟨j, rfl, hp, hv, fun k' hk' => ?_⟩
        have : k' = k := by
          unfold DK at hd hk'
          rw [hd] at hk'; exact (Option.some.inj hk').symm
        subst this
        simp only [skel, sk]
        omega

/-- The loop 40. -/
theorem up1_spec {H : Nat → Hist} (hT : TI (skel H) n) {i : Nat} (hi : i < n) : ∀ (f j : Nat),
    PreH1 (skel H) d i j → 256 ≤ (skel H j).val + f →
    ∃ r, up1 H d (H i).val f j = some r ∧ IsH1 (skel H) d i r
  | 0, j, hp, hf => by
    have := hT.val _ (hT.val_le hi hp.path).1
    omega
  | f + 1, j, hp, hf => by
    have hj := (hT.val_le hi hp.path).1
    unfold up1
    cases hk : (H j).parent with
    | none =>
      refine ⟨j, rfl, hp, fun p hp' => ?_⟩
      simp [PK, skel, sk, hk] at hp'
    | some k =>
      have hd : PK (skel H) j k := hk
      obtain ⟨k1, k2⟩ := hT.par _ hj _ hd
      simp only
      by_cases hc : ((H k).val : Int) ≤ ((H i).val : Int) + d
      · rw [if_pos hc]
        exact up1_spec hT hi f k ⟨.tail hp.path hd, fun _ => hc⟩ (by omega)
      · rw [if_neg hc]
        refine ⟨j, rfl, hp, fun p hp' => ?_⟩
        have : p = k := by
          unfold PK at hd hp'
          rw [hd] at hp'; exact (Option.some.inj hp').symm
        subst this
        simp only [skel, sk]
        omega

/-! ### What a call changes -/

/-- What is known of a region when it is delivered. -/
structure Taken (E : Env) (next : Nat → Nat) (H : Nat → Hist) (r : Rec3) (j : Nat) : Prop where
  made : r = recOf E next (H j) j
  min : E.cfg.minPoint ≤ ((H j).size : Int)
  max : ((H j).size : Int) ≤ E.cfg.maxPoint
  var0 : 0 ≤ (H j).var
  var1 : (H j).var ≤ E.cfg.stable

/-- What the functions on histories do to them and to the list of regions; only histories of a level below `m` get a variation. -/
structure Ext (E : Env) (next : Nat → Nat) (cl : Nat → Prop) (fin : Bool) (m : Nat) (t t' : TS) : Prop where
  same : skel t'.hists = skel t.hists
  chk : ∀ i, (t.hists i).checked = true → (t'.hists i).checked = true
  var : ∀ i, (t'.hists i).var = (t.hists i).var ∨
    ((t.hists i).var < 0 ∧ cl i ∧ (t.hists i).val < m ∧ VarOK E (skel t.hists) fin i (t'.hists i).var)
  out : ∃ new, t'.out = t.out ++ new ∧ (new.map (·.idx)).Nodup ∧ ∀ r ∈ new, ∃ j, cl j ∧ (t.hists j).checked = false ∧
    (t'.hists j).checked = true ∧ Taken E next t'.hists r j

theorem recOf_congr {h h' : Hist} (e : sk h' = sk h) (i : Nat) : recOf E next h' i = recOf E next h i := by
  simp only [sk, Skel.mk.injEq] at e
  obtain ⟨-, -, -, e1, e2⟩ := e
  unfold recOf
  rw [e1, e2]

theorem Taken.congr {H H' : Nat → Hist} {r : Rec3} {j : Nat} (h : Taken E next H r j) (e : sk (H' j) = sk (H j))
    (hv : (H' j).var = (H j).var ∨ (H j).var < 0) : Taken E next H' r j := by
  have hv' : (H' j).var = (H j).var := hv.resolve_right (not_lt.2 h.var0)
  have e1 : (H' j).size = (H j).size := congrArg Skel.size e
  exact ⟨by rw [recOf_congr e]; exact h.made, by rw [e1]; exact h.min, by rw [e1]; exact h.max, by rw [hv']; exact h.var0,
    by rw [hv']; exact h.var1⟩

variable {fin : Bool} {m m' : Nat} {t t' t'' : TS}

theorem skel_at {H H' : Nat → Hist} (e : skel H' = skel H) (i : Nat) : sk (H' i) = sk (H i) := congrFun e i

theorem Ext.refl (t : TS) : Ext E next cl fin m t t :=
  ⟨rfl, fun _ h => h, fun _ => .inl rfl, [], by simp, by simp, by simp⟩

theorem Ext.trans (h1 : Ext E next cl fin m t t') (h2 : Ext E next cl fin m t' t'') : Ext E next cl fin m t t'' := by
  obtain ⟨n1, a1, a2, a3⟩ := h1.out
  obtain ⟨n2, b1, b2, b3⟩ := h2.out
  refine ⟨h2.same.trans h1.same, fun i hi => h2.chk i (h1.chk i hi), fun i => ?_, n1 ++ n2, ?_, ?_, ?_⟩
  · have e2 := h2.var i
    rw [h1.same] at e2
    have hval : (t'.hists i).val = (t.hists i).val := congrArg Skel.val (skel_at h1.same i)
    rw [hval] at e2
    rcases h1.var i with e1 | ⟨e1, e3, e5, e4⟩
    · rw [← e1]
      rcases e2 with e2 | e2
      · exact .inl e2
      · exact .inr e2
    · refine .inr ⟨e1, e3, e5, ?_⟩
      rcases e2 with e2 | ⟨_, _, _, e2⟩
      · rw [e2]; exact e4
      · exact e2
  · rw [b1, a1, List.append_assoc]
  · rw [List.map_append, List.nodup_append]
    refine ⟨a2, b2, ?_⟩
    intro x hx y hy
    obtain ⟨r, hr, rfl⟩ := List.mem_map.1 hx
    obtain ⟨r', hr', rfl⟩ := List.mem_map.1 hy
    obtain ⟨j, _, _, j3, j4⟩ := a3 r hr
    obtain ⟨k, _, k2, _, k4⟩ := b3 r' hr'
    have e1 : r.idx = j := by rw [j4.made]; rfl
    have e2 : r'.idx = k := by rw [k4.made]; rfl
    rw [e1, e2]
    rintro rfl
    rw [k2] at j3
    exact absurd j3 (by simp)
  · intro r hr
    rcases List.mem_append.1 hr with hr | hr
    · obtain ⟨j, j1, j2, j3, j4⟩ := a3 r hr
      refine ⟨j, j1, j2, h2.chk j j3, j4.congr (skel_at h2.same j) ?_⟩
      rcases h2.var j with e | e
      · exact .inl e
      · exact .inr e.1
    · obtain ⟨j, j1, j2, j3, j4⟩ := b3 r hr
      refine ⟨j, j1, ?_, j3, j4⟩
      cases hc : (t.hists j).checked with
      | false => rfl
      | true => rw [h1.chk j hc] at j2; exact absurd j2 (by simp)

theorem Ext.mono (h : Ext E next cl fin m t t') (hm : m ≤ m') : Ext E next cl fin m' t t' :=
  ⟨h.same, h.chk, fun i => (h.var i).imp_right fun ⟨a, b, c, e⟩ => ⟨a, b, by omega, e⟩, h.out⟩

theorem wanted_spec {H : Nat → Hist} {i : Nat} (h : wanted E H i = true) :
    E.cfg.minPoint ≤ ((H i).size : Int) ∧ ((H i).size : Int) ≤ E.cfg.maxPoint ∧ 0 ≤ (H i).var ∧ (H i).var ≤ E.cfg.stable := by
  unfold wanted at h
  simp only at h
  split at h
  · simp at h
  · rename_i hc
    push Not at hc
    exact hc

theorem capture_ext {i : Nat} (hc : cl i) : Ext E next cl fin m t (capture E next t i) := by
  unfold capture
  by_cases h : (t.hists i).checked = true
  · rw [if_pos h]; exact .refl t
  · rw [if_neg h]
    have hf : (t.hists i).checked = false := by simpa using h
    have hsk : skel (update t.hists i { t.hists i with checked := true }) = skel t.hists := by
      funext k
      unfold skel
      by_cases e : k = i
      · subst e; rw [Function.update_self]; rfl
      · rw [Function.update_of_ne e]
    refine ⟨hsk, fun k hk => ?_, fun k => .inl ?_, ?_⟩
    · simp only
      by_cases e : k = i
      · subst e; rw [Function.update_self]
      · rw [Function.update_of_ne e]; exact hk
    · simp only
      by_cases e : k = i
      · subst e; rw [Function.update_self]
      · rw [Function.update_of_ne e]
    · by_cases hw : wanted E t.hists i = true
      · rw [if_pos hw]
        refine ⟨[recOf E next (t.hists i) i], rfl, by simp, ?_⟩
        intro r hr
        simp only [List.mem_singleton] at hr
        subst hr
        obtain ⟨w1, w2, w3, w4⟩ := wanted_spec hw
        have h0 : Taken E next t.hists (recOf E next (t.hists i) i) i := ⟨rfl, w1, w2, w3, w4⟩
        refine ⟨i, hc, hf, by simp, h0.congr (skel_at hsk i) (.inl (by simp))⟩
      · rw [if_neg hw]
        exact ⟨[], by simp, by simp, by simp⟩

theorem foldl_capture : ∀ (l : List Nat) (t : TS), (∀ k ∈ l, cl k) → Ext E next cl fin m t (l.foldl (capture E next) t)
  | [], t, _ => .refl t
  | k :: l, t, h =>
    (capture_ext (h k (by simp))).trans (foldl_capture l _ (fun k' hk => h k' (by simp [hk])))

/-! ### The recursion -/

/-- What a recursive call returns in `h0_` and `h1_`. -/
def Ret (S : Nat → Skel) (d : Int) (i : Nat) (h : Option Nat × Option Nat) : Prop :=
  (∀ a, h.1 = some a → ∃ c, DK S i c ∧ IsH0 S d c a) ∧ (∀ b, h.2 = some b → ∃ c, DK S i c ∧ PreH1 S d c b)

theorem kidsLoop_spec {go : Nat → TS → Option (TS × Option Nat × Option Nat)} {S : Nat → Skel} {i : Nat}
    (hgo : ∀ c ∈ (S i).kids, ∀ t, skel t.hists = S → ∃ t' h0 h1, go c t = some (t', h0, h1) ∧ Ext E next cl fin m t t' ∧
      (∀ a, h0 = some a → IsH0 S d c a) ∧ (∀ b, h1 = some b → PreH1 S d c b)) :
    ∀ (cs : List Nat) (first : Bool) (t : TS) (h : Option Nat × Option Nat), (∀ c ∈ cs, c ∈ (S i).kids) →
      (first = true → (S i).kids.head? = cs.head?) → skel t.hists = S → Ret S d i h →
      ∃ t' b h', kidsLoop go cs first t h = some (t', b, h') ∧ Ext E next cl fin m t t' ∧ Ret S d i h'
  | [], _, t, h, _, _, _, hr => ⟨t, false, h, rfl, .refl t, hr⟩
  | c :: cs, first, t, h, hcs, hf, hS, hr => by
    unfold kidsLoop
    by_cases hv : (t.hists c).var < 0
    · rw [if_pos hv]
      obtain ⟨t1, h0, h1, e1, e2, e3, e4⟩ := hgo c (hcs c (by simp)) t hS
      rw [e1]
      simp only [Option.map_some, Option.bind_some]
      have hr' : Ret S d i (if first then (h0, h1) else h) := by
        by_cases hfirst : first = true
        · rw [if_pos hfirst]
          have hd : DK S i c := by unfold DK; rw [hf hfirst]; rfl
          exact ⟨fun a ha => ⟨c, hd, e3 a ha⟩, fun b hb => ⟨c, hd, e4 b hb⟩⟩
        · rw [if_neg hfirst]; exact hr
      by_cases hv1 : (t1.hists c).var < 0
      · rw [if_pos hv1]
        exact ⟨_, _, _, rfl, e2, hr'⟩
      · rw [if_neg hv1]
        obtain ⟨t2, b, h', k1, k2, k3⟩ := kidsLoop_spec hgo cs false t1 _ (fun c' hc' => hcs c' (by simp [hc'])) (by simp)
          (by rw [e2.same]; exact hS) hr'
        exact ⟨t2, b, h', k1, e2.trans k2, k3⟩
    · rw [if_neg hv]
      simp only [Option.bind_some]
      rw [if_neg hv]
      exact kidsLoop_spec hgo cs false t h (fun c' hc' => hcs c' (by simp [hc'])) (by simp) hS hr

/-- `updateTree` ends without undefined behaviour. -/
theorem updateTree_spec {S : Nat → Skel} (hT : TI S n) (hC : ClI S n cl) : ∀ (f i : Nat) (t : TS), cl i → skel t.hists = S →
    (S i).val < f →
    ∃ t' h0 h1, updateTree E next fin f i t = some (t', h0, h1) ∧ Ext E next cl fin ((S i).val + 1) t t' ∧
      (∀ a, h0 = some a → IsH0 S E.cfg.delta i a) ∧ (∀ b, h1 = some b → PreH1 S E.cfg.delta i b)
  | 0, _, _, _, _, hf => by omega
  | f + 1, i, t, hi, hS, hf => by
    have hin := hC.lt i hi
    unfold updateTree
    by_cases hv : 0 ≤ (t.hists i).var
    · rw [if_pos hv]
      exact ⟨t, none, none, rfl, .refl t, by simp, by simp⟩
    rw [if_neg hv]
    have hkids : ∀ (t : TS), skel t.hists = S → (t.hists i).kids = (S i).kids := fun t h => congrArg Skel.kids (congrFun h i)
    obtain ⟨t1, b, h, e1, e2, e3⟩ : ∃ t1 b h, (if E.cfg.minPoint ≤ ((t.hists i).size : Int)
        then kidsLoop (updateTree E next fin f) (t.hists i).kids true t (none, none)
        else some (t, false, (none, none))) = some (t1, b, h) ∧ Ext E next cl fin (S i).val t t1 ∧ Ret S E.cfg.delta i h := by
      by_cases hm : E.cfg.minPoint ≤ ((t.hists i).size : Int)
      · rw [if_pos hm]
        refine kidsLoop_spec (fun c hc t ht => ?_) _ _ _ _ (fun c hc => by rw [hkids t hS] at hc; exact hc)
          (fun _ => by rw [hkids t hS]) hS ⟨by simp, by simp⟩
        have := (hT.kid i hin c hc).2.2
        obtain ⟨t', h0, h1, k1, k2, k3⟩ := updateTree_spec hT hC f c t (hC.kid i hi c hc).1 ht (by omega)
        exact ⟨t', h0, h1, k1, k2.mono (by omega), k3⟩
      · rw [if_neg hm]
        exact ⟨_, _, _, rfl, .refl t, by simp, by simp⟩
    rw [e1]
    simp only [Option.bind_some]
    by_cases hb : b = true
    · rw [if_pos hb]
      exact ⟨_, _, _, rfl, e2.mono (by omega), by simp, by simp⟩
    rw [if_neg hb]
    have hS1 : skel t1.hists = S := e2.same.trans hS
    have hT1 : TI (skel t1.hists) n := by rw [hS1]; exact hT
    have hvi := hT.val i hin
    have hv1 : (t1.hists i).val = (S i).val := congrArg Skel.val (congrFun hS1 i)
    -- the search for `h0`
    obtain ⟨h0, g1, g2⟩ : ∃ h0, findH0 t1.hists E.cfg.delta i h.1 = some h0 ∧ IsH0 S E.cfg.delta i h0 := by
      cases ha : h.1 with
      | some a =>
        simp only [findH0]
        obtain ⟨c, hc, hca⟩ := e3.1 a ha
        obtain ⟨c1, c2, c3⟩ := hT.kid i hin c (head_mem hc)
        have := up0_spec (d := E.cfg.delta) hT1 hin 257 a (by rw [hS1]; exact ReflTransGen.head hc hca.path) (fun k hk => by
          rw [hS1] at hk ⊢
          have := hca.stop k hk
          omega) (by rw [hS1]; omega)
        rw [hS1] at this
        exact this
      | none =>
        simp only [findH0]
        have := down_spec (d := E.cfg.delta) hT1 hin 257 i .refl (fun h => absurd rfl h) (by rw [hS1]; omega)
        rw [hS1] at this
        exact this
    rw [g1]
    simp only [Option.bind_some]
    -- the search for `h1`
    obtain ⟨h1, g3, g4⟩ : ∃ h1, up1 t1.hists E.cfg.delta (t1.hists i).val 257 (startH1 t1.hists i h.2) = some h1 ∧ IsH1 S E.cfg.delta i h1 := by
      have hpre : PreH1 S E.cfg.delta i (startH1 t1.hists i h.2) := by
        cases hb : h.2 with
        | none => exact ⟨.refl, fun h => absurd rfl h⟩
        | some b =>
          simp only [startH1]
          by_cases hsz : (t1.hists i).size < (t1.hists b).size
          · rw [if_pos hsz]
            obtain ⟨c, hc, hcb⟩ := e3.2 b hb
            obtain ⟨c1, c2, c3⟩ := hT.kid i hin c (head_mem hc)
            have hsz' : (S i).size < (S b).size := by
              rw [← hS1]; exact hsz
            have hbc : b ≠ c := by
              rintro rfl
              have := (hC.kid i hi b (head_mem hc)).2
              omega
            refine ⟨?_, fun _ => ?_⟩
            · rcases ReflTransGen.cases_head hcb.path with e | ⟨x, x1, x2⟩
              · exact absurd e.symm hbc
              · have : x = i := by
                  unfold PK at x1
                  rw [c2] at x1; exact (Option.some.inj x1).symm
                rw [← this]; exact x2
            · have := hcb.val hbc
              omega
          · rw [if_neg hsz]; exact ⟨.refl, fun h => absurd rfl h⟩
      have := up1_spec (d := E.cfg.delta) hT1 hin 257 _ (by rw [hS1]; exact hpre) (by omega)
      rw [hS1] at this
      exact this
    rw [g3]
    simp only [Option.bind_some]
    by_cases hstop : fin = false ∧ (t1.hists h1).parent = none ∧ ((t1.hists h1).val : Int) < (t1.hists i).val + E.cfg.delta
    · rw [if_pos hstop]
      exact ⟨_, _, _, rfl, e2.mono (by omega), fun a ha => by cases ha; exact g2, fun b hb => by cases hb; exact g4.toPreH1⟩
    rw [if_neg hstop]
    have hpos : ¬ (t1.hists i).size = 0 := by
      have := hC.pos i hi
      have e : (t1.hists i).size = (S i).size := congrArg Skel.size (congrFun hS1 i)
      omega
    rw [if_neg hpos]
    refine ⟨_, _, _, rfl, ?_, fun a ha => by cases ha; exact g2, fun b hb => by cases hb; exact g4.toPreH1⟩
    -- the variation is stored
    refine (e2.mono (by omega)).trans ?_
    have hneg : (t1.hists i).var < 0 := by
      rcases e2.var i with e | ⟨_, _, e, _⟩
      · rw [e]; exact not_le.1 hv
      · have : (t.hists i).val = (S i).val := congrArg Skel.val (congrFun hS i)
        omega
    · have hstep : Ext E next cl fin ((S i).val + 1) t1 { t1 with hists := update t1.hists i { t1.hists i with
          var := E.cfg.r32 (E.cfg.r32 ((t1.hists h1).size - (t1.hists h0).size) / E.cfg.r32 (t1.hists i).size) } } := by
        refine ⟨?_, ?_, ?_, [], by simp, by simp, by simp⟩
        · funext k
          unfold skel
          by_cases e : k = i
          · subst e; simp only [Function.update_self]; rfl
          · simp only [Function.update_of_ne e]
        · intro k hk
          by_cases e : k = i
          · subst e; simp only [Function.update_self]; exact hk
          · simp only [Function.update_of_ne e]; exact hk
        · intro k
          by_cases e : k = i
          · subst e
            simp only [Function.update_self]
            refine .inr ⟨hneg, hi, by omega, h0, h1, by rw [hS1]; exact g2, by rw [hS1]; exact g4, ?_, rfl⟩
            by_contra hc
            push Not at hc
            obtain ⟨c1, c2, c3⟩ := hc
            exact hstop ⟨by simpa using c1, c2, c3⟩
          · simp only [Function.update_of_ne e]; exact .inl trivial
      have hfold := foldl_capture (E := E) (next := next) (cl := cl) (fin := fin) (m := (S i).val + 1) (t1.hists i).kids
        { t1 with hists := update t1.hists i { t1.hists i with
          var := E.cfg.r32 (E.cfg.r32 ((t1.hists h1).size - (t1.hists h0).size) / E.cfg.r32 (t1.hists i).size) } } (fun k hk => by
            rw [hkids t1 hS1] at hk
            exact (hC.kid i hi k hk).1)
      refine (hstep.trans hfold).trans ?_
      split
      · exact capture_ext hi
      · exact .refl _

end Verif.OpenCv3
