import Verif.Proof.ConcurrentRun

/-!
# Proof: any schedule gives what the threads give one after the other
-/

namespace Verif.Recog

open Function (update)
open Relation (ReflTransGen)
open Verif.Connect (Forest Str Res RealPar)
open Verif.Spec (Rounding)

variable {ι : Type} [DecidableEq ι] {T : Tree ι} {cfg : Cfg} {pidx : ι → Nat} {n : Nat} {regs : Nat → List ι}
  {R0 R : RForest ι} {two : Bool} {cap : Nat → Nat}

/-- Some links of live regions of patch `k` were shortened. -/
def Short (T : Tree ι) (own : ι → Bool) (R R' : RForest ι) : Prop :=
  ∀ x, R' x = R x ∨ (T.live x ∧ own x = true ∧ R' x = { R x with parent := T.up x })

omit [DecidableEq ι] in
theorem Short.refl {own : ι → Bool} : Short T own R R := fun _ => .inl rfl

omit [DecidableEq ι] in
theorem Short.trans {own : ι → Bool} {R' R'' : RForest ι} (h : Short T own R R') (h' : Short T own R' R'') :
    Short T own R R'' := by
  intro x
  rcases h' x with e | ⟨h1, h2, e⟩
  · rw [e]; exact h x
  · rcases h x with e' | ⟨_, _, e'⟩
    · exact .inr ⟨h1, h2, by rw [e, e']⟩
    · exact .inr ⟨h1, h2, by rw [e, e']⟩

theorem Short.setParent {own : ι → Bool} {s : ι} (hs : T.live s) (ho : own s = true) :
    Short T own R (Recog.setParent R s (T.up s)) := by
  intro x
  by_cases e : x = s
  · subst e; exact .inr ⟨hs, ho, setParent_self_eq _ _⟩
  · exact .inl (setParent_of_ne e _)

/-- Climbing shortens links only. -/
theorem climb_short (hT : T.Ok) {own : ι → Bool} {fuel : Nat} (hf : T.m ≤ fuel) {thr : Int} :
    ∀ {n : Nat} {R : RForest ι} {s : ι}, Shows T R → T.live s → 256 ≤ T.gr s + n + 1 →
      ∃ R', climb own fuel thr n R s (T.up s) = some (R', topOf T thr n s, T.up (topOf T thr n s)) ∧
        Shows T R' ∧ Short T own R R' := by
  intro n
  induction n with
  | zero =>
    intro R s hR hs hn
    cases hu : T.up s with
    | none => exact ⟨R, by simp [climb, topOf, hu], hR, .refl⟩
    | some p =>
      have := hT.up_gray s hs p hu
      have := hT.gr_lt p (hT.up_live s hs p hu)
      omega
  | succ n ih =>
    intro R s hR hs hn
    cases hu : T.up s with
    | none => exact ⟨R, by simp [climb, topOf, hu], hR, .refl⟩
    | some p =>
      have hp := hT.up_live s hs p hu
      have hg := hT.up_gray s hs p hu
      by_cases hle : (T.gr p : Int) ≤ thr
      · have h1 : ∃ R1, (if own p then setParent R p (T.up p) else R) = R1 ∧ Shows T R1 ∧ Short T own R R1 := by
          cases ho : own p with
          | true => exact ⟨_, rfl, (shows_setParent hR hT hp).1, .setParent hp ho⟩
          | false => exact ⟨R, rfl, hR, .refl⟩
        obtain ⟨R1, e1, hR1, hS1⟩ := h1
        obtain ⟨R2, e2, hR2, hS2⟩ := ih hR1 hp (by omega)
        refine ⟨R2, ?_, hR2, hS1.trans hS2⟩
        unfold climb
        rw [hR.gray, if_pos hle, hR.realParent hT hf hp]
        simp only [e1, e2, topOf, hu, hle, if_true]
      · refine ⟨R, ?_, hR, .refl⟩
        unfold climb
        rw [hR.gray, if_neg hle]
        simp only [topOf, hu, hle, if_false]

/-- The body of the first loop. -/
theorem workerVisit_base (S : Setup T pidx n regs R0) {k fuel : Nat} (hf : T.m ≤ fuel) (hk : k < n) (hR : Shows T R)
    {d rest : List ι} {r : ι} (e : regs k = d ++ r :: rest) (hb : Base T cfg R0 R d (r :: rest)) :
    ∃ R', workerVisit cfg pidx k fuel R r = some R' ∧ Shows T R' ∧ Base T cfg R0 R' (d ++ [r]) rest ∧
      Frame T pidx k R R' := by
  have hT := S.ok
  have hrm : r ∈ regs k := by rw [e]; simp
  obtain ⟨hreg, hrk⟩ := (S.mem k hk r).1 hrm
  unfold workerVisit
  by_cases hl : T.live r
  · rw [if_pos (hR.flag_ne hT hl)]
    obtain ⟨R2, e2, h3, h4⟩ := climb_short hT (own := fun x => pidx x == k) hf (thr := T.gr r + cfg.delta) (n := 256)
      (shows_setParent hR hT hl).1 hl (by omega)
    have h5 : Short T (fun x => pidx x == k) R R2 :=
      (Short.setParent (R := R) (own := fun x => pidx x == k) hl (by simp [hrk])).trans h4
    have ec : calcVar cfg (fun x => pidx x == k) fuel R r = some (setVar R2 r (vval T cfg r)) := by
      unfold calcVar
      simp only [hR.realParent hT hf hl, hR.gray, e2, h3.gray, h3.size]
      rfl
    have hfr : Frame T pidx k R R2 := by
      intro x hx
      rcases h5 x with h | ⟨h1, h2, _⟩
      · exact h
      · exact absurd ⟨h1, by simpa using h2⟩ hx
    have hr2 : R2 r = { R0 r with parent := T.up r } := by
      have h6 : setParent R r (T.up r) r = { R0 r with parent := T.up r } := by
        rw [setParent_self_eq]
        rcases hb.raw r (by simp) hl with e | e <;> rw [e]
      rcases h4 r with h | ⟨_, _, h⟩
      · rw [h, h6]
      · rw [h, h6]
    have hnd := S.nodup k hk
    rw [e] at hnd
    have hne : ∀ x ∈ d ++ rest, x ≠ r := by
      rintro x hx rfl
      exact (List.nodup_cons.1 (List.nodup_middle.1 hnd)).1 hx
    have hvr : setVar R2 r (vval T cfg r) r = { R0 r with parent := T.up r, var := vval T cfg r } := by
      simp [setVar, hr2]
    have hvx : ∀ x, x ≠ r → setVar R2 r (vval T cfg r) x = R2 x := fun x hx => by
      simp [setVar, Function.update_of_ne hx]
    have hfrv : Frame T pidx k R (setVar R2 r (vval T cfg r)) := fun x hx =>
      (frame_setVar hl hrk _ x hx).trans (hfr x hx)
    have fin : ∀ R', Frame T pidx k R R' → Shows T R' → (∀ x, x ≠ r → R' x = R2 x) →
        R' r = settle T cfg r (R0 r) →
        Shows T R' ∧ Base T cfg R0 R' (d ++ [r]) rest ∧ Frame T pidx k R R' := by
      intro R' hf' hs hx hrr
      refine ⟨hs, ⟨fun x hm hlx => ?_, fun x hm hlx => ?_⟩, hf'⟩
      · rcases List.mem_append.1 hm with hm | hm
        · rw [hx x (hne x (List.mem_append_left _ hm))]
          have := hb.settled x hm hlx
          rcases h5 x with h | ⟨_, _, h⟩
          · rw [h, this]
          · rw [h, this]; rfl
        · rw [List.mem_singleton] at hm; subst hm; exact hrr
      · rw [hx x (hne x (List.mem_append_right _ hm))]
        have := hb.raw x (List.mem_cons_of_mem _ hm) hlx
        rcases h5 x with h | ⟨_, _, h⟩
        · rw [h]; exact this
        · rw [h]; right
          rcases this with e | e <;> rw [e]
    have hfl : ∀ x, x ≠ r → setFlag (setVar R2 r (vval T cfg r)) r .invalid x = R2 x := fun x hx => by
      simp [setFlag, Function.update_of_ne hx, hvx x hx]
    have hfrf : Frame T pidx k R (setFlag (setVar R2 r (vval T cfg r)) r .invalid) := fun x hx =>
      (frame_setFlag hl hrk _ x hx).trans (hfrv x hx)
    have hbs : badSize cfg (setVar R2 r (vval T cfg r) r) = badSize cfg { R0 r with parent := T.up r } := by
      rw [hvr]; rfl
    have hva : (setVar R2 r (vval T cfg r) r).var = vval T cfg r := by rw [hvr]
    rw [ec]
    simp only [hbs, hva]
    split
    · rename_i hv
      refine ⟨_, rfl, fin _ hfrf ((h3.setVar r _).setFlag hT hl (by decide)) hfl ?_⟩
      simp [setFlag, settle, hvr, hv]
    · rename_i hv
      split
      · rename_i hbb
        refine ⟨_, rfl, fin _ hfrf ((h3.setVar r _).setFlag hT hl (by decide)) hfl ?_⟩
        simp [setFlag, settle, hvr, hv, hbb]
      · rename_i hbb
        refine ⟨_, rfl, fin _ hfrv (h3.setVar r _) hvx ?_⟩
        simp [settle, hvr, hv, hbb]
  · rw [if_neg (not_not.2 ((hR.merged r hreg).2 hl))]
    refine ⟨R, rfl, hR, ⟨fun x hm hlx => ?_, fun x hm => hb.raw x (List.mem_cons_of_mem _ hm)⟩, .refl⟩
    rcases List.mem_append.1 hm with hm | hm
    · exact hb.settled x hm hlx
    · rw [List.mem_singleton] at hm; subst hm; exact absurd hlx hl

/-- One worker alone. -/
theorem worker_alone (S : Setup T pidx n regs R0) {k fuel : Nat} (hf : T.m ≤ fuel) (hk : k < n) :
    ∀ (rest d : List ι) (R : RForest ι), Shows T R → regs k = d ++ rest → Base T cfg R0 R d rest →
      ∃ R', rest.foldlM (workerVisit cfg pidx k fuel) R = some R' ∧ Shows T R' ∧ Base T cfg R0 R' (regs k) [] ∧
        Frame T pidx k R R'
  | [], d, R, hR, e, hb => ⟨R, rfl, hR, by rw [e, List.append_nil]; exact hb, .refl⟩
  | r :: rest, d, R, hR, e, hb => by
    obtain ⟨R1, e1, h1, h2, h3⟩ := workerVisit_base S hf hk hR e hb
    obtain ⟨R2, e2, h4, h5, h6⟩ := worker_alone S hf hk rest (d ++ [r]) R1 h1 (by rw [e]; simp) h2
    refine ⟨R2, ?_, h4, h5, fun x hx => (h6 x hx).trans (h3 x hx)⟩
    rw [List.foldlM_cons, e1]; exact e2

/-- The memory after the patches below `i` were dealt with. -/
structure Upto (T : Tree ι) (cfg : Cfg) (pidx : ι → Nat) (R0 R : RForest ι) (i : Nat) : Prop where
  shows_ : Shows T R
  rest : ∀ x, ¬ T.live x → R x = R0 x
  later : ∀ x, T.live x → i ≤ pidx x → R x = R0 x

/-- Workers one after the other. -/
theorem workers_alone (S : Setup T pidx n regs R0) {fuel : Nat} (hf : T.m ≤ fuel) :
    ∀ i ≤ n, ∃ R, (List.range i).foldlM (worker cfg pidx fuel regs) R0 = some R ∧ Upto T cfg pidx R0 R i ∧
      ∀ x, T.live x → pidx x < i → R x = settle T cfg x (R0 x)
  | 0, _ => ⟨R0, rfl, ⟨S.shows_, fun _ _ => rfl, fun _ _ _ => rfl⟩, fun _ _ h => by omega⟩
  | i + 1, hi => by
    obtain ⟨R, e, hu, h⟩ := workers_alone S hf i (by omega)
    obtain ⟨R', e', h1, h2, h3⟩ := worker_alone (cfg := cfg) S hf (k := i) (by omega) (regs i) [] R hu.shows_ rfl
      ⟨by simp, fun x hx hl => .inl (hu.later x hl (by rw [((S.mem i (by omega) x).1 hx).2]))⟩
    refine ⟨R', ?_, ⟨h1, fun x hx => ?_, fun x hl hx => ?_⟩, fun x hl hx => ?_⟩
    · rw [List.range_succ, List.foldlM_append, e]
      show List.foldlM _ R [i] = some R'
      rw [List.foldlM_cons]
      have : worker cfg pidx fuel regs R i = some R' := e'
      rw [this]; rfl
    · rw [h3 x fun h => hx h.1]; exact hu.rest x hx
    · rw [h3 x fun h => by omega]; exact hu.later x hl (by omega)
    · by_cases hxi : pidx x = i
      · exact h2.settled x ((S.mem i (by omega) x).2 ⟨S.ok.reg x hl, hxi⟩) hl
      · rw [h3 x fun h => hxi h.2]; exact h x hl (by omega)

theorem workers_end (S : Setup T pidx n regs R0) {fuel : Nat} (hf : T.m ≤ fuel) :
    (List.range n).foldlM (worker cfg pidx fuel regs) R0 = some (settleAll T cfg R0) := by
  obtain ⟨R, e, hu, h⟩ := workers_alone (cfg := cfg) S hf n (Nat.le_refl _)
  rw [e]
  congr 1
  funext x
  by_cases hl : T.live x
  · rw [settleAll_live hl]; exact h x hl (S.lt x (S.ok.reg x hl))
  · rw [settleAll_not hl]; exact hu.rest x hl

/-! ### Two loops -/

/-- The second loop on top of any memory that agrees with `solo`. -/
theorem second_alone (S : Setup T pidx n regs R0) {k : Nat} (hk : k < n) :
    ∀ (rest d : List ι) (b a c : AccSt ι), regs k = d ++ rest → solo T cfg pidx cap R0 k d = some a →
      Sim T pidx k b a → (∀ x ∈ regs k, T.live x → (b.st.R x).parent = T.up x) →
      rest.foldlM (accelVisit cfg pidx k (cap k)) b = some c →
      ∃ a', solo T cfg pidx cap R0 k (regs k) = some a' ∧ Sim T pidx k c a' ∧ Frame T pidx k b.st.R c.st.R
  | [], d, b, a, c, e, h1, h2, _, h4 => by
    cases h4
    rw [e, List.append_nil]
    exact ⟨a, h1, h2, .refl⟩
  | r :: rest, d, b, a, c, e, h1, h2, h3, h4 => by
    have hr : r ∈ regs k := by rw [e]; simp
    have ho := (S.mem k hk r).1 hr
    rw [List.foldlM_cons] at h4
    rcases h2.visit (cfg := cfg) (c := cap k) S.ok ho.1 ho.2 (h3 r hr) with ⟨h, _⟩ | ⟨b', a', e1, e2, h5, h6⟩
    · rw [h] at h4; exact absurd h4 (by simp)
    · rw [e1] at h4
      obtain ⟨a'', h7, h8, h9⟩ := second_alone S hk rest (d ++ [r]) b' a' c (by rw [e]; simp)
        (by rw [solo_snoc, h1]; exact e2) h5 (fun x hx hl => by rw [accelVisit_parent e1]; exact h3 x hx hl) h4
      exact ⟨a'', h7, h8, fun x hx => (h9 x hx).trans (h6 x hx)⟩

theorem accelThread_alone (S : Setup T pidx n regs R0) {fuel k : Nat} (hf : T.m ≤ fuel) (hk : k < n) (hR : Shows T R)
    (hraw : ∀ x ∈ regs k, T.live x → R x = R0 x) {c : AccSt ι}
    (h : accelThread cfg pidx fuel cap regs k R = some c) :
    ∃ a, solo T cfg pidx cap R0 k (regs k) = some a ∧ Sim T pidx k c a ∧ Frame T pidx k R c.st.R := by
  obtain ⟨R', e', h1, h2, h3⟩ := worker_alone (cfg := cfg) S hf hk (regs k) [] R hR rfl
    ⟨by simp, fun x hx hl => .inl (hraw x hx hl)⟩
  unfold accelThread at h
  have e' : worker cfg pidx fuel regs R k = some R' := e'
  rw [e'] at h
  have hset : ∀ x, T.live x → pidx x = k → R' x = settle T cfg x (R0 x) := fun x hl hx =>
    h2.settled x ((S.mem k hk x).2 ⟨S.ok.reg x hl, hx⟩) hl
  obtain ⟨a, h4, h5, h6⟩ := second_alone (cfg := cfg) S hk (regs k) [] ⟨⟨R', fun _ => 0, 0⟩, []⟩ _ c rfl rfl
    ⟨rfl, rfl, rfl, fun x hl hx => (hset x hl hx).trans (settleAll_live hl).symm, h1, settleAll_shows S.ok S.shows_⟩
    (fun x hx hl => congrArg RNode.parent (hset x hl ((S.mem k hk x).1 hx).2)) h
  exact ⟨a, h4, h5, fun x hx => (h6 x hx).trans (h3 x hx)⟩

/-- The last thread. -/
theorem accelThreads_snoc {fuel k : Nat} : ∀ (ks : List Nat) (a : AccSt ι),
    accelThreads cfg pidx fuel cap regs (ks ++ [k]) a = (accelThreads cfg pidx fuel cap regs ks a).bind
      fun b => accelThreads cfg pidx fuel cap regs [k] b
  | [], a => rfl
  | i :: ks, a => by
    rw [List.cons_append]
    unfold accelThreads
    cases accelThread cfg pidx fuel cap regs i a.st.R with
    | none => rfl
    | some b => exact accelThreads_snoc ks _

/-- The threads one after the other: each patch gets what its thread makes of it alone. -/
structure Each (T : Tree ι) (cfg : Cfg) (pidx : ι → Nat) (cap : Nat → Nat) (regs : Nat → List ι) (R0 : RForest ι)
    (i : Nat) (b : AccSt ι) : Prop where
  upto : Upto T cfg pidx R0 b.st.R i
  ex : ∃ a : Nat → AccSt ι, (∀ k < i, solo T cfg pidx cap R0 k (regs k) = some (a k)) ∧
    (∀ k < i, ∀ x ∈ regs k, T.live x → b.st.R x = (a k).st.R x) ∧
    b.st.lev = (fun g => ((List.range i).map fun k => (a k).st.lev g).sum) ∧
    b.st.total = ((List.range i).map fun k => (a k).st.total).sum ∧
    b.deferred = (List.range i).flatMap fun k => (a k).deferred

theorem accelThreads_alone (S : Setup T pidx n regs R0) {fuel : Nat} (hf : T.m ≤ fuel) :
    ∀ i ≤ n, ∀ b, accelThreads cfg pidx fuel cap regs (List.range i) ⟨⟨R0, fun _ => 0, 0⟩, []⟩ = some b →
      Each T cfg pidx cap regs R0 i b
  | 0, _, b, h => by
    cases h
    exact ⟨⟨S.shows_, fun _ _ => rfl, fun _ _ _ => rfl⟩, fun _ => ⟨⟨R0, fun _ => 0, 0⟩, []⟩, fun _ h => by omega,
      fun _ h => by omega, by simp, by simp, by simp⟩
  | i + 1, hi, b, h => by
    rw [List.range_succ, accelThreads_snoc] at h
    cases hb : accelThreads cfg pidx fuel cap regs (List.range i) ⟨⟨R0, fun _ => 0, 0⟩, []⟩ with
    | none => rw [hb] at h; simp at h
    | some b0 =>
      rw [hb] at h
      obtain ⟨hu, a, h1, h2, h3, h4, h5⟩ := accelThreads_alone S hf i (by omega) b0 hb
      simp only [Option.bind_some] at h
      unfold accelThreads at h
      cases hc : accelThread cfg pidx fuel cap regs i b0.st.R with
      | none => rw [hc] at h; simp at h
      | some c =>
        rw [hc] at h
        simp only [accelThreads, Option.some.injEq] at h
        have hmi : ∀ x, x ∈ regs i ↔ T.isReg x ∧ pidx x = i := S.mem i (by omega)
        obtain ⟨a', h6, h7, h8⟩ := accelThread_alone S hf (k := i) (by omega) hu.shows_
          (fun x hx hl => hu.later x hl (by rw [((hmi x).1 hx).2])) hc
        have hak : ∀ k < i, update a i a' k = a k := fun k hk => Function.update_of_ne (by omega) _ _
        subst h
        have hlist : ∀ (f : AccSt ι → Int), ((List.range (i + 1)).map fun k => f (update a i a' k)).sum =
            ((List.range i).map fun k => f (a k)).sum + f a' := by
          intro f
          rw [List.range_succ, List.map_append, List.sum_append]
          congr 1
          · congr 1
            exact List.map_congr_left fun k hk => by rw [hak k (List.mem_range.1 hk)]
          · simp
        refine ⟨⟨h7.left, fun x hx => ?_, fun x hl hx => ?_⟩, update a i a', fun k hk => ?_, fun k hk x hx hl => ?_,
          ?_, ?_, ?_⟩
        · exact (h8 x fun h => hx h.1).trans (hu.rest x hx)
        · exact (h8 x fun h => by omega).trans (hu.later x hl (by omega))
        · by_cases e : k = i
          · subst e; rw [Function.update_self]; exact h6
          · rw [hak k (by omega)]; exact h1 k (by omega)
        · by_cases e : k = i
          · subst e; rw [Function.update_self]
            exact h7.own x hl ((hmi x).1 hx).2
          · rw [hak k (by omega), ← h2 k (by omega) x hx hl]
            exact h8 x fun h => e (by rw [← ((S.mem k (by omega) x).1 hx).2, h.2])
        · funext g
          dsimp only
          rw [hlist fun a => a.st.lev g, h3, h7.lev]
        · dsimp only
          rw [hlist fun a => a.st.total, h4, h7.total]
        · dsimp only
          rw [List.range_succ, List.flatMap_append, h5, h7.deferred]
          congr 1
          · simp only [List.flatMap]
            congr 1
            exact List.map_congr_left fun k hk => by rw [hak k (List.mem_range.1 hk)]
          · simp

/-! ### Results -/

/-- The second loops do not crash alone, as they do not one after the other. -/
theorem soloOk_of (S : Setup T pidx n regs R0) {fuel : Nat} (hf : T.m ≤ fuel) {b : AccSt ι}
    (h : accelThreads cfg pidx fuel cap regs (List.range n) ⟨⟨R0, fun _ => 0, 0⟩, []⟩ = some b) :
    SoloOk T cfg pidx two cap regs n R0 := by
  obtain ⟨a, h1, _⟩ := (accelThreads_alone S hf n (Nat.le_refl _) b h).ex
  exact fun k hk _ => ⟨a k, h1 k hk⟩

omit [DecidableEq ι] in
theorem soloOk_false [DecidableEq ι] : SoloOk T cfg pidx false cap regs n R0 := fun _ _ h => by simp at h

theorem selects_parallel (S : Setup T pidx n regs R0) {fuel : Nat} (hf : T.m ≤ fuel) {res : Option (RSt ι)}
    (h : SelectsParallel cfg pidx n regs R0 res) : res = selectParallel cfg pidx fuel n regs R0 := by
  obtain ⟨j, C, h1, h2, rfl⟩ := h
  have hi := (Inv.start (cfg := cfg) (two := false) (cap := fun _ => 0) S).steps S soloOk_false h1
  unfold selectParallel
  rw [workers_end S hf, hi.end_one S h2]

theorem selects_parallel_ex (S : Setup T pidx n regs R0) : ∃ res, SelectsParallel cfg pidx n regs R0 res := by
  obtain ⟨j, C, h1, h2⟩ := run_to_end (cfg := cfg) (two := false) (cap := fun _ => 0) S soloOk_false _ 0 _
    (Nat.le_add_left _ _) (.refl _)
  exact ⟨_, j, C, h1, h2, rfl⟩

/-- Gathering after any schedule. -/
theorem gather_eq (S : Setup T pidx n regs R0) {fuel : Nat} (hf : T.m ≤ fuel) {b : AccSt ι}
    (hb : accelThreads cfg pidx fuel cap regs (List.range n) ⟨⟨R0, fun _ => 0, 0⟩, []⟩ = some b) {j : Nat} {C : Conf ι}
    (h1 : Conf.Steps cfg pidx true cap regs n j (Conf.start regs R0) C)
    (h2 : Conf.Finished cfg pidx true cap regs n C) : C.gather n = b := by
  have hsolo : SoloOk T cfg pidx true cap regs n R0 := soloOk_of S hf hb
  have hi := (Inv.start (cfg := cfg) (two := true) (cap := cap) S).steps S hsolo h1
  have he := hi.end_two S h2
  obtain ⟨hu, a, h3, h4, h5, h6, h7⟩ := accelThreads_alone S hf n (Nat.le_refl _) b hb
  have hk : ∀ k < n, (a k).st.lev = (C.th k).lev ∧ (a k).st.total = (C.th k).total ∧
      (a k).deferred = (C.th k).deferred ∧ ∀ x ∈ regs k, T.live x → C.R x = (a k).st.R x := by
    intro k hk
    obtain ⟨a', h8, h9⟩ := he k hk
    rw [h3 k hk] at h8; cases h8
    exact h9
  obtain ⟨⟨bR, bl, bt⟩, bd⟩ := b
  unfold Conf.gather
  simp only [AccSt.mk.injEq, RSt.mk.injEq]
  dsimp only at h4 h5 h6 h7 hu
  refine ⟨⟨?_, ?_, ?_⟩, ?_⟩
  · funext x
    by_cases hl : T.live x
    · have hx := S.lt x (S.ok.reg x hl)
      have hm := (S.mem _ hx x).2 ⟨S.ok.reg x hl, rfl⟩
      rw [(hk _ hx).2.2.2 x hm hl, ← h4 _ hx x hm hl]
    · rw [hi.rest x hl, hu.rest x hl]
  · rw [h5]; funext g
    congr 1
    exact List.map_congr_left fun k hk' => by rw [(hk k (List.mem_range.1 hk')).1]
  · rw [h6]
    congr 1
    exact List.map_congr_left fun k hk' => by rw [(hk k (List.mem_range.1 hk')).2.1]
  · rw [h7]
    simp only [List.flatMap]
    congr 1
    exact List.map_congr_left fun k hk' => by rw [(hk k (List.mem_range.1 hk')).2.2.1]

end Verif.Recog
