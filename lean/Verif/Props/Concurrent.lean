import Verif.Proof.ConcurrentSeq
import Verif.Props.Whole

/-!
# Property C24: threads that run at the same time

`Conf.Steps … j C C'` says that some schedule leads from `C` to `C'` in `j` memory accesses; `two = false` are the
workers of the 32 thread variant, `two = true` the threads of the four thread variant.
-/

namespace Verif.Props

open Verif.Spec Verif.Recog
open Verif.Connect (Forest Str forestTree World)
open Verif.Partition

variable {α ι : Type} [DecidableEq ι] {isReg : ι → Prop} {F : Forest ι} {fuel : Nat} {T : RegionTree α ι}
  {pidx : ι → Nat} {n : Nat} {regs : Nat → List ι} {cap : Nat → Nat} {cfg : Cfg} {v : ι → ℚ} {msize exceed : Nat}
  {two : Bool}

private theorem setup (h : Held isReg F fuel T) (hB : Blocks isReg pidx n regs) (v : ι → ℚ) :
    ∃ m, m ≤ fuel ∧ Setup (treeOf T isReg m) pidx n regs (ofForest F v) ∧ (∀ r, T.isReg r → isReg r) ∧
      ∀ r, T.isReg r → (ofForest F v r).flag = .unknown ∧ (ofForest F v r).counted = false := by
  obtain ⟨m, hm, hT, hR, hreg, hfresh⟩ := h.use
  exact ⟨m, hm, ⟨hT, hR v, hB.nodup, hB.mem, hB.lt⟩, hreg, hfresh v⟩

private theorem setup_solo (h : Held isReg F fuel T) (hB : Blocks isReg pidx n regs) (v : ι → ℚ)
    (h2 : two = true → (∀ k < n, (regs k).length ≤ cap k)) :
    ∃ m, m ≤ fuel ∧ Setup (treeOf T isReg m) pidx n regs (ofForest F v) ∧
      SoloOk (treeOf T isReg m) cfg pidx two cap regs n (ofForest F v) := by
  obtain ⟨m, hm, S, hreg, hfresh⟩ := setup h hB v
  refine ⟨m, hm, S, ?_⟩
  cases two with
  | false => exact soloOk_false
  | true =>
    obtain ⟨b, e1, _⟩ := accelThreads_spec (cfg := cfg) S.ok (pidx := pidx) (cap := cap) hm (List.range n) []
      ⟨⟨ofForest F v, fun _ => 0, 0⟩, []⟩ (Q.start S.shows_ hfresh) ⟨by simp, by simp⟩ (by simpa using hB.all.1)
      (fun k hk' x hx => ((hB.mem k (List.mem_range.1 hk') x).1 hx).1)
      (fun k hk' r hr => by rw [hB.mem k (List.mem_range.1 hk')]; exact ⟨fun e => ⟨hr, e⟩, fun e => e.2⟩)
      (fun k hk' => h2 rfl k (List.mem_range.1 hk')) (by simp)
    exact soloOk_of S hm e1

/-- **C24** Whatever the schedule and however far it has got: the chase over absorbed regions from any region
ends at its parent in the tree; levels, sizes and the set of absorbed regions are as before. -/
theorem C24_parents_kept (h : Held isReg F fuel T) (hB : Blocks isReg pidx n regs)
    (hcap : two = true → ∀ k < n, (regs k).length ≤ cap k) {j : Nat} {C : Conf ι}
    (hs : Conf.Steps cfg pidx two cap regs n j (Conf.start regs (ofForest F v)) C) :
    (∀ r, T.isReg r → realParent C.R fuel r = some (T.parent r)) ∧
    (∀ r, (C.R r).gray = (F r).gray ∧ (C.R r).size = (F r).size) ∧
    (∀ r, isReg r → ((C.R r).flag = .merged ↔ (F r).merged = true)) := by
  obtain ⟨m, hm, S, hsolo⟩ := setup_solo (cfg := cfg) (two := two) (cap := cap) h hB v hcap
  have hi := (Inv.start (cfg := cfg) (two := two) (cap := cap) S).steps S hsolo hs
  refine ⟨fun r hr => hi.shows_.realParent S.ok hm hr, fun r => ⟨?_, ?_⟩, fun r hr => ?_⟩
  · rw [hi.shows_.gray, ← S.shows_.gray]; rfl
  · rw [hi.shows_.size, ← S.shows_.size]; rfl
  · rw [hi.shows_.merged r hr, ← S.shows_.merged r hr]
    show (if (F r).merged = true then Flag.merged else Flag.unknown) = .merged ↔ _
    split <;> simp_all

/-- **C24** No thread crashes, an unfinished one can always go on, and no schedule takes more than a fixed number
of steps. -/
theorem C24_no_crash_and_end (h : Held isReg F fuel T) (hB : Blocks isReg pidx n regs)
    (hcap : two = true → ∀ k < n, (regs k).length ≤ cap k) :
    ∃ bound, ∀ j C, Conf.Steps cfg pidx two cap regs n j (Conf.start regs (ofForest F v)) C →
      j ≤ bound ∧ (∀ k < n, stepThread cfg pidx two cap regs k C.R (C.th k) ≠ .crash) ∧
      (Conf.Finished cfg pidx two cap regs n C ∨ ∃ C', Conf.Step cfg pidx two cap regs n C C') := by
  obtain ⟨m, hm, S, hsolo⟩ := setup_solo (cfg := cfg) (two := two) (cap := cap) h hB v hcap
  refine ⟨stepBound (treeOf T isReg m) two regs n, fun j C hs => ⟨?_, fun k hk => ?_, ?_⟩⟩
  · obtain ⟨N, _, hN⟩ := steps_bound S hsolo hs; omega
  · have hi := (Inv.start (cfg := cfg) (two := two) (cap := cap) S).steps S hsolo hs
    exact (step_good S hk (hsolo k hk) hi.shows_ (hi.good k hk)).1
  · exact ((Inv.start (cfg := cfg) (two := two) (cap := cap) S).steps S hsolo hs).progress S hsolo

/-- **C24** A step of thread `k` writes only to regions of patch `k` that are not absorbed. -/
theorem C24_writes_own_patch (h : Held isReg F fuel T) (hB : Blocks isReg pidx n regs)
    (hcap : two = true → ∀ k < n, (regs k).length ≤ cap k) {j : Nat} {C : Conf ι}
    (hs : Conf.Steps cfg pidx two cap regs n j (Conf.start regs (ofForest F v)) C) {k : Nat} (hk : k < n)
    {R' : RForest ι} {t' : Thread ι} (he : stepThread cfg pidx two cap regs k C.R (C.th k) = .next (R', t')) :
    ∀ r, R' r ≠ C.R r → T.isReg r ∧ pidx r = k := by
  obtain ⟨m, hm, S, hsolo⟩ := setup_solo (cfg := cfg) (two := two) (cap := cap) h hB v hcap
  have hi := (Inv.start (cfg := cfg) (two := two) (cap := cap) S).steps S hsolo hs
  intro r hr
  by_contra hn
  exact hr (((step_good S hk (hsolo k hk) hi.shows_ (hi.good k hk)).2 R' t' he).2.2 r hn)

/-- **C24** 32 threads: every schedule ends with the memory that the workers leave when they run one after the
other; recognition as a whole has one outcome. -/
theorem C24_schedule_irrelevant_32 (h : Held isReg F fuel T) (hB : Blocks isReg pidx n regs)
    (out : Option (Recognized ι)) :
    RecognizesParallel cfg pidx n regs msize exceed (ofForest F v) out ↔
      out = recognizeParallel cfg pidx fuel n regs msize exceed (ofForest F v) := by
  obtain ⟨m, hm, S, _⟩ := setup h hB v
  constructor
  · rintro ⟨res, h1, rfl⟩
    rw [selects_parallel S hm h1]; rfl
  · rintro rfl
    obtain ⟨res, h1⟩ := selects_parallel_ex (cfg := cfg) S
    refine ⟨res, h1, ?_⟩
    rw [selects_parallel S hm h1]; rfl

/-- **C24** Four threads: the same. -/
theorem C24_schedule_irrelevant_4 (h : Held isReg F fuel T) (hB : Blocks isReg pidx n regs)
    (hcap : ∀ k < n, (regs k).length ≤ cap k) (out : Option (Recognized ι)) :
    RecognizesAccel cfg pidx n cap regs msize exceed (ofForest F v) out ↔
      out = recognizeAccel cfg pidx fuel n cap regs msize exceed (ofForest F v) := by
  obtain ⟨m, hm, S, hreg, hfresh⟩ := setup h hB v
  obtain ⟨b, e1, _⟩ := accelThreads_spec (cfg := cfg) S.ok (pidx := pidx) (cap := cap) hm (List.range n) []
    ⟨⟨ofForest F v, fun _ => 0, 0⟩, []⟩ (Q.start S.shows_ hfresh) ⟨by simp, by simp⟩ (by simpa using hB.all.1)
    (fun k hk' x hx => ((hB.mem k (List.mem_range.1 hk') x).1 hx).1)
    (fun k hk' r hr => by rw [hB.mem k (List.mem_range.1 hk')]; exact ⟨fun e => ⟨hr, e⟩, fun e => e.2⟩)
    (fun k hk' => hcap k (List.mem_range.1 hk')) (by simp)
  have hsolo : SoloOk (treeOf T isReg m) cfg pidx true cap regs n (ofForest F v) := soloOk_of S hm e1
  have hsel : ∀ res, SelectsAccel cfg pidx n cap regs (ofForest F v) res →
      res = selectAccel cfg pidx fuel n cap regs (ofForest F v) := by
    rintro res ⟨j, C, h1, h2, rfl⟩
    rw [gather_eq S hm e1 h1 h2]
    unfold selectAccel
    rw [e1]
  constructor
  · rintro ⟨res, h1, rfl⟩
    rw [hsel res h1]; rfl
  · rintro rfl
    obtain ⟨j, C, h1, h2⟩ := run_to_end (cfg := cfg) (two := true) (cap := cap) S hsolo _ 0 _
      (Nat.le_add_left _ _) (.refl _)
    have h3 : SelectsAccel cfg pidx n cap regs (ofForest F v) _ := ⟨j, C, h1, h2, rfl⟩
    refine ⟨_, h3, ?_⟩
    rw [hsel _ h3]; rfl

/-- The hypotheses hold for the small forest with an absorbed region, in two patches, for both variants. -/
example : ∃ out out', RecognizesParallel sampleCfg (fun r => r / 2) 2 (fun k => [2 * k, 2 * k + 1]) 0 0
      (ofForest sampleForest fun _ => 0) out ∧
    RecognizesAccel sampleCfg (fun r => r / 2) 2 (fun _ => 2) (fun k => [2 * k, 2 * k + 1]) 0 0
      (ofForest sampleForest fun _ => 0) out' :=
  ⟨_, _, (C24_schedule_irrelevant_32 sample_held sample_blocks _).2 rfl,
    (C24_schedule_irrelevant_4 sample_held sample_blocks (fun _ _ => by simp) _).2 rfl⟩

/-- A schedule of the example in which both threads are under way: thread 1 has stepped three times, thread 0
twice. -/
example : ∃ C, Conf.Steps sampleCfg (fun r => r / 2) false (fun _ => 0) (fun k => [2 * k, 2 * k + 1]) 2 5
    (Conf.start (fun k => [2 * k, 2 * k + 1]) (ofForest sampleForest fun _ => 0)) C :=
  ⟨_, .tail (.tail (.tail (.tail (.tail (.refl _) ⟨1, by decide, _, _, rfl, rfl⟩) ⟨0, by decide, _, _, rfl, rfl⟩)
    ⟨1, by decide, _, _, rfl, rfl⟩) ⟨0, by decide, _, _, rfl, rfl⟩) ⟨1, by decide, _, _, rfl, rfl⟩⟩

end Verif.Props
