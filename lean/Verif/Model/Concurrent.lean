import Verif.Model.Recognize

/-!
# Model: recognition with threads that run at the same time

The loops of `recognize_mser_parallel_worker` (/repo/basicimg/src/img_fast_mser_v2.cpp 1016–1061) and of the
threads of `recognize_mser_parallel_4_acceleration` (1075–1188), one memory access at a time.  Threads share the
regions; a schedule may let any unfinished thread take the next step.

* Memory is sequentially consistent and a field is read or written in one step.  (`m_gray_level`,
  `m_region_flag`, `m_calculated_var` and `m_patch_index` are bit fields of one word, img_fast_mser_v2.h 33–37;
  that a write to one of them rewrites the others is harmless as only the thread of a region's own patch writes
  to the region, which is proved.)  The C++ standard calls these accesses data races; what a compiler makes of
  that is not modelled.
* A step may read any number of fields that no thread writes (`m_gray_level`, `m_size`, `m_patch_index`) or that
  only the stepping thread writes, besides the one field that is shared.
* The body of the second loop of the four thread variant is one step: the only field it reads that another
  thread may be writing is `m_parent` of a parent in another patch (1136), once.
-/

namespace Verif.Recog

open Function (update)

variable {ι : Type} [DecidableEq ι]

/-- Where a thread is.  `r` is `bp.m_data`, `s` is the region whose parent is looked for (which is
`start_region` from then on), `q` is the variable `region_parent` of the parent macros (7–13). -/
inductive Pc (ι : Type) where
  /-- at the top of the first loop (1024, 1087) -/
  | next
  /-- about to read `x->m_parent` in a parent macro called for `s` (1032, 1039, 1041) -/
  | load (r s x : ι)
  /-- about to test `region_parent` in the parent macro -/
  | look (r s : ι) (q : Option ι)
  /-- at the end of the parent macro: about to store, if `s` is of the own patch -/
  | store (r s : ι) (q : Option ι)
  /-- at the loop condition (1034, 1097) -/
  | cond (r s : ι) (q : Option ι)
  /-- about to write `m_var` (1047–1051) -/
  | value (r s : ι) (q : Option ι)
  /-- about to judge the region (1053–1057) -/
  | judge (r : ι)
  /-- at the top of the second loop (1128), four threads only -/
  | second

/-- The private state of a thread: the regions still to visit in the current loop, its position, and for the
second loop `region_level_size` and the regions written to the heap memory. -/
structure Thread (ι : Type) where
  todo : List ι
  pc : Pc ι
  lev : Nat → Int
  total : Int
  deferred : List ι

/-- Outcome of asking a thread for a step. -/
inductive Out (α : Type) where
  | stop
  | crash
  | next (a : α)

/-- One step of thread `k`; `two` tells whether there is a second loop (four threads). -/
def stepThread (cfg : Cfg) (pidx : ι → Nat) (two : Bool) (cap : Nat → Nat) (regs : Nat → List ι) (k : Nat)
    (R : RForest ι) (t : Thread ι) : Out (RForest ι × Thread ι) :=
  match t.pc with
  | .next =>
    match t.todo with
    | [] => if two then .next (R, { t with todo := regs k, pc := .second }) else .stop
    | r :: rest =>
      if (R r).flag ≠ .merged then .next (R, { t with todo := rest, pc := .load r r r })
      else .next (R, { t with todo := rest })
  | .load r s x => .next (R, { t with pc := .look r s (R x).parent })
  | .look r s none => .next (R, { t with pc := .store r s none })
  | .look r s (some y) =>
    if (R y).flag = .merged then .next (R, { t with pc := .load r s y })
    else .next (R, { t with pc := .store r s (some y) })
  | .store r s q =>
    -- line 1032 stores without asking for the patch: `r` is of the own patch
    .next (if s = r ∨ pidx s = k then setParent R s q else R, { t with pc := .cond r s q })
  | .cond r s none => .next (R, { t with pc := .value r s none })
  | .cond r s (some p) =>
    if ((R p).gray : Int) ≤ (R r).gray + cfg.delta then .next (R, { t with pc := .load r p p })
    else .next (R, { t with pc := .value r s (some p) })
  | .value r s q =>
    .next (setVar R r
      (if q.isSome ∨ ((R s).gray : Int) = (R r).gray + cfg.delta then ratio32 cfg (R s).size (R r).size else -1),
      { t with pc := .judge r })
  | .judge r =>
    .next (if cfg.stable < (R r).var then setFlag R r .invalid
      else if badSize cfg (R r) then setFlag R r .invalid else R, { t with pc := .next })
  | .second =>
    match t.todo with
    | [] => .stop
    | r :: rest =>
      match accelVisit cfg pidx k (cap k) ⟨⟨R, t.lev, t.total⟩, t.deferred⟩ r with
      | none => .crash
      | some a => .next (a.st.R, { t with todo := rest, lev := a.st.lev, total := a.st.total, deferred := a.deferred })

/-- The state of all threads and the memory they share. -/
structure Conf (ι : Type) where
  R : RForest ι
  th : Nat → Thread ι

/-- The moment the threads start (848–851, 1074–1085). -/
def Conf.start (regs : Nat → List ι) (R : RForest ι) : Conf ι :=
  ⟨R, fun k => ⟨regs k, .next, fun _ => 0, 0, []⟩⟩

/-- One of `n` threads takes a step. -/
def Conf.Step (cfg : Cfg) (pidx : ι → Nat) (two : Bool) (cap : Nat → Nat) (regs : Nat → List ι) (n : Nat)
    (C C' : Conf ι) : Prop :=
  ∃ k < n, ∃ R' t', stepThread cfg pidx two cap regs k C.R (C.th k) = .next (R', t') ∧
    C' = ⟨R', update C.th k t'⟩

/-- `C'` can be reached from `C` in `j` steps, under some schedule. -/
inductive Conf.Steps (cfg : Cfg) (pidx : ι → Nat) (two : Bool) (cap : Nat → Nat) (regs : Nat → List ι) (n : Nat) :
    Nat → Conf ι → Conf ι → Prop
  | refl (C : Conf ι) : Conf.Steps cfg pidx two cap regs n 0 C C
  | tail {j : Nat} {C C' C'' : Conf ι} (h : Conf.Steps cfg pidx two cap regs n j C C')
      (h' : Conf.Step cfg pidx two cap regs n C' C'') : Conf.Steps cfg pidx two cap regs n (j + 1) C C''

/-- All threads have finished: the implicit barrier at the end of the parallel loop. -/
def Conf.Finished (cfg : Cfg) (pidx : ι → Nat) (two : Bool) (cap : Nat → Nat) (regs : Nat → List ι) (n : Nat)
    (C : Conf ι) : Prop :=
  ∀ k < n, stepThread cfg pidx two cap regs k C.R (C.th k) = .stop

/-- What the four thread variant goes on with after the barrier: the sum of the counters (1191–1193) and the
deferred regions patch by patch. -/
def Conf.gather (n : Nat) (C : Conf ι) : AccSt ι :=
  ⟨⟨C.R, fun g => ((List.range n).map fun k => (C.th k).lev g).sum, ((List.range n).map fun k => (C.th k).total).sum⟩,
    (List.range n).flatMap fun k => (C.th k).deferred⟩

/-- `res` is a result that recognition with 32 threads may select (845–917) under some schedule. -/
def SelectsParallel (cfg : Cfg) (pidx : ι → Nat) (n : Nat) (regs : Nat → List ι) (R : RForest ι)
    (res : Option (RSt ι)) : Prop :=
  ∃ j C, Conf.Steps cfg pidx false (fun _ => 0) regs n j (Conf.start regs R) C ∧
    Conf.Finished cfg pidx false (fun _ => 0) regs n C ∧
    res = ((List.range n).flatMap regs).foldlM (parallelNms cfg) ⟨C.R, fun _ => 0, 0⟩

/-- `res` is a result that recognition with four threads may select (1063–1241) under some schedule. -/
def SelectsAccel (cfg : Cfg) (pidx : ι → Nat) (n : Nat) (cap : Nat → Nat) (regs : Nat → List ι) (R : RForest ι)
    (res : Option (RSt ι)) : Prop :=
  ∃ j C, Conf.Steps cfg pidx true cap regs n j (Conf.start regs R) C ∧
    Conf.Finished cfg pidx true cap regs n C ∧
    res = if 0 ≤ cfg.nms then (C.gather n).deferred.foldlM (deferredNms cfg) (C.gather n).st else some (C.gather n).st

/-- `out` is an outcome of the whole of recognition with 32 threads (845–1014) under some schedule. -/
def RecognizesParallel (cfg : Cfg) (pidx : ι → Nat) (n : Nat) (regs : Nat → List ι) (msize exceed : Nat)
    (R : RForest ι) (out : Option (Recognized ι)) : Prop :=
  ∃ res, SelectsParallel cfg pidx n regs R res ∧
    out = match res with
      | none => none
      | some s =>
        match grayOrder s ((List.range n).flatMap regs) (reserve msize s.total.toNat exceed).1 with
        | none => none
        | some arr => if 0 < cfg.dup then dedup cfg s.R arr else some (keepAll s.R arr)

/-- `out` is an outcome of the whole of recognition with four threads (1063–1333) under some schedule. -/
def RecognizesAccel (cfg : Cfg) (pidx : ι → Nat) (n : Nat) (cap : Nat → Nat) (regs : Nat → List ι)
    (msize exceed : Nat) (R : RForest ι) (out : Option (Recognized ι)) : Prop :=
  ∃ res, SelectsAccel cfg pidx n cap regs R res ∧
    out = match res with
      | none => none
      | some s =>
        match grayOrder s ((List.range n).flatMap regs) (reserve msize (startIndex s.lev 256).toNat exceed).1 with
        | none => none
        | some arr => if 0 < cfg.dup then dedup cfg s.R arr else some (keepAll s.R arr)

end Verif.Recog
