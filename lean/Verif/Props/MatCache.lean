import Verif.Proof.MatCache

/-!
# C164–C167: the cache of arrays
-/

namespace Verif.Props

open Verif.MatCache Verif.Spec

/-- **C164.**  After any operations a new array shares its memory with no array in use, and its memory was made for the sizes and type asked for. -/
theorem C164_fresh {elem : Nat → Nat} {ops : List ArrayOp} {s s' : State} {sizes : List Nat} {type m : Nat} (hr : run elem start ops = some s)
    (hg : get elem s sizes type = some (s', m)) : m ∉ s.held ∧ s'.held = m :: s.held ∧ s'.made[m]? = some (sizes, type) :=
  (get_spec (inv_run ops inv_start hr) hg).2

/-- An array is dropped while another of the same sizes is in use; the third request reuses the memory 0. -/
example : ((run (fun _ => 4) start [.enable true, .get [2, 3] 0, .get [2, 3] 0, .drop 0]).bind fun s =>
    (get (fun _ => 4) s [2, 3] 0).map fun r => (s.held, r.2, r.1.made)) = some ([1], 0, [([2, 3], 0), ([2, 3], 0)]) := by decide +kernel

/-- The sizes and types of cached arrays. -/
def shapes (l : List Entry) : List (List Nat × Nat) := l.map fun e => (e.sizes, e.type)

/-- The cached arrays need at most the limit, or at most twice the memory of those in use. -/
def Bounded (elem : Nat → Nat) (s : State) : Prop :=
  totalBytes elem (shapes s.caches) ≤ s.limit ∨
  totalBytes elem (shapes s.caches) ≤ 2 * totalBytes elem (shapes (s.caches.filter fun e => decide (e.mem ∈ s.held)))

theorem totalBytes_shapes (elem : Nat → Nat) (l : List Entry) : totalBytes elem (shapes l) = bytes elem l := by
  unfold totalBytes shapes bytes
  rw [List.map_map]; rfl

/-- **C165**, when the sums fit into `i32`.  Whenever the cache has taken in a new array, or the limit has been set, it needs at most the limit, or at
most twice the memory of the arrays in use. -/
theorem C165_memory_partial {elem : Nat → Nat} {ops : List ArrayOp} {s : State} (hr : run elem start ops = some s) :
    (∀ sizes type s' m, s.enabled = true → get elem s sizes type = some (s', m) → s'.made ≠ s.made → Bounded elem s') ∧
    ∀ b s', step elem s (.limit b) = some s' → Bounded elem s' := by
  have hi := inv_run ops inv_start hr
  refine ⟨fun sizes type s' m hon hg hm => ?_, fun b s' h => ?_⟩
  · unfold Bounded
    rw [totalBytes_shapes, totalBytes_shapes]
    unfold Verif.MatCache.get at hg
    rw [if_pos hon] at hg
    split at hg
    · cases hg; exact absurd rfl hm
    · dsimp only at hg
      simp only [Option.map_eq_some_iff] at hg
      obtain ⟨s'', hs, h⟩ := hg
      cases h
      exact statistic_bound (inv_cache hi sizes type) hs
  · unfold Bounded
    rw [totalBytes_shapes, totalBytes_shapes]
    exact statistic_bound (s := { s with limit := b }) ⟨hi.nodup, hi.made, hi.held⟩ h

/-- With a limit of 20 bytes, two arrays of 12 bytes have been dropped; a new array of 8 bytes leaves only itself. -/
example : ((run (fun _ => 4) start [.limit 20, .enable true, .get [3] 0, .get [3] 0, .drop 0, .drop 1]).bind fun s =>
    (get (fun _ => 4) s [2] 0).map fun r => r.1.caches.map Entry.mem) = some [2] := by decide +kernel

/-- **C165 is false**: with two arrays of 1 GB the sum overflows. -/
theorem not_C165_overflow :
    (run (fun _ => 1) start [.enable true, .get [1073741824] 0]).isSome = true ∧
    (run (fun _ => 1) start [.enable true, .get [1073741824] 0, .get [1073741824] 0]).isNone = true := by
  constructor <;> decide +kernel

/-- **C166.**  While the cache is on, a request makes a new memory exactly when no cached array of these sizes and type is free; the arrays in use stay
cached; and when the array is dropped again, the next request for such an array makes no new memory. -/
theorem C166_reuse {elem : Nat → Nat} {ops : List ArrayOp} {s s' : State} {sizes : List Nat} {type m : Nat} (hr : run elem start ops = some s)
    (hon : s.enabled = true) (hg : get elem s sizes type = some (s', m)) :
    (s'.made = s.made ↔ ∃ e ∈ s.caches, e.sizes = sizes ∧ e.type = type ∧ e.mem ∉ s.held) ∧
    (∀ e ∈ s.caches, e.mem ∈ s.held → e ∈ s'.caches) ∧
    ∀ s1 s2 m', step elem s' (.drop m) = some s1 → get elem s1 sizes type = some (s2, m') → s2.made = s1.made := by
  have hi := inv_run ops inv_start hr
  obtain ⟨hi', hm, hh, _⟩ := get_spec hi hg
  obtain ⟨h1, h2, h3⟩ := get_cached hi hon hg
  refine ⟨get_made hi hon hg, h3, fun s1 s2 m' hd hg' => ?_⟩
  have hi1 := inv_step hi' _ hd
  simp only [step] at hd
  split at hd
  · cases hd
    refine (get_made hi1 h2 hg').2 ⟨_, h1, rfl, rfl, ?_⟩
    simp only [hh, List.erase_cons_head]
    exact hm
  · cases hd

example : ((run (fun _ => 4) start [.enable true, .get [2] 0, .drop 0]).bind fun s => (get (fun _ => 4) s [2] 0).map fun r => r.2) = some 0 ∧
    ((run (fun _ => 4) start [.enable true, .get [2] 0]).bind fun s => (get (fun _ => 4) s [2] 0).map fun r => r.2) = some 1 := by
  constructor <;> decide +kernel

/-- **C167**, when each thread gives what it has found before the other thread searches: two requests get different memories. -/
theorem C167_threads_partial {elem : Nat → Nat} {ops : List ArrayOp} {s : State} (hr : run elem start ops = some s) (sizes : List Nat) (type : Nat)
    (ts : List Bool) : ((ts.flatMap fun t => [t, t]).foldl (threadStep sizes type) ⟨s, fun _ => none, []⟩).got.Nodup :=
  threads_spec sizes type ts _ (inv_run ops inv_start hr) (fun _ => rfl) (by simp) (by simp)

/-- Two threads get the two free arrays. -/
example : ((run (fun _ => 4) start [.enable true, .get [2] 0, .get [2] 0, .drop 0, .drop 1]).map fun s =>
    ([false, false, true, true].foldl (threadStep [2] 0) ⟨s, fun _ => none, []⟩).got) = some [0, 1] := by decide +kernel

/-- **C167 is false**: both threads search before one of them gives what it has found, and both get the same memory. -/
theorem not_C167_threads : ((run (fun _ => 4) start [.enable true, .get [2] 0, .drop 0]).map fun s =>
    ([false, true, false, true].foldl (threadStep [2] 0) ⟨s, fun _ => none, []⟩).got) = some [0, 0] := by decide +kernel

end Verif.Props
