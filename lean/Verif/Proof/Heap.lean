import Verif.Proof.Sort
import Mathlib.Data.List.Perm.Basic
import Mathlib.Data.List.Perm.Subperm
import Mathlib.Data.List.Nodup

/-!
# Heaps: heap sort and the top-k collector
-/

namespace Verif.Sorting

open Verif.Spec

variable {T : Type} [LinearOrder T]

/-- The nodes from `lo` on dominate their children. -/
def HeapFrom (mh : Bool) (size lo : Nat) (f : Nat → T) : Prop :=
  ∀ i c, lo ≤ i → (c = i * 2 + 1 ∨ c = i * 2 + 2) → c < size → Dir mh (f c) (f i)

theorem HeapFrom.root {mh : Bool} {size : Nat} {f : Nat → T} (h : HeapFrom mh size 0 f) (x : Nat) (hx : x < size) :
    Dir mh (f x) (f 0) := by
  induction x using Nat.strongRecOn with
  | ind x ih =>
    by_cases h0 : x = 0
    · rw [h0]; exact .refl _ _
    · exact (h ((x - 1) / 2) x (by omega) (by omega) hx).trans (ih ((x - 1) / 2) (by omega) (by omega))

theorem adjust_ok {N : Nat} {mh : Bool} {size : Nat} (hN : size ≤ N) {lo : Nat} : ∀ (fuel index : Nat) (f : Nat → T),
    size ≤ fuel + index → lo ≤ index →
    (∀ i c, lo ≤ i → i ≠ index → (c = i * 2 + 1 ∨ c = i * 2 + 2) → c < size → Dir mh (f c) (f i)) →
    (∀ p c, lo ≤ p → (index = p * 2 + 1 ∨ index = p * 2 + 2) → (c = index * 2 + 1 ∨ c = index * 2 + 2) → c < size →
      Dir mh (f c) (f p)) →
    ∃ g, heapAdjust N mh size (fuel + 1) index f = some g ∧ HeapFrom mh size lo g ∧
      ∃ σ, Within index (size - 1) σ ∧ ∀ x, g x = f (σ x)
  | fuel, index, f, hf, hlo, ha, hb => by
    rw [heapAdjust]
    by_cases hl : index * 2 + 1 ≥ size
    · rw [if_pos hl]
      refine ⟨f, rfl, ?_, Equiv.refl _, .refl _ _, fun _ => rfl⟩
      intro i c hi hc hcs
      by_cases e : i = index
      · omega
      · exact ha i c hi e hc hcs
    · rw [if_neg hl]
      have hsel : ∃ sel, (if index * 2 + 2 < size then
          (rd N f (index * 2 + 2)).bind fun a => (rd N f (index * 2 + 1)).bind fun b =>
            some (if out mh a b then index * 2 + 2 else index * 2 + 1)
          else some (index * 2 + 1)) = some sel ∧ (sel = index * 2 + 1 ∨ sel = index * 2 + 2) ∧ sel < size ∧
          ∀ c, (c = index * 2 + 1 ∨ c = index * 2 + 2) → c < size → Dir mh (f c) (f sel) := by
        by_cases h2 : index * 2 + 2 < size
        · rw [if_pos h2, rd_lt (by omega), rd_lt (by omega)]
          simp only [Option.bind_some]
          by_cases ho : out mh (f (index * 2 + 2)) (f (index * 2 + 1)) = true
          · refine ⟨_, rfl, ?_⟩
            rw [if_pos ho]
            refine ⟨.inr rfl, h2, ?_⟩
            rintro c (rfl | rfl) _
            · exact Dir.total (out_iff.1 ho)
            · exact .refl _ _
          · refine ⟨_, rfl, ?_⟩
            rw [if_neg ho]
            refine ⟨.inl rfl, by omega, ?_⟩
            rintro c (rfl | rfl) _
            · exact .refl _ _
            · by_contra hc; exact ho (out_iff.2 hc)
        · rw [if_neg h2]
          refine ⟨_, rfl, .inl rfl, by omega, ?_⟩
          rintro c (rfl | rfl) hc
          · exact .refl _ _
          · omega
      obtain ⟨sel, es, hs, hss, hd⟩ := hsel
      rw [es]
      simp only [Option.bind_some]
      rw [rd_lt (by omega), rd_lt (by omega)]
      simp only [Option.bind_some]
      by_cases ho : out mh (f sel) (f index) = true
      · rw [if_pos ho, swp_lt (by omega) (by omega)]
        simp only [Option.bind_some]
        have hsw : ∀ x, x ≠ index → x ≠ sel → f (Equiv.swap index sel x) = f x :=
          fun x h1 h2 => by rw [Equiv.swap_apply_of_ne_of_ne h1 h2]
        cases fuel with
        | zero => omega
        | succ fuel =>
        obtain ⟨g, e, hg, σ, hw, hgs⟩ := adjust_ok (N := N) (mh := mh) hN (lo := lo) fuel sel
          (fun x => f (Equiv.swap index sel x)) (by omega) (by omega) (by
            intro i c hi hne hc hcs
            by_cases e : i = index
            · subst e
              rw [Equiv.swap_apply_left]
              by_cases ec : c = sel
              · subst ec
                rw [Equiv.swap_apply_right]
                exact Dir.total (out_iff.1 ho)
              · rw [hsw c (by omega) ec]
                exact hd c hc hcs
            · rw [hsw i e hne]
              by_cases ec : c = index
              · subst ec
                rw [Equiv.swap_apply_left]
                exact hb i sel hi hc hs hss
              · rw [hsw c ec (by omega)]
                exact ha i c hi e hc hcs) (by
            intro p c hp hps hc hcs
            have : p = index := by omega
            subst this
            rw [Equiv.swap_apply_left, hsw c (by omega) (by omega)]
            exact ha sel c (by omega) (by omega) hc hcs)
        refine ⟨g, e, hg, σ.trans (Equiv.swap index sel), ?_, fun x => hgs x⟩
        exact (hw.mono (by omega) (by omega)).trans (.swap (by omega) (by omega) (by omega) (by omega))
      · rw [if_neg ho]
        refine ⟨f, rfl, ?_, Equiv.refl _, .refl _ _, fun _ => rfl⟩
        intro i c hi hc hcs
        by_cases e : i = index
        · subst e
          refine (hd c hc hcs).trans ?_
          by_contra hx; exact ho (out_iff.2 hx)
        · exact ha i c hi e hc hcs

theorem initLoop_ok {N : Nat} {mh : Bool} : ∀ (k : Nat) (f : Nat → T), HeapFrom mh N k f →
    ∃ g, initLoop N mh k f = some g ∧ HeapFrom mh N 0 g ∧ ∃ σ, Within 0 (N - 1) σ ∧ ∀ x, g x = f (σ x)
  | 0, f, h => ⟨f, rfl, h, Equiv.refl _, .refl _ _, fun _ => rfl⟩
  | k + 1, f, h => by
    obtain ⟨g, e, hg, σ, hw, hgs⟩ := adjust_ok (N := N) (mh := mh) (size := N) (Nat.le_refl _) (lo := k) N k f
      (by omega) (Nat.le_refl _)
      (fun i c hi hne hc hcs => h i c (by omega) hc hcs) (fun p c hp hpk hc hcs => by omega)
    obtain ⟨g', e', hg', τ, hw', hgs'⟩ := initLoop_ok k g hg
    refine ⟨g', ?_, hg', τ.trans σ, hw'.trans (hw.mono (by omega) (Nat.le_refl _)), fun x => by rw [hgs', hgs]; rfl⟩
    rw [initLoop, e]
    exact e'

theorem heap_end (mh : Bool) (N : Nat) (f : Nat → T) : HeapFrom mh N (N / 2) f := fun i c hi hc hcs => by omega

theorem initHeap_ok {N : Nat} {mh : Bool} (f : Nat → T) :
    ∃ g, initHeap N mh f = some g ∧ HeapFrom mh N 0 g ∧ ∃ σ, Within 0 (N - 1) σ ∧ ∀ x, g x = f (σ x) :=
  initLoop_ok _ f (heap_end mh N f)

theorem heapLoop_ok {N : Nat} {mh : Bool} : ∀ (k i : Nat) (f : Nat → T), i + k = N - 1 → HeapFrom mh (N - i) 0 f →
    Placed mh (N - i) N f →
    ∃ g, heapLoop N mh k i f = some g ∧ Placed mh (N - (i + k)) N g ∧ ∃ σ, Within 0 (N - 1) σ ∧ ∀ x, g x = f (σ x)
  | 0, i, f, _, _, h => ⟨f, rfl, h, Equiv.refl _, .refl _ _, fun _ => rfl⟩
  | k + 1, i, f, e, hh, h => by
    have hw0 : Within 0 (N - 1 - i) (Equiv.swap 0 (N - 1 - i)) := .swap (by omega) (by omega) (by omega) (by omega)
    have hsw : ∀ x, x ≠ 0 → x ≠ N - 1 - i → f (Equiv.swap 0 (N - 1 - i) x) = f x :=
      fun x h1 h2 => by rw [Equiv.swap_apply_of_ne_of_ne h1 h2]
    obtain ⟨g1, e1, hg1, σ, hw, hgs⟩ := adjust_ok (N := N) (mh := mh) (size := N - 1 - i) (by omega) (lo := 0) N 0
      (fun x => f (Equiv.swap 0 (N - 1 - i) x)) (by omega) (by omega)
      (by
        intro j c _ hj hc hcs
        rw [hsw c (by omega) (by omega), hsw j hj (by omega)]
        exact hh j c (by omega) hc (by omega)) (fun p c _ hp => by omega)
    have hp1 : Placed mh (N - (i + 1)) N g1 := by
      intro x y hy hy' hxy
      rw [hgs y, hw y (by omega), hgs x]
      have hx : σ x ≤ y := by
        by_cases hx : x ≤ N - 1 - i - 1
        · have := (hw.mem (i := x) (by omega) hx).2; omega
        · rw [hw x (by omega)]; exact hxy
      by_cases hy2 : y = N - 1 - i
      · rw [hy2, Equiv.swap_apply_right]
        have := (hw0.mem (i := σ x) (by omega) (by omega)).2
        exact hh.root _ (by omega)
      · rw [hsw y (by omega) hy2]
        refine h _ _ (by omega) hy' ?_
        by_cases hx2 : σ x ≤ N - 1 - i
        · have := (hw0.mem (i := σ x) (by omega) hx2).2; omega
        · rw [hw0 (σ x) (by omega)]; exact hx
    obtain ⟨g, e2, h2, τ, ht, htg⟩ := heapLoop_ok (N := N) (mh := mh) k (i + 1) g1 (by omega)
      (by rw [show N - (i + 1) = N - 1 - i by omega]; exact hg1) hp1
    refine ⟨g, ?_, by rw [show i + (k + 1) = i + 1 + k by omega]; exact h2, τ.trans (σ.trans (Equiv.swap 0 (N - 1 - i))), ?_,
      fun x => by rw [htg, hgs]; rfl⟩
    · rw [heapLoop, swp_lt (by omega) (by omega)]
      simp only [Option.bind_some]
      rw [e1]
      exact e2
    · exact ht.trans ((hw.mono (by omega) (by omega)).trans (hw0.mono (by omega) (by omega)))

theorem within_all {n : Nat} {σ : Equiv.Perm Nat} (hs : Within 0 (n - 1) σ) (i : Nat) (hi : n ≤ i) : σ i = i := by
  rcases Nat.eq_zero_or_pos i with hi0 | hi0
  · by_contra hc
    have h1 := hs (σ i) (by omega)
    exact hc (σ.injective h1)
  · exact hs i (by omega)

theorem heapSort_ok {n : Nat} {inc : Bool} (f : Nat → T) :
    ∃ g, heapSort n inc f = some g ∧ SortedUpTo inc n g ∧ ∃ σ, RearrangedBy n σ f g := by
  obtain ⟨g0, e0, h0, σ, hs, hg⟩ := initHeap_ok (N := n) (mh := inc) f
  obtain ⟨g, e, h, τ, ht, htg⟩ := heapLoop_ok (N := n) (mh := inc) (n - 1) 0 g0 (by omega) h0 (by intro x y; omega)
  refine ⟨g, by rw [heapSort, e0]; exact e, fun i j hij hj => ?_, τ.trans σ, ?_, fun x => by rw [htg, hg]; rfl⟩
  · by_cases h0 : j = 0
    · have : i = j := by omega
      rw [this]; exact .refl _ _
    · exact h i j (by omega) hj hij
  · exact within_all (ht.trans hs)

/-! ## The collector -/

theorem perm_range {n : Nat} {σ : Equiv.Perm Nat} (h : ∀ i, n ≤ i → σ i = i) : ((List.range n).map σ).Perm (List.range n) := by
  rw [List.perm_ext_iff_of_nodup (List.Nodup.map σ.injective List.nodup_range) List.nodup_range]
  intro a
  simp only [List.mem_map, List.mem_range]
  constructor
  · rintro ⟨x, hx, rfl⟩
    by_contra hc
    have := σ.injective (h (σ x) (by omega))
    omega
  · intro ha
    obtain ⟨x, rfl⟩ := σ.surjective a
    refine ⟨x, ?_, rfl⟩
    by_contra hc
    rw [h x (by omega)] at ha
    omega

omit [LinearOrder T] in
theorem perm_of_rearranged {n : Nat} {σ : Equiv.Perm Nat} {f g : Nat → T} (h : ∀ i, n ≤ i → σ i = i) (hg : ∀ x, g x = f (σ x)) :
    ((List.range n).map g).Perm ((List.range n).map f) := by
  have : (List.range n).map g = ((List.range n).map σ).map f := by
    rw [List.map_map]; exact List.map_congr_left (fun x _ => hg x)
  rw [this]
  exact (perm_range h).map f

/-- The values held. -/
def TopK.held (S : TopK T) : List T := (List.range S.size).map S.data

structure TopK.Inv (S : TopK T) (seen : List T) : Prop where
  pos : 1 ≤ S.k
  le : S.size ≤ S.k
  top : IsTopK S.big S.k seen S.held
  heap : S.size = S.k → HeapFrom (!S.big) S.size 0 S.data

theorem dir_not {big : Bool} {a b : T} : Dir (!big) a b ↔ Dir big b a := by cases big <;> simp [Dir]

theorem traverse_ok {S : TopK T} {seen : List T} (h : S.Inv seen) (v : T) :
    ∃ S', S.traverse v = some S' ∧ S'.Inv (seen ++ [v]) ∧ S'.k = S.k ∧ S'.big = S.big := by
  obtain ⟨hlen, rest, hperm, hdom⟩ := h.top
  have hsz : S.held.length = S.size := by simp [TopK.held]
  by_cases hlt : S.size < S.k
  · have hseen : seen.length = S.size := by
      rw [hsz] at hlen
      omega
    have hrest : rest = [] := by
      have := hperm.length_eq
      rw [List.length_append, hsz] at this
      exact List.length_eq_zero_iff.1 (by omega)
    rw [hrest, List.append_nil] at hperm
    have hd : ((List.range (S.size + 1)).map (fun x => if x = S.size then v else S.data x)) = S.held ++ [v] := by
      rw [List.range_succ, List.map_append]
      congr 1
      · refine List.map_congr_left (fun x hx => ?_)
        rw [if_neg (by have := List.mem_range.1 hx; omega)]
      · simp
    have key : ∀ d : Nat → T, ((List.range (S.size + 1)).map d).Perm (S.held ++ [v]) →
        IsTopK S.big S.k (seen ++ [v]) ((List.range (S.size + 1)).map d) := by
      intro d hp
      refine ⟨by simp [hseen]; omega, [], ?_, by simp⟩
      rw [List.append_nil]
      exact hp.trans (hperm.append_right _)
    rw [TopK.traverse, if_pos hlt]
    dsimp only
    by_cases hk : S.size + 1 = S.k
    · rw [if_pos hk]
      obtain ⟨g, e, hg, σ, hw, hgs⟩ := initHeap_ok (N := S.size + 1) (mh := !S.big) (fun x => if x = S.size then v else S.data x)
      rw [e]
      refine ⟨_, rfl, ⟨h.pos, hlt, key g ?_, fun _ => hg⟩, rfl, rfl⟩
      rw [← hd]
      exact perm_of_rearranged (within_all hw) hgs
    · rw [if_neg hk]
      exact ⟨_, rfl, ⟨h.pos, hlt, key _ (by rw [hd]), fun e => absurd e hk⟩, rfl, rfl⟩
  · have hsk : S.size = S.k := by have := h.le; omega
    have hpos := h.pos
    have hseen : S.k ≤ seen.length := by rw [hsz] at hlen; omega
    obtain ⟨m, hm⟩ : ∃ m, S.size = m + 1 := ⟨S.size - 1, by omega⟩
    have hheld : S.held = S.data 0 :: (List.range m).map (fun x => S.data (x + 1)) := by
      rw [TopK.held, hm, List.range_succ_eq_map, List.map_cons, List.map_map]
      rfl
    have hroot : ∀ a ∈ S.held, Dir S.big (S.data 0) a := by
      intro a ha
      obtain ⟨x, hx, rfl⟩ := List.mem_map.1 ha
      exact dir_not.1 ((h.heap hsk).root x (List.mem_range.1 hx))
    have hrin : S.data 0 ∈ S.held := by rw [hheld]; simp
    rw [TopK.traverse, if_neg hlt, rd_lt (by omega)]
    simp only [Option.bind_some]
    by_cases hc : (S.big && decide (S.data 0 < v) || !S.big && decide (v < S.data 0)) = true
    · rw [if_pos hc]
      have hv : Dir S.big (S.data 0) v := by
        cases hb : S.big <;> simp only [hb, Bool.true_and, Bool.false_and, Bool.not_true, Bool.not_false, Bool.or_false,
          Bool.false_or, decide_eq_true_eq, Dir, if_true, Bool.false_eq_true, if_false] at hc ⊢ <;> exact le_of_lt hc
      obtain ⟨g, e, hg, σ, hw, hgs⟩ := adjust_ok (N := S.size) (mh := !S.big) (size := S.k) (by omega) (lo := 0) S.k 0
        (fun x => if x = 0 then v else S.data x) (by omega) (by omega)
        (by
          intro i c _ hi hc hcs
          rw [if_neg (by omega), if_neg hi]
          exact h.heap hsk i c (by omega) hc (by omega)) (fun p c _ hp => by omega)
      rw [e]
      have hd : ((List.range S.size).map (fun x => if x = 0 then v else S.data x)) =
          v :: (List.range m).map (fun x => S.data (x + 1)) := by
        rw [hm, List.range_succ_eq_map, List.map_cons, List.map_map]
        simp [Function.comp_def]
      have hp : ((List.range S.size).map g).Perm (v :: (List.range m).map (fun x => S.data (x + 1))) := by
        rw [← hd]
        refine perm_of_rearranged (within_all ?_) hgs
        rw [hsk]; exact hw
      refine ⟨_, rfl, ⟨h.pos, h.le, ⟨by simp [TopK.held]; omega, S.data 0 :: rest, ?_, ?_⟩, fun _ => ?_⟩, rfl, rfl⟩
      · show (((List.range S.size).map g) ++ S.data 0 :: rest).Perm _
        refine (hp.append_right _).trans ?_
        rw [hheld] at hperm
        refine List.Perm.trans ?_ ((hperm.append_right [v]))
        rw [List.cons_append]
        refine List.Perm.trans ?_ (List.perm_append_comm (l₁ := [v]))
        rw [List.singleton_append]
        exact List.Perm.cons _ (List.perm_middle)
      · intro a ha b hb
        have ha' : a = v ∨ a ∈ S.held := by
          have := hp.subset ha
          rw [hheld]
          rcases List.mem_cons.1 this with h | h
          · exact .inl h
          · exact .inr (List.mem_cons_of_mem _ h)
        rcases List.mem_cons.1 hb with rfl | hb
        · rcases ha' with rfl | ha'
          · exact hv
          · exact hroot a ha'
        · rcases ha' with rfl | ha'
          · exact (hdom _ hrin b hb).trans hv
          · exact hdom a ha' b hb
      · show HeapFrom (!S.big) S.size 0 g
        rw [hsk]; exact hg
    · rw [if_neg hc]
      have hv : Dir S.big v (S.data 0) := by
        cases hb : S.big <;> simp only [hb, Bool.true_and, Bool.false_and, Bool.not_true, Bool.not_false, Bool.or_false,
          Bool.false_or, decide_eq_true_eq, Dir, if_true, Bool.false_eq_true, if_false, not_lt] at hc ⊢ <;> exact hc
      refine ⟨S, rfl, ⟨h.pos, h.le, ⟨by rw [hlen]; simp; omega, rest ++ [v], ?_, ?_⟩, h.heap⟩, rfl, rfl⟩
      · rw [← List.append_assoc]; exact hperm.append_right _
      · intro a ha b hb
        rcases List.mem_append.1 hb with hb | hb
        · exact hdom a ha b hb
        · rw [List.mem_singleton] at hb
          subst hb
          exact hv.trans (hroot a ha)

theorem stream_ok : ∀ (vs : List T) {S : TopK T} {seen : List T}, S.Inv seen →
    ∃ S', S.stream vs = some S' ∧ S'.Inv (seen ++ vs) ∧ S'.k = S.k ∧ S'.big = S.big
  | [], S, seen, h => ⟨S, rfl, by rw [List.append_nil]; exact h, rfl, rfl⟩
  | v :: vs, S, seen, h => by
    obtain ⟨S1, e1, h1, k1, b1⟩ := traverse_ok h v
    obtain ⟨S2, e2, h2, k2, b2⟩ := stream_ok vs h1
    refine ⟨S2, by rw [TopK.stream, e1]; exact e2, ?_, k2.trans k1, b2.trans b1⟩
    rw [List.append_assoc] at h2
    exact h2

end Verif.Sorting
