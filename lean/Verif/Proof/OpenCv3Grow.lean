import Verif.Proof.OpenCv3Hist

/-!
# The OpenCV 3 detector: `growHistory`
-/

namespace Verif.OpenCv3

open Function (update)
open Relation (ReflTransGen)
open Verif.OpenCv (IsC)

variable {E : Env} {fin : Bool} {H H' : Nat → Hist} {n : Nat} {out : List Rec3} {R : Nat → List Nat} {T T' : Set CL}
  {c : Comp} {l : List Nat}

theorem ownHist_some {i : Nat} (h : ownHist H c = some i) : c.hist = some i ∧ (H i).val = c.gray := by
  unfold ownHist at h
  cases hc : c.hist with
  | none => rw [hc] at h; simp at h
  | some j =>
    rw [hc] at h
    simp only at h
    split at h
    · rename_i e
      obtain rfl := Option.some.inj h
      exact ⟨rfl, e⟩
    · simp at h

theorem fill_var {h : Hist} (hv : 0 ≤ (fillHist E c h).var) : ((fillHist E c h).size : Int) < E.cfg.minPoint := by
  simp only [fillHist] at hv ⊢
  split at hv
  · exact absurd hv (by decide)
  · omega

/-- The history of `c`. -/
theorem putHist_spec (h : FI E false H n out R T) (hc : (c, l) ∈ T) (h256 : c.gray < 256)
    (hn : ownHist H c = none → n < E.area) :
    ∃ i H' n', putHist E c H n = some (i, H', n') ∧ FI E false H' n' out R (insert ({ c with hist := some i }, l) (T \ {(c, l)})) ∧
      (H' i).val = c.gray ∧ (H' i).size = c.size ∧ (H' i).head = c.head ∧
      (0 ≤ (H' i).var → ((H' i).size : Int) < E.cfg.minPoint) ∧ (n' = if ownHist H c = none then n + 1 else n) ∧
      ∀ k < n, (H' k).val = (H k).val := by
  unfold putHist
  cases ho : ownHist H c with
  | some i =>
    obtain ⟨h1, h2⟩ := ownHist_some ho
    refine ⟨i, _, n, rfl, ?_, by simp [fillHist], by simp [fillHist], by simp [fillHist], fun hv => ?_, by simp, fun k _ => ?_⟩
    · have e : insert (({ c with hist := some i } : Comp), l) (T \ {(c, l)}) = T := by
        have e1 : ({ c with hist := some i } : Comp) = c := by rw [← h1]
        rw [e1, Set.insert_sdiff_singleton, Set.insert_eq_of_mem hc]
      rw [e]
      refine h.put_own (i := i) ⟨_, hc, h1, h2⟩ (fun k hk => Function.update_of_ne hk _ _) ?_
      simp [fillHist, h2]
    · simp only [Function.update_self] at hv ⊢
      exact fill_var hv
    · by_cases e : k = i
      · subst e; simp [fillHist, h2]
      · rw [Function.update_of_ne e]
  | none =>
    simp only
    rw [if_pos (hn ho)]
    generalize hH1 : setPar H n c.hist = H1
    have f1 : ∀ k, c.hist ≠ some k → H1 k = H k := by
      intro k hk
      rw [← hH1]
      cases hh : c.hist with
      | none => rfl
      | some j =>
        have : k ≠ j := by rintro rfl; exact hk hh
        simp only [setPar]
        rw [Function.update_of_ne this]
    have f2 : ∀ j, c.hist = some j → H1 j = { H j with parent := some n } := by
      intro j hj
      rw [← hH1, hj]
      simp [setPar]
    have hjn : ∀ j, c.hist = some j → j ≠ n := fun j hj => by
      have := (h.lt _ hc j hj).1; omega
    refine ⟨n, _, n + 1, rfl, ?_, by simp [fillHist], by simp [fillHist], by simp [fillHist], fun hv => ?_, by simp, fun k hk => ?_⟩
    · refine h.put_new hc ho h256 (fun k hk hne => ?_) (fun j hj => ?_) ?_
      · rw [Function.update_of_ne (by omega)]; exact f1 k hne
      · rw [Function.update_of_ne (hjn j hj)]; exact f2 j hj
      · simp [fillHist]
    · simp only [Function.update_self] at hv ⊢
      exact fill_var hv
    · rw [Function.update_of_ne (by omega)]
      by_cases e : c.hist = some k
      · rw [f2 k e]
      · rw [f1 k e]

/-- `growHistory` for a component that keeps its level. -/
theorem growHistory_open {next : Nat → Nat} {t : TS} (h : FI E false t.hists n t.out R T) (hc : (c, l) ∈ T) (h256 : c.gray < 256)
    (hn : ownHist t.hists c = none → n < E.area) :
    ∃ i H' n', growHistory E next c t n c.gray false = some ({ c with hist := some i }, { t with hists := H' }, n') ∧
      FI E false H' n' t.out R (insert ({ c with hist := some i }, l) (T \ {(c, l)})) ∧ (H' i).val = c.gray ∧
      (n' = if ownHist t.hists c = none then n + 1 else n) ∧ ∀ k < n, (H' k).val = (t.hists k).val := by
  obtain ⟨i, H', n', e1, e2, e3, e4, e5, e6, e7, e8⟩ := putHist_spec h hc h256 hn
  refine ⟨i, H', n', ?_, e2, e3, e7, e8⟩
  unfold growHistory
  rw [e1]
  simp [e3]

/-- `growHistory` for a complete component whose level rises. -/
theorem growHistory_close {next : Nat → Nat} {t : TS} {g : Nat} (h : FI E false t.hists n t.out R T) (hc : (c, l) ∈ T)
    (h256 : c.gray < 256) (hn : ownHist t.hists c = none → n < E.area) (hg : c.gray < g) (hsz : c.size = l.length)
    (hhd : l.head? = some c.head) (hnd : l.Nodup) (hC : ∀ g', c.gray ≤ g' → g' < g → IsC E.P g' l.toFinset)
    (htop : ∃ x ∈ l, E.P.gray x = c.gray) (hdis : ∀ t ∈ T, ∀ x, x ∈ l → x ∈ t.2 → t = (c, l))
    (hch : ∀ x ∈ T, x.2.IsChain (fun a b => next a = b)) :
    ∃ i t' n' R', growHistory E next c t n g fin = some ({ c with hist := some i, gray := g }, t', n') ∧
      FI E fin t'.hists n' t'.out R' (insert ({ c with hist := some i, gray := g }, l) (T \ {(c, l)})) ∧
      (t'.hists i).val = c.gray ∧ (n' = if ownHist t.hists c = none then n + 1 else n) ∧
      ∀ k < n, (t'.hists k).val = (t.hists k).val := by
  obtain ⟨i, H', n', e1, e2, e3, e4, e5, e6, e7, e8⟩ := putHist_spec h hc h256 hn
  have hmem : (({ c with hist := some i } : Comp), l) ∈ insert (({ c with hist := some i } : Comp), l) (T \ {(c, l)}) := .inl rfl
  have hdis' : ∀ t ∈ insert (({ c with hist := some i } : Comp), l) (T \ {(c, l)}), ∀ x, x ∈ l → x ∈ t.2 →
      t = (({ c with hist := some i } : Comp), l) := by
    intro t ht x x1 x2
    rcases ht with rfl | ht
    · rfl
    · exact absurd (hdis t ht.1 x x1 x2) ht.2
  have hcl := e2.close hmem (i := i) (g := g) rfl e3 hg (by rw [e4, hsz]) (by rw [hhd, e5]) hnd e6 hC htop hdis'
  have hset : insert (({ c with hist := some i, gray := g } : Comp), l) (insert (({ c with hist := some i } : Comp), l) (T \ {(c, l)})
      \ {(({ c with hist := some i } : Comp), l)}) = insert (({ c with hist := some i, gray := g } : Comp), l) (T \ {(c, l)}) := by
    obtain ⟨x, x1, -⟩ := htop
    ext t
    simp only [Set.mem_insert_iff, Set.mem_diff, Set.mem_singleton_iff]
    constructor
    · rintro (rfl | ⟨rfl | h1, h2⟩)
      · exact .inl rfl
      · exact absurd rfl h2
      · exact .inr h1
    · rintro (rfl | h1)
      · exact .inl rfl
      · refine .inr ⟨.inr h1, ?_⟩
        rintro rfl
        exact h1.2 (hdis _ h1.1 x x1 x1)
  have hfi : FI E false H' n' t.out (update R i l) (insert (({ c with hist := some i, gray := g } : Comp), l) (T \ {(c, l)})) := by
    rw [← hset]; exact hcl
  have hin := hfi.lt _ (.inl rfl) i rfl
  have hno : ¬ Opn H' (insert (({ c with hist := some i, gray := g } : Comp), l) (T \ {(c, l)})) i := by
    rintro ⟨t, t1, t2, t3⟩
    have := hfi.inj _ t1 _ (.inl rfl) i t2 rfl
    subst this
    simp only at t3
    omega
  have hv : (skel H' i).val < 257 := by
    show (H' i).val < 257
    rw [e3]; omega
  obtain ⟨t', a, b, u1, u2, -⟩ := updateTree_spec (E := E) (next := next) (fin := fin) hfi.ti (hfi.cli i) 257 i
    { t with hists := H' } ⟨⟨hin.1, hno⟩, .refl⟩ rfl hv
  have hch' : ∀ x ∈ insert (({ c with hist := some i, gray := g } : Comp), l) (T \ {(c, l)}), x.2.IsChain (fun a b => next a = b) := by
    intro x hx
    rcases hx with rfl | hx
    · exact hch (c, l) hc
    · exact hch _ hx.1
  have hext := FI.ext (t := { t with hists := H' }) hfi u2 hin.2.1 ⟨hin.1, hno⟩ hch'
  have hvs : ∀ k, (t'.hists k).val = (H' k).val := fun k => congrArg Skel.val (skel_at u2.same k)
  refine ⟨i, t', n', update R i l, ?_, hext, by rw [hvs]; exact e3, e7, fun k hk => by rw [hvs]; exact e8 k hk⟩
  unfold growHistory
  rw [e1]
  simp only [Option.bind_some]
  rw [if_neg (show ¬ g < c.gray by omega), if_pos (show (H' i).val ≠ g by omega), u1]
  rfl

end Verif.OpenCv3
