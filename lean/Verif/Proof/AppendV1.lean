import Verif.Proof.DetachV1

/-!
# Fast MSER V1: putting one list behind another
-/

namespace Verif.V1

open Function (update)
open Relation (ReflTransGen)
open Verif.Spec (Linked)
open Verif.Connect (Forest chase Up UpO RealPar Str up_total up_away up_through up_to)

variable {ι : Type} [DecidableEq ι]

section
variable {D : Nat → Prop} {own : Nat → ι} {isReg : ι → Prop} {gr : ι → Nat} {F F' : Forest ι} {M : Mem ι}
  {L : ι → List Nat} {ds : List (Option ι × Int)} {hot : ι → Prop} {m : Nat}

/-- The list of `s` is put behind that of `b`, both being cut off; `s` becomes (or is already) a child of `b`. -/
theorem LS.attach (hs : Str isReg gr F m) {b s : ι} (h : LS D own isReg F M L [b, s] ds hot) (hbs : ¬ Up F b s)
    (hcase : (F s).parent = some b ∨ ¬ Up F s b) (hP : ∀ x, x ≠ s → (F' x).parent = (F x).parent)
    (hPs : (F' s).parent = some b) (hm : ∀ q, q ≠ s → (F' q).merged = (F q).merged)
    (hhot : ∀ q, hot q → q = b) (hsize : (M.regs b).size = (L b).length)
    (hcov : Cover M.pts (L b) (fun a => a ∈ L s) (M.regs b).rect)
    (hds : ∀ e ∈ ds, ∀ x, e.1 = some x → ¬ Up F x s) :
    LS D own isReg F' (append M b s) (update L b (L b ++ L s)) [b] ds (fun _ => False) := by
  obtain ⟨hb, hbl⟩ := h.xs b (by simp)
  obtain ⟨hsr, hsl⟩ := h.xs s (by simp)
  have hne : b ≠ s := by rintro rfl; exact hbs .refl
  have hac : ∀ y, (F s).parent = some y → ¬ Up F y s := fun z hz hu => by
    have h1 := hs.live_lt s hsr hsl z hz
    have h2 := (hs.up (hs.par_reg s hsr z hz) hu).2
    omega
  have hbl' : (F' b).merged = false := by rw [hm b hne]; exact hbl
  have away : ∀ {a r : ι}, ¬ Up F a s → (Up F' a r ↔ Up F a r) := fun ha => up_away hP ha
  have thr : ∀ {a r : ι}, Up F a s → (Up F' a r ↔ (Up F a r ∧ Up F r s) ∨ Up F b r) :=
    fun ha => up_through hP hPs hbs hac ha
  have hlive : ∀ q, (F' q).merged = false → (F q).merged = false := by
    intro q hq
    by_cases e : q = s
    · rw [e]; exact hsl
    · rw [← hm q e]; exact hq
  -- what is below both `b` and `s`
  have both : ∀ {a : ι}, Up F a b → Up F a s → (F s).parent = some b := by
    intro a h1 h2
    rcases hcase with k | k
    · exact k
    · rcases up_total h1 h2 with k' | k'
      · exact absurd k' hbs
      · exact absurd k' k
  have sb : (F s).parent = some b → Up F s b := fun k => .single k
  have between : ∀ {q : ι}, isReg q → (F q).merged = false → Up F s q → Up F q b → q = b ∨ q = s := by
    intro q hq hql h1 h2
    rcases ReflTransGen.cases_head h1 with e | ⟨c, hc, h3⟩
    · exact .inr e.symm
    · left
      have hsb : Up F s b := h1.trans h2
      rcases hcase with k | k
      · rw [k] at hc; obtain rfl := Option.some.inj hc
        exact anti hs hq hql h2 h3
      · exact absurd hsb k
  have upb : ∀ {a : ι}, Up F' a b ↔ Up F a b ∨ Up F a s := by
    intro a
    by_cases ha : Up F a s
    · rw [thr ha]; exact ⟨fun _ => .inr ha, fun _ => .inr .refl⟩
    · rw [away ha]; exact ⟨.inl, fun k => k.resolve_right ha⟩
  have inn1 : ∀ {q : ι}, Inn F' [b] q ↔ Inn F [b, s] q := by
    intro q
    constructor
    · rintro ⟨X, hX, hu⟩
      obtain rfl : X = b := by simpa using hX
      rcases upb.1 hu with k | k
      · exact ⟨X, by simp, k⟩
      · exact ⟨s, by simp, k⟩
    · rintro ⟨X, hX, hu⟩
      refine ⟨b, by simp, upb.2 ?_⟩
      rcases List.mem_cons.1 hX with rfl | hX
      · exact .inl hu
      · obtain rfl : X = s := by simpa using hX
        exact .inr hu
  have hLb : update L b (L b ++ L s) b = L b ++ L s := Function.update_self ..
  have hLo : ∀ q, q ≠ b → update L b (L b ++ L s) q = L q := fun q e => Function.update_of_ne e _ _
  have hdis : ∀ a ∈ L b, a ∉ L s := by
    intro a ha ha'
    have := ((h.mem b hb hbl a).1 ha).2.2 s (by simp) ((h.mem s hsr hsl a).1 ha').2.1
    exact hbs this
  obtain ⟨eb1, eb2⟩ := h.ends b (by simp)
  obtain ⟨es1, es2⟩ := h.ends s (by simp)
  have htb := h.tailIn b hb hbl ⟨b, by simp, .refl⟩
  have hts := h.tailIn s hsr hsl ⟨s, by simp, .refl⟩
  have hnb := eb2 _ htb
  have hns := es2 _ hts
  have hhb := h.head b hb hbl
  have hhs := h.head s hsr hsl
  have hmb := h.head_mem hb hbl
  have hms := h.head_mem hsr hsl
  have hmtb := List.mem_of_getLast? htb
  have hmts := List.mem_of_getLast? hts
  have hDs : ∀ a ∈ L s, D a := fun a ha => ((h.mem s hsr hsl a).1 ha).1
  have hDb : ∀ a ∈ L b, D a := fun a ha => ((h.mem b hb hbl a).1 ha).1
  obtain ⟨an, ap, ao⟩ := append_links M b s
  have arf : rf (append M b s).pts = rf M.pts := funext fun a => (ao a).1
  have axy : ∀ a, ((append M b s).pts a).x = (M.pts a).x ∧ ((append M b s).pts a).y = (M.pts a).y := fun a => (ao a).2
  have hregs : ∀ q, q ≠ b → (append M b s).regs q = M.regs q := by
    intro q e; unfold append; dsimp only; rw [Function.update_of_ne e]
  have hregb : (append M b s).regs b = { M.regs b with
      tail := (M.regs s).tail, size := (M.regs b).size + (M.regs s).size, unmerged := (M.regs b).size + (M.regs s).size,
      rect := (M.regs b).rect.join (M.regs s).rect } := by
    unfold append; dsimp only; rw [Function.update_self]
  have hheadq : ∀ q, ((append M b s).regs q).head = (M.regs q).head := by
    intro q
    by_cases e : q = b
    · subst e; rw [hregb]
    · rw [hregs q e]
  have hkeep : ∀ l, Linked (nx M.pts) (pv M.pts) l → Linked (nx (append M b s).pts) (pv (append M b s).pts) l := by
    intro l hl
    refine Linked.imp_mem ?_ hl
    intro a _ c _ h1 h2
    have e1 : a ≠ (M.regs b).tail := by rintro rfl; rw [hnb] at h1; simp at h1
    have e2 : c ≠ (M.regs s).head := by rintro rfl; rw [es1] at h2; simp at h2
    rw [an, ap, Function.update_of_ne e1, Function.update_of_ne e2]
    exact ⟨h1, h2⟩
  have hmp : (append M b s).mp = M.mp := rfl
  have hsz := h.sizeIn s hsr hsl ⟨s, by simp, .refl⟩ (fun k => hne (hhot s k).symm)
  have hrs := h.rectIn s hsr hsl ⟨s, by simp, .refl⟩ (fun k => hne (hhot s k).symm)
  -- outer regions
  have outer : ∀ q, isReg q → (F' q).merged = false → ¬ Inn F' [b] q → ¬ Inn F [b, s] q ∧ q ≠ b ∧ ¬ Up F q s := by
    intro q hq hql hi
    refine ⟨fun k => hi (inn1.2 k), ?_, ?_⟩
    · rintro rfl; exact hi ⟨q, by simp, .refl⟩
    · intro k; exact hi (inn1.2 ⟨s, by simp, k⟩)
  have upds : ∀ e ∈ ds, ∀ q, UpO F' e.1 q ↔ UpO F e.1 q := by
    intro e he q
    constructor
    · rintro ⟨x, hx, hu⟩; exact ⟨x, hx, (away (hds e he x hx)).1 hu⟩
    · rintro ⟨x, hx, hu⟩; exact ⟨x, hx, (away (hds e he x hx)).2 hu⟩
  refine
    { xs := ?_, mem := ?_, nodup := ?_, linked := ?_, head := ?_, low := ?_, sub := ?_, inv := ?_, ends := ?_, top := ?_,
      tailIn := ?_, sizeIn := ?_, rectIn := ?_, tailOut := ?_, quiet := ?_, sizeOut := ?_, rectOut := ?_, refs := ?_ }
  · intro X hX
    obtain rfl : X = b := by simpa using hX
    exact ⟨hb, hbl'⟩
  · intro q hq hql' p
    have hql := hlive q hql'
    by_cases e : q = b
    · subst e
      rw [hLb, List.mem_append, h.mem q hb hbl p, h.mem s hsr hsl p]
      constructor
      · rintro (⟨h1, h2, h3⟩ | ⟨h1, h2, h3⟩)
        · refine ⟨h1, upb.2 (.inl h2), ?_⟩
          intro X hX _; obtain rfl : X = q := by simpa using hX
          exact .refl
        · refine ⟨h1, upb.2 (.inr h2), ?_⟩
          intro X hX _; obtain rfl : X = q := by simpa using hX
          exact .refl
      · rintro ⟨h1, h2, _⟩
        by_cases k : Up F (own p) s
        · right
          refine ⟨h1, k, ?_⟩
          intro X hX hu
          rcases List.mem_cons.1 hX with rfl | hX
          · exact sb (both hu k)
          · obtain rfl : X = s := by simpa using hX
            exact .refl
        · left
          refine ⟨h1, (upb.1 h2).resolve_right k, ?_⟩
          intro X hX hu
          rcases List.mem_cons.1 hX with rfl | hX
          · exact .refl
          · obtain rfl : X = s := by simpa using hX
            exact absurd hu k
    · rw [hLo q e, h.mem q hq hql p]
      by_cases hqs : Up F q s
      · constructor
        · rintro ⟨h1, h2, h3⟩
          refine ⟨h1, (thr (h2.trans hqs)).2 (.inl ⟨h2, hqs⟩), ?_⟩
          intro X hX _; obtain rfl : X = b := by simpa using hX
          exact upb.2 (.inr hqs)
        · rintro ⟨h1, h2, _⟩
          have h2' : Up F (own p) q := by
            by_cases k : Up F (own p) s
            · rcases (thr k).1 h2 with h3 | h3
              · exact h3.1
              · exact absurd (h3.trans hqs) hbs
            · exact (away k).1 h2
          refine ⟨h1, h2', ?_⟩
          intro X hX hu
          rcases List.mem_cons.1 hX with rfl | hX
          · exact hqs.trans (sb (both hu (h2'.trans hqs)))
          · obtain rfl : X = s := by simpa using hX
            exact hqs
      · constructor
        · rintro ⟨h1, h2, h3⟩
          have k : ¬ Up F (own p) s := fun k => hqs (h3 s (by simp) k)
          refine ⟨h1, (away k).2 h2, ?_⟩
          intro X hX hu; obtain rfl : X = b := by simpa using hX
          rw [away k] at hu
          exact (away hqs).2 (h3 X (by simp) hu)
        · rintro ⟨h1, h2, h3⟩
          have k : ¬ Up F (own p) s := by
            intro k
            rcases (thr k).1 h2 with h4 | h4
            · exact hqs h4.2
            · have := h3 b (by simp) (upb.2 (.inr k))
              rw [away hqs] at this
              exact e (anti hs hq hql this h4)
          rw [away k] at h2
          refine ⟨h1, h2, ?_⟩
          intro X hX hu
          rcases List.mem_cons.1 hX with rfl | hX
          · have := h3 X (by simp) (upb.2 (.inl hu))
            rwa [away hqs] at this
          · obtain rfl : X = s := by simpa using hX
            exact absurd hu k
  · intro q hq hql'
    have hql := hlive q hql'
    by_cases e : q = b
    · subst e
      rw [hLb, List.nodup_append]
      refine ⟨h.nodup q hb hbl, h.nodup s hsr hsl, ?_⟩
      rintro a ha c hc rfl; exact hdis a ha hc
    · rw [hLo q e]; exact h.nodup q hq hql
  · intro q hq hql'
    have hql := hlive q hql'
    by_cases e : q = b
    · subst e
      rw [hLb]
      refine List.isChain_append.2 ⟨hkeep _ (h.linked q hb hbl), hkeep _ (h.linked s hsr hsl), ?_⟩
      intro a ha c hc
      have ha' : (L q).getLast? = some a := ha
      have hc' : (L s).head? = some c := hc
      rw [htb] at ha'; rw [hhs] at hc'
      obtain rfl := Option.some.inj ha'
      obtain rfl := Option.some.inj hc'
      rw [an, ap, Function.update_self, Function.update_self]
      exact ⟨rfl, rfl⟩
    · rw [hLo q e]; exact hkeep _ (h.linked q hq hql)
  · intro q hq hql'
    have hql := hlive q hql'
    rw [hheadq]
    by_cases e : q = b
    · subst e
      rw [hLb]
      have := h.head q hb hbl
      cases hl : L q with
      | nil => rw [hl] at this; simp at this
      | cons a l => rw [hl] at this; simpa using this
    · rw [hLo q e]; exact h.head q hq hql
  · intro q hq hql' q' hq' hqlp' hu
    have hql := hlive q hql'
    have hqlp := hlive q' hqlp'
    rw [hheadq] at hu
    have hw := ((h.mem q hq hql _).1 (h.head_mem hq hql)).2.1
    by_cases k : Up F (own (M.regs q).head) s
    · have hqs := h.low q hq hql s hsr hsl k
      rw [thr hqs]
      rcases (thr k).1 hu with h3 | h3
      · exact .inl ⟨h.low q hq hql q' hq' hqlp h3.1, h3.2⟩
      · exact .inr h3
    · rw [away k] at hu
      rw [away (fun k' => k (hw.trans k'))]
      exact h.low q hq hql q' hq' hqlp hu
  · intro q hq hql' q' hq' hqlp' hu hX
    have hql := hlive q hql'
    have hqlp := hlive q' hqlp'
    by_cases e' : q' = b
    · subst e'
      rw [hLb]
      by_cases e : q = q'
      · subst e; rw [hLb]
      · rw [hLo q e]
        by_cases hqs : Up F q s
        · have : L q <:+: L s := by
            refine h.sub q hq hql s hsr hsl hqs ?_
            intro X hX hu'
            rcases List.mem_cons.1 hX with rfl | hX
            · exact sb (both hu' hqs)
            · obtain rfl : X = s := by simpa using hX
              exact .refl
          exact this.trans (List.suffix_append _ _).isInfix
        · have : L q <:+: L q' := by
            refine h.sub q hq hql q' hb hbl ((away hqs).1 hu) ?_
            intro X hX hu'
            rcases List.mem_cons.1 hX with rfl | hX
            · exact .refl
            · obtain rfl : X = s := by simpa using hX
              exact absurd hu' hqs
          exact this.trans (List.prefix_append _ _).isInfix
    · have e : q ≠ b := by
        rintro rfl
        have h1 := hX q (by simp) .refl
        rw [away hbs] at hu
        rcases upb.1 h1 with k | k
        · exact e' (anti hs hq' hqlp k hu)
        · exact hbs (hu.trans k)
      rw [hLo q e, hLo q' e']
      by_cases hqs : Up F q s
      · rcases (thr hqs).1 hu with h3 | h3
        · refine h.sub q hq hql q' hq' hqlp h3.1 ?_
          intro X hX hu
          rcases List.mem_cons.1 hX with rfl | hX
          · exact h3.2.trans (sb (both hu hqs))
          · obtain rfl : X = s := by simpa using hX
            exact h3.2
        · exfalso
          rcases upb.1 (hX b (by simp) (upb.2 (.inr hqs))) with k | k
          · exact e' (anti hs hq' hqlp k h3)
          · exact hbs (h3.trans k)
      · rw [away hqs] at hu
        refine h.sub q hq hql q' hq' hqlp hu ?_
        intro X hX' hu'
        rcases List.mem_cons.1 hX' with rfl | hX'
        · rcases upb.1 (hX X (by simp) (upb.2 (.inl hu'))) with k | k
          · exact k
          · exact absurd (hu.trans k) hqs
        · obtain rfl : X = s := by simpa using hX'
          exact absurd hu' hqs
  · constructor
    · intro a c ha hac'
      rw [an] at hac'; rw [ap]
      by_cases e : a = (M.regs b).tail
      · subst e
        rw [Function.update_self] at hac'
        obtain rfl := Option.some.inj hac'
        exact ⟨hDs _ hms, by rw [Function.update_self]⟩
      · rw [Function.update_of_ne e] at hac'
        obtain ⟨h1, h2⟩ := h.inv.next a c ha hac'
        have e2 : c ≠ (M.regs s).head := by rintro rfl; rw [es1] at h2; simp at h2
        rw [Function.update_of_ne e2]; exact ⟨h1, h2⟩
    · intro a c hc hac'
      rw [ap] at hac'; rw [an]
      by_cases e : c = (M.regs s).head
      · subst e
        rw [Function.update_self] at hac'
        obtain rfl := Option.some.inj hac'
        exact ⟨hDb _ hmtb, by rw [Function.update_self]⟩
      · rw [Function.update_of_ne e] at hac'
        obtain ⟨h1, h2⟩ := h.inv.prev a c hc hac'
        have e2 : a ≠ (M.regs b).tail := by rintro rfl; rw [hnb] at h2; simp at h2
        rw [Function.update_of_ne e2]; exact ⟨h1, h2⟩
  · intro X hX
    obtain rfl : X = b := by simpa using hX
    rw [hheadq, ap, an, hLb]
    constructor
    · have e : (M.regs X).head ≠ (M.regs s).head := fun k => hdis _ hmb (by rw [k]; exact hms)
      rw [Function.update_of_ne e]; exact eb1
    · intro u hu
      rw [List.getLast?_append_of_ne_nil _ (by intro k; rw [k] at hms; simp at hms), hts] at hu
      obtain rfl := Option.some.inj hu
      have e : (M.regs s).tail ≠ (M.regs X).tail := fun k => hdis _ hmtb (by rw [← k]; exact hmts)
      rw [Function.update_of_ne e]; exact hns
  · intro q hq hql' hi hroot
    have hql := hlive q hql'
    obtain ⟨o1, o2, o3⟩ := outer q hq hql' hi
    rw [hheadq, ap]
    have e : (M.regs q).head ≠ (M.regs s).head := by
      intro k
      have h1 := ((h.mem s hsr hsl _).1 hms).2.1
      rw [← k] at h1
      exact o3 (h.low q hq hql s hsr hsl h1)
    rw [Function.update_of_ne e]
    refine h.top q hq hql o1 ?_
    intro q' hq' hqlp hu
    refine hroot q' hq' ?_ ((away o3).2 hu)
    rw [hm q' (by rintro rfl; exact o3 hu)]; exact hqlp
  · intro q hq hql' hi
    have hql := hlive q hql'
    by_cases e : q = b
    · subst e
      rw [hLb, hregb, List.getLast?_append_of_ne_nil _ (by intro k; rw [k] at hms; simp at hms)]; exact hts
    · rw [hLo q e, hregs q e]; exact h.tailIn q hq hql (inn1.1 hi)
  · intro q hq hql' hi _
    have hql := hlive q hql'
    by_cases e : q = b
    · subst e
      rw [hLb, hregb, List.length_append]; dsimp only
      push_cast; omega
    · rw [hLo q e, hregs q e]; exact h.sizeIn q hq hql (inn1.1 hi) (fun k => e (hhot q k))
  · intro q hq hql' hi _
    have hql := hlive q hql'
    by_cases e : q = b
    · subst e
      rw [hLb, hregb]
      exact (hcov.join hrs).congr (fun a _ => axy a)
    · rw [hLo q e, hregs q e]
      exact (h.rectIn q hq hql (inn1.1 hi) (fun k => e (hhot q k))).congr (fun a _ => axy a)
  · intro q hq hql' hi
    have hql := hlive q hql'
    obtain ⟨o1, o2, o3⟩ := outer q hq hql' hi
    rw [hLo q o2, hregs q o2, arf]; exact h.tailOut q hq hql o1
  · intro q hq hql' hi hz
    have hql := hlive q hql'
    obtain ⟨o1, o2, o3⟩ := outer q hq hql' hi
    rw [hLo q o2, hregs q o2]
    exact h.quiet q hq hql o1 (fun e he k => hz e he ((upds e he q).2 k))
  · intro q hq hql' hi
    have hql := hlive q hql'
    obtain ⟨o1, o2, o3⟩ := outer q hq hql' hi
    rw [hLo q o2, hregs q o2]
    obtain ⟨s1, s2⟩ := h.sizeOut q hq hql o1
    refine ⟨?_, s2⟩
    rw [s1]; congr 1
    exact due_congr (fun e he => (upds e he q).symm)
  · intro q hq hql' hi
    have hql := hlive q hql'
    obtain ⟨o1, o2, o3⟩ := outer q hq hql' hi
    rw [hLo q o2, hregs q o2]
    refine (h.rectOut q hq hql o1).mono axy (fun a ha => ha) ?_
    rintro a (ha | ⟨⟨e, he, hu⟩, X, hX, haX⟩)
    · exact .inl ha
    · right
      refine ⟨⟨e, he, (upds e he q).2 hu⟩, b, by simp, ?_⟩
      rw [hLb, List.mem_append]
      rcases List.mem_cons.1 hX with rfl | hX
      · exact .inl haX
      · obtain rfl : X = s := by simpa using hX
        exact .inr haX
  · intro p hp hne'
    rw [arf] at hne'
    obtain ⟨h1, X, hX, h2⟩ := h.refs p hp hne'
    refine ⟨h1, b, by simp, ?_⟩
    rw [hLb, List.mem_append]
    rcases List.mem_cons.1 hX with rfl | hX
    · exact .inl h2
    · obtain rfl : X = s := by simpa using hX
      exact .inr h2
end

end Verif.V1
