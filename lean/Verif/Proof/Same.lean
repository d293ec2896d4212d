import Verif.Spec.Same
import Verif.Proof.Tree

/-!
# Component trees of one graph are the same
-/

namespace Verif.Spec

open Relation (ReflTransGen)

variable {α ι ι' : Type _} {adj : α → α → Prop} {g : α → Nat} {px : Finset α} {T : RegionTree α ι}
  {T' : RegionTree α ι'}

/-- The first region above `r` reached when climbing past `r`'s level. -/
theorem IsComponentTree.parent_iff (h : IsComponentTree adj g px T) {p q : α} (hp : p ∈ px) (hq : q ∈ px) :
    T.parent (T.lab p) = some (T.lab q) ↔
      (g p < g q ∧ LConn adj g (g q) q p ∧
        ∀ z ∈ px, g p < g z → LConn adj g (g z) z p → LConn adj g (g z) z q) := by
  have hun : ∀ z ∈ px, ∀ y ∈ px, (T.Under (T.lab z) y ↔ LConn adj g (g z) z y) := by
    intro z hz y hy
    have := h.comp (T.lab z) (h.lab_reg z hz) z hz .refl y hy
    rwa [h.lab_gray z hz] at this
  constructor
  · intro hpar
    have h1 := (h.parent_reg _ (h.lab_reg p hp) _ hpar).2
    rw [h.lab_gray p hp, h.lab_gray q hq] at h1
    refine ⟨h1, (hun q hq p hp).1 (.single hpar), ?_⟩
    intro z hz hgz hc
    rw [← hun z hz q hq]
    have hu := (hun z hz p hp).2 hc
    rcases ReflTransGen.cases_head hu with e | ⟨x, h2, h3⟩
    · have := h.lab_gray z hz
      rw [← e, h.lab_gray p hp] at this; omega
    · rw [hpar] at h2; obtain rfl := Option.some.inj h2
      exact h3
  · rintro ⟨h1, h2, h3⟩
    have hu := (hun q hq p hp).2 h2
    rcases ReflTransGen.cases_head hu with e | ⟨x, h4, h5⟩
    · have := h.lab_gray q hq
      rw [← e, h.lab_gray p hp] at this; omega
    · obtain ⟨hxr, hxg⟩ := h.parent_reg _ (h.lab_reg p hp) _ h4
      obtain ⟨z, hz, rfl⟩ := h.reg_lab x hxr
      rw [h.lab_gray p hp, h.lab_gray z hz] at hxg
      have h6 := h3 z hz hxg ((hun z hz p hp).1 (.single h4))
      have h7 := (hun z hz q hq).2 h6
      have h8 := h.anc_reg hxr h5
      have h9 := h.anc_reg (h.lab_reg q hq) h7
      by_cases e : T.lab z = T.lab q
      · rw [h4, e]
      · have := h8.2.2 e; have := h9.2.2 (Ne.symm e); omega

theorem IsComponentTree.same (h : IsComponentTree adj g px T) (h' : IsComponentTree adj g px T')
    (hne : px.Nonempty) : ∃ f, SameTree px T T' f := by
  classical
  have hleq : ∀ p ∈ px, ∀ q ∈ px, (T.lab p = T.lab q ↔ T'.lab p = T'.lab q) := by
    intro p hp q hq
    rw [h.lab_eq hp hq, h'.lab_eq hp hq]
  obtain ⟨p0, _⟩ := hne
  let f : ι → ι' := fun r => if hr : T.isReg r then T'.lab (h.reg_lab r hr).choose else T'.lab p0
  have hf : ∀ p ∈ px, f (T.lab p) = T'.lab p := by
    intro p hp
    have hr := h.lab_reg p hp
    simp only [f, dif_pos hr]
    obtain ⟨h1, h2⟩ := (h.reg_lab _ hr).choose_spec
    exact (hleq _ h1 p hp).1 h2
  have hunder : ∀ p ∈ px, ∀ q ∈ px, (T'.Under (T'.lab p) q ↔ T.Under (T.lab p) q) := by
    intro p hp q hq
    rw [h.comp _ (h.lab_reg p hp) p hp .refl q hq, h'.comp _ (h'.lab_reg p hp) p hp .refl q hq,
      h.lab_gray p hp, h'.lab_gray p hp]
  refine ⟨f, ?_, ?_, ?_, hf, ?_, ?_, ?_, ?_⟩
  · intro r hr
    obtain ⟨p, hp, rfl⟩ := h.reg_lab r hr
    rw [hf p hp]; exact h'.lab_reg p hp
  · intro r s hr hs e
    obtain ⟨p, hp, rfl⟩ := h.reg_lab r hr
    obtain ⟨q, hq, rfl⟩ := h.reg_lab s hs
    rw [hf p hp, hf q hq] at e
    exact (hleq p hp q hq).2 e
  · intro r hr
    obtain ⟨p, hp, rfl⟩ := h'.reg_lab r hr
    exact ⟨T.lab p, h.lab_reg p hp, hf p hp⟩
  · intro r hr
    obtain ⟨p, hp, rfl⟩ := h.reg_lab r hr
    rw [hf p hp, h.lab_gray p hp, h'.lab_gray p hp]
  · intro r hr
    obtain ⟨p, hp, rfl⟩ := h.reg_lab r hr
    rw [hf p hp, h.size_card hr, h'.size_card (h'.lab_reg p hp)]
    congr 1
    exact Finset.filter_congr (fun q hq => hunder p hp q hq)
  · intro r hr
    obtain ⟨p, hp, rfl⟩ := h.reg_lab r hr
    rw [hf p hp]
    cases hpar : T.parent (T.lab p) with
    | some x =>
      obtain ⟨q, hq, rfl⟩ := h.reg_lab x (h.parent_reg _ hr _ hpar).1
      rw [Option.map_some, hf q hq]
      exact (h'.parent_iff hp hq).2 ((h.parent_iff hp hq).1 hpar)
    | none =>
      cases hpar' : T'.parent (T'.lab p) with
      | none => rfl
      | some x =>
        obtain ⟨q, hq, rfl⟩ := h'.reg_lab x (h'.parent_reg _ (h'.lab_reg p hp) _ hpar').1
        have := (h.parent_iff hp hq).2 ((h'.parent_iff hp hq).1 hpar')
        rw [hpar] at this; simp at this
  · intro r hr q hq
    obtain ⟨p, hp, rfl⟩ := h.reg_lab r hr
    rw [hf p hp]; exact hunder p hp q hq

end Verif.Spec
