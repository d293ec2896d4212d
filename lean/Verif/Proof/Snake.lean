import Verif.Spec.Image
import Verif.Proof.Tree
import Mathlib.Data.Finset.Max

/-!
# Proof: regions apart from each other leave room

A path through all pixels of an image that goes from neighbour to neighbour (row by row, in alternating
direction).  Regions that do not touch are separated on it by pixels outside of all of them.
-/

namespace Verif.Spec

variable {α ι : Type}

/-- On a path through all pixels, sets that do not touch are separated by pixels outside. -/
theorem separated_card [Nonempty α] {px : Finset α} {idx : α → Nat} {adj : α → α → Prop} {tops : Finset ι}
    {mem : ι → α → Prop}
    (hinj : ∀ p ∈ px, ∀ q ∈ px, idx p = idx q → p = q)
    (hstep : ∀ p ∈ px, idx p ≠ 0 → ∃ q ∈ px, idx q + 1 = idx p ∧ adj q p)
    (hne : ∀ t ∈ tops, ∃ p ∈ px, mem t p)
    (hdis : ∀ t ∈ tops, ∀ t' ∈ tops, ∀ p ∈ px, mem t p → mem t' p → t = t')
    (hadj : ∀ t ∈ tops, ∀ t' ∈ tops, ∀ p ∈ px, ∀ q ∈ px, mem t p → mem t' q → adj p q → t = t') {out : Finset α}
    (hout : ∀ p ∈ px, (∀ t ∈ tops, ¬ mem t p) → p ∈ out) : tops.card ≤ out.card + 1 := by
  classical
  have hfirst : ∀ t ∈ tops, ∃ p, p ∈ px ∧ mem t p ∧ ∀ q ∈ px, mem t q → idx p ≤ idx q := by
    intro t ht
    obtain ⟨p0, hp0, hm0⟩ := hne t ht
    obtain ⟨p, hp, hmin⟩ := Finset.exists_min_image (px.filter (mem t)) idx ⟨p0, Finset.mem_filter.2 ⟨hp0, hm0⟩⟩
    rw [Finset.mem_filter] at hp
    exact ⟨p, hp.1, hp.2, fun q hq hm => hmin q (Finset.mem_filter.2 ⟨hq, hm⟩)⟩
  choose! f hf using hfirst
  have hprev : ∀ t ∈ tops, idx (f t) ≠ 0 → ∃ q, q ∈ out ∧ q ∈ px ∧ idx q + 1 = idx (f t) := by
    intro t ht h0
    obtain ⟨h1, h2, h3⟩ := hf t ht
    obtain ⟨q, hq, hi, ha⟩ := hstep _ h1 h0
    refine ⟨q, hout q hq fun t' ht' hm => ?_, hq, hi⟩
    have := hadj t' ht' t ht q hq _ h1 hm h2 ha
    subst this
    have := h3 q hq hm
    omega
  choose! g hg using hprev
  have hfi : ∀ t ∈ tops, ∀ t' ∈ tops, idx (f t) = idx (f t') → t = t' := by
    intro t ht t' ht' e
    obtain ⟨h1, h2, _⟩ := hf t ht
    obtain ⟨h1', h2', _⟩ := hf t' ht'
    have := hinj _ h1 _ h1' e
    rw [← this] at h2'
    exact hdis t ht t' ht' _ h1 h2 h2'
  have hA : (tops.filter fun t => idx (f t) = 0).card ≤ 1 := by
    rw [Finset.card_le_one]
    intro a ha b hb
    rw [Finset.mem_filter] at ha hb
    exact hfi a ha.1 b hb.1 (by rw [ha.2, hb.2])
  have hB : (tops.filter fun t => ¬ idx (f t) = 0).card ≤ out.card := by
    refine Finset.card_le_card_of_injOn g ?_ ?_
    · intro t ht
      have ht' := Finset.mem_filter.1 (Finset.mem_coe.1 ht)
      exact (hg t ht'.1 ht'.2).1
    · intro a ha b hb e
      have ha' := Finset.mem_filter.1 (Finset.mem_coe.1 ha)
      have hb' := Finset.mem_filter.1 (Finset.mem_coe.1 hb)
      have h1 := (hg a ha'.1 ha'.2).2.2
      have h2 := (hg b hb'.1 hb'.2).2.2
      rw [e] at h1
      exact hfi a ha'.1 b hb'.1 (by omega)
  have := Finset.card_filter_add_card_filter_not (s := tops) (fun t => idx (f t) = 0)
  omega

/-- The place of a pixel on the path. -/
def snake (w : Nat) (p : Nat × Nat) : Nat := p.2 * w + if p.2 % 2 = 0 then p.1 else w - 1 - p.1

theorem snake_inj {w h : Nat} : ∀ p ∈ pixels w h, ∀ q ∈ pixels w h, snake w p = snake w q → p = q := by
  rintro ⟨x, y⟩ hp ⟨x', y'⟩ hq e
  rw [mem_pixels] at hp hq
  simp only [snake] at hp hq e
  have key : ∀ a b c d : Nat, c < w → d < w → a * w + c = b * w + d → a = b ∧ c = d := by
    intro a b c d hc hd e
    have h1 : (a * w + c) / w = a := by
      rw [Nat.mul_comm, Nat.mul_add_div (by omega), Nat.div_eq_of_lt hc, Nat.add_zero]
    have h2 : (b * w + d) / w = b := by
      rw [Nat.mul_comm, Nat.mul_add_div (by omega), Nat.div_eq_of_lt hd, Nat.add_zero]
    have : a = b := by rw [← h1, ← h2, e]
    subst this
    exact ⟨rfl, by omega⟩
  obtain ⟨h1, h2⟩ := key _ _ _ _ (by split <;> omega) (by split <;> omega) e
  subst h1
  rw [Prod.mk.injEq]
  refine ⟨?_, rfl⟩
  split at h2 <;> omega

theorem snake_step {w h : Nat} : ∀ p ∈ pixels w h, snake w p ≠ 0 →
    ∃ q ∈ pixels w h, snake w q + 1 = snake w p ∧ Adj4 w h q p := by
  rintro ⟨x, y⟩ hp h0
  have hp' := hp
  rw [mem_pixels] at hp
  simp only [snake] at hp h0
  have hup : ∀ z, y = z + 1 → y * w = z * w + w := by rintro z rfl; rw [Nat.succ_mul]
  by_cases hy : y % 2 = 0
  · rw [if_pos hy] at h0
    by_cases hx : x = 0
    · subst hx
      obtain ⟨z, rfl⟩ : ∃ z, y = z + 1 := by
        cases y with
        | zero => simp at h0
        | succ z => exact ⟨z, rfl⟩
      have hq : (0, z) ∈ pixels w h := by rw [mem_pixels]; simp only; omega
      refine ⟨(0, z), hq, ?_, hq, hp', .inr ⟨rfl, .inl rfl⟩⟩
      simp only [snake]
      rw [if_pos hy, if_neg (by omega), hup z rfl]
      omega
    · have hq : (x - 1, y) ∈ pixels w h := by rw [mem_pixels]; simp only; omega
      refine ⟨(x - 1, y), hq, ?_, hq, hp', .inl ⟨rfl, .inl (by simp only; omega)⟩⟩
      simp only [snake]
      rw [if_pos hy, if_pos hy]
      omega
  · rw [if_neg hy] at h0
    by_cases hx : x + 1 = w
    · obtain ⟨z, rfl⟩ : ∃ z, y = z + 1 := by
        cases y with
        | zero => simp at hy
        | succ z => exact ⟨z, rfl⟩
      have hq : (x, z) ∈ pixels w h := by rw [mem_pixels]; simp only; omega
      refine ⟨(x, z), hq, ?_, hq, hp', .inr ⟨rfl, .inl rfl⟩⟩
      simp only [snake]
      rw [if_neg hy, if_pos (by omega), hup z rfl]
      omega
    · have hq : (x + 1, y) ∈ pixels w h := by rw [mem_pixels]; simp only; omega
      refine ⟨(x + 1, y), hq, ?_, hq, hp', .inl ⟨rfl, .inr rfl⟩⟩
      simp only [snake]
      rw [if_neg hy, if_neg hy]
      omega

/-- Regions of a component tree of which neither contains the other do not touch. -/
theorem IsComponentTree.no_touch {adj : α → α → Prop} {g : α → Nat} {px : Finset α} {T : RegionTree α ι}
    (hT : IsComponentTree adj g px T) {r r' : ι} {p q : α} (hr : T.isReg r) (hr' : T.isReg r') (hp : p ∈ px)
    (hq : q ∈ px) (hrp : T.Under r p) (hrq : T.Under r' q) (ha : adj p q) (hs : adj q p) :
    T.Anc r r' ∨ T.Anc r' r := by
  have hgp : g p ≤ T.gray r := (hT.under_reg hp hrp).2
  have hgq : g q ≤ T.gray r' := (hT.under_reg hq hrq).2
  rcases le_total (T.gray r) (T.gray r') with h | h
  · left
    have : T.Under r' p := (hT.comp r' hr' q hq hrq p hp).2 (.single ⟨hs, hgq, by omega⟩)
    exact hT.anc_of_common hp hrp this h
  · right
    have : T.Under r q := (hT.comp r hr p hp hrp q hq).2 (.single ⟨ha, hgp, by omega⟩)
    exact hT.anc_of_common hq hrq this h

end Verif.Spec
