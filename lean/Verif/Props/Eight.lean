import Verif.Model.Eight
import Verif.Props.Flood

/-!
# Property C16: 8-neighbour mode (violated)
-/

namespace Verif.Props

open Verif.Spec Verif.Flood
open Function (update)

variable {w h : Nat} {img : Nat → Nat → Nat} {gm : Nat}

theorem mem_px8 {i : Nat} : i ∈ (patch8 w h img gm).px ↔ ∃ x y, x < w ∧ y < h ∧ i = idx w x y :=
  mem_px (img := img) (gm := gm)

/-- A pixel of the first row. -/
def Row0 (w i : Nat) : Prop := ∃ x < w, i = idx w x 0

/-- Invariant: only the first row has been visited. -/
structure OnlyRow0 (w h : Nat) (s : St) : Prop where
  cur : Row0 w s.cur
  heap : ∀ l, ∀ c ∈ s.heap l, Row0 w c
  rest : ∀ x < w, ∀ y, 1 ≤ y → y < h → s.cnt (idx w x y) = 0
  pad : ∀ i, i ∉ (patch8 w h img gm).px → s.cnt i ≠ 0

theorem row0_idx {i x y : Nat} (hi : Row0 w i) (hx : x < w) (hy : 1 ≤ y) : idx w x y ≠ i := by
  obtain ⟨x', hx', rfl⟩ := hi
  unfold idx
  have : (1 + 1) * (w + 2) ≤ (y + 1) * (w + 2) := Nat.mul_le_mul_right _ (by omega)
  omega

theorem row0_px {i : Nat} (hh : 1 ≤ h) (hi : Row0 w i) : i ∈ (patch8 w h img gm).px := by
  obtain ⟨x, hx, rfl⟩ := hi
  exact mem_px8.2 ⟨x, 0, hx, hh, rfl⟩

/-- Cells above the first row and right of it are padding. -/
theorem pad_of_row0 {i : Nat} (h1 : i < idx w 0 0 ∨ i = idx w w 0) : i ∉ (patch8 w h img gm).px := by
  intro hm
  obtain ⟨x, y, hx, hy, e⟩ := mem_px8.1 hm
  unfold idx at *
  have h3 : (0 + 1) * (w + 2) ≤ (y + 1) * (w + 2) := Nat.mul_le_mul_right _ (by omega)
  rcases h1 with h1 | h1
  · omega
  · rcases Nat.eq_zero_or_pos y with rfl | hy'
    · omega
    · have : (1 + 1) * (w + 2) ≤ (y + 1) * (w + 2) := Nat.mul_le_mul_right _ (by omega)
      omega

/-- Directions 1–4 from the first row lead to the first row or to padding. -/
theorem nb8_row0 {i k : Nat} (hi : Row0 w i) (hk : k ≤ 4) :
    Row0 w (nb8 w i k) ∨ nb8 w i k ∉ (patch8 w h img gm).px := by
  obtain ⟨x, hx, rfl⟩ := hi
  have : k = 0 ∨ k = 1 ∨ k = 2 ∨ k = 3 ∨ k = 4 := by omega
  rcases this with rfl | rfl | rfl | rfl | rfl
  · exact .inl ⟨x, hx, rfl⟩
  · by_cases e : x + 1 < w
    · exact .inl ⟨x + 1, e, by simp only [nb8, idx]; omega⟩
    · right; apply pad_of_row0; right; simp only [nb8, idx]; omega
  · right; apply pad_of_row0; left; simp only [nb8, idx]; omega
  · right; apply pad_of_row0; left; simp only [nb8, idx]; omega
  · right; apply pad_of_row0; left; simp only [nb8, idx]; omega

theorem OnlyRow0.upd {s : St} (hh : 1 ≤ h) (_ : OnlyRow0 (img := img) (gm := gm) w h s) {cnt : Nat → Nat} {i v : Nat}
    (hi : Row0 w i) (hr : ∀ x < w, ∀ y, 1 ≤ y → y < h → cnt (idx w x y) = 0)
    (hp : ∀ j, j ∉ (patch8 w h img gm).px → cnt j ≠ 0) :
    (∀ x < w, ∀ y, 1 ≤ y → y < h → update cnt i v (idx w x y) = 0) ∧
    ∀ j, j ∉ (patch8 w h img gm).px → update cnt i v j ≠ 0 := by
  constructor
  · intro x hx y hy hy'
    rw [Function.update_of_ne (row0_idx hi hx hy)]; exact hr x hx y hy hy'
  · intro j hj
    rw [Function.update_of_ne (by rintro rfl; exact hj (row0_px hh hi))]; exact hp j hj

/-- What is true after a step. -/
def After (w h : Nat) : Out → Prop
  | .next s' => OnlyRow0 (img := img) (gm := gm) w h s'
  | .done s' => ∀ x < w, ∀ y, 1 ≤ y → y < h → s'.cnt (idx w x y) = 0
  | .ub => True

theorem onlyRow0_step (hh : 1 ≤ h) {s : St} (hs : OnlyRow0 (img := img) (gm := gm) w h s) :
    After (img := img) (gm := gm) w h (step (patch8 w h img gm) s) := by
  unfold step
  split
  · -- tour
    rename_i hn
    change s.nbr ≤ 4 at hn
    unfold tour
    dsimp only
    have hq := nb8_row0 (h := h) (img := img) (gm := gm) hs.cur hn
    change Row0 w ((patch8 w h img gm).nb s.cur s.nbr) ∨ (patch8 w h img gm).nb s.cur s.nbr ∉ _ at hq
    generalize (patch8 w h img gm).nb s.cur s.nbr = q at hq ⊢
    by_cases hc : s.cnt q = 0
    · rw [if_pos hc]
      have hq0 : Row0 w q := by
        rcases hq with h1 | h1
        · exact h1
        · exact absurd hc (hs.pad q h1)
      obtain ⟨u1, u2⟩ := hs.upd hh (v := 1) hq0 hs.rest hs.pad
      split
      · split
        · obtain ⟨v1, v2⟩ := hs.upd hh (v := s.nbr + 1) hs.cur u1 u2
          refine ⟨hq0, ?_, v1, v2⟩
          dsimp only
          intro l c hcm
          by_cases e : l = s.curGray
          · subst e; rw [Function.update_self] at hcm
            rcases List.mem_cons.1 hcm with rfl | hm
            · exact hs.cur
            · exact hs.heap _ _ hm
          · rw [Function.update_of_ne e] at hcm; exact hs.heap _ _ hcm
        · trivial
      · refine ⟨hs.cur, ?_, u1, u2⟩
        dsimp only
        intro l c hcm
        by_cases e : l = (patch8 w h img gm).gray q
        · subst e; rw [Function.update_self] at hcm
          rcases List.mem_cons.1 hcm with rfl | hm
          · exact hq0
          · exact hs.heap _ _ hm
        · rw [Function.update_of_ne e] at hcm; exact hs.heap _ _ hcm
    · rw [if_neg hc]
      exact ⟨hs.cur, hs.heap, hs.rest, hs.pad⟩
  · -- finish
    obtain ⟨u1, u2⟩ := hs.upd hh (v := s.nbr) hs.cur hs.rest hs.pad
    have pop : ∀ l p ps, s.heap l = p :: ps → Row0 w p ∧ ∀ l', ∀ c ∈ update s.heap l ps l', Row0 w c := by
      intro l p ps e
      refine ⟨hs.heap l p (by rw [e]; simp), fun l' c hc => ?_⟩
      by_cases el : l' = l
      · subst el; rw [Function.update_self] at hc; exact hs.heap l' c (by rw [e]; simp [hc])
      · rw [Function.update_of_ne el] at hc; exact hs.heap l' c hc
    unfold finish
    split
    · dsimp only
      split
      · rename_i p ps e
        obtain ⟨h1, h2⟩ := pop _ _ _ e
        exact ⟨h1, h2, u1, u2⟩
      · split
        · exact u1
        · rename_i l _
          split
          · trivial
          · rename_i p ps e
            obtain ⟨h1, h2⟩ := pop _ _ _ e
            split
            · exact ⟨h1, h2, u1, u2⟩
            · split
              · trivial
              · exact ⟨h1, h2, u1, u2⟩
    · trivial

theorem onlyRow0_init (hw : 1 ≤ w) (hh : 1 ≤ h) :
    OnlyRow0 (img := img) (gm := gm) w h (init (patch8 w h img gm)) := by
  have hst : Row0 w (patch8 w h img gm).start := ⟨0, hw, by simp [patch8, gridPatch, idx]; omega⟩
  refine ⟨hst, by simp [init], ?_, ?_⟩
  · intro x hx y hy hy'
    simp only [init]
    rw [Function.update_of_ne (row0_idx hst hx hy), if_pos (mem_px8.2 ⟨x, y, hx, hy', rfl⟩)]
  · intro i hi
    simp only [init]
    rw [Function.update_of_ne (by rintro rfl; exact hi (row0_px hh hst)), if_neg hi]
    omega

/-- **C16** (violated) In 8-neighbour mode the flood never leaves the first row of a patch: however
long it runs, no pixel below the first row is ever visited. -/
theorem C16_lower_rows_never_visited (hw : 1 ≤ w) (hh : 1 ≤ h) (n : Nat) {s : St}
    (hr : run (patch8 w h img gm) n (init (patch8 w h img gm)) = .next s ∨
      run (patch8 w h img gm) n (init (patch8 w h img gm)) = .done s)
    {x y : Nat} (hx : x < w) (hy : 1 ≤ y) (hy' : y < h) : s.cnt (idx w x y) = 0 := by
  have : ∀ (n : Nat) (t : St), OnlyRow0 (img := img) (gm := gm) w h t →
      (run (patch8 w h img gm) n t = .next s ∨ run (patch8 w h img gm) n t = .done s) →
      s.cnt (idx w x y) = 0 := by
    intro n
    induction n with
    | zero =>
      intro t ht hr
      rcases hr with e | e
      · obtain rfl : t = s := by simpa [run] using e
        exact ht.rest x hx y hy hy'
      · simp [run] at e
    | succ n ih =>
      intro t ht hr
      have hst := onlyRow0_step hh ht
      unfold run at hr
      revert hst hr
      cases step (patch8 w h img gm) t with
      | next t' => intro hst hr; exact ih t' hst hr
      | done t' =>
        intro hst hr
        rcases hr with e | e
        · simp at e
        · obtain rfl : t' = s := by simpa using e
          exact hst x hx y hy hy'
      | ub => intro _ hr; rcases hr with e | e <;> simp at e
  exact this n _ (onlyRow0_init hw hh) hr

/-- **C16** (violated) Whatever the image: the index with which the region of the first finished pixel
(or any other pixel) is looked up – the tour ends with `nbr_index = 5`, the boundary value is `9 << 28` –
is above 2³¹, outside every region array. -/
theorem C16_region_index_out_of_range {er : Nat} (her : er < 2 ^ 28) :
    2 ^ 31 ≤ index8 (word8 5 er) ∧ er < index8 (word8 5 er) := by
  have h1 : word8 5 er = 5 * 2 ^ 28 + er := by
    unfold word8
    rw [← Nat.shiftLeft_add_eq_or_of_lt her, Nat.shiftLeft_eq]
  rw [h1]
  unfold index8
  have : (9 : Nat) <<< 28 = 9 * 2 ^ 28 := by rw [Nat.shiftLeft_eq]
  rw [this]
  omega

/-- **C16** is false of the code: on a one-column, two-row image of one gray value the flood ends with
a region of one pixel (even leaving aside the out-of-range look-up), while the two pixels are one
connected component. -/
theorem C16_eight_neighbour_false : ∃ (w h : Nat) (img : Nat → Nat → Nat) (n : Nat) (s : St),
    ImageOK w h img 0 ∧ run (patch8 w h img 0) n (init (patch8 w h img 0)) = .done s ∧
    ¬ IsComponentTree (Adj8 w h) (fun p => img p.1 p.2) (pixels w h) (gridTree w s) := by
  have h : (match run (patch8 1 2 (fun _ _ => 7) 0) 30 (init (patch8 1 2 (fun _ _ => 7) 0)) with
      | .done s => s.nreg == 1 && (s.regs 0).size == 1 && (s.lab (idx 1 0 0) == 0) && (s.regs 0).gray == 7
      | _ => false) = true := by decide +kernel
  revert h
  cases hr : run (patch8 1 2 (fun _ _ => 7) 0) 30 (init (patch8 1 2 (fun _ _ => 7) 0)) with
  | next s => simp
  | ub => simp
  | done s =>
    intro h
    simp only [Bool.and_eq_true, beq_iff_eq] at h
    obtain ⟨⟨⟨h1, h2⟩, h3⟩, h4⟩ := h
    refine ⟨1, 2, fun _ _ => 7, 30, s, ⟨by decide, by decide, fun _ _ _ _ => by decide, by decide⟩, hr, ?_⟩
    intro hT
    have m0 : ((0, 0) : Nat × Nat) ∈ pixels 1 2 := mem_pixels.2 (by decide)
    have m1 : ((0, 1) : Nat × Nat) ∈ pixels 1 2 := mem_pixels.2 (by decide)
    have hreg : (gridTree 1 s).isReg 0 := by show 0 < s.nreg; omega
    have hu0 : (gridTree 1 s).Under 0 (0, 0) := by
      show Relation.ReflTransGen _ (s.lab (idx 1 0 0)) 0
      rw [h3]
    have hu1 : (gridTree 1 s).Under 0 (0, 1) := by
      refine (hT.comp 0 hreg _ m0 hu0 _ m1).2 (.single ⟨⟨m0, m1, ?_⟩, ?_⟩)
      · decide
      · show 7 ≤ (s.regs 0).gray ∧ 7 ≤ (s.regs 0).gray
        omega
    have hsz := hT.size_eq 0 hreg (pixels 1 2) (fun p => by
      refine ⟨fun hp => ⟨hp, ?_⟩, fun h => h.1⟩
      have hp' := mem_pixels.1 hp
      obtain ⟨a, b⟩ := p
      simp only at hp'
      have ha : a = 0 := by omega
      subst ha
      have hb : b = 0 ∨ b = 1 := by omega
      rcases hb with rfl | rfl
      · exact hu0
      · exact hu1)
    have : (gridTree 1 s).size 0 = 1 := h2
    rw [this] at hsz
    have hcard : (pixels 1 2).card = 2 := by decide
    omega

/-! ### Single rows -/

/-- Visited pixels of a single row form a prefix that contains everything waiting. -/
structure Prefix0 (w : Nat) (s : St) : Prop where
  only : OnlyRow0 (img := img) (gm := gm) w 1 s
  cur : s.cnt s.cur ≠ 0
  heap : ∀ l, ∀ c ∈ s.heap l, s.cnt c ≠ 0
  pre : ∀ x x', x' ≤ x → x < w → s.cnt (idx w x 0) ≠ 0 → s.cnt (idx w x' 0) ≠ 0

theorem row0_inj {x x' : Nat} (h : idx w x 0 = idx w x' 0) : x = x' := by unfold idx at h; omega

/-- On a single row a step of 8-neighbour mode is a step of 4-neighbour mode. -/
theorem step_row {s : St} (hs : Prefix0 (img := img) (gm := gm) w s) :
    step (patch8 w 1 img gm) s = step (gridPatch w 1 img gm) s := by
  unfold step
  by_cases hn : s.nbr ≤ 4
  · rw [show (patch8 w 1 img gm).nd = 4 from rfl, show (gridPatch w 1 img gm).nd = 4 from rfl,
      if_pos hn, if_pos hn]
    have hpx : (patch8 w 1 img gm).px = (gridPatch w 1 img gm).px := rfl
    obtain ⟨x, hx, e⟩ := hs.only.cur
    have up : ∀ i, i < idx w 0 0 ∨ i = idx w w 0 → s.cnt i ≠ 0 := fun i hi =>
      hs.only.pad i (pad_of_row0 hi)
    have below : s.cnt (idx w x 0 + (w + 2)) ≠ 0 := by
      apply hs.only.pad
      intro hm
      obtain ⟨x', y', hx', hy', e'⟩ := mem_px8.1 hm
      have : y' = 0 := by omega
      subst this; unfold idx at e'; omega
    have left : s.cnt (idx w x 0 - 1) ≠ 0 := by
      rcases Nat.eq_zero_or_pos x with rfl | h0
      · apply up; left; unfold idx; omega
      · have := hs.pre x (x - 1) (by omega) hx (by rw [← e]; exact hs.cur)
        rwa [show idx w (x - 1) 0 = idx w x 0 - 1 by unfold idx; omega] at this
    have hk : s.nbr = 0 ∨ s.nbr = 1 ∨ s.nbr = 2 ∨ s.nbr = 3 ∨ s.nbr = 4 := by omega
    unfold tour
    dsimp only
    rw [show (patch8 w 1 img gm).gray = (gridPatch w 1 img gm).gray from rfl,
      show (patch8 w 1 img gm).cap = (gridPatch w 1 img gm).cap from rfl,
      show (patch8 w 1 img gm).nb = nb8 w from rfl, show (gridPatch w 1 img gm).nb = nb4 w from rfl, e]
    rcases hk with k | k | k | k | k <;> rw [k] <;> simp only [nb8, nb4]
    · rw [if_neg (up _ (.inl (by unfold idx; omega))), if_neg (up _ (.inl (by unfold idx; omega)))]
    · rw [if_neg (up _ (.inl (by unfold idx; omega))), if_neg left]
    · rw [if_neg (up _ (.inl (by unfold idx; omega))), if_neg below]
  · rw [show (patch8 w 1 img gm).nd = 4 from rfl, show (gridPatch w 1 img gm).nd = 4 from rfl,
      if_neg hn, if_neg hn]

theorem upd_ne {cnt : Nat → Nat} {i v j : Nat} (hv : v ≠ 0) (hj : cnt j ≠ 0) : update cnt i v j ≠ 0 := by
  by_cases e : j = i
  · subst e; simpa using hv
  · rwa [Function.update_of_ne e]

theorem prefix_step {s s' : St} (hs : Prefix0 (img := img) (gm := gm) w s)
    (hst : step (patch8 w 1 img gm) s = .next s') : Prefix0 (img := img) (gm := gm) w s' := by
  have hO := onlyRow0_step (h := 1) (by omega) hs.only
  rw [hst] at hO
  change OnlyRow0 (img := img) (gm := gm) w 1 s' at hO
  obtain ⟨x, hx, e⟩ := hs.only.cur
  have old : ∀ {i v : Nat} (cnt : Nat → Nat), v ≠ 0 → (∀ x x', x' ≤ x → x < w → cnt (idx w x 0) ≠ 0 → cnt (idx w x' 0) ≠ 0) →
      cnt i ≠ 0 → ∀ x x', x' ≤ x → x < w → update cnt i v (idx w x 0) ≠ 0 → update cnt i v (idx w x' 0) ≠ 0 := by
    intro i v cnt hv hpre hi a a' ha haw hne
    apply upd_ne hv
    by_cases ea : idx w a 0 = i
    · exact hpre a a' ha haw (by rw [ea]; exact hi)
    · rw [Function.update_of_ne ea] at hne; exact hpre a a' ha haw hne
  unfold step at hst
  split at hst
  · rename_i hn
    change s.nbr ≤ 4 at hn
    unfold tour at hst
    dsimp only at hst
    have hq := nb8_row0 (h := 1) (img := img) (gm := gm) hs.only.cur hn
    have hqq : s.cnt (nb8 w s.cur s.nbr) = 0 → ∃ a, x + 1 = a ∧ a < w ∧ nb8 w s.cur s.nbr = idx w a 0 := by
      intro hc
      have hk : s.nbr = 0 ∨ s.nbr = 1 ∨ s.nbr = 2 ∨ s.nbr = 3 ∨ s.nbr = 4 := by omega
      have up : ∀ i, i < idx w 0 0 ∨ i = idx w w 0 → s.cnt i ≠ 0 := fun i hi =>
        hs.only.pad i (pad_of_row0 hi)
      rcases hk with k | k | k | k | k <;> rw [k] at hc ⊢ <;> simp only [nb8] at hc ⊢
      · exact absurd hc hs.cur
      · by_cases e1 : x + 1 < w
        · exact ⟨x + 1, rfl, e1, by rw [e]; unfold idx; omega⟩
        · exact absurd hc (up _ (.inr (by rw [e]; unfold idx; omega)))
      · exact absurd hc (up _ (.inl (by rw [e]; unfold idx; omega)))
      · exact absurd hc (up _ (.inl (by rw [e]; unfold idx; omega)))
      · exact absurd hc (up _ (.inl (by rw [e]; unfold idx; omega)))
    change (if s.cnt (nb8 w s.cur s.nbr) = 0 then _ else _) = _ at hst
    have hnb : (patch8 w 1 img gm).nb s.cur s.nbr = nb8 w s.cur s.nbr := rfl
    by_cases hc : s.cnt (nb8 w s.cur s.nbr) = 0
    · rw [if_pos hc] at hst
      obtain ⟨a, rfl, ha, ea⟩ := hqq hc
      have hpre1 : ∀ b b', b' ≤ b → b < w → update s.cnt (nb8 w s.cur s.nbr) 1 (idx w b 0) ≠ 0 →
          update s.cnt (nb8 w s.cur s.nbr) 1 (idx w b' 0) ≠ 0 := by
        rw [ea]
        intro b b' hb hbw hne
        by_cases eb : b = x + 1
        · subst eb
          by_cases eb' : b' = x + 1
          · subst eb'; simp
          · exact upd_ne (by decide) (hs.pre x b' (by omega) hx (by rw [← e]; exact hs.cur))
        · rw [Function.update_of_ne (fun h => eb (row0_inj h))] at hne
          exact upd_ne (by decide) (hs.pre b b' hb hbw hne)
      split at hst
      · split at hst
        · simp only [Out.next.injEq] at hst
          subst hst
          refine ⟨hO, ?_, ?_, ?_⟩
          · exact upd_ne (by omega) (by rw [hnb]; simp)
          · dsimp only
            intro l c hcm
            apply upd_ne (by omega); apply upd_ne (by decide)
            by_cases el : l = s.curGray
            · subst el; rw [Function.update_self] at hcm
              rcases List.mem_cons.1 hcm with rfl | hm
              · exact hs.cur
              · exact hs.heap _ _ hm
            · rw [Function.update_of_ne el] at hcm; exact hs.heap _ _ hcm
          · dsimp only
            exact old _ (by omega) hpre1 (upd_ne (by decide) hs.cur)
        · simp at hst
      · simp only [Out.next.injEq] at hst
        subst hst
        refine ⟨hO, upd_ne (by decide) hs.cur, ?_, hpre1⟩
        dsimp only
        intro l c hcm
        rw [hnb] at hcm ⊢
        by_cases el : l = (patch8 w 1 img gm).gray (nb8 w s.cur s.nbr)
        · subst el; rw [Function.update_self] at hcm
          rcases List.mem_cons.1 hcm with rfl | hm
          · simp
          · exact upd_ne (by decide) (hs.heap _ _ hm)
        · rw [Function.update_of_ne el] at hcm; exact upd_ne (by decide) (hs.heap _ _ hcm)
    · rw [if_neg hc] at hst
      simp only [Out.next.injEq] at hst
      subst hst
      exact ⟨hO, hs.cur, hs.heap, hs.pre⟩
  · rename_i hn
    change ¬ s.nbr ≤ 4 at hn
    have hv : s.nbr ≠ 0 := by omega
    have hpre1 := old s.cnt hv hs.pre hs.cur (i := s.cur)
    have pop : ∀ l p ps, s.heap l = p :: ps → update s.cnt s.cur s.nbr p ≠ 0 ∧
        ∀ l', ∀ c ∈ update s.heap l ps l', update s.cnt s.cur s.nbr c ≠ 0 := by
      intro l p ps e
      refine ⟨upd_ne hv (hs.heap l p (by rw [e]; simp)), fun l' c hc => upd_ne hv ?_⟩
      by_cases el : l' = l
      · subst el; rw [Function.update_self] at hc; exact hs.heap l' c (by rw [e]; simp [hc])
      · rw [Function.update_of_ne el] at hc; exact hs.heap l' c hc
    unfold finish at hst
    split at hst
    · dsimp only at hst
      split at hst
      · rename_i p ps e
        simp only [Out.next.injEq] at hst
        subst hst
        obtain ⟨h1, h2⟩ := pop _ _ _ e
        exact ⟨hO, h1, h2, hpre1⟩
      · split at hst
        · simp at hst
        · split at hst
          · simp at hst
          · rename_i p ps e
            obtain ⟨h1, h2⟩ := pop _ _ _ e
            split at hst
            · simp only [Out.next.injEq] at hst
              subst hst
              exact ⟨hO, h1, h2, hpre1⟩
            · split at hst
              · simp at hst
              · simp only [Out.next.injEq] at hst
                subst hst
                exact ⟨hO, h1, h2, hpre1⟩
    · simp at hst

/-- **C16** (partial) Leaving aside the out-of-range look-up, single-row images are treated correctly:
there 8-neighbour mode computes what 4-neighbour mode computes, the component tree.  (The full property:
for every image the regions are the components under 8-adjacency.) -/
theorem C16_single_row_partial (hI : ImageOK w 1 img gm) {n : Nat} {s : St}
    (hd : run (patch8 w 1 img gm) n (init (patch8 w 1 img gm)) = .done s) :
    IsComponentTree (Adj8 w 1) (fun p => img p.1 p.2 ^^^ gm) (pixels w 1) (gridTree w s) := by
  have key : ∀ n t, Prefix0 (img := img) (gm := gm) w t →
      run (patch8 w 1 img gm) n t = run (gridPatch w 1 img gm) n t := by
    intro n
    induction n with
    | zero => intros; rfl
    | succ n ih =>
      intro t ht
      unfold run
      rw [step_row ht]
      cases hst : step (gridPatch w 1 img gm) t with
      | next t' => exact ih t' (prefix_step ht (by rw [step_row ht]; exact hst))
      | done _ => rfl
      | ub => rfl
  have hinit : init (patch8 w 1 img gm) = init (gridPatch w 1 img gm) := rfl
  have h0 : Prefix0 (img := img) (gm := gm) w (init (patch8 w 1 img gm)) := by
    have hO := onlyRow0_init (img := img) (gm := gm) (w := w) (h := 1) hI.w_pos (by omega)
    have hst : (patch8 w 1 img gm).start = idx w 0 0 := by simp [patch8, gridPatch, idx]; omega
    refine ⟨hO, by simp [init], by simp [init], ?_⟩
    intro x x' hxx hx hne
    have : x = 0 := by
      by_contra h0
      apply hne
      simp only [init]
      rw [Function.update_of_ne (by rw [hst]; exact fun h => h0 (row0_inj h)),
        if_pos (mem_px8.2 ⟨x, 0, hx, by omega, rfl⟩)]
    have : x' = x := by omega
    rw [this]; exact hne
  rw [key n _ h0, hinit] at hd
  have := C01_flood_builds_component_tree hI hd
  have hadj : Adj8 w 1 = Adj4 w 1 := by
    funext p q
    apply propext
    unfold Adj8 Adj4
    constructor
    · rintro ⟨h1, h2, h3⟩
      refine ⟨h1, h2, ?_⟩
      rw [mem_pixels] at h1 h2
      rw [ne_eq, Prod.ext_iff] at h3
      omega
    · rintro ⟨h1, h2, h3⟩
      refine ⟨h1, h2, ?_⟩
      rw [mem_pixels] at h1 h2
      rw [ne_eq, Prod.ext_iff]
      omega
  rw [hadj]; exact this

example : ImageOK 3 1 sampleImg 0 ∧
    (match run (patch8 3 1 sampleImg 0) 15 (init (patch8 3 1 sampleImg 0)) with
      | .done s => (s.regs 1).size == 3
      | _ => false) = true :=
  ⟨⟨by decide, by decide, fun x y _ _ => by unfold sampleImg; split <;> [skip; split] <;> decide, by decide⟩,
    by decide +kernel⟩

end Verif.Props
