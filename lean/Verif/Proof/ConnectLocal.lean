import Verif.Model.Connect

/-!
# Joins only touch regions reachable from the joined ones

Two forests that agree on a set `S` closed under parent links evolve alike on `S`, and nothing outside
`S` changes.  This is what makes joins on disjoint sets of patches independent of each other.
-/

namespace Verif.Connect

open Function (update)

variable {ι : Type} [DecidableEq ι]

/-- Parent links do not leave `S`. -/
def Closed (S : ι → Prop) (F : Forest ι) : Prop := ∀ r, S r → ∀ r', (F r).parent = some r' → S r'

/-- `o` is null or in `S`. -/
def InO (S : ι → Prop) (o : Option ι) : Prop := ∀ r, o = some r → S r

/-- The two forests agree on `S`. -/
def Agree (S : ι → Prop) (F G : Forest ι) : Prop := ∀ r, S r → F r = G r

/-- Nothing outside `S` differs. -/
def Frame (S : ι → Prop) (F F' : Forest ι) : Prop := ∀ r, ¬ S r → F' r = F r

variable {S : ι → Prop} {F G : Forest ι}

omit [DecidableEq ι] in
theorem chase_local (hC : Closed S F) (hA : Agree S F G) : ∀ (k : Nat) (o : Option ι), InO S o →
    chase F k o = chase G k o ∧ ∀ x, chase F k o = some x → InO S x
  | k, none, _ => ⟨by cases k <;> rfl, fun x hx => by
      have : x = none := by cases k <;> simpa [chase] using hx.symm
      subst this; intro r hr; cases hr⟩
  | 0, some r, h => by
    have e := hA r (h r rfl)
    refine ⟨by simp only [chase, e], fun x hx => ?_⟩
    simp only [chase] at hx
    split at hx
    · simp at hx
    · obtain rfl := Option.some.inj hx; exact h
  | k + 1, some r, h => by
    have e := hA r (h r rfl)
    have ih := chase_local hC hA k (F r).parent (fun r' hr' => hC r (h r rfl) r' hr')
    simp only [chase, ← e]
    split
    · exact ih
    · exact ⟨rfl, fun x hx => by obtain rfl := Option.some.inj hx; exact h⟩

/-- The two states correspond. -/
structure CSim (S : ι → Prop) (c d : CSt ι) : Prop where
  closed : Closed S c.F
  agree : Agree S c.F d.F
  smaller : d.smaller = c.smaller
  bigger : d.bigger = c.bigger
  pix : d.pix = c.pix
  s_in : InO S c.smaller
  b_in : InO S c.bigger

/-- The two outcomes correspond. -/
def RSim (S : ι → Prop) (c d : CSt ι) : CRes ι → CRes ι → Prop
  | .next c', .next d' => CSim S c' d' ∧ Frame S c.F c'.F ∧ Frame S d.F d'.F
  | .stop c', .stop d' => CSim S c' d' ∧ Frame S c.F c'.F ∧ Frame S d.F d'.F
  | .stuck, .stuck => True
  | _, _ => False

theorem update_frame {s : ι} (hs : S s) (n : Node ι) : Frame S F (update F s n) := by
  intro r hr
  have : r ≠ s := by rintro rfl; exact hr hs
  exact Function.update_of_ne this _ _

theorem update_agree {s : ι} (hA : Agree S F G) (n : Node ι) : Agree S (update F s n) (update G s n) := by
  intro r hr
  by_cases e : r = s
  · subst e; simp
  · rw [Function.update_of_ne e, Function.update_of_ne e]; exact hA r hr

theorem update_closed {s : ι} (hC : Closed S F) (n : Node ι) (hn : InO S n.parent) :
    Closed S (update F s n) := by
  intro r hr r' h
  by_cases e : r = s
  · subst e; rw [Function.update_self] at h; exact hn r' h
  · rw [Function.update_of_ne e] at h; exact hC r hr r' h

omit [DecidableEq ι] in
theorem Frame.trans {F F' F'' : Forest ι} (h : Frame S F F') (h' : Frame S F' F'') : Frame S F F'' :=
  fun r hr => (h' r hr).trans (h r hr)

theorem linkStep_local {fuel : Nat} {s b : ι} {pix m m' : Nat} {c d : CSt ι} (hcF : c.F = F) (hdG : d.F = G)
    (hC : Closed S F) (hA : Agree S F G) (hs : S s) (hb : S b) :
    RSim S c d (linkStep fuel F s b pix m) (linkStep fuel G s b pix m') := by
  have es := hA s hs
  obtain ⟨h1, h2⟩ := chase_local hC hA fuel (F s).parent (fun r' hr' => hC s hs r' hr')
  unfold linkStep
  rw [← es, ← h1]
  cases hch : chase F fuel (F s).parent with
  | none => trivial
  | some sp =>
    have hsp := h2 sp hch
    have hA' : Agree S (setParent F s sp) (setParent G s sp) := by
      unfold setParent; rw [← es]; exact update_agree hA _
    have hC' : Closed S (setParent F s sp) := update_closed hC _ hsp
    have hF' : Frame S F (setParent F s sp) := update_frame hs _
    have hG' : Frame S G (setParent G s sp) := update_frame hs _
    have link : RSim S c d
        (.next { F := update (setParent F s sp) s { setParent F s sp s with
                  merged := (setParent F s sp s).merged || decide ((setParent F s sp b).gray = (setParent F s sp s).gray)
                  size := (setParent F s sp s).size + pix
                  parent := some b }
                 smaller := some b, bigger := sp, pix := (setParent F s sp s).size
                 merges := if decide ((setParent F s sp b).gray = (setParent F s sp s).gray) = true then m + 1 else m })
        (.next { F := update (setParent G s sp) s { setParent G s sp s with
                  merged := (setParent G s sp s).merged || decide ((setParent G s sp b).gray = (setParent G s sp s).gray)
                  size := (setParent G s sp s).size + pix
                  parent := some b }
                 smaller := some b, bigger := sp, pix := (setParent G s sp s).size
                 merges := if decide ((setParent G s sp b).gray = (setParent G s sp s).gray) = true then m' + 1 else m' }) := by
      rw [← hA' s hs, ← hA' b hb]
      refine ⟨⟨update_closed hC' _ ?_, update_agree hA' _, rfl, rfl, rfl, ?_, hsp⟩, ?_, ?_⟩
      · intro r hr; obtain rfl := Option.some.inj hr; exact hb
      · intro r hr; obtain rfl := Option.some.inj hr; exact hb
      · rw [hcF]; exact hF'.trans (update_frame hs _)
      · rw [hdG]; exact hG'.trans (update_frame hs _)
    cases sp with
    | none => exact link
    | some x =>
      have hx := hsp x rfl
      dsimp only
      rw [← hA' x hx, ← hA' b hb]
      rw [← hA' b hb] at link
      split
      · refine ⟨⟨update_closed hC' _ ?_, ?_, rfl, rfl, rfl, ?_, ?_⟩, ?_, ?_⟩
        · intro r hr; exact hC' s hs r hr
        · unfold addSize; rw [← hA' s hs]; exact update_agree hA' _
        · intro r hr; obtain rfl := Option.some.inj hr; exact hx
        · intro r hr; obtain rfl := Option.some.inj hr; exact hb
        · rw [hcF]; exact hF'.trans (update_frame hs _)
        · rw [hdG]; exact hG'.trans (update_frame hs _)
      · exact link

theorem connectStep_local {fuel : Nat} {c d : CSt ι} (h : CSim S c d) :
    RSim S c d (connectStep fuel c) (connectStep fuel d) := by
  have hstop : RSim S c d (.stop c) (.stop d) := ⟨h, fun _ _ => rfl, fun _ _ => rfl⟩
  unfold connectStep
  rw [h.smaller, h.bigger]
  cases hs : c.smaller with
  | none => exact hstop
  | some s =>
    cases hb : c.bigger with
    | none => exact hstop
    | some b =>
      have h1 := h.s_in s hs
      have h2 := h.b_in b hb
      dsimp only
      rw [← h.agree s h1, ← h.agree b h2, h.pix]
      split
      · exact hstop
      · split
        · exact linkStep_local rfl rfl h.closed h.agree h2 h1
        · exact linkStep_local rfl rfl h.closed h.agree h1 h2

/-- Corresponding results of a computation that may fail. -/
def OSim {β : Type} (R : β → β → Prop) : Option β → Option β → Prop
  | some x, some y => R x y
  | none, none => True
  | _, _ => False

theorem connectLoop_local {fuel : Nat} : ∀ (n : Nat) {c d : CSt ι}, CSim S c d →
    OSim (fun c' d' => CSim S c' d' ∧ Frame S c.F c'.F ∧ Frame S d.F d'.F)
      (connectLoop fuel n c) (connectLoop fuel n d)
  | 0, _, _, _ => trivial
  | n + 1, c, d, h => by
    have hs := connectStep_local (fuel := fuel) h
    unfold connectLoop
    revert hs
    cases connectStep fuel c <;> cases connectStep fuel d <;> intro hs <;>
      first
      | exact hs.elim
      | skip
    · rename_i c' d'
      obtain ⟨h1, h2, h3⟩ := hs
      have := connectLoop_local (fuel := fuel) n h1
      revert this
      dsimp only
      cases connectLoop fuel n c' <;> cases connectLoop fuel n d' <;> intro this <;>
        first
        | exact this.elim
        | trivial
        | exact ⟨this.1, h2.trans this.2.1, h3.trans this.2.2⟩
    · exact hs
    · trivial

/-- The two forests correspond after a step. -/
def FSim (S : ι → Prop) (F G F' G' : Forest ι) : Prop :=
  Closed S F' ∧ Agree S F' G' ∧ Frame S F F' ∧ Frame S G G'

theorem addUp_local {fuel pix : Nat} : ∀ (n : Nat) {F G : Forest ι} (o : Option ι), Closed S F → Agree S F G →
    InO S o → OSim (FSim S F G) (addUp fuel pix n F o) (addUp fuel pix n G o)
  | n, F, G, none, hC, hA, _ => by
    cases n <;> exact ⟨hC, hA, fun _ _ => rfl, fun _ _ => rfl⟩
  | 0, _, _, some _, _, _, _ => trivial
  | n + 1, F, G, some s, hC, hA, ho => by
    have hs := ho s rfl
    have es := hA s hs
    have hA1 : Agree S (addSize F s pix) (addSize G s pix) := by
      unfold addSize; rw [← es]; exact update_agree hA _
    have hC1 : Closed S (addSize F s pix) := update_closed hC _ (fun r hr => hC s hs r hr)
    obtain ⟨h1, h2⟩ := chase_local hC1 hA1 fuel (addSize F s pix s).parent (fun r' hr' => hC1 s hs r' hr')
    unfold addUp
    dsimp only
    rw [← hA1 s hs, ← h1]
    cases hch : chase (addSize F s pix) fuel (addSize F s pix s).parent with
    | none => trivial
    | some sp =>
      have hsp := h2 sp hch
      have hA2 : Agree S (setParent (addSize F s pix) s sp) (setParent (addSize G s pix) s sp) := by
        unfold setParent; rw [← hA1 s hs]; exact update_agree hA1 _
      have hC2 : Closed S (setParent (addSize F s pix) s sp) := update_closed hC1 _ hsp
      have hF : Frame S F (setParent (addSize F s pix) s sp) :=
        Frame.trans (update_frame hs _) (update_frame hs _)
      have hG : Frame S G (setParent (addSize G s pix) s sp) :=
        Frame.trans (update_frame hs _) (update_frame hs _)
      have := addUp_local (fuel := fuel) (pix := pix) n sp hC2 hA2 hsp
      revert this
      dsimp only
      cases addUp fuel pix n (setParent (addSize F s pix) s sp) sp <;>
        cases addUp fuel pix n (setParent (addSize G s pix) s sp) sp <;> intro this <;>
        first
        | exact this.elim
        | trivial
        | exact ⟨this.1, this.2.1, hF.trans this.2.2.1, hG.trans this.2.2.2⟩

/-- `connect` works alike in forests that agree on a closed set containing its arguments. -/
theorem connect_local {fuel steps : Nat} {W V : World ι} {a b : Option ι} (hC : Closed S W.F)
    (hA : Agree S W.F V.F) (ha : InO S a) (hb : InO S b) :
    OSim (fun W' V' => FSim S W.F V.F W'.F V'.F) (connect fuel steps W a b) (connect fuel steps V a b) := by
  have h := connectLoop_local (S := S) (fuel := fuel) steps
    (c := ⟨W.F, b, a, 0, W.merges⟩) (d := ⟨V.F, b, a, 0, V.merges⟩) ⟨hC, hA, rfl, rfl, rfl, hb, ha⟩
  unfold connect
  revert h
  cases connectLoop fuel steps ⟨W.F, b, a, 0, W.merges⟩ with
  | none =>
    cases connectLoop fuel steps ⟨V.F, b, a, 0, V.merges⟩ with
    | none => intro _; trivial
    | some d => intro h; exact h.elim
  | some c =>
    cases connectLoop fuel steps ⟨V.F, b, a, 0, V.merges⟩ with
    | none => intro h; exact h.elim
    | some d =>
      rintro ⟨h, h1, h2⟩
      dsimp only
      rw [h.bigger]
      cases hbg : c.bigger with
      | some x => exact ⟨h.closed, h.agree, h1, h2⟩
      | none =>
        have := addUp_local (fuel := fuel) (pix := c.pix) steps c.smaller h.closed h.agree h.s_in
        dsimp only
        rw [h.smaller, h.pix]
        revert this
        cases addUp fuel c.pix steps c.F c.smaller <;> cases addUp fuel c.pix steps d.F c.smaller <;> intro this <;>
          first
          | exact this.elim
          | trivial
          | exact ⟨this.1, this.2.1, Frame.trans h1 this.2.2.1, Frame.trans h2 this.2.2.2⟩

theorem joinAt_local {fuel steps : Nat} {W V : World ι} {a b : ι} (hC : Closed S W.F)
    (hA : Agree S W.F V.F) (ha : S a) (hb : S b) :
    OSim (fun W' V' => FSim S W.F V.F W'.F V'.F) (joinAt fuel steps W a b) (joinAt fuel steps V a b) := by
  have ia : InO S (some a) := fun r hr => by obtain rfl := Option.some.inj hr; exact ha
  have ib : InO S (some b) := fun r hr => by obtain rfl := Option.some.inj hr; exact hb
  obtain ⟨h1, h2⟩ := chase_local hC hA fuel (some a) ia
  obtain ⟨h3, h4⟩ := chase_local hC hA fuel (some b) ib
  unfold joinAt
  rw [← h1, ← h3]
  cases hca : chase W.F fuel (some a) with
  | none => trivial
  | some a' =>
    cases hcb : chase W.F fuel (some b) with
    | none => trivial
    | some b' => exact connect_local hC hA (h2 a' hca) (h4 b' hcb)

theorem joinAll_local {fuel steps : Nat} : ∀ (l : List (ι × ι)) {W V : World ι}, Closed S W.F →
    Agree S W.F V.F → (∀ e ∈ l, S e.1 ∧ S e.2) →
    OSim (fun W' V' => FSim S W.F V.F W'.F V'.F) (joinAll fuel steps W l) (joinAll fuel steps V l)
  | [], W, V, hC, hA, _ => ⟨hC, hA, fun _ _ => rfl, fun _ _ => rfl⟩
  | (a, b) :: l, W, V, hC, hA, hl => by
    have h0 := hl (a, b) (by simp)
    have h := joinAt_local (fuel := fuel) (steps := steps) hC hA h0.1 h0.2
    unfold joinAll
    revert h
    cases joinAt fuel steps W a b with
    | none =>
      cases joinAt fuel steps V a b with
      | none => intro _; trivial
      | some d => intro h; exact h.elim
    | some W1 =>
      cases joinAt fuel steps V a b with
      | none => intro h; exact h.elim
      | some V1 =>
        rintro ⟨h1, h2, h3, h4⟩
        have := joinAll_local (fuel := fuel) (steps := steps) l h1 h2 (fun e he => hl e (by simp [he]))
        revert this
        dsimp only
        cases joinAll fuel steps W1 l <;> cases joinAll fuel steps V1 l <;> intro this <;>
          first
          | exact this.elim
          | trivial
          | exact ⟨this.1, this.2.1, h3.trans this.2.2.1, h4.trans this.2.2.2⟩

/-- Joining two lists on disjoint closed sets commutes, forest for forest. -/
theorem joinAll_comm {fuel steps : Nat} {S T : ι → Prop} {l k : List (ι × ι)} {W : World ι}
    (hS : Closed S W.F) (hT : Closed T W.F) (hd : ∀ r, S r → ¬ T r)
    (hl : ∀ e ∈ l, S e.1 ∧ S e.2) (hk : ∀ e ∈ k, T e.1 ∧ T e.2) {A B AB BA : World ι}
    (hA : joinAll fuel steps W l = some A) (hAB : joinAll fuel steps A k = some AB)
    (hB : joinAll fuel steps W k = some B) (hBA : joinAll fuel steps B l = some BA) : AB.F = BA.F := by
  -- run l on W: changes S only
  have l1 := joinAll_local (fuel := fuel) (steps := steps) l (W := W) (V := W) hS (fun _ _ => rfl) hl
  rw [hA] at l1
  obtain ⟨_, _, a3, _⟩ := l1
  have k1 := joinAll_local (fuel := fuel) (steps := steps) k (W := W) (V := W) hT (fun _ _ => rfl) hk
  rw [hB] at k1
  obtain ⟨_, _, b3, _⟩ := k1
  have k2 := joinAll_local (fuel := fuel) (steps := steps) k (W := W) (V := A) hT
    (fun r hr => (a3 r (fun h => hd r h hr)).symm) hk
  rw [hB, hAB] at k2
  obtain ⟨_, c2, _, c4⟩ := k2
  have l2 := joinAll_local (fuel := fuel) (steps := steps) l (W := W) (V := B) hS
    (fun r hr => (b3 r (hd r hr)).symm) hl
  rw [hA, hBA] at l2
  obtain ⟨_, d2, _, d4⟩ := l2
  funext r
  by_cases hr : S r
  · rw [← d2 r hr]; exact c4 r (hd r hr)
  · by_cases ht : T r
    · rw [← c2 r ht]; exact (d4 r hr).symm
    · rw [c4 r ht, a3 r hr, d4 r hr, b3 r ht]

end Verif.Connect
