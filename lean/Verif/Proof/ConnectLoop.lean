import Verif.Proof.Connect

/-!
# Joining trees: the loop
-/

namespace Verif.Connect

open Function (update)
open Relation (ReflTransGen)
open Verif.Spec (LConn IsComponentTree RegionTree)

variable {ι : Type} [DecidableEq ι] {α : Type}

/-- What stays fixed during one join: the regions, their grays, the labelled pixels, and the
connectivity `tgt` the result must have. -/
structure Ctx (ι α : Type) where
  isReg : ι → Prop
  gr : ι → Nat
  px : Finset α
  lab : α → ι
  g : α → Nat
  tgt : Nat → α → α → Prop
  /-- whether sizes are followed (`False` when only termination matters) -/
  track : Prop

variable {C : Ctx ι α}

/-- Connectivity of the forest plus a pending pair. -/
def ConnOk (C : Ctx ι α) (F : Forest ι) (s b : Option ι) : Prop :=
  ∀ l, ∀ p ∈ C.px, ∀ q ∈ C.px, C.g p ≤ l → C.g q ≤ l →
    (C.tgt l p q ↔ LConn (fun x y => edge F x y ∨ pend s b x y) C.gr l (C.lab p) (C.lab q))

/-- Size bookkeeping: `c` pixels must still be added above `s` and are already counted above `b`. -/
def SizeOk (C : Ctx ι α) (F : Forest ι) (s b : Option ι) (c : Nat) : Prop :=
  C.track → ∀ r, C.isReg r → (F r).merged = false →
    ∃ u v : Nat, (F r).size + u = cnt C.px C.lab F r + v ∧
      (UpO F s r → u = c) ∧ (¬ UpO F s r → u = 0) ∧ (UpO F b r → v = c) ∧ (¬ UpO F b r → v = 0)

/-- Invariant of the loop of `connect`. -/
structure LInv (C : Ctx ι α) (c : CSt ι) : Prop where
  str : Str C.isReg C.gr c.F c.merges
  s_ok : ∃ s, c.smaller = some s ∧ C.isReg s ∧ (c.F s).merged = false
  b_ok : ∀ b, c.bigger = some b → C.isReg b ∧ (c.F b).merged = false
  ord : c.pix = 0 ∨ ∀ s b, c.smaller = some s → c.bigger = some b → C.gr s ≤ C.gr b
  conn : ConnOk C c.F c.smaller c.bigger
  size : SizeOk C c.F c.smaller c.bigger c.pix

omit [DecidableEq ι] in
theorem pend_symm {s b : Option ι} {x y : ι} (h : pend s b x y) : pend s b y x := h.symm

omit [DecidableEq ι] in
theorem pend_swap {s b : Option ι} : pend s b = pend b s := by
  funext x y; unfold pend; apply propext; tauto

omit [DecidableEq ι] in
theorem SizeOk.swap {F : Forest ι} {s b : Option ι} (h : SizeOk C F s b 0) : SizeOk C F b s 0 := by
  intro ht r hr hl
  obtain ⟨u, v, h1, h2, h3, h4, h5⟩ := h ht r hr hl
  have hu : u = 0 := by by_cases k : UpO F s r; exacts [h2 k, h3 k]
  have hv : v = 0 := by by_cases k : UpO F b r; exacts [h4 k, h5 k]
  exact ⟨0, 0, by omega, by simp, by simp, by simp, by simp⟩

/-- Value used for termination. -/
def val (C : Ctx ι α) : Option ι → Nat
  | none => 256
  | some r => C.gr r

omit [DecidableEq ι] in
theorem upO_some {F : Forest ι} {x r : ι} : UpO F (some x) r ↔ Up F x r := by
  unfold UpO; constructor
  · rintro ⟨y, h1, h2⟩; obtain rfl := Option.some.inj h1; exact h2
  · intro h; exact ⟨x, rfl, h⟩

/-- Advancing: `smaller := smaller_parent` (629–630). -/
theorem advance {F : Forest ι} {s b x : ι} {pix m : Nat}
    (h : LInv C ⟨F, some s, some b, pix, m⟩) (hne : s ≠ b) (hle : C.gr s ≤ C.gr b)
    (hpar : (F s).parent = some x) (hx : C.isReg x ∧ (F x).merged = false ∧ C.gr s < C.gr x)
    (hlt : C.gr x ≤ C.gr b) : LInv C ⟨addSize F s pix, some x, some b, pix, m⟩ := by
  obtain ⟨hstr, ⟨s', hs', hsr, hsl⟩, hb, hord, hconn, hsize⟩ := h
  obtain rfl := Option.some.inj hs'
  dsimp only at hstr hsl hb hord hconn hsize
  obtain ⟨hbr, hbl⟩ := hb b rfl
  have hP : ∀ r, (addSize F s pix r).parent = (F r).parent := by
    intro r; unfold addSize
    by_cases e : r = s
    · subst e; simp
    · simp [Function.update_of_ne e]
  have hM : ∀ r, (addSize F s pix r).merged = (F r).merged := by
    intro r; unfold addSize
    by_cases e : r = s
    · subst e; simp
    · simp [Function.update_of_ne e]
  have hG : ∀ r, (addSize F s pix r).gray = (F r).gray := by
    intro r; unfold addSize
    by_cases e : r = s
    · subst e; simp
    · simp [Function.update_of_ne e]
  have hrp : RealPar F s (some x) := .some x x 0 hpar ⟨hx.2.1, rfl⟩
  have hbs : ¬ Up F b s := fun hu => by
    have := hstr.up_lt hbr hbl hu (fun e => hne e.symm); omega
  have hxs : ¬ Up F x s := fun hu => by have := (hstr.up hx.1 hu).2; omega
  refine ⟨hstr.congr hG hM hP, ⟨x, rfl, hx.1, by dsimp only; rw [hM]; exact hx.2.1⟩, ?_, ?_, ?_, ?_⟩
  · dsimp only
    intro b' hb'; obtain rfl := Option.some.inj hb'
    exact ⟨hbr, by rw [hM]; exact hbl⟩
  · right; intro s' b' h1 h2
    obtain rfl := Option.some.inj h1
    obtain rfl := Option.some.inj h2
    omega
  · dsimp only
    intro l p hp q hq hpl hql
    rw [hconn l p hp q hq hpl hql, edge_congr hP]
    constructor
    · refine lconn_of_edges ?_
      rintro u v (e | ⟨e1, e2⟩ | ⟨e1, e2⟩)
      · exact LConn.edge (.inl e) (by omega) (by omega)
      · obtain rfl := Option.some.inj e1; obtain rfl := Option.some.inj e2
        exact (LConn.edge (b := x) (.inl (.inl hpar)) (by omega) (by omega)).trans
          (LConn.edge (.inr (.inl ⟨rfl, rfl⟩)) (by omega) (by omega))
      · obtain rfl := Option.some.inj e1; obtain rfl := Option.some.inj e2
        exact (LConn.edge (b := x) (.inr (.inr ⟨rfl, rfl⟩)) (by omega) (by omega)).trans
          (LConn.edge (.inl (.inr hpar)) (by omega) (by omega))
    · refine lconn_of_edges ?_
      rintro u v (e | ⟨e1, e2⟩ | ⟨e1, e2⟩)
      · exact LConn.edge (.inl e) (by omega) (by omega)
      · obtain rfl := Option.some.inj e1; obtain rfl := Option.some.inj e2
        exact (LConn.edge (b := s) (.inl (.inr hpar)) (by omega) (by omega)).trans
          (LConn.edge (.inr (.inl ⟨rfl, rfl⟩)) (by omega) (by omega))
      · obtain rfl := Option.some.inj e1; obtain rfl := Option.some.inj e2
        exact (LConn.edge (b := s) (.inr (.inr ⟨rfl, rfl⟩)) (by omega) (by omega)).trans
          (LConn.edge (.inl (.inl hpar)) (by omega) (by omega))
  · dsimp only
    intro ht r hr hl
    rw [hM] at hl
    obtain ⟨u, v, h1, h2, h3, h4, h5⟩ := hsize ht r hr hl
    have hcnt : cnt C.px C.lab (addSize F s pix) r = cnt C.px C.lab F r :=
      cnt_congr (fun p _ => by rw [up_congr hP])
    have hUO : ∀ o, UpO (addSize F s pix) o r ↔ UpO F o r := by
      intro o; unfold UpO; rw [up_congr hP]
    rw [hcnt]; simp only [hUO]
    by_cases e : r = s
    · subst e
      have hu := h2 (upO_some.2 .refl)
      have hv := h5 (fun h => hbs (upO_some.1 h))
      have : ¬ UpO F (some x) r := fun h => hxs (upO_some.1 h)
      have hsz : (addSize F r pix r).size = (F r).size + pix := by simp [addSize]
      exact ⟨0, v, by omega, fun h => absurd h this, fun _ => rfl, h4, h5⟩
    · have hsz : (addSize F s pix r).size = (F r).size := by
        unfold addSize; rw [Function.update_of_ne e]
      rw [hsz]
      have := hrp.up_iff hl (Ne.symm e)
      rw [← upO_some] at this
      exact ⟨u, v, h1, fun h => h2 (this.2 h), fun h => h3 (fun k => h (this.1 k)), h4, h5⟩

/-- The merged chains after `s` was merged into the live region `b`. -/
theorem res_merge {F F' : Forest ι} {s b : ι} (hm : ∀ r, r ≠ s → (F' r).merged = (F r).merged)
    (hp : ∀ r, r ≠ s → (F' r).parent = (F r).parent) (hs : (F s).merged = false)
    (hs' : (F' s).merged = true) (hps : (F' s).parent = some b) (hb : (F b).merged = false)
    (hne : s ≠ b) : ∀ {k : Nat} {r x : ι}, Res F k r x →
      if x = s then Res F' (k + 1) r b else Res F' k r x
  | 0, r, x, ⟨h1, h2⟩ => by
    subst h2
    split
    · rename_i e; subst e
      exact ⟨hs', b, hps, by rw [hm b (Ne.symm hne)]; exact hb, rfl⟩
    · rename_i e; exact ⟨by rw [hm r e]; exact h1, rfl⟩
  | k + 1, r, x, ⟨h1, r', h2, h3⟩ => by
    have e : r ≠ s := by rintro rfl; rw [hs] at h1; simp at h1
    have ih := res_merge hm hp hs hs' hps hb hne h3
    split
    · rename_i e'; rw [if_pos e'] at ih
      exact ⟨by rw [hm r e]; exact h1, r', by rw [hp r e]; exact h2, ih⟩
    · rename_i e'; rw [if_neg e'] at ih
      exact ⟨by rw [hm r e]; exact h1, r', by rw [hp r e]; exact h2, ih⟩

/-- Linking: `smaller->m_parent = bigger` (632–643). -/
theorem link {F : Forest ι} {s b : ι} {sp : Option ι} {pix m : Nat}
    (h : LInv C ⟨F, some s, some b, pix, m⟩) (hne : s ≠ b) (hle : C.gr s ≤ C.gr b)
    (hpar : (F s).parent = sp) (hsp : ∀ x, sp = some x → C.isReg x ∧ (F x).merged = false ∧ C.gr s < C.gr x)
    (hge : ∀ x, sp = some x → C.gr b ≤ C.gr x) :
    LInv C ⟨update F s { F s with
          merged := (F s).merged || decide ((F b).gray = (F s).gray)
          size := (F s).size + pix
          parent := some b }, some b, sp, (F s).size,
        if decide ((F b).gray = (F s).gray) then m + 1 else m⟩ := by
  obtain ⟨hstr, ⟨s', hs', hsr, hsl⟩, hb, hord, hconn, hsize⟩ := h
  obtain rfl := Option.some.inj hs'
  dsimp only at hstr hsl hb hord hconn hsize
  obtain ⟨hbr, hbl⟩ := hb b rfl
  generalize hF' : update F s { F s with
          merged := (F s).merged || decide ((F b).gray = (F s).gray)
          size := (F s).size + pix
          parent := some b } = F'
  have hO : ∀ r, r ≠ s → F' r = F r := fun r e => by rw [← hF', Function.update_of_ne e]
  have hS : F' s = { F s with
          merged := (F s).merged || decide ((F b).gray = (F s).gray)
          size := (F s).size + pix
          parent := some b } := by rw [← hF', Function.update_self]
  have hP : ∀ r, r ≠ s → (F' r).parent = (F r).parent := fun r e => by rw [hO r e]
  have hPs : (F' s).parent = some b := by rw [hS]
  have hbne : b ≠ s := Ne.symm hne
  have hbs : ¬ Up F b s := fun hu => by
    have := hstr.up_lt hbr hbl hu hbne; omega
  have hac : ∀ y, (F s).parent = some y → ¬ Up F y s := fun z hz hu => by
    have := hstr.live_lt s hsr hsl z hz
    have := (hstr.up (hstr.par_reg s hsr z hz) hu).2
    omega
  have hrp : RealPar F s sp := by
    cases sp with
    | none => exact .none hpar
    | some x => exact .some x x 0 hpar ⟨(hsp x rfl).2.1, rfl⟩
  have hMs : (F' s).merged = decide (C.gr b = C.gr s) := by
    rw [hS]; simp [hsl, hstr.gray]
  have hgd : decide ((F b).gray = (F s).gray) = decide (C.gr b = C.gr s) := by simp [hstr.gray]
  rw [hgd]
  have hMO : ∀ r, r ≠ s → (F' r).merged = (F r).merged := fun r e => by rw [hO r e]
  have hspne : ∀ x, sp = some x → x ≠ s := fun x hx e => by
    subst e; have := (hsp _ hx).2.2; omega
  refine ⟨?_, ⟨b, rfl, hbr, by dsimp only; rw [hMO b hbne]; exact hbl⟩, ?_, ?_, ?_, ?_⟩
  · dsimp only
    exact {
      gray := by
        intro r
        by_cases e : r = s
        · subst e; rw [hS]; exact hstr.gray _
        · rw [hO r e]; exact hstr.gray r
      gray_lt := hstr.gray_lt
      par_reg := by
        intro r hr r' h1
        by_cases e : r = s
        · subst e; rw [hPs] at h1; obtain rfl := Option.some.inj h1; exact hbr
        · rw [hP r e] at h1; exact hstr.par_reg r hr r' h1
      reg_par := by
        intro r r' h1
        by_cases e : r = s
        · subst e; exact hsr
        · rw [hP r e] at h1; exact hstr.reg_par r r' h1
      live_lt := by
        intro r hr h0 r' h1
        by_cases e : r = s
        · subst e; rw [hPs] at h1; obtain rfl := Option.some.inj h1
          rw [hMs] at h0
          have : C.gr b ≠ C.gr r := by simpa using h0
          omega
        · rw [hP r e] at h1; rw [hMO r e] at h0; exact hstr.live_lt r hr h0 r' h1
      merged_eq := by
        intro r hr h0
        by_cases e : r = s
        · subst e; rw [hMs] at h0
          exact ⟨b, hPs, by simpa using h0⟩
        · rw [hP r e]; rw [hMO r e] at h0; exact hstr.merged_eq r hr h0
      res := by
        intro r hr
        obtain ⟨k, hk, x, hx⟩ := hstr.res r hr
        by_cases hm : C.gr b = C.gr s
        · have hMs' : (F' s).merged = true := by rw [hMs]; simpa using hm
          have := res_merge hMO hP hsl hMs' hPs hbl hne hx
          rw [if_pos (by simpa using hm)]
          by_cases e : x = s
          · rw [if_pos e] at this; exact ⟨k + 1, by omega, b, this⟩
          · rw [if_neg e] at this; exact ⟨k, by omega, x, this⟩
        · rw [if_neg (by simpa using hm)]
          refine ⟨k, hk, x, res_congr ?_ ?_ hx⟩
          · intro r
            by_cases e : r = s
            · subst e; rw [hMs, hsl]; simpa using hm
            · exact hMO r e
          · intro r h1
            refine hP r ?_
            rintro rfl; rw [hsl] at h1; simp at h1 }
  · dsimp only
    intro x hx
    exact ⟨(hsp x hx).1, by rw [hMO x (hspne x hx)]; exact (hsp x hx).2.1⟩
  · right; intro s' b' h1 h2
    obtain rfl := Option.some.inj h1
    exact hge b' h2
  · dsimp only
    intro l p hp q hq hpl hql
    rw [hconn l p hp q hq hpl hql]
    constructor
    · refine lconn_of_edges ?_
      have key : ∀ v, (F s).parent = some v →
          LConn (fun x y => edge F' x y ∨ pend (some b) sp x y) C.gr (C.gr v) s v := by
        intro v hv
        have hv' : sp = some v := by rw [← hpar]; exact hv
        have := hge v hv'
        exact (LConn.edge (b := b) (.inl (.inl hPs)) (by omega) (by omega)).trans
          (LConn.edge (.inr (.inl ⟨rfl, hv'⟩)) (by omega) (by omega))
      have hsym : ∀ u v, (edge F' u v ∨ pend (some b) sp u v) → (edge F' v u ∨ pend (some b) sp v u) :=
        fun u v hh => hh.elim (fun e => .inl (edge_symm e)) (fun e => .inr (pend_symm e))
      rintro u v ((e | e) | ⟨e1, e2⟩ | ⟨e1, e2⟩)
      · by_cases hu : u = s
        · subst hu; exact (key v e).mono (by omega)
        · exact LConn.edge (.inl (.inl (by rw [hP u hu]; exact e))) (by omega) (by omega)
      · by_cases hu : v = s
        · subst hu; exact ((key u e).symm hsym).mono (by omega)
        · exact LConn.edge (.inl (.inr (by rw [hP v hu]; exact e))) (by omega) (by omega)
      · obtain rfl := Option.some.inj e1; obtain rfl := Option.some.inj e2
        exact LConn.edge (.inl (.inl hPs)) (by omega) (by omega)
      · obtain rfl := Option.some.inj e1; obtain rfl := Option.some.inj e2
        exact LConn.edge (.inl (.inr hPs)) (by omega) (by omega)
    · refine lconn_of_edges ?_
      have key : ∀ v, sp = some v →
          LConn (fun x y => edge F x y ∨ pend (some s) (some b) x y) C.gr (C.gr v) b v := by
        intro v hv
        have := hge v hv
        exact (LConn.edge (b := s) (.inr (.inr ⟨rfl, rfl⟩)) (by omega) (by omega)).trans
          (LConn.edge (.inl (.inl (by rw [hpar]; exact hv))) (by omega) (by omega))
      have hsym : ∀ u v, (edge F u v ∨ pend (some s) (some b) u v) → (edge F v u ∨ pend (some s) (some b) v u) :=
        fun u v hh => hh.elim (fun e => .inl (edge_symm e)) (fun e => .inr (pend_symm e))
      rintro u v ((e | e) | ⟨e1, e2⟩ | ⟨e1, e2⟩)
      · by_cases hu : u = s
        · subst hu; rw [hPs] at e; obtain rfl := Option.some.inj e
          exact LConn.edge (.inr (.inl ⟨rfl, rfl⟩)) (by omega) (by omega)
        · exact LConn.edge (.inl (.inl (by rw [← hP u hu]; exact e))) (by omega) (by omega)
      · by_cases hu : v = s
        · subst hu; rw [hPs] at e; obtain rfl := Option.some.inj e
          exact LConn.edge (.inr (.inr ⟨rfl, rfl⟩)) (by omega) (by omega)
        · exact LConn.edge (.inl (.inr (by rw [← hP v hu]; exact e))) (by omega) (by omega)
      · obtain rfl := Option.some.inj e1
        exact (key v e2).mono (by omega)
      · obtain rfl := Option.some.inj e1
        exact ((key u e2).symm hsym).mono (by omega)
  · dsimp only
    intro ht r hr hl
    have hn : (F s).size + pix = cnt C.px C.lab F s := by
      obtain ⟨u, v, h1, h2, h3, h4, h5⟩ := hsize ht s hsr hsl
      have := h2 (upO_some.2 .refl)
      have := h5 (fun h => hbs (upO_some.1 h))
      omega
    have hUb : UpO F' (some b) r ↔ Up F b r := by rw [upO_some, up_away hP hbs]
    have hUsp : UpO F' sp r ↔ UpO F sp r := by
      unfold UpO
      constructor
      · rintro ⟨x, h1, h2⟩
        refine ⟨x, h1, (up_away hP ?_).1 h2⟩
        exact fun hu => hac x (by rw [hpar]; exact h1) hu
      · rintro ⟨x, h1, h2⟩
        refine ⟨x, h1, (up_away hP ?_).2 h2⟩
        exact fun hu => hac x (by rw [hpar]; exact h1) hu
    by_cases e : r = s
    · subst e
      have hsz : (F' r).size = (F r).size + pix := by rw [hS]
      have h1 : ¬ UpO F' (some b) r := fun h => hbs (hUb.1 h)
      have h2 : ¬ UpO F' sp r := fun h => by
        obtain ⟨x, hx1, hx2⟩ := hUsp.1 h
        exact hac x (by rw [hpar]; exact hx1) hx2
      exact ⟨0, 0, by rw [hsz, hn, cnt_self hP hPs hbs hac], fun h => absurd h h1, fun _ => rfl,
        fun h => absurd h h2, fun _ => rfl⟩
    · have hl' : (F r).merged = false := by rw [← hMO r e]; exact hl
      obtain ⟨u, v, h1, h2, h3, h4, h5⟩ := hsize ht r hr hl'
      have hsz : (F' r).size = (F r).size := by rw [hO r e]
      have hiff := hrp.up_iff hl' (Ne.symm e)
      have hcyc : ¬ (Up F r s ∧ Up F s r) := fun ⟨k1, k2⟩ => by
        have := hstr.up_lt hr hl' k1 e
        have := (hstr.up hsr k2).2
        omega
      classical
      have hc := cnt_relink (px := C.px) (lab := C.lab) hP hPs hbs hac (Ne.symm e) hcyc
      rw [hUb, hUsp, ← hiff, hsz]
      rw [upO_some] at h2 h3 h4 h5
      by_cases k1 : Up F s r <;> by_cases k2 : Up F b r
      · rw [if_pos k1, if_pos k2] at hc
        have := h2 k1; have := h4 k2
        exact ⟨(F s).size, (F s).size, by omega, fun _ => rfl, fun h => absurd k2 h, fun _ => rfl,
          fun h => absurd k1 h⟩
      · rw [if_pos k1, if_neg k2] at hc
        have := h2 k1; have := h5 k2
        exact ⟨0, (F s).size, by omega, fun h => absurd h k2, fun _ => rfl, fun _ => rfl,
          fun h => absurd k1 h⟩
      · rw [if_neg k1, if_pos k2] at hc
        have := h3 k1; have := h4 k2
        exact ⟨(F s).size, 0, by omega, fun _ => rfl, fun h => absurd k2 h, fun h => absurd h k1,
          fun _ => rfl⟩
      · rw [if_neg k1, if_neg k2] at hc
        have := h3 k1; have := h5 k2
        exact ⟨0, 0, by omega, fun h => absurd h k2, fun _ => rfl, fun h => absurd h k1, fun _ => rfl⟩

/-- Storing the real parent back keeps the invariant. -/
theorem LInv.compress {F : Forest ι} {s : ι} {sm bg : Option ι} {sp : Option ι} {pix m : Nat}
    (h : LInv C ⟨F, sm, bg, pix, m⟩) (hc : Compressed C.isReg C.gr F (setParent F s sp) m s sp) :
    LInv C ⟨setParent F s sp, sm, bg, pix, m⟩ := by
  obtain ⟨hstr, ⟨s', hs', hsr, hsl⟩, hb, hord, hconn, hsize⟩ := h
  dsimp only at hs' hstr hsl hb hord hconn hsize
  refine ⟨hc.str, ⟨s', hs', hsr, by dsimp only; rw [hc.merged]; exact hsl⟩, ?_, hord, ?_, ?_⟩
  · intro b h1; dsimp only; rw [hc.merged]; exact hb b h1
  · intro l p hp q hq hpl hql
    rw [hconn l p hp q hq hpl hql]
    exact hc.conn _ (fun _ _ h => pend_symm h) l _ _
  · dsimp only
    intro ht r hr hl
    rw [hc.merged] at hl
    have hUO : ∀ o, UpO (setParent F s sp) o r ↔ UpO F o r := by
      intro o; unfold UpO
      constructor <;> rintro ⟨x, h1, h2⟩
      · exact ⟨x, h1, (hc.up x r hl).1 h2⟩
      · exact ⟨x, h1, (hc.up x r hl).2 h2⟩
    rw [hc.size, cnt_congr (fun p _ => hc.up (C.lab p) r hl)]
    simp only [hUO]
    exact hsize ht r hr hl

/-- One link iteration. -/
theorem linkStep_spec {F : Forest ι} {s b : ι} {pix m fuel : Nat}
    (h : LInv C ⟨F, some s, some b, pix, m⟩) (hne : s ≠ b) (hle : C.gr s ≤ C.gr b) (hf : m ≤ fuel) :
    ∃ c', linkStep fuel F s b pix m = .next c' ∧ LInv C c' ∧ m ≤ c'.merges ∧ c'.merges ≤ m + 1 ∧
      C.gr s + C.gr b < val C c'.smaller + val C c'.bigger := by
  have hsr : C.isReg s := by
    obtain ⟨_, h1, h2, _⟩ := h.s_ok; obtain rfl := Option.some.inj h1; exact h2
  have hsl : (F s).merged = false := by
    obtain ⟨_, h1, _, h2⟩ := h.s_ok; obtain rfl := Option.some.inj h1; exact h2
  obtain ⟨sp, hch, hrp⟩ := h.str.chase_parent hf hsr
  dsimp only at hch hrp
  have hc := Connect.compress h.str hsr hsl hrp
  dsimp only at hc
  have h' := h.compress hc
  have hmx : ∀ x, sp = some x → C.isReg x ∧ (setParent F s sp x).merged = false ∧ C.gr s < C.gr x := by
    intro x hx; rw [hc.merged]; exact hc.sp_ok x hx
  unfold linkStep
  rw [hch]
  dsimp only
  have hbg := hc.str.gray
  have hb256 : C.gr b < 256 := h.str.gray_lt b (h.b_ok b rfl).1
  have hs256 : C.gr s < 256 := h.str.gray_lt s hsr
  cases sp with
  | none =>
    refine ⟨_, rfl, link h' hne hle hc.par hmx (by simp), ?_, ?_, ?_⟩
    · dsimp only; split <;> omega
    · dsimp only; split <;> omega
    · simp only [val]; omega
  | some x =>
    by_cases hlt : C.gr x < C.gr b
    · dsimp only
      rw [if_pos (by rw [hbg, hbg]; exact hlt)]
      refine ⟨_, rfl, advance h' hne hle hc.par (hmx x rfl) hlt.le, le_refl _, by simp, ?_⟩
      have := (hmx x rfl).2.2
      simp only [val]; omega
    · dsimp only
      rw [if_neg (by rw [hbg, hbg]; exact hlt)]
      refine ⟨_, rfl, link h' hne hle hc.par hmx ?_, ?_, ?_, ?_⟩
      · intro y hy; obtain rfl := Option.some.inj hy; omega
      · dsimp only; split <;> omega
      · dsimp only; split <;> omega
      · have := (hmx x rfl).2.2
        simp only [val]; omega

/-- How the loop can end. -/
def Ended (c : CSt ι) : Prop := c.bigger = none ∨ c.smaller = c.bigger

theorem connectStep_spec {c : CSt ι} {fuel : Nat} (h : LInv C c) (hf : c.merges ≤ fuel) :
    (∃ c', connectStep fuel c = .next c' ∧ LInv C c' ∧ c.merges ≤ c'.merges ∧ c'.merges ≤ c.merges + 1 ∧
      val C c.smaller + val C c.bigger < val C c'.smaller + val C c'.bigger) ∨
    (connectStep fuel c = .stop c ∧ Ended c) := by
  obtain ⟨F, sm, bg, pix, m⟩ := c
  obtain ⟨s, h1, hsr, hsl⟩ := h.s_ok
  dsimp only at h1 hf; subst h1
  unfold connectStep; dsimp only
  cases bg with
  | none => exact .inr ⟨rfl, .inl rfl⟩
  | some b =>
    dsimp only
    by_cases e : s = b
    · subst e; exact .inr ⟨by simp, .inr rfl⟩
    · left
      rw [if_neg e, h.str.gray, h.str.gray]
      by_cases hlt : C.gr b < C.gr s
      · rw [if_pos hlt]
        have hpix : pix = 0 := by
          rcases h.ord with h1 | h1
          · exact h1
          · have := h1 s b rfl rfl; omega
        subst hpix
        obtain ⟨hbr, hbl⟩ := h.b_ok b rfl
        have h' : LInv C ⟨F, some b, some s, 0, m⟩ :=
          ⟨h.str, ⟨b, rfl, hbr, hbl⟩, by
            intro x hx; obtain rfl := Option.some.inj hx; exact ⟨hsr, hsl⟩, .inl rfl, by
            have := h.conn; unfold ConnOk at this ⊢; rw [pend_swap]; exact this, h.size.swap⟩
        obtain ⟨c', k1, k2, k3, k4, k5⟩ := linkStep_spec h' (Ne.symm e) hlt.le hf
        exact ⟨c', k1, k2, k3, k4, by show C.gr s + C.gr b < _; omega⟩
      · rw [if_neg hlt]
        exact linkStep_spec h e (by omega) hf

theorem connectLoop_spec {fuel : Nat} : ∀ (n : Nat) (c : CSt ι), LInv C c → c.merges + n ≤ fuel →
    512 ≤ val C c.smaller + val C c.bigger + n →
    ∃ c', connectLoop fuel n c = some c' ∧ LInv C c' ∧ Ended c' ∧ c.merges ≤ c'.merges ∧
      c'.merges ≤ c.merges + n
  | 0, c, h, _, hv => by
    exfalso
    obtain ⟨s, h1, hsr, _⟩ := h.s_ok
    have h3 := h.str.gray_lt s hsr
    rw [h1] at hv
    cases hb : c.bigger with
    | none => rw [hb] at hv; simp only [val] at hv; omega
    | some b =>
      have := h.str.gray_lt b (h.b_ok b hb).1
      rw [hb] at hv; simp only [val] at hv; omega
  | n + 1, c, h, hf, hv => by
    unfold connectLoop
    rcases connectStep_spec h (fuel := fuel) (by omega) with ⟨c', h1, h2, h3, h4, h5⟩ | ⟨h1, h2⟩
    · rw [h1]
      obtain ⟨c'', k1, k2, k3, k4, k5⟩ := connectLoop_spec (fuel := fuel) n c' h2 (by omega) (by omega)
      exact ⟨c'', k1, k2, k3, by omega, by omega⟩
    · rw [h1]
      exact ⟨c, rfl, h, h2, le_refl _, by omega⟩

/-! ### The final addition and the complete join -/

/-- The forest has the connectivity `tgt` and exact sizes. -/
structure Done (C : Ctx ι α) (F : Forest ι) (m : Nat) : Prop where
  str : Str C.isReg C.gr F m
  conn : ∀ l, ∀ p ∈ C.px, ∀ q ∈ C.px, C.g p ≤ l → C.g q ≤ l →
    (C.tgt l p q ↔ LConn (edge F) C.gr l (C.lab p) (C.lab q))
  size : C.track → ∀ r, C.isReg r → (F r).merged = false → (F r).size = cnt C.px C.lab F r

/-- Invariant of the final addition. -/
structure AInv (C : Ctx ι α) (F : Forest ι) (m : Nat) (s : Option ι) (c : Nat) : Prop where
  str : Str C.isReg C.gr F m
  s_ok : ∀ x, s = some x → C.isReg x ∧ (F x).merged = false
  conn : ∀ l, ∀ p ∈ C.px, ∀ q ∈ C.px, C.g p ≤ l → C.g q ≤ l →
    (C.tgt l p q ↔ LConn (edge F) C.gr l (C.lab p) (C.lab q))
  size : C.track → ∀ r, C.isReg r → (F r).merged = false →
    (UpO F s r → (F r).size + c = cnt C.px C.lab F r) ∧ (¬ UpO F s r → (F r).size = cnt C.px C.lab F r)

omit [DecidableEq ι] in
theorem no_pend {F : Forest ι} {P : ι → ι → Prop} (hP : ∀ x y, P x y → x = y) {gr : ι → Nat} {l : Nat}
    {a b : ι} : LConn (fun x y => edge F x y ∨ P x y) gr l a b ↔ LConn (edge F) gr l a b := by
  constructor
  · refine lconn_of_edges ?_
    rintro u v (e | e)
    · exact LConn.edge e (by omega) (by omega)
    · rw [hP u v e]; exact .refl
  · refine lconn_of_edges ?_
    intro u v e; exact LConn.edge (.inl e) (by omega) (by omega)

theorem addUp_spec {m c fuel : Nat} (hf : m ≤ fuel) : ∀ (n : Nat) (F : Forest ι) (s : Option ι),
    AInv C F m s c → 256 ≤ val C s + n → ∃ F', addUp fuel c n F s = some F' ∧ Done C F' m
  | n, F, none, h, _ => by
    refine ⟨F, by cases n <;> rfl, h.str, h.conn, fun ht r hr hl => (h.size ht r hr hl).2 ?_⟩
    rintro ⟨x, h1, _⟩; simp at h1
  | 0, F, some s, h, hv => by
    have := h.str.gray_lt s (h.s_ok s rfl).1
    simp only [val] at hv; omega
  | n + 1, F, some s, h, hv => by
    obtain ⟨hsr, hsl⟩ := h.s_ok s rfl
    have hP : ∀ r, (addSize F s c r).parent = (F r).parent := by
      intro r; unfold addSize
      by_cases e : r = s
      · subst e; simp
      · simp [Function.update_of_ne e]
    have hM : ∀ r, (addSize F s c r).merged = (F r).merged := by
      intro r; unfold addSize
      by_cases e : r = s
      · subst e; simp
      · simp [Function.update_of_ne e]
    have hG : ∀ r, (addSize F s c r).gray = (F r).gray := by
      intro r; unfold addSize
      by_cases e : r = s
      · subst e; simp
      · simp [Function.update_of_ne e]
    have hstr := h.str.congr hG hM hP
    have hsl' : (addSize F s c s).merged = false := by rw [hM]; exact hsl
    obtain ⟨sp, hch, hrp⟩ := hstr.chase_parent hf hsr
    have hc := Connect.compress hstr hsr hsl' hrp
    unfold addUp; dsimp only; rw [hch]; dsimp only
    refine addUp_spec hf n _ sp ?_ ?_
    · refine ⟨hc.str, ?_, ?_, ?_⟩
      · intro x hx; rw [hc.merged]; exact ⟨(hc.sp_ok x hx).1, (hc.sp_ok x hx).2.1⟩
      · intro l p hp q hq hpl hql
        rw [h.conn l p hp q hq hpl hql, ← edge_congr hP]
        have := hc.conn (fun _ _ => False) (by simp) l (C.lab p) (C.lab q)
        simpa using this
      · intro ht r hr hl
        rw [hc.merged] at hl
        have hl' := hl
        rw [hM] at hl'
        have hsz := h.size ht r hr hl'
        have hcnt : cnt C.px C.lab (setParent (addSize F s c) s sp) r = cnt C.px C.lab F r :=
          cnt_congr (fun p _ => by rw [hc.up _ r hl, up_congr hP])
        have hUO : UpO (setParent (addSize F s c) s sp) sp r ↔ UpO (addSize F s c) sp r := by
          unfold UpO
          constructor <;> rintro ⟨x, h1, h2⟩
          · exact ⟨x, h1, (hc.up x r hl).1 h2⟩
          · exact ⟨x, h1, (hc.up x r hl).2 h2⟩
        rw [hUO, hcnt, hc.size]
        by_cases e : r = s
        · subst e
          have h1 : ¬ UpO (addSize F r c) sp r := by
            rintro ⟨x, hx, hu⟩
            have := (hc.sp_ok x hx)
            have := (hstr.up this.1 hu).2
            omega
          have h2 := hsz.1 (upO_some.2 .refl)
          have h3 : (addSize F r c r).size = (F r).size + c := by simp [addSize]
          exact ⟨fun h => absurd h h1, fun _ => by omega⟩
        · have h3 : (addSize F s c r).size = (F r).size := by
            unfold addSize; rw [Function.update_of_ne e]
          have h4 := hrp.up_iff hl (Ne.symm e)
          rw [up_congr hP, ← upO_some] at h4
          rw [h3, ← h4]
          exact hsz
    · cases sp with
      | none => simp only [val] at hv ⊢; omega
      | some x =>
        have := (hc.sp_ok x rfl).2.2
        simp only [val] at hv ⊢; omega

/-- The complete `connect`, both arguments live regions. -/
theorem connect_spec {W : World ι} {a b : ι} {fuel steps : Nat}
    (h : LInv C ⟨W.F, some b, some a, 0, W.merges⟩) (hf : W.merges + steps ≤ fuel) (hn : 512 ≤ steps) :
    ∃ W', connect fuel steps W (some a) (some b) = some W' ∧ Done C W'.F W'.merges ∧
      W'.merges ≤ W.merges + steps := by
  obtain ⟨c, h1, h2, h3, h4, h5⟩ := connectLoop_spec steps _ h (by dsimp only; omega) (by omega)
  dsimp only at h5
  unfold connect; rw [h1]; dsimp only
  obtain ⟨s, hs, hsr, hsl⟩ := h2.s_ok
  cases hb : c.bigger with
  | none =>
    dsimp only
    have hA : AInv C c.F c.merges c.smaller c.pix := by
      refine ⟨h2.str, ?_, ?_, ?_⟩
      · intro x hx; rw [hs] at hx; obtain rfl := Option.some.inj hx; exact ⟨hsr, hsl⟩
      · intro l p hp q hq hpl hql
        rw [h2.conn l p hp q hq hpl hql]
        refine no_pend ?_
        rw [hb]; rintro x y (⟨_, e⟩ | ⟨_, e⟩) <;> simp at e
      · intro ht r hr hl
        obtain ⟨u, v, k1, k2, k3, k4, k5⟩ := h2.size ht r hr hl
        have hv := k5 (by rw [hb]; rintro ⟨x, e, _⟩; simp at e)
        constructor
        · intro k; have := k2 k; omega
        · intro k; have := k3 k; omega
    obtain ⟨F', k1, k2⟩ := addUp_spec (fuel := fuel) (by omega) steps c.F c.smaller hA (by omega)
    rw [k1]
    exact ⟨_, rfl, k2, h5⟩
  | some b' =>
    dsimp only
    have e : c.smaller = c.bigger := by
      rcases h3 with k | k
      · rw [hb] at k; simp at k
      · exact k
    refine ⟨_, rfl, ⟨h2.str, ?_, ?_⟩, h5⟩
    · intro l p hp q hq hpl hql
      dsimp only
      rw [h2.conn l p hp q hq hpl hql]
      refine no_pend ?_
      rw [e]; rintro x y (⟨e1, e2⟩ | ⟨e1, e2⟩) <;> (rw [e1] at e2; first | exact Option.some.inj e2 | exact (Option.some.inj e2).symm)
    · intro ht r hr hl
      obtain ⟨u, v, k1, k2, k3, k4, k5⟩ := h2.size ht r hr hl
      rw [e] at k2 k3
      dsimp only
      by_cases k : UpO c.F c.bigger r
      · have := k2 k; have := k4 k; omega
      · have := k3 k; have := k5 k; omega

end Verif.Connect
