import Verif.Model.Components
import Verif.Spec.Components
import Mathlib.Data.List.Nodup
import Mathlib.Data.List.Perm.Subperm
import Mathlib.Tactic.Linarith
import Mathlib.Tactic.Ring

/-!
# The scan of the connected component extraction
-/

namespace Verif.Components

open Verif.Rectangle Verif.Spec

abbrev Pt := Int × Int

/-- Address of the flag of a point. -/
def Env.addr (E : Env) (p : Pt) : Int := ((p.2 - E.rect.top + 1) * (E.rect.width + 2) + (p.1 - E.rect.left + 1)) * E.s

/-- The point is in the active rectangle or the border around it. -/
def Env.Frame (E : Env) (p : Pt) : Prop :=
  E.rect.left - 1 ≤ p.1 ∧ p.1 ≤ E.rect.left + E.rect.width ∧ E.rect.top - 1 ≤ p.2 ∧ p.2 ≤ E.rect.top + E.rect.height

def Env.Inside (E : Env) (p : Pt) : Prop :=
  E.rect.left ≤ p.1 ∧ p.1 < E.rect.left + E.rect.width ∧ E.rect.top ≤ p.2 ∧ p.2 < E.rect.top + E.rect.height

/-- What the scan needs. -/
structure Ready (E : Env) (K : Pt → Prop) : Prop where
  s : 1 ≤ E.s
  inside : ∀ p, K p → E.Inside p
  origin : E.origin = E.addr (E.rect.left, E.rect.top)
  index : E.index = true
  area : ∀ l : List Pt, l.Nodup → (∀ p ∈ l, K p) → l.length ≤ E.area

/-- The flags tell the points of `K` that are not in `V`. -/
structure Flags (E : Env) (K : Pt → Prop) (V : List Pt) (t : Tmp) : Prop where
  cap : (E.rect.height + 2) * (E.rect.width + 2) * E.s ≤ t.cap
  free : ∀ p, E.Frame p → K p → p ∉ V → t.mem (E.addr p) = some 0
  seen : ∀ p, E.Frame p → (¬ K p ∨ p ∈ V) → t.mem (E.addr p) = some 1

theorem addr_inj {E : Env} (hs : 1 ≤ E.s) {p q : Pt} (hp : E.Frame p) (hq : E.Frame q) (h : E.addr p = E.addr q) : p = q := by
  unfold Env.addr at h
  have hs' : (E.s : Int) ≠ 0 := by omega
  have h1 := Int.eq_of_mul_eq_mul_right hs' h
  unfold Env.Frame at hp hq
  have hN : 0 < E.rect.width + 2 := by omega
  have e1 : ∀ y x N : Int, 0 ≤ x → x < N → (y * N + x) / N = y := by
    intro y x N a b
    rw [Int.add_comm, Int.add_mul_ediv_right _ _ (by omega), Int.ediv_eq_zero_of_lt a b, Int.zero_add]
  have a1 := e1 (p.2 - E.rect.top + 1) (p.1 - E.rect.left + 1) (E.rect.width + 2) (by omega) (by omega)
  have a2 := e1 (q.2 - E.rect.top + 1) (q.1 - E.rect.left + 1) (E.rect.width + 2) (by omega) (by omega)
  rw [h1, a2] at a1
  have ey : p.2 = q.2 := by omega
  rw [ey] at h1
  have ex : p.1 = q.1 := by omega
  exact Prod.ext ex ey

theorem addr_range {E : Env} (hs : 1 ≤ E.s) {p : Pt} (hp : E.Frame p) :
    0 ≤ E.addr p ∧ E.addr p < (E.rect.height + 2) * (E.rect.width + 2) * E.s := by
  unfold Env.Frame at hp
  have h0 : 0 ≤ (p.2 - E.rect.top + 1) * (E.rect.width + 2) := Int.mul_nonneg (by omega) (by omega)
  have h1 : (p.2 - E.rect.top + 1) * (E.rect.width + 2) ≤ (E.rect.height + 1) * (E.rect.width + 2) :=
    Int.mul_le_mul_of_nonneg_right (by omega) (by omega)
  have h2 : (E.rect.height + 2) * (E.rect.width + 2) = (E.rect.height + 1) * (E.rect.width + 2) + (E.rect.width + 2) := by ring
  unfold Env.addr
  refine ⟨Int.mul_nonneg (by omega) (by omega), Int.mul_lt_mul_of_pos_right ?_ (by omega)⟩
  omega

theorem point_addr {E : Env} {K : Pt → Prop} (R : Ready E K) {p : Pt} (hp : E.Inside p) : E.point (E.addr p) = p := by
  have hs := R.s
  unfold Env.Inside at hp
  unfold Env.point
  have e : E.addr p - E.origin = ((p.2 - E.rect.top) * (E.rect.width + 2) + (p.1 - E.rect.left)) * E.s := by
    rw [R.origin]; unfold Env.addr; ring
  have h0 : 0 ≤ (p.2 - E.rect.top) * (E.rect.width + 2) := Int.mul_nonneg (by omega) (by omega)
  have e2 : ((p.2 - E.rect.top) * (E.rect.width + 2) + (p.1 - E.rect.left)).tdiv (E.rect.width + 2) = p.2 - E.rect.top := by
    rw [Int.tdiv_eq_ediv_of_nonneg (by omega), Int.add_comm, Int.add_mul_ediv_right _ _ (by omega),
      Int.ediv_eq_zero_of_lt (by omega) (by omega), Int.zero_add]
  simp only [e, Int.mul_tdiv_cancel _ (show (E.s : Int) ≠ 0 by omega), e2]
  refine Prod.ext ?_ ?_
  · dsimp only; omega
  · dsimp only; omega

/-- The neighbour of `p` in direction `d`. -/
def go (p d : Pt) : Pt := (p.1 + d.1, p.2 + d.2)

theorem addr_go (E : Env) (p d : Pt) : E.addr (go p d) = E.addr p + (d.1 + d.2 * (E.rect.width + 2)) * E.s := by
  unfold Env.addr go
  dsimp only
  ring

theorem directions_near (eight : Bool) (p q : Pt) : Touches eight p q ↔ ∃ d ∈ directions eight, q = go p d := by
  unfold Touches go
  constructor
  · rintro ⟨hne, h1, h2, h3, h4, h5⟩
    refine ⟨(q.1 - p.1, q.2 - p.2), ?_, Prod.ext (by dsimp only; omega) (by dsimp only; omega)⟩
    have hne' : ¬ (q.1 = p.1 ∧ q.2 = p.2) := fun h => hne (Prod.ext h.1.symm h.2.symm)
    generalize hx : q.1 - p.1 = x at *
    generalize hy : q.2 - p.2 = y at *
    have hx' : x = -1 ∨ x = 0 ∨ x = 1 := by omega
    have hy' : y = -1 ∨ y = 0 ∨ y = 1 := by omega
    cases eight
    · have h6 := h5 rfl
      rcases hx' with rfl | rfl | rfl <;> rcases hy' with rfl | rfl | rfl <;> first | decide | omega
    · rcases hx' with rfl | rfl | rfl <;> rcases hy' with rfl | rfl | rfl <;> first | decide | omega
  · rintro ⟨d, hd, rfl⟩
    have key : ∀ d ∈ directions eight, -1 ≤ d.1 ∧ d.1 ≤ 1 ∧ -1 ≤ d.2 ∧ d.2 ≤ 1 ∧ (d.1 ≠ 0 ∨ d.2 ≠ 0) ∧
        (eight = false → d.1 = 0 ∨ d.2 = 0) := by cases eight <;> decide
    obtain ⟨a1, a2, a3, a4, a5, a6⟩ := key d hd
    dsimp only
    refine ⟨fun h => ?_, by omega, by omega, by omega, by omega, fun h => ?_⟩
    · have b1 := congrArg Prod.fst h
      have b2 := congrArg Prod.snd h
      dsimp only at b1 b2
      omega
    · have := a6 h
      omega

theorem near_symm {eight : Bool} {p q : Pt} (h : Touches eight p q) : Touches eight q p := by
  obtain ⟨a, b, c, d, e, f⟩ := h
  refine ⟨fun h => a h.symm, by omega, by omega, by omega, by omega, fun g => ?_⟩
  have := f g
  omega

theorem joined_symm {eight : Bool} {K : Pt → Prop} {p q : Pt} (h : JoinedIn eight K p q) : JoinedIn eight K q p := by
  induction h with
  | refl => exact .refl
  | tail _ h ih => exact Relation.ReflTransGen.head ⟨near_symm h.1, h.2.2, h.2.1⟩ ih

theorem inside_frame {E : Env} {p q : Pt} {eight : Bool} (hp : E.Inside p) (h : Touches eight p q) : E.Frame q := by
  obtain ⟨a, b, c, d, e, f⟩ := h
  unfold Env.Inside at hp
  unfold Env.Frame
  omega

theorem Inside.frame {E : Env} {p : Pt} (hp : E.Inside p) : E.Frame p := by
  unfold Env.Inside at hp
  unfold Env.Frame
  omega

theorem Flags.read_seen {E : Env} {K : Pt → Prop} {V : List Pt} {t : Tmp} (F : Flags E K V t) (hs : 1 ≤ E.s) {p : Pt}
    (hp : E.Frame p) (h : ¬ K p ∨ p ∈ V) : t.read (E.addr p) = some 1 := by
  have := addr_range hs hp
  have := F.cap
  rw [Tmp.read, if_pos ⟨by omega, by omega⟩, F.seen p hp h]

theorem Flags.read_free {E : Env} {K : Pt → Prop} {V : List Pt} {t : Tmp} (F : Flags E K V t) (hs : 1 ≤ E.s) {p : Pt}
    (hp : E.Frame p) (h : K p) (h' : p ∉ V) : t.read (E.addr p) = some 0 := by
  have := addr_range hs hp
  have := F.cap
  rw [Tmp.read, if_pos ⟨by omega, by omega⟩, F.free p hp h h']

theorem Flags.write {E : Env} {K : Pt → Prop} {V : List Pt} {t : Tmp} (F : Flags E K V t) (hs : 1 ≤ E.s) {p : Pt}
    (hp : E.Frame p) : ∃ t', t.write (E.addr p) 1 = some t' ∧ Flags E K (V ++ [p]) t' := by
  have h1 := addr_range hs hp
  have h2 := F.cap
  refine ⟨{ t with mem := fun b => if b = E.addr p then some 1 else t.mem b }, by rw [Tmp.write, if_pos ⟨by omega, by omega⟩], ⟨F.cap, ?_, ?_⟩⟩
  · intro q hq hK hn
    simp only [List.mem_append, List.mem_singleton, not_or] at hn
    dsimp only
    rw [if_neg (fun e => hn.2 (addr_inj hs hq hp e))]
    exact F.free q hq hK hn.1
  · intro q hq h
    dsimp only
    by_cases e : q = p
    · rw [e, if_pos rfl]
    · rw [if_neg (fun e' => e (addr_inj hs hq hp e'))]
      refine F.seen q hq ?_
      simp only [List.mem_append, List.mem_singleton] at h
      rcases h with h | h | h
      · exact .inl h
      · exact .inr h
      · exact absurd h e

/-- The tour around a point. -/
theorem tour_ok {E : Env} {K : Pt → Prop} (R : Ready E K) (eight : Bool) {P : Pt} (hP : E.Inside P) :
    ∀ (ds : List Pt) (S : St) (stk : List Pt), (∀ d ∈ ds, d ∈ directions eight) → Flags E K S.pts S.tmp → S.pts.Nodup →
      (∀ p ∈ S.pts, K p) → S.stack = stk.map E.addr → stk.Nodup → (∀ p ∈ stk, p ∈ S.pts) →
      ∃ S' new, tour E (E.addr P) (ds.map fun d => d.1 + d.2 * (E.rect.width + 2)) S = some S' ∧
        S'.pts = S.pts ++ new ∧ S'.stack = (new.reverse ++ stk).map E.addr ∧ S'.regs = S.regs ∧
        Flags E K S'.pts S'.tmp ∧ S'.pts.Nodup ∧ (∀ p ∈ new, K p ∧ Touches eight P p) ∧
        ∀ d ∈ ds, K (go P d) → go P d ∈ S'.pts
  | [], S, stk, _, F, nd, _, hst, _, _ =>
    ⟨S, [], rfl, (List.append_nil _).symm, by simpa using hst, rfl, F, nd, by simp, by simp⟩
  | d :: ds, S, stk, hd, F, nd, hK, hst, sn, ss => by
    have hn : Touches eight P (go P d) := (directions_near eight _ _).2 ⟨d, hd d (by simp), rfl⟩
    have hf := inside_frame hP hn
    have hds : ∀ d ∈ ds, d ∈ directions eight := fun x hx => hd x (List.mem_cons_of_mem _ hx)
    rw [List.map_cons, tour]
    simp only [← addr_go]
    by_cases hc : K (go P d) ∧ go P d ∉ S.pts
    · rw [F.read_free R.s hf hc.1 hc.2]
      simp only [Option.bind_some, Nat.zero_ne_one, if_false]
      have hlen : S.stack.length < E.area := by
        rw [hst, List.length_map]
        have := R.area (go P d :: stk) (List.nodup_cons.2 ⟨fun h => hc.2 (ss _ h), sn⟩) (by
          intro p hp
          rcases List.mem_cons.1 hp with rfl | hp
          · exact hc.1
          · exact hK p (ss p hp))
        exact this
      have hlen2 : S.pts.length < E.area := by
        have := R.area (go P d :: S.pts) (List.nodup_cons.2 ⟨hc.2, nd⟩) (by
          intro p hp
          rcases List.mem_cons.1 hp with rfl | hp
          · exact hc.1
          · exact hK p hp)
        exact this
      rw [if_pos ⟨hlen, hlen2⟩]
      obtain ⟨t, et, F'⟩ := F.write R.s hf
      rw [et]
      simp only [Option.bind_some, point_addr R (R.inside _ hc.1)]
      obtain ⟨S', new, e, h1, h2, h3, h4, h5, h6, h7⟩ := tour_ok R eight hP ds
        { S with tmp := t, stack := E.addr (go P d) :: S.stack, pts := S.pts ++ [go P d] } (go P d :: stk) hds F'
        (by
          rw [List.nodup_append]
          refine ⟨nd, List.nodup_singleton _, ?_⟩
          rintro x hx y hy rfl
          exact hc.2 (by simpa using (List.mem_singleton.1 hy) ▸ hx))
        (by
          intro p hp
          simp only [List.mem_append, List.mem_singleton] at hp
          rcases hp with hp | rfl
          · exact hK p hp
          · exact hc.1)
        (by simp only [hst, List.map_cons])
        (List.nodup_cons.2 ⟨fun h => hc.2 (ss _ h), sn⟩)
        (by
          intro p hp
          simp only [List.mem_append, List.mem_singleton]
          rcases List.mem_cons.1 hp with rfl | hp
          · exact .inr rfl
          · exact .inl (ss p hp))
      refine ⟨S', go P d :: new, e, by rw [h1]; simp, by rw [h2]; simp, h3, h4, h5, ?_, ?_⟩
      · intro p hp
        rcases List.mem_cons.1 hp with rfl | hp
        · exact ⟨hc.1, hn⟩
        · exact h6 p hp
      · intro x hx hk
        rcases List.mem_cons.1 hx with rfl | hx
        · rw [h1]; simp
        · exact h7 x hx hk
    · have hc' : ¬ K (go P d) ∨ go P d ∈ S.pts := by
        by_cases hk : K (go P d)
        · exact .inr (by by_contra h; exact hc ⟨hk, h⟩)
        · exact .inl hk
      rw [F.read_seen R.s hf hc']
      simp only [Option.bind_some, if_true]
      obtain ⟨S', new, e, h1, h2, h3, h4, h5, h6, h7⟩ := tour_ok R eight hP ds S stk hds F nd hK hst sn ss
      refine ⟨S', new, e, h1, h2, h3, h4, h5, h6, ?_⟩
      intro x hx hk
      rcases List.mem_cons.1 hx with rfl | hx
      · rw [h1]
        exact List.mem_append_left _ (hc'.resolve_left (fun h => h hk))
      · exact h7 x hx hk

theorem offsets_eq {E : Env} (hs : 1 ≤ E.s) (eight : Bool) :
    offsets E.s E.rect.width eight = (directions eight).map fun d => d.1 + d.2 * (E.rect.width + 2) := by
  unfold offsets
  refine List.map_congr_left fun d _ => ?_
  rw [← Int.mul_assoc, Int.mul_tdiv_cancel _ (show (E.s : Int) ≠ 0 by omega)]

/-- The growth of a component. -/
theorem grow_ok {E : Env} {K : Pt → Prop} (R : Ready E K) (eight : Bool) {pts0 : List Pt} {a : Pt} :
    ∀ (n : Nat) (S : St) (stk cur : List Pt), E.area - S.pts.length + stk.length < n → S.pts = pts0 ++ cur →
      Flags E K S.pts S.tmp → S.pts.Nodup → (∀ p ∈ S.pts, K p) → S.stack = stk.map E.addr → stk.Nodup → (∀ p ∈ stk, p ∈ cur) →
      (∀ p ∈ cur, JoinedIn eight K a p) → (∀ p ∈ cur, p ∉ stk → ∀ q, Touches eight p q → K q → q ∈ S.pts) →
      ∃ S' more, grow E (offsets E.s E.rect.width eight) n S = some S' ∧ S'.pts = pts0 ++ (cur ++ more) ∧ S'.stack = [] ∧
        S'.regs = S.regs ∧ Flags E K S'.pts S'.tmp ∧ S'.pts.Nodup ∧ (∀ p ∈ S'.pts, K p) ∧
        (∀ p ∈ cur ++ more, JoinedIn eight K a p) ∧ ∀ p ∈ cur ++ more, ∀ q, Touches eight p q → K q → q ∈ S'.pts
  | 0, _, _, _, h, _, _, _, _, _, _, _, _, _ => by omega
  | n + 1, S, [], cur, _, hp, F, nd, hK, hst, _, _, hj, hc => by
    rw [grow, hst, List.map_nil]
    dsimp only
    refine ⟨S, [], rfl, by rw [List.append_nil]; exact hp, hst, rfl, F, nd, hK, ?_, ?_⟩
    · rw [List.append_nil]; exact hj
    · rw [List.append_nil]
      intro p hpc q hq hk
      exact hc p hpc (by simp) q hq hk
  | n + 1, S, P :: stk, cur, hn, hp, F, nd, hK, hst, sn, ss, hj, hc => by
    rw [grow, hst, List.map_cons]
    dsimp only
    have hPc : P ∈ cur := ss P (by simp)
    have hPp : P ∈ S.pts := by rw [hp]; exact List.mem_append_right _ hPc
    have hKP := hK P hPp
    have sub : ∀ p ∈ stk, p ∈ S.pts := fun p h => by
      rw [hp]; exact List.mem_append_right _ (ss p (List.mem_cons_of_mem _ h))
    obtain ⟨S1, new, e, h1, h2, h3, h4, h5, h6, h7⟩ := tour_ok R eight (R.inside P hKP) (directions eight)
      { S with stack := stk.map E.addr } stk (fun d hd => hd) F nd hK rfl (List.nodup_cons.1 sn).2 sub
    dsimp only at h1 h3
    rw [offsets_eq R.s, e]
    simp only [Option.bind_some]
    rw [← offsets_eq R.s]
    have hK1 : ∀ p ∈ S1.pts, K p := by
      intro p h
      rw [h1] at h
      rcases List.mem_append.1 h with h | h
      · exact hK p h
      · exact (h6 p h).1
    have hlen : S1.pts.length ≤ E.area := R.area _ h5 hK1
    have hl1 : S1.pts.length = S.pts.length + new.length := by rw [h1, List.length_append]
    have ndn := h5
    rw [h1, hp, List.append_assoc] at ndn
    have nd2 := (List.nodup_append.1 ndn).2.1
    obtain ⟨_, ndnew, dis⟩ := List.nodup_append.1 nd2
    obtain ⟨S2, more, e2, g1, g2, g3, g4, g5, g6, g7, g8⟩ := grow_ok R eight (pts0 := pts0) (a := a) n S1
      (new.reverse ++ stk) (cur ++ new)
      (by
        simp only [List.length_append, List.length_reverse, List.length_cons] at hn ⊢
        omega)
      (by rw [h1, hp, List.append_assoc]) h4 h5 hK1 h2
      (by
        rw [List.nodup_append]
        refine ⟨List.nodup_reverse.2 ndnew, (List.nodup_cons.1 sn).2, ?_⟩
        rintro x hx y hy rfl
        exact dis x (ss x (List.mem_cons_of_mem _ hy)) x (List.mem_reverse.1 hx) rfl)
      (by
        intro p h
        rcases List.mem_append.1 h with h | h
        · exact List.mem_append_right _ (List.mem_reverse.1 h)
        · exact List.mem_append_left _ (ss p (List.mem_cons_of_mem _ h)))
      (by
        intro p h
        rcases List.mem_append.1 h with h | h
        · exact hj p h
        · exact (hj P hPc).tail ⟨(h6 p h).2, hKP, (h6 p h).1⟩)
      (by
        intro p h hns q hq hk
        simp only [List.mem_append, List.mem_reverse, not_or] at hns
        rcases List.mem_append.1 h with h | h
        · by_cases e : p = P
          · subst e
            obtain ⟨d, hd, rfl⟩ := (directions_near eight _ _).1 hq
            exact h7 d hd hk
          · rw [h1]
            exact List.mem_append_left _ (hc p h (by simp [e, hns.2]) q hq hk)
        · exact absurd h hns.1)
    rw [List.append_assoc] at g1 g7 g8
    exact ⟨S2, new ++ more, e2, g1, g2, g3.trans h3, g4, g5, g6, g7, g8⟩

/-- The regions for a list of components, from position `n` on. -/
def slices : Nat → List (List Pt) → List (Nat × Nat)
  | _, [] => []
  | n, l :: L => (n, n + l.length) :: slices (n + l.length) L

theorem slices_append : ∀ (L : List (List Pt)) (n : Nat) (l : List Pt),
    slices n (L ++ [l]) = slices n L ++ [(n + L.flatten.length, n + L.flatten.length + l.length)]
  | [], n, l => by simp [slices]
  | x :: L, n, l => by
    rw [List.cons_append, slices, slices, slices_append L, List.flatten_cons, List.length_append, List.cons_append,
      Nat.add_assoc n x.length]

theorem slices_take : ∀ (L : List (List Pt)) (pre : List Pt),
    (slices pre.length L).map (fun g => ((pre ++ L.flatten).drop g.1).take (g.2 - g.1)) = L
  | [], _ => rfl
  | l :: L, pre => by
    rw [slices, List.map_cons]
    have e1 : ((pre ++ (l :: L).flatten).drop pre.length).take (pre.length + l.length - pre.length) = l := by
      rw [List.drop_left, Nat.add_sub_cancel_left, List.flatten_cons, List.take_left]
    have e2 := slices_take L (pre ++ l)
    rw [List.length_append, List.append_assoc] at e2
    dsimp only
    rw [e1, List.flatten_cons, e2]

/-- State between two pixels of the scan. -/
structure Between (E : Env) (K : Pt → Prop) (eight : Bool) (L : List (List Pt)) (S : St) : Prop where
  pts : S.pts = L.flatten
  stack : S.stack = []
  regs : S.regs = slices 0 L ++ [(0, 0)]
  flags : Flags E K S.pts S.tmp
  once : S.pts.Nodup
  inK : ∀ p ∈ S.pts, K p
  nonempty : ∀ l ∈ L, l ≠ []
  joined : ∀ l ∈ L, ∀ p ∈ l, ∀ q, K q → (q ∈ l ↔ JoinedIn eight K p q)

theorem joined_K {eight : Bool} {K : Pt → Prop} {p q : Pt} (h : JoinedIn eight K p q) (hp : K p) : K q := by
  cases h with
  | refl => exact hp
  | tail _ h => exact h.2.2

theorem visit_ok {E : Env} {K : Pt → Prop} (R : Ready E K) (eight : Bool) {L : List (List Pt)} {S : St}
    (B : Between E K eight L S) {row col : Int} (hp : E.Inside (col - 1 + E.rect.left, row - 1 + E.rect.top)) :
    ∃ S' L', visit E (offsets E.s E.rect.width eight) row col (E.addr (col - 1 + E.rect.left, row - 1 + E.rect.top)) S = some S' ∧
      Between E K eight L' S' ∧ (∀ q ∈ S.pts, q ∈ S'.pts) ∧
      (K (col - 1 + E.rect.left, row - 1 + E.rect.top) → (col - 1 + E.rect.left, row - 1 + E.rect.top) ∈ S'.pts) := by
  generalize ha : ((col - 1 + E.rect.left, row - 1 + E.rect.top) : Pt) = a at *
  unfold visit
  by_cases hc : K a ∧ a ∉ S.pts
  · rw [B.flags.read_free R.s (Inside.frame hp) hc.1 hc.2]
    simp only [Option.bind_some, if_true]
    have hlen2 : S.pts.length < E.area := by
      have := R.area (a :: S.pts) (List.nodup_cons.2 ⟨hc.2, B.once⟩) (by
        intro p hp
        rcases List.mem_cons.1 hp with rfl | hp
        · exact hc.1
        · exact B.inK p hp)
      exact this
    rw [if_pos ⟨R.index, hlen2, by rw [B.stack]; simp only [List.length_nil]; omega⟩]
    obtain ⟨t, et, F'⟩ := B.flags.write R.s (Inside.frame hp)
    rw [et]
    simp only [Option.bind_some, ha]
    obtain ⟨S2, more, e2, g1, g2, g3, g4, g5, g6, g7, g8⟩ := grow_ok R eight (pts0 := S.pts) (a := a) (E.area + 2)
      { S with tmp := t, stack := E.addr a :: S.stack, pts := S.pts ++ [a] } [a] [a]
      (by simp only [List.length_append, List.length_singleton]; omega) rfl F'
      (by
        rw [List.nodup_append]
        refine ⟨B.once, List.nodup_singleton _, ?_⟩
        rintro x hx y hy rfl
        exact hc.2 (by simpa using (List.mem_singleton.1 hy) ▸ hx))
      (by
        intro p hp
        simp only [List.mem_append, List.mem_singleton] at hp
        rcases hp with hp | rfl
        · exact B.inK p hp
        · exact hc.1)
      (by simp only [B.stack, List.map_cons, List.map_nil]) (List.nodup_singleton _) (fun p h => h)
      (by
        intro p h
        rw [List.mem_singleton.1 h]
        exact .refl)
      (fun p h h' => absurd h h')
    rw [e2]
    simp only [Option.bind_some]
    have dis : ∀ p ∈ [a] ++ more, p ∉ S.pts := by
      intro p h h'
      rw [g1] at g5
      exact (List.nodup_append.1 g5).2.2 p h' p h rfl
    have Kcur : ∀ p ∈ [a] ++ more, K p := fun p h => g6 p (by rw [g1]; exact List.mem_append_right _ h)
    have close : ∀ p ∈ [a] ++ more, ∀ q, Touches eight p q → K q → q ∈ [a] ++ more := by
      intro p h q hq hk
      have := g8 p h q hq hk
      rw [g1] at this
      rcases List.mem_append.1 this with h' | h'
      · exfalso
        rw [B.pts, List.mem_flatten] at h'
        obtain ⟨l, hl, hql⟩ := h'
        have hjq : JoinedIn eight K q p := .single ⟨near_symm hq, hk, Kcur p h⟩
        have := (B.joined l hl q hql p (Kcur p h)).2 hjq
        exact dis p h (by rw [B.pts, List.mem_flatten]; exact ⟨l, hl, this⟩)
      · exact h'
    have closeJ : ∀ p q, JoinedIn eight K p q → p ∈ [a] ++ more → q ∈ [a] ++ more := by
      intro p q h hp
      induction h with
      | refl => exact hp
      | tail _ h ih => exact close _ ih _ h.1 h.2.2
    refine ⟨_, L ++ [[a] ++ more], rfl, ⟨?_, g2, ?_, g4, g5, g6, ?_, ?_⟩, ?_, ?_⟩
    · simp only [g1, B.pts, List.flatten_append, List.flatten_singleton]
    · simp only
      rw [g3]
      dsimp only
      rw [B.regs, setBack, List.dropLast_concat, slices_append, g1, ← B.pts]
      simp only [List.length_append, Nat.zero_add]
    · intro l hl
      rcases List.mem_append.1 hl with hl | hl
      · exact B.nonempty l hl
      · rw [List.mem_singleton.1 hl]; simp
    · intro l hl p hpl q hk
      rcases List.mem_append.1 hl with hl | hl
      · exact B.joined l hl p hpl q hk
      · rw [List.mem_singleton.1 hl] at hpl ⊢
        constructor
        · intro hq
          exact (joined_symm (g7 p hpl)).trans (g7 q hq)
        · intro hj
          exact closeJ p q hj hpl
    · intro q hq
      simp only [g1]
      exact List.mem_append_left _ hq
    · intro _
      simp [g1]
  · have hc' : ¬ K a ∨ a ∈ S.pts := by
      by_cases hk : K a
      · exact .inr (by by_contra h; exact hc ⟨hk, h⟩)
      · exact .inl hk
    rw [B.flags.read_seen R.s (Inside.frame hp) hc']
    simp only [Option.bind_some, Nat.one_ne_zero, if_false]
    exact ⟨S, L, rfl, B, fun q hq => hq, fun hk => hc'.resolve_left (fun h => h hk)⟩

theorem scanCols_ok {E : Env} {K : Pt → Prop} (R : Ready E K) (eight : Bool) {row : Int} (hr : 1 ≤ row)
    (hr' : row ≤ E.rect.height) : ∀ (k : Nat) (col : Int) (L : List (List Pt)) (S : St), Between E K eight L S → 1 ≤ col →
      col + k ≤ E.rect.width + 1 →
      ∃ S' L', scanCols E (offsets E.s E.rect.width eight) row k col (E.addr (col - 1 + E.rect.left, row - 1 + E.rect.top)) S =
          some (E.addr (col + k - 1 + E.rect.left, row - 1 + E.rect.top), S') ∧ Between E K eight L' S' ∧
        (∀ q ∈ S.pts, q ∈ S'.pts) ∧
        ∀ c, col ≤ c → c < col + k → K (c - 1 + E.rect.left, row - 1 + E.rect.top) → (c - 1 + E.rect.left, row - 1 + E.rect.top) ∈ S'.pts
  | 0, col, L, S, B, _, _ => by
    refine ⟨S, L, ?_, B, fun q h => h, fun c h1 h2 => ?_⟩
    · rw [scanCols, show col + ((0 : Nat) : Int) - 1 = col - 1 by omega]
    · omega
  | k + 1, col, L, S, B, h1, h2 => by
    obtain ⟨S1, L1, e1, B1, m1, n1⟩ := visit_ok R eight B (row := row) (col := col) (by
      unfold Env.Inside; dsimp only; omega)
    obtain ⟨S2, L2, e2, B2, m2, n2⟩ := scanCols_ok R eight hr hr' k (col + 1) L1 S1 B1 (by omega) (by omega)
    refine ⟨S2, L2, ?_, B2, fun q h => m2 q (m1 q h), ?_⟩
    · rw [scanCols, e1]
      simp only [Option.bind_some]
      have ea : E.addr (col - 1 + E.rect.left, row - 1 + E.rect.top) + E.s =
          E.addr (col + 1 - 1 + E.rect.left, row - 1 + E.rect.top) := by
        unfold Env.addr; dsimp only; ring
      rw [ea, e2, show col + 1 + (k : Int) - 1 = col + ((k + 1 : Nat) : Int) - 1 by omega]
    · intro c h3 h4 hk
      by_cases e : c = col
      · rw [e] at hk ⊢; exact m2 _ (n1 hk)
      · exact n2 c (by omega) (by omega) hk

theorem scanRows_ok {E : Env} {K : Pt → Prop} (R : Ready E K) (eight : Bool) (hw : 0 ≤ E.rect.width) :
    ∀ (k : Nat) (row : Int) (L : List (List Pt)) (S : St), Between E K eight L S → 1 ≤ row → row + k = E.rect.height + 1 →
      ∃ S' L', scanRows E (offsets E.s E.rect.width eight) E.rect.width.toNat k row (E.addr (E.rect.left, row - 1 + E.rect.top)) S =
          some S' ∧ Between E K eight L' S' ∧ (∀ q ∈ S.pts, q ∈ S'.pts) ∧
        ∀ q : Pt, K q → row - 1 + E.rect.top ≤ q.2 → q ∈ S'.pts
  | 0, row, L, S, B, _, h => by
    refine ⟨S, L, rfl, B, fun q h => h, fun q hk hq => ?_⟩
    have := R.inside q hk
    unfold Env.Inside at this
    omega
  | k + 1, row, L, S, B, h1, h2 => by
    obtain ⟨S1, L1, e1, B1, m1, n1⟩ := scanCols_ok R eight h1 (by omega) E.rect.width.toNat 1 L S B (by omega) (by omega)
    obtain ⟨S2, L2, e2, B2, m2, n2⟩ := scanRows_ok R eight hw k (row + 1) L1 S1 B1 (by omega) (by omega)
    refine ⟨S2, L2, ?_, B2, fun q h => m2 q (m1 q h), ?_⟩
    · rw [show ((1 : Int) - 1 + E.rect.left) = E.rect.left by omega] at e1
      rw [scanRows, e1]
      simp only [Option.bind_some]
      have ea : E.addr (1 + (E.rect.width.toNat : Int) - 1 + E.rect.left, row - 1 + E.rect.top) + 2 * E.s =
          E.addr (E.rect.left, row + 1 - 1 + E.rect.top) := by
        rw [Int.toNat_of_nonneg hw]
        unfold Env.addr; dsimp only; ring
      rw [ea, e2]
    · intro q hk hq
      by_cases e : q.2 = row - 1 + E.rect.top
      · have hi := R.inside q hk
        unfold Env.Inside at hi
        have eq : q = (q.1 - E.rect.left + 1 - 1 + E.rect.left, row - 1 + E.rect.top) :=
          Prod.ext (by dsimp only; omega) (by dsimp only; omega)
        have := n1 (q.1 - E.rect.left + 1) (by omega) (by omega) (by rw [← eq]; exact hk)
        rw [← eq] at this
        exact m2 q this
      · exact n2 q hk (by omega)

/-- The whole scan gives the components. -/
theorem scan_ok {E : Env} {K : Pt → Prop} (R : Ready E K) (eight : Bool) (hw : 0 ≤ E.rect.width) (hh : 0 ≤ E.rect.height)
    {t : Tmp} (F : Flags E K [] t) :
    ∃ S, scanRows E (offsets E.s E.rect.width eight) E.rect.width.toNat E.rect.height.toNat 1 E.origin ⟨t, [], [], [(0, 0)]⟩ = some S ∧
      IsComponents eight K ((finish S).map Prod.fst) ∧
      ∀ c ∈ finish S, c.1 ≠ [] ∧ c.2 = c.1.foldl Rect.appendPoint ⟨0, 0, 0, 0⟩ := by
  obtain ⟨S, L, e, B, _, hall⟩ := scanRows_ok R eight hw E.rect.height.toNat 1 [] ⟨t, [], [], [(0, 0)]⟩
    ⟨rfl, rfl, rfl, F, List.nodup_nil, by simp, by simp, by simp⟩ (by omega) (by omega)
  rw [show ((1 : Int) - 1 + E.rect.top) = E.rect.top by omega, ← R.origin] at e
  have hf : finish S = L.map fun l => (l, l.foldl Rect.appendPoint ⟨0, 0, 0, 0⟩) := by
    unfold finish
    rw [B.regs, List.getLast?_concat]
    simp only [if_true, List.dropLast_concat]
    have := slices_take L []
    rw [List.length_nil, List.nil_append, ← B.pts] at this
    conv_rhs => rw [← this]
    rw [List.map_map]
    rfl
  refine ⟨S, e, ?_, ?_⟩
  · have e1 : (finish S).map Prod.fst = L := by
      rw [hf, List.map_map]
      exact List.map_id _
    rw [e1]
    refine ⟨?_, ?_, ?_, B.nonempty, B.joined⟩
    · intro p hk
      have hi := R.inside p hk
      unfold Env.Inside at hi
      have := hall p hk (by omega)
      rw [B.pts, List.mem_flatten] at this
      exact this
    · intro l hl p hp
      exact B.inK p (by rw [B.pts, List.mem_flatten]; exact ⟨l, hl, hp⟩)
    · rw [← B.pts]; exact B.once
  · intro c hc
    rw [hf, List.mem_map] at hc
    obtain ⟨l, hl, rfl⟩ := hc
    exact ⟨B.nonempty l hl, rfl⟩

end Verif.Components
