import Verif.Model.MsExtract
import Verif.Proof.ExtractRect

/-!
# The ms detector: the areas of the records, writing, collecting and reading the points
-/

namespace Verif.Ms

open Function (update)
open Verif.Extract

variable {P : Plan}

/-- Where the points of the records are: array, offset, kind of memory; and the sizes of the arrays. -/
structure Areas where
  arr : Nat → Nat
  off : Nat → Nat
  mt : Nat → MType
  asz : Nat → Int

variable {A : Areas}

/-- 1 if the record begins with a header. -/
def Areas.d (A : Areas) (j : Nat) : Nat := if A.mt j = .recursive then 1 else 0

/-- Number of points of the area of record `j`. -/
def Areas.len (A : Areas) (P : Plan) (j : Nat) : Nat :=
  if A.mt j = .recursive then 1 + (P.own 0 j).length + (1 + (P.kids j j).length) / 2 else (P.full j).length

/-- The areas lie within the arrays and do not overlap. -/
structure Areas.Fit (A : Areas) (P : Plan) : Prop where
  ok : P.Ok
  one : ∀ k j, k ≠ 0 → P.own k j = []
  within : ∀ j, j < P.N → (A.off j : Int) + A.len P j ≤ A.asz (A.arr j)
  apart : ∀ i j, i < P.N → j < P.N → i ≠ j → A.arr i = A.arr j →
    A.off i + A.len P i ≤ A.off j ∨ A.off j + A.len P j ≤ A.off i
  up : ∀ i j, i < P.N → P.up i = some j → A.mt j ≠ .recursive → A.mt i ≠ .recursive
  selfs : (∀ j, A.mt j = .self) ∨ ∀ j, A.mt j ≠ .self

theorem Areas.Fit.full_eq (hA : A.Fit P) (j : Nat) : P.full j = P.own 0 j ++ P.accs j j := by
  simp [Plan.full, hA.one 1 j (by decide), hA.one 2 j (by decide), hA.one 3 j (by decide)]

theorem Areas.Fit.all_eq (hA : A.Fit P) (j : Nat) : P.all j = P.own 0 j := by
  simp [Plan.all, hA.one 1 j (by decide), hA.one 2 j (by decide), hA.one 3 j (by decide)]

/-- Room for points behind the header. -/
def Areas.room (A : Areas) (P : Plan) (j : Nat) : Nat :=
  if A.mt j = .recursive then (P.own 0 j).length else (P.full j).length

theorem Areas.room_le (A : Areas) (P : Plan) (j : Nat) : A.d j + A.room P j ≤ A.len P j := by
  unfold Areas.d Areas.room Areas.len
  split <;> omega

/-- What the area of record `j` contains. -/
structure Cont (A : Areas) (P : Plan) (m : Nat → Mem) (j : Nat) (S : List Pt) (tab : List Nat) : Prop where
  pts : Pts (m (A.arr j)) (A.off j + A.d j) S
  fits : S.length ≤ A.room P j
  own : A.mt j = .recursive → m (A.arr j) (2 * (A.off j : Int)) = some ((P.own 0 j).length : Int)
  num : A.mt j = .recursive → m (A.arr j) (2 * (A.off j : Int) + 1) = some (tab.length : Int)
  ent : A.mt j = .recursive → ∀ t (h : t < tab.length),
    m (A.arr j) (2 * ((A.off j : Int) + 1 + (P.own 0 j).length) + t) = some ((tab[t] : Int) - j)
  tabFits : A.mt j = .recursive → tab.length ≤ (P.kids j j).length

theorem Cont.congr {m m' : Nat → Mem} {j : Nat} {S : List Pt} {tab : List Nat} (h : Cont A P m j S tab)
    (e : ∀ c, 2 * (A.off j : Int) ≤ c → c < 2 * ((A.off j : Int) + A.len P j) → m' (A.arr j) c = m (A.arr j) c) :
    Cont A P m' j S tab := by
  have hr := A.room_le P j
  have hf := h.fits
  refine ⟨h.pts.congr fun c h1 h2 => e c (by omega) (by omega), h.fits, ?_, ?_, ?_, h.tabFits⟩
  · intro hm
    have : 1 ≤ A.len P j := by unfold Areas.len; rw [if_pos hm]; omega
    rw [e _ (by omega) (by omega)]; exact h.own hm
  · intro hm
    have : 1 ≤ A.len P j := by unfold Areas.len; rw [if_pos hm]; omega
    rw [e _ (by omega) (by omega)]; exact h.num hm
  · intro hm t ht
    have h1 := h.tabFits hm
    have : A.len P j = 1 + (P.own 0 j).length + (1 + (P.kids j j).length) / 2 := by unfold Areas.len; rw [if_pos hm]
    rw [e _ (by omega) (by omega)]; exact h.ent hm t ht

/-- A change within the area of record `p` is not seen in the others. -/
theorem Cont.other (hA : A.Fit P) {m m' : Nat → Mem} {p j : Nat} (hp : p < P.N) (hj : j < P.N) (hne : j ≠ p)
    {S : List Pt} {tab : List Nat} (h : Cont A P m j S tab)
    (hout : ∀ b c, ¬ (b = A.arr p ∧ 2 * (A.off p : Int) ≤ c ∧ c < 2 * ((A.off p : Int) + A.len P p)) → m' b c = m b c) :
    Cont A P m' j S tab := by
  refine h.congr fun c h1 h2 => hout _ _ ?_
  rintro ⟨e, h3, h4⟩
  have := hA.apart j p hj hp hne e
  omega

/-! ### One more point -/

theorem cont_point (hA : A.Fit P) {m : Nat → Mem} {S : Nat → List Pt} {tab : Nat → List Nat} {p : Nat} (hp : p < P.N)
    (h : ∀ j, j < P.N → Cont A P m j (S j) (tab j)) (pt : Pt) (room : (S p).length < A.room P p) :
    ∃ m1 m2, wr (A.asz (A.arr p)) (m (A.arr p)) (2 * ((A.off p : Int) + A.d p + (S p).length)) pt.1 = some m1 ∧
      wr (A.asz (A.arr p)) m1 (2 * ((A.off p : Int) + A.d p + (S p).length) + 1) pt.2 = some m2 ∧
      ∀ j, j < P.N → Cont A P (update m (A.arr p) m2) j (if j = p then S p ++ [pt] else S j) (tab j) := by
  have hw := hA.within p hp
  have hr := A.room_le P p
  refine ⟨_, _, wr_some (by omega) (by omega), wr_some (by omega) (by omega), ?_⟩
  have hin : ∀ c, c ≠ 2 * ((A.off p : Int) + A.d p + (S p).length) → c ≠ 2 * ((A.off p : Int) + A.d p + (S p).length) + 1 →
      update m (A.arr p) (update (update (m (A.arr p)) (2 * ((A.off p : Int) + A.d p + (S p).length)) (some pt.1))
        (2 * ((A.off p : Int) + A.d p + (S p).length) + 1) (some pt.2)) (A.arr p) c = m (A.arr p) c := by
    intro c h1 h2
    rw [Function.update_self, Function.update_of_ne h2, Function.update_of_ne h1]
  intro j hj
  by_cases e : j = p
  · subst e
    rw [if_pos rfl]
    have hc := h j hj
    refine ⟨?_, by simp; omega, ?_, ?_, ?_, hc.tabFits⟩
    · intro t ht
      rw [List.length_append, List.length_singleton] at ht
      by_cases ht' : t < (S j).length
      · rw [List.getElem_append_left ht', hin _ (by omega) (by omega), hin _ (by omega) (by omega)]
        exact hc.pts t ht'
      · obtain rfl : t = (S j).length := by omega
        rw [Function.update_self, Function.update_self, List.getElem_append_right (by omega),
          Function.update_of_ne (by omega), Function.update_self]
        simp
    · intro hm
      have : A.d j = 1 := by simp [Areas.d, hm]
      rw [hin _ (by omega) (by omega)]; exact hc.own hm
    · intro hm
      have : A.d j = 1 := by simp [Areas.d, hm]
      rw [hin _ (by omega) (by omega)]; exact hc.num hm
    · intro hm t ht
      have : A.room P j = (P.own 0 j).length := by simp [Areas.room, hm]
      have : A.d j = 1 := by simp [Areas.d, hm]
      rw [hin _ (by omega) (by omega)]; exact hc.ent hm t ht
  · rw [if_neg e]
    refine (h j hj).other hA hp hj e ?_
    intro b c hbc
    by_cases hb : b = A.arr p
    · subst hb
      exact hin c (by omega) (by omega)
    · rw [Function.update_of_ne hb]

/-! ### Copying -/

theorem copyM_spec {asz : Nat → Int} {bd bs : Nat} {dst src : Int} (n : Nat) {m : Nat → Mem} (hd0 : 0 ≤ dst)
    (hs0 : 0 ≤ src) (hd : dst + n ≤ 2 * asz bd) (hs : src + n ≤ 2 * asz bs)
    (hdis : bd = bs → dst + n ≤ src ∨ src + n ≤ dst)
    (hdef : ∀ c, src ≤ c → c < src + n → (m bs c).isSome) :
    ∃ m', copyM asz bd dst bs src n m = some m' ∧
      (∀ c, dst ≤ c → c < dst + n → m' bd c = m bs (src + (c - dst))) ∧
      (∀ b c, ¬ (b = bd ∧ dst ≤ c ∧ c < dst + n) → m' b c = m b c) := by
  induction n with
  | zero =>
    refine ⟨m, rfl, ?_, fun _ _ _ => rfl⟩
    intro c h1 h2; simp at h2; omega
  | succ n ih =>
    push_cast at hd hs hdis hdef
    obtain ⟨m1, e1, a1, b1⟩ := ih (by omega) (by omega) (fun e => by have := hdis e; omega)
      (fun c h1 h2 => hdef c h1 (by omega))
    have hsrc : m1 bs (src + n) = m bs (src + n) := b1 _ _ (by rintro ⟨e, h1, h2⟩; have := hdis e.symm; omega)
    obtain ⟨v, hv⟩ := Option.isSome_iff_exists.mp (hdef (src + n) (by omega) (by omega))
    have hr : rd (asz bs) (m1 bs) (src + n) = some v := rd_eq (by omega) (by omega) (by rw [hsrc, hv])
    have hw : wr (asz bd) (m1 bd) (dst + n) v = some (update (m1 bd) (dst + n) (some v)) :=
      wr_some (by omega) (by omega)
    refine ⟨update m1 bd (update (m1 bd) (dst + n) (some v)), ?_, ?_, ?_⟩
    · simp only [copyM, e1, Option.bind_some, hr, hw]
    · intro c h1 h2
      push_cast at h2
      rw [Function.update_self]
      by_cases e : c = dst + n
      · subst e
        rw [Function.update_self, show src + (dst + (n : Int) - dst) = src + n by omega, hv]
      · rw [Function.update_of_ne e, a1 c h1 (by omega)]
    · intro b c hc
      push_cast at hc
      by_cases hb : b = bd
      · subst hb
        rw [Function.update_self, Function.update_of_ne (by omega), b1 _ c (by omega)]
      · rw [Function.update_of_ne hb, b1 _ c (by omega)]

/-- The points of record `i` are appended to those of record `p`. -/
theorem cont_copy (hA : A.Fit P) {m : Nat → Mem} {S : Nat → List Pt} {tab : Nat → List Nat} {i p : Nat} (hi : i < P.N)
    (hp : p < P.N) (hip : i ≠ p) (h : ∀ j, j < P.N → Cont A P m j (S j) (tab j))
    (hri : A.mt i ≠ .recursive) (hrp : A.mt p ≠ .recursive) (room : (S p).length + (S i).length ≤ A.room P p) :
    (A.arr p = A.arr i → (A.off p : Int) + (S p).length + (S i).length ≤ A.off i ∨
      (A.off i : Int) + (S i).length ≤ (A.off p : Int) + (S p).length) ∧
    ∃ m', copyM A.asz (A.arr p) (2 * ((A.off p : Int) + (S p).length)) (A.arr i) (2 * (A.off i : Int))
        (2 * (S i).length) m = some m' ∧
      ∀ j, j < P.N → Cont A P m' j (if j = p then S p ++ S i else S j) (tab j) := by
  have hwp := hA.within p hp
  have hwi := hA.within i hi
  have hrm := A.room_le P p
  have hrmi := A.room_le P i
  have hfi := (h i hi).fits
  have hap : A.arr p = A.arr i → A.off p + A.len P p ≤ A.off i ∨ A.off i + A.len P i ≤ A.off p :=
    fun e => hA.apart p i hp hi (Ne.symm hip) e
  have hdp : A.d p = 0 := by simp [Areas.d, hrp]
  have hdi : A.d i = 0 := by simp [Areas.d, hri]
  refine ⟨fun e => by have := hap e; omega, ?_⟩
  have hpi := (h i hi).pts
  rw [hdi] at hpi
  obtain ⟨m', e', a, b⟩ := copyM_spec (asz := A.asz) (bd := A.arr p) (bs := A.arr i)
    (dst := 2 * ((A.off p : Int) + (S p).length)) (src := 2 * (A.off i : Int)) (2 * (S i).length) (m := m)
    (by omega) (by omega) (by push_cast; omega) (by push_cast; omega)
    (fun e => by have := hap e; push_cast; omega)
    (by
      intro c h1 h2
      push_cast at h2
      have hq := hpi ((c - 2 * (A.off i : Int)) / 2).toNat (by omega)
      rcases Int.emod_two_eq_zero_or_one c with hc | hc
      · rw [show 2 * ((A.off i : Int) + ((0 : Nat) : Int) + (((c - 2 * (A.off i : Int)) / 2).toNat : Int)) = c by omega] at hq
        rw [hq.1]; rfl
      · rw [show 2 * ((A.off i : Int) + ((0 : Nat) : Int) + (((c - 2 * (A.off i : Int)) / 2).toNat : Int)) + 1 = c by omega] at hq
        rw [hq.2]; rfl)
  push_cast at a b
  refine ⟨m', e', ?_⟩
  intro j hj
  by_cases e : j = p
  · subst e
    rw [if_pos rfl]
    have hc := h j hj
    have hpj := hc.pts
    refine ⟨?_, by rw [List.length_append]; exact room, fun hm => absurd hm hrp, fun hm => absurd hm hrp,
      fun hm => absurd hm hrp, fun hm => absurd hm hrp⟩
    intro t ht
    rw [List.length_append] at ht
    by_cases ht' : t < (S j).length
    · rw [List.getElem_append_left ht', b _ _ (by omega), b _ _ (by omega)]
      exact hpj t ht'
    · have hq := hpi (t - (S j).length) (by omega)
      rw [List.getElem_append_right (by omega), a _ (by omega) (by omega), a _ (by omega) (by omega)]
      rw [show 2 * (A.off i : Int) + (2 * ((A.off j : Int) + (A.d j : Int) + (t : Int))
          - 2 * ((A.off j : Int) + ((S j).length : Int)))
          = 2 * ((A.off i : Int) + ((0 : Nat) : Int) + ((t - (S j).length : Nat) : Int)) by omega,
        show 2 * (A.off i : Int) + (2 * ((A.off j : Int) + (A.d j : Int) + (t : Int)) + 1
          - 2 * ((A.off j : Int) + ((S j).length : Int)))
          = 2 * ((A.off i : Int) + ((0 : Nat) : Int) + ((t - (S j).length : Nat) : Int)) + 1 by omega]
      exact hq
  · rw [if_neg e]
    refine (h j hj).other hA hp hj e ?_
    intro b' c hbc
    refine b _ _ ?_
    rintro ⟨h1, h2, h3⟩
    exact hbc ⟨h1, by omega, by omega⟩

/-! ### A child is entered -/

theorem cont_child (hA : A.Fit P) {m : Nat → Mem} {S : Nat → List Pt} {tab : Nat → List Nat} {i p : Nat}
    (hp : p < P.N) (h : ∀ j, j < P.N → Cont A P m j (S j) (tab j)) (hrp : A.mt p = .recursive)
    (room : (tab p).length + 1 ≤ (P.kids p p).length) :
    ∃ m', addKid (A.asz (A.arr p)) (A.off p) ((i : Int) - p) (m (A.arr p)) = some m' ∧
      ∀ j, j < P.N → Cont A P (update m (A.arr p) m') j (S j) (if j = p then tab p ++ [i] else tab j) := by
  have hw := hA.within p hp
  have hlen : A.len P p = 1 + (P.own 0 p).length + (1 + (P.kids p p).length) / 2 := by
    unfold Areas.len; rw [if_pos hrp]
  have hc := h p hp
  have r1 := rd_eq (size := A.asz (A.arr p)) (by omega) (by omega) (hc.own hrp)
  have r2 := rd_eq (size := A.asz (A.arr p)) (by omega) (by omega) (hc.num hrp)
  have w1 : ∀ v, wr (A.asz (A.arr p)) (m (A.arr p)) (2 * (A.off p : Int) + 1) v
      = some (update (m (A.arr p)) (2 * (A.off p : Int) + 1) (some v)) := fun v => wr_some (by omega) (by omega)
  refine ⟨update (update (m (A.arr p)) (2 * (A.off p : Int) + 1) (some (((tab p).length : Int) + 1)))
    (2 * ((A.off p : Int) + 1 + (P.own 0 p).length) + (tab p).length) (some ((i : Int) - p)), ?_, ?_⟩
  · simp only [addKid, r1, r2, Option.bind_some, w1]
    exact wr_some (by omega) (by omega)
  · intro j hj
    by_cases e : j = p
    · subst e
      rw [if_pos rfl]
      have hroom : A.room P j = (P.own 0 j).length := by simp [Areas.room, hrp]
      have hd : A.d j = 1 := by simp [Areas.d, hrp]
      have hf := hc.fits
      refine ⟨?_, hc.fits, fun hm => ?_, fun hm => ?_, fun hm => ?_, fun _ => by simpa using room⟩
      · rw [Function.update_self]
        refine hc.pts.congr fun c h1 h2 => ?_
        rw [Function.update_of_ne (by omega), Function.update_of_ne (by omega)]
      · rw [Function.update_self, Function.update_of_ne (by omega), Function.update_of_ne (by omega)]
        exact hc.own hm
      · rw [Function.update_self, Function.update_of_ne (by omega), Function.update_self]
        simp
      · intro t ht
        rw [List.length_append, List.length_singleton] at ht
        rw [Function.update_self]
        by_cases ht' : t < (tab j).length
        · rw [List.getElem_append_left ht', Function.update_of_ne (by omega), Function.update_of_ne (by omega)]
          exact hc.ent hm t ht'
        · obtain rfl : t = (tab j).length := by omega
          rw [Function.update_self, List.getElem_append_right (by omega)]
          simp
    · rw [if_neg e]
      refine (h j hj).other hA hp hj e ?_
      intro b c hbc
      by_cases hb : b = A.arr p
      · subst hb
        rw [Function.update_self, Function.update_of_ne (by omega), Function.update_of_ne (by omega)]
      · rw [Function.update_of_ne hb]

/-! ### Rectangles -/

theorem growM_first {R : Rect} (h : R.left = -1) (x y : Int) : growM R x y = ⟨x, y, x, y⟩ := by simp [growM, h]

theorem growM_next {R : Rect} {S : Pt → Prop} {x y : Int} (hx : 0 ≤ x) (hl : 0 ≤ R.left)
    (h : BBox True R.left R.top R.width R.height S) :
    0 ≤ (growM R x y).left ∧ BBox True (growM R x y).left (growM R x y).top (growM R x y).width (growM R x y).height
      (fun p => S p ∨ p = (x, y)) := by
  have hle := h.le
  have hg : growM R x y = ⟨min R.left x, min R.top y, max R.width x, max R.height y⟩ := by
    simp only [growM, if_neg (show ¬ R.left = -1 by omega), Rect.mk.injEq]
    refine ⟨?_, ?_, ?_, ?_⟩
    · split <;> omega
    · split <;> omega
    · split
      · omega
      · split <;> omega
    · split
      · omega
      · split <;> omega
  rw [hg]
  dsimp only
  refine ⟨by omega, ?_, ?_, ?_, ?_, ?_, ?_⟩
  · rcases le_total R.left x with e | e
    · obtain ⟨p, hp, hv⟩ := h.left; exact ⟨p, .inl hp, by omega⟩
    · exact ⟨(x, y), .inr rfl, by dsimp only; omega⟩
  · rcases le_total R.top y with e | e
    · obtain ⟨p, hp, hv⟩ := h.top; exact ⟨p, .inl hp, by omega⟩
    · exact ⟨(x, y), .inr rfl, by dsimp only; omega⟩
  · rcases le_total x R.width with e | e
    · obtain ⟨p, hp, hv⟩ := h.right; exact ⟨p, .inl hp, by omega⟩
    · exact ⟨(x, y), .inr rfl, by dsimp only; omega⟩
  · rcases le_total y R.height with e | e
    · obtain ⟨p, hp, hv⟩ := h.bottom; exact ⟨p, .inl hp, by omega⟩
    · exact ⟨(x, y), .inr rfl, by dsimp only; omega⟩
  · rintro p (hp | rfl)
    · have := h.lower p hp; omega
    · dsimp only; omega
  · rintro - p (hp | rfl)
    · have := h.upper trivial p hp; omega
    · dsimp only; omega

/-- The rectangle while points are written: unset, or the sides of the points. -/
def Sides (R : Rect) (l : List Pt) : Prop :=
  (l = [] ∧ R.left = -1) ∨ (l ≠ [] ∧ 0 ≤ R.left ∧ BBox True R.left R.top R.width R.height (· ∈ l))

theorem Sides.grow {R : Rect} {l : List Pt} (h : Sides R l) {x y : Int} (hx : 0 ≤ x) :
    Sides (growM R x y) (l ++ [(x, y)]) := by
  rcases h with ⟨rfl, h⟩ | ⟨_, h1, h2⟩
  · right
    rw [growM_first h]
    refine ⟨by simp, hx, ⟨(x, y), by simp, rfl⟩, ⟨(x, y), by simp, rfl⟩, ⟨(x, y), by simp, rfl⟩, ⟨(x, y), by simp, rfl⟩, ?_, ?_⟩
    · intro p hp
      simp only [List.nil_append, List.mem_singleton] at hp
      subst hp; exact ⟨le_refl _, le_refl _⟩
    · intro _ p hp
      simp only [List.nil_append, List.mem_singleton] at hp
      subst hp; exact ⟨le_refl _, le_refl _⟩
  · right
    obtain ⟨h3, h4⟩ := growM_next (y := y) hx h1 h2
    exact ⟨by simp, h3, h4.congr fun p => by simp⟩

end Verif.Ms
