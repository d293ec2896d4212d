import Verif.Proof.ExtractPlan

/-!
# The memory operations on the layout
-/

namespace Verif.Extract

/-- The points `l` are stored from point number `a` on. -/
def Pts (m : Mem) (a : Int) (l : List Pt) : Prop :=
  ∀ t (h : t < l.length), m (2 * (a + t)) = some l[t].1 ∧ m (2 * (a + t) + 1) = some l[t].2

/-- The header of record `i`: ranges of lengths `L`, relative to point `d`. -/
def Head (P : Plan) (m : Mem) (i : Nat) (d : Int) (L : Nat → Nat) : Prop :=
  ∀ k : Nat, k < 4 → m (2 * ((P.off i : Int) + k)) = some ((P.sec k i : Int) - d) ∧
    m (2 * ((P.off i : Int) + k) + 1) = some ((P.sec k i : Int) + L k - d)

/-- The child table of record `i`. -/
def Table (P : Plan) (m : Mem) (i : Nat) (l : List Nat) : Prop :=
  m (2 * ((P.off i : Int) + 4)) = some (l.length : Int) ∧
    ∀ t (h : t < l.length), m (2 * ((P.off i : Int) + 4) + ((t : Int) + 1)) = some ((l[t] : Int) - i)

/-- Contents of the point array. -/
structure Lay (P : Plan) (m : Mem) (L : Nat → Nat → Nat) (S : Nat → Nat → List Pt) (d : Nat → Int)
    (tab : Nat → List Nat) : Prop where
  head : ∀ i, i < P.N → Head P m i (d i) (fun k => L k i)
  pts : ∀ i, i < P.N → ∀ k, k < 4 → Pts m (P.sec k i) (S k i)
  table : ∀ i, i < P.N → P.sh i = false → Table P m i (tab i)

/-- The contents stay within the areas. -/
structure Fits (P : Plan) (S : Nat → Nat → List Pt) (tab : Nat → List Nat) : Prop where
  pts : ∀ i, i < P.N → ∀ k, k < 4 → (S k i).length ≤ P.cap k i
  table : ∀ i, i < P.N → P.sh i = false → (tab i).length ≤ (P.kids i i).length

theorem Pts.congr {m m' : Mem} {a : Int} {l : List Pt} (h : Pts m a l)
    (e : ∀ c, 2 * a ≤ c → c < 2 * (a + l.length) → m' c = m c) : Pts m' a l := by
  intro t ht
  obtain ⟨h1, h2⟩ := h t ht
  exact ⟨by rw [e _ (by omega) (by omega), h1], by rw [e _ (by omega) (by omega), h2]⟩

theorem Head.congr {P : Plan} {m m' : Mem} {i : Nat} {d : Int} {L : Nat → Nat} (h : Head P m i d L)
    (e : ∀ c, 2 * (P.off i : Int) ≤ c → c < 2 * (P.off i : Int) + 8 → m' c = m c) :
    Head P m' i d L := by
  intro k hk
  obtain ⟨h1, h2⟩ := h k hk
  exact ⟨by rw [e _ (by omega) (by omega), h1], by rw [e _ (by omega) (by omega), h2]⟩

theorem Table.congr {P : Plan} {m m' : Mem} {i : Nat} {l : List Nat} (h : Table P m i l)
    (e : ∀ c, 2 * (P.off i : Int) + 8 ≤ c → c ≤ 2 * (P.off i : Int) + 8 + l.length → m' c = m c) :
    Table P m' i l := by
  refine ⟨?_, ?_⟩
  · rw [e _ (by omega) (by omega), h.1]
  · intro t ht
    rw [e _ (by omega) (by omega), h.2 t ht]

theorem Plan.ci_kids {P : Plan} {i : Nat} (h : P.sh i = false) :
    (P.kids i i).length + 1 ≤ 2 * P.ci i := by
  simp only [Plan.ci, h]
  simp only [Bool.false_eq_true, if_false]
  omega

theorem wr_some {size : Int} {m : Mem} {a v : Int} (h0 : 0 ≤ a) (h1 : a < 2 * size) :
    wr size m a v = some (Function.update m a (some v)) := by
  simp [wr, h0, h1]

theorem rd_eq {size : Int} {m : Mem} {a v : Int} (h0 : 0 ≤ a) (h1 : a < 2 * size)
    (e : m a = some v) : rd size m a = some v := by
  simp [rd, h0, h1, e]

/-! ### Copying -/

theorem copyCells_spec {size dst src : Int} (n : Nat) {m : Mem} (hd0 : 0 ≤ dst) (hs0 : 0 ≤ src)
    (hd : dst + n ≤ 2 * size) (hs : src + n ≤ 2 * size)
    (hdis : dst + n ≤ src ∨ src + n ≤ dst)
    (hdef : ∀ c, src ≤ c → c < src + n → (m c).isSome) :
    ∃ m', copyCells size dst src n m = some m' ∧
      (∀ c, dst ≤ c → c < dst + n → m' c = m (src + (c - dst))) ∧
      (∀ c, ¬ (dst ≤ c ∧ c < dst + n) → m' c = m c) := by
  induction n with
  | zero =>
    refine ⟨m, rfl, ?_, fun _ _ => rfl⟩
    intro c h1 h2; simp at h2; omega
  | succ n ih =>
    push_cast at hd hs hdis hdef
    obtain ⟨m1, e1, a1, b1⟩ := ih (by omega) (by omega) (by omega)
      (fun c h1 h2 => hdef c h1 (by omega))
    have hsrc : m1 (src + n) = m (src + n) := b1 _ (by omega)
    obtain ⟨v, hv⟩ := Option.isSome_iff_exists.mp (hdef (src + n) (by omega) (by omega))
    have hr : rd size m1 (src + n) = some v := rd_eq (by omega) (by omega) (by rw [hsrc, hv])
    have hw : wr size m1 (dst + n) v = some (Function.update m1 (dst + n) (some v)) :=
      wr_some (by omega) (by omega)
    refine ⟨Function.update m1 (dst + n) (some v), ?_, ?_, ?_⟩
    · simp only [copyCells, e1, Option.bind_some, hr]
      exact hw
    · intro c h1 h2
      push_cast at h2
      by_cases e : c = dst + n
      · subst e
        rw [Function.update_self, show src + (dst + (n : Int) - dst) = src + n by omega, hv]
      · rw [Function.update_of_ne e, a1 c h1 (by omega)]
    · intro c hc
      push_cast at hc
      rw [Function.update_of_ne (by omega), b1 c (by omega)]

section
variable {P : Plan} {m : Mem} {L : Nat → Nat → Nat} {S : Nat → Nat → List Pt} {d : Nat → Int}
  {tab : Nat → List Nat}

/-- `L` and `S` agree. -/
def Exact (P : Plan) (L : Nat → Nat → Nat) (S : Nat → Nat → List Pt) : Prop :=
  ∀ i, i < P.N → ∀ k, k < 4 → L k i = (S k i).length

/-- One piece of a copy: the points of range `k` of record `i` are appended to range 0 of `p`. -/
theorem lay_copy (lay : Lay P m L S d tab) (fit : Fits P S tab) (ex : Exact P L S)
    {i p k : Nat} (hi : i < P.N) (hp : p < P.N) (hk : k < 4) (hip : i ≠ p)
    (di : d i = 0) (dp : d p = 0) (room : (S 0 p).length + (S k i).length ≤ P.cap 0 p) :
    ∃ m', copySeg P.size (P.off i) (P.off p) m k = some m' ∧
      Lay P m' (fun l j => if l = 0 ∧ j = p then L 0 p + (S k i).length else L l j)
        (fun l j => if l = 0 ∧ j = p then S 0 p ++ S k i else S l j) d tab := by
  have hh := lay.head i hi k hk
  have hhp := lay.head p hp 0 (by omega)
  simp only [di, dp, ex i hi k hk, ex p hp 0 (by omega)] at hh hhp
  have si := Plan.head_size (P := P) hi
  have sp := Plan.head_size (P := P) hp
  have hsi := Plan.sec_lt (P := P) hi hk
  have hsp := Plan.sec_lt (P := P) (k := 0) hp (by omega)
  have hci := fit.pts i hi k hk
  have hcp := fit.pts p hp 0 (by omega)
  have r1 : rd P.size m (2 * ((P.off i : Int) + k) + 1)
      = some ((P.sec k i : Int) + (S k i).length - 0) := rd_eq (by omega) (by omega) hh.2
  have r2 : rd P.size m (2 * ((P.off i : Int) + k))
      = some ((P.sec k i : Int) - 0) := rd_eq (by omega) (by omega) hh.1
  have r3 : rd P.size m (2 * (P.off p : Int) + 1)
      = some ((P.sec 0 p : Int) + (S 0 p).length - 0) :=
    rd_eq (by omega) (by omega) (by have := hhp.2; simpa using this)
  simp only [sub_zero] at r1 r2 r3
  have hdis := Plan.sec_sec (P := P) (k := k) (l := 0) hi hp hk (by omega) (by omega)
  -- the disjointness facts used below
  have headsec : ∀ j, j < P.N → P.off j + 4 + P.ci j ≤ P.sec 0 p ∨
      P.sec 0 p + P.cap 0 p ≤ P.off j := fun j hj => Plan.head_sec hj hp
  have headhead : ∀ j, j ≠ p → P.off j + 4 + P.ci j ≤ P.off p ∨ P.off p + 4 + P.ci p ≤ P.off j :=
    fun j hj => Plan.head_head hj
  have sechead : ∀ j l, j < P.N → P.off p + 4 + P.ci p ≤ P.sec l j ∨
      P.sec l j + P.cap l j ≤ P.off p := fun j l hj => Plan.head_sec hp hj
  have hs0 : P.off p + 4 + P.ci p = P.sec 0 p := Plan.off_lt_sec
  generalize hn : (S k i).length = n at *
  generalize ha : (S 0 p).length = a at *
  by_cases hn0 : n = 0
  · refine ⟨m, ?_, ?_⟩
    · simp only [copySeg, r1, r2, Option.bind_some]
      rw [if_neg (by omega)]
    · have hS : S k i = [] := List.length_eq_zero_iff.mp (hn.trans hn0)
      have e1 : (fun l j => if l = 0 ∧ j = p then L 0 p + n else L l j) = L := by
        funext l j; split
        · rename_i h; rw [h.1, h.2, hn0]; rfl
        · rfl
      have e2 : (fun l j => if l = 0 ∧ j = p then S 0 p ++ S k i else S l j) = S := by
        funext l j; split
        · rename_i h; rw [h.1, h.2, hS, List.append_nil]
        · rfl
      rw [e1, e2]; exact lay
  · obtain ⟨m1, e1, a1, b1⟩ := copyCells_spec (size := P.size)
      (dst := 2 * ((P.sec 0 p : Int) + a)) (src := 2 * (P.sec k i : Int)) (2 * n) (m := m)
      (by omega) (by omega) (by push_cast; omega) (by push_cast; omega) (by push_cast; omega)
      (by
        intro c h1 h2
        push_cast at h2
        have hp := lay.pts i hi k hk ((c - 2 * (P.sec k i : Int)) / 2).toNat (by omega)
        rcases Int.emod_two_eq_zero_or_one c with hc | hc
        · have : 2 * ((P.sec k i : Int) + (((c - 2 * (P.sec k i : Int)) / 2).toNat : Int)) = c := by
            omega
          rw [this] at hp; rw [hp.1]; rfl
        · have : 2 * ((P.sec k i : Int) + (((c - 2 * (P.sec k i : Int)) / 2).toNat : Int)) + 1
              = c := by omega
          rw [this] at hp; rw [hp.2]; rfl)
    push_cast at a1 b1
    refine ⟨Function.update m1 (2 * (P.off p : Int) + 1) (some ((P.sec 0 p : Int) + a + n)), ?_, ?_⟩
    · simp only [copySeg, r1, r2, Option.bind_some]
      rw [if_pos (by omega), r3, Option.bind_some, if_pos (by omega)]
      have : (2 * ((P.sec k i : Int) + n - P.sec k i)).toNat = 2 * n := by omega
      rw [this, e1, Option.bind_some, wr_some (by omega) (by omega)]
      congr 3; congr 1; omega
    · refine ⟨?_, ?_, ?_⟩
      · intro j hj
        have hf := headsec j hj
        by_cases hjp : j = p
        · subst hjp
          intro l hl
          have hold := lay.head j hj l hl
          by_cases hl0 : l = 0
          · subst hl0
            refine ⟨?_, ?_⟩
            · rw [Function.update_of_ne (by omega), b1 _ (by omega)]; exact hold.1
            · simp only [Nat.cast_zero, add_zero, true_and, if_true]
              rw [Function.update_self, dp, ex j hj 0 (by omega)]
              congr 1; push_cast; omega
          · simp only [hl0, false_and, if_false]
            refine ⟨?_, ?_⟩
            · rw [Function.update_of_ne (by omega), b1 _ (by omega)]; exact hold.1
            · rw [Function.update_of_ne (by omega), b1 _ (by omega)]; exact hold.2
        · have := headhead j hjp
          have hL : (fun l => if l = 0 ∧ j = p then L 0 p + n else L l j) = fun l => L l j := by
            funext l; simp [hjp]
          simp only [hL]
          exact (lay.head j hj).congr fun c h1 h2 => by
            rw [Function.update_of_ne (by omega), b1 _ (by omega)]
      · intro j hj l hl
        by_cases hjp : l = 0 ∧ j = p
        · obtain ⟨rfl, rfl⟩ := hjp
          simp only [and_self, if_true]
          intro t ht
          rw [List.length_append, ha, hn] at ht
          by_cases hta : t < a
          · have := lay.pts j hj 0 hl t (by omega)
            rw [List.getElem_append_left (by omega)]
            rw [Function.update_of_ne (by omega), b1 _ (by omega), Function.update_of_ne (by omega),
              b1 _ (by omega)]
            exact this
          · rw [List.getElem_append_right (by omega)]
            have := lay.pts i hi k hk (t - (S 0 j).length) (by omega)
            rw [Function.update_of_ne (by omega), a1 _ (by omega) (by omega),
              Function.update_of_ne (by omega), a1 _ (by omega) (by omega)]
            rw [show 2 * (P.sec k i : Int) + (2 * ((P.sec 0 j : Int) + t)
                - 2 * ((P.sec 0 j : Int) + a)) = 2 * ((P.sec k i : Int)
                + ((t - (S 0 j).length : Nat) : Int)) by omega,
              show 2 * (P.sec k i : Int) + (2 * ((P.sec 0 j : Int) + t) + 1
                - 2 * ((P.sec 0 j : Int) + a)) = 2 * ((P.sec k i : Int)
                + ((t - (S 0 j).length : Nat) : Int)) + 1 by omega]
            exact this
        · have hd2 := Plan.sec_sec (P := P) (k := l) (l := 0) hj hp hl (by omega) hjp
          have hc2 := fit.pts j hj l hl
          have hh2 := sechead j l hj
          simp only [if_neg hjp]
          exact (lay.pts j hj l hl).congr fun c h1 h2 => by
            rw [Function.update_of_ne (by omega), b1 _ (by omega)]
      · intro j hj hsh
        have hf := headsec j hj
        have hk := Plan.ci_kids hsh
        have hk2 := fit.table j hj hsh
        refine (lay.table j hj hsh).congr fun c h1 h2 => ?_
        by_cases hjp : j = p
        · subst hjp
          rw [Function.update_of_ne (by omega), b1 _ (by omega)]
        · have := headhead j hjp
          rw [Function.update_of_ne (by omega), b1 _ (by omega)]

/-- A child is entered into the table of its parent. -/
theorem lay_child (lay : Lay P m L S d tab) (fit : Fits P S tab)
    {i p : Nat} (hp : p < P.N) (hsh : P.sh p = false)
    (room : (tab p).length + 1 ≤ (P.kids p p).length) :
    ∃ m', addChild P.size (P.off p) ((i : Int) - p) m = some m' ∧
      Lay P m' L S d (fun j => if j = p then tab p ++ [i] else tab j) := by
  have ht := lay.table p hp hsh
  have sp := Plan.head_size (P := P) hp
  have hk := Plan.ci_kids hsh
  have headsec : ∀ j l, j < P.N → P.off p + 4 + P.ci p ≤ P.sec l j ∨
      P.sec l j + P.cap l j ≤ P.off p := fun j l hj => Plan.head_sec hp hj
  have headhead : ∀ j, j ≠ p → P.off j + 4 + P.ci j ≤ P.off p ∨ P.off p + 4 + P.ci p ≤ P.off j :=
    fun j hj => Plan.head_head hj
  have r1 := rd_eq (size := P.size) (by omega) (by omega) ht.1
  have w1 : ∀ v, wr P.size m (2 * ((P.off p : Int) + 4)) v
      = some (Function.update m (2 * ((P.off p : Int) + 4)) (some v)) :=
    fun v => wr_some (by omega) (by omega)
  refine ⟨Function.update (Function.update m (2 * ((P.off p : Int) + 4))
      (some (((tab p).length : Int) + 1))) (2 * ((P.off p : Int) + 4) + ((tab p).length + 1))
      (some ((i : Int) - p)), ?_, ?_⟩
  · simp only [addChild, r1, Option.bind_some, w1]
    exact wr_some (by omega) (by omega)
  · refine ⟨?_, ?_, ?_⟩
    · intro j hj
      refine (lay.head j hj).congr fun c h1 h2 => ?_
      by_cases hjp : j = p
      · subst hjp
        rw [Function.update_of_ne (by omega), Function.update_of_ne (by omega)]
      · have := headhead j hjp
        rw [Function.update_of_ne (by omega), Function.update_of_ne (by omega)]
    · intro j hj l hl
      have := headsec j l hj
      have := fit.pts j hj l hl
      refine (lay.pts j hj l hl).congr fun c h1 h2 => ?_
      rw [Function.update_of_ne (by omega), Function.update_of_ne (by omega)]
    · intro j hj hs
      by_cases hjp : j = p
      · subst hjp
        simp only [if_true]
        refine ⟨?_, ?_⟩
        · rw [Function.update_of_ne (by omega), Function.update_self]
          simp
        · intro t htl
          rw [List.length_append, List.length_singleton] at htl
          by_cases e : t < (tab j).length
          · rw [List.getElem_append_left e, Function.update_of_ne (by omega),
              Function.update_of_ne (by omega)]
            exact ht.2 t e
          · obtain rfl : t = (tab j).length := by omega
            rw [Function.update_self, List.getElem_append_right (by omega)]
            simp
      · have := headhead j hjp
        have := Plan.ci_kids hs
        have := fit.table j hj hs
        simp only [if_neg hjp]
        refine (lay.table j hj hs).congr fun c h1 h2 => ?_
        rw [Function.update_of_ne (by omega), Function.update_of_ne (by omega)]

theorem relative_spec {size p : Int} (l : List Nat) (hl : l.Nodup) {m : Mem}
    (hb : ∀ a ∈ l, 0 ≤ 2 * p + a ∧ 2 * p + a < 2 * size)
    (hdef : ∀ a ∈ l, (m (2 * p + a)).isSome) :
    ∃ m', relative size p l m = some m' ∧
      (∀ a ∈ l, m' (2 * p + a) = (m (2 * p + a)).map (· - p)) ∧
      (∀ c, (∀ a ∈ l, c ≠ 2 * p + a) → m' c = m c) := by
  induction l generalizing m with
  | nil => exact ⟨m, rfl, by simp, fun _ _ => rfl⟩
  | cons a l ih =>
    rw [List.nodup_cons] at hl
    obtain ⟨v, hv⟩ := Option.isSome_iff_exists.mp (hdef a (by simp))
    have hba := hb a (by simp)
    have hne : ∀ b ∈ l, (2 * p + (b : Int)) ≠ 2 * p + a := by
      intro b hbl e
      have : b = a := by omega
      subst this; exact hl.1 hbl
    obtain ⟨m', e', h1, h2⟩ := ih hl.2 (m := Function.update m (2 * p + a) (some (v - p)))
      (fun b hbl => hb b (by simp [hbl]))
      (fun b hbl => by rw [Function.update_of_ne (hne b hbl)]; exact hdef b (by simp [hbl]))
    refine ⟨m', ?_, ?_, ?_⟩
    · simp only [relative, rd_eq hba.1 hba.2 hv, Option.bind_some, wr_some hba.1 hba.2]
      exact e'
    · intro b hbl
      rcases List.mem_cons.mp hbl with rfl | hbl
      · rw [h2 _ (fun c hc => (hne c hc).symm), Function.update_self, hv]; rfl
      · rw [h1 b hbl, Function.update_of_ne (hne b hbl)]
    · intro c hc
      rw [h2 c (fun b hbl => hc b (by simp [hbl])), Function.update_of_ne (hc a (by simp))]

/-- The header of record `i` is made relative. -/
theorem lay_relative (lay : Lay P m L S d tab) (fit : Fits P S tab)
    {i : Nat} (hi : i < P.N) (di : d i = 0) :
    ∃ m', relative P.size (P.off i) [0, 1, 2, 3, 4, 5, 6, 7] m = some m' ∧
      Lay P m' L S (fun j => if j = i then (P.off i : Int) else d j) tab := by
  have si := Plan.head_size (P := P) hi
  have hh := lay.head i hi
  have cell : ∀ a : Nat, a < 8 → m (2 * (P.off i : Int) + a) =
      some (if a % 2 = 0 then (P.sec (a / 2) i : Int) else (P.sec (a / 2) i : Int) + L (a / 2) i) := by
    intro a ha
    have := hh (a / 2) (by omega)
    rw [di] at this
    split
    · rw [show 2 * (P.off i : Int) + (a : Int) = 2 * ((P.off i : Int) + (a / 2 : Nat)) by omega,
        this.1]; simp
    · rw [show 2 * (P.off i : Int) + (a : Int) = 2 * ((P.off i : Int) + (a / 2 : Nat)) + 1 by omega,
        this.2]; simp
  have hmem : ∀ a, a ∈ [0, 1, 2, 3, 4, 5, 6, 7] ↔ a < 8 := by intro a; simp; omega
  obtain ⟨m', e, h1, h2⟩ := relative_spec (size := P.size) (p := P.off i) [0, 1, 2, 3, 4, 5, 6, 7]
    (by decide) (m := m) (by intro a ha; rw [hmem] at ha; omega)
    (by intro a ha; rw [hmem] at ha; rw [cell a ha]; rfl)
  have h2' : ∀ c, ¬ (2 * (P.off i : Int) ≤ c ∧ c < 2 * (P.off i : Int) + 8) → m' c = m c := by
    intro c hc
    apply h2
    intro a ha
    rw [hmem] at ha
    omega
  have headsec : ∀ j l, j < P.N → P.off i + 4 + P.ci i ≤ P.sec l j ∨
      P.sec l j + P.cap l j ≤ P.off i := fun j l hj => Plan.head_sec hi hj
  have headhead : ∀ j, j ≠ i → P.off j + 4 + P.ci j ≤ P.off i ∨ P.off i + 4 + P.ci i ≤ P.off j :=
    fun j hj => Plan.head_head hj
  refine ⟨m', e, ?_, ?_, ?_⟩
  · intro j hj
    by_cases hji : j = i
    · subst hji
      simp only [if_true]
      intro k hk
      refine ⟨?_, ?_⟩
      · rw [show 2 * ((P.off j : Int) + (k : Int)) = 2 * (P.off j : Int) + ((2 * k : Nat) : Int) by
          push_cast; omega, h1 (2 * k) ((hmem _).mpr (by omega)), cell _ (by omega)]
        simp
      · rw [show 2 * ((P.off j : Int) + (k : Int)) + 1
          = 2 * (P.off j : Int) + ((2 * k + 1 : Nat) : Int) by
          push_cast; omega, h1 (2 * k + 1) ((hmem _).mpr (by omega)), cell _ (by omega)]
        rw [if_neg (by omega), show (2 * k + 1) / 2 = k by omega]
        rfl
    · have := headhead j hji
      simp only [if_neg hji]
      exact (lay.head j hj).congr fun c a b => h2' c (by omega)
  · intro j hj l hl
    have := headsec j l hj
    have := fit.pts j hj l hl
    exact (lay.pts j hj l hl).congr fun c a b => h2' c (by omega)
  · intro j hj hs
    have := Plan.ci_kids hs
    have := fit.table j hj hs
    refine (lay.table j hj hs).congr fun c a b => h2' c ?_
    by_cases hji : j = i
    · subst hji; omega
    · have := headhead j hji; omega

end

end Verif.Extract
