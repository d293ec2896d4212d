import Verif.Proof.ExtractJoin

/-!
# Writing the headers and the pixels
-/

namespace Verif.Extract

theorem wrs_spec {size : Int} (l : List (Int × Int)) (hl : (l.map Prod.fst).Nodup) {m : Mem}
    (hb : ∀ e ∈ l, 0 ≤ e.1 ∧ e.1 < 2 * size) :
    ∃ m', wrs size m l = some m' ∧ (∀ e ∈ l, m' e.1 = some e.2) ∧
      (∀ c, (∀ e ∈ l, c ≠ e.1) → m' c = m c) := by
  induction l generalizing m with
  | nil => exact ⟨m, rfl, by simp, fun _ _ => rfl⟩
  | cons e l ih =>
    obtain ⟨a, v⟩ := e
    rw [List.map_cons, List.nodup_cons] at hl
    have hba := hb (a, v) (by simp)
    obtain ⟨m', e', h1, h2⟩ := ih hl.2 (m := Function.update m a (some v))
      (fun b hbl => hb b (by simp [hbl]))
    refine ⟨m', ?_, ?_, ?_⟩
    · simp only [wrs, wr_some hba.1 hba.2, Option.bind_some]; exact e'
    · intro b hbl
      rcases List.mem_cons.mp hbl with rfl | hbl
      · rw [h2 a, Function.update_self]
        intro b hb' e
        exact hl.1 (List.mem_map.mpr ⟨b, hb', e.symm⟩)
      · exact h1 b hbl
    · intro c hc
      rw [h2 c fun b hbl => hc b (by simp [hbl]), Function.update_of_ne (hc (a, v) (by simp))]

section
variable {P : Plan}

/-- Headers of the first `t` records are written. -/
def Heads (P : Plan) (t : Nat) (m : Mem) : Prop :=
  ∀ j, j < t → Head P m j 0 (fun k => (P.own k j).length) ∧ (P.sh j = false → Table P m j [])

/-- `block_memory_start_indexes` after `t` records. -/
def Plan.starts (P : Plan) (t k : Nat) : Nat := if k = 0 then P.off t else P.base k + P.cum k t

/-- State of the header loop after `t` records. -/
structure HeadInv (P : Plan) (t : Nat) (X0 : XForest) (ms0 : Nat → Mser) (arr : List Reg)
    (s : HeadSt) : Prop where
  heads : Heads P t s.mem
  start : ∀ k, k < 4 → s.start k = P.starts t k
  cnt : ∀ k, k < 4 → ∀ j, j < P.N →
    s.cnt k j = if j < t then (P.sec k j : Int) else ((P.own k j).length : Int)
  node : ∀ r, s.X r = { X0 r with index := (s.X r).index }
  index : ∀ j (h : j < arr.length), j < t → (s.X arr[j]).index = j
  ms : ∀ j, j < P.N → s.ms j = if j < t then
    { ms0 j with points := P.off j, gray := ((arr[j]?).map fun r => (X0 r).gray).getD 0 } else ms0 j

theorem head_step {t : Nat} {X0 : XForest} {ms0 : Nat → Mser} {arr : List Reg} {s : HeadSt}
    (hN : arr.length = P.N) (hnd : arr.Nodup) (ht : t < P.N)
    (inv : HeadInv P t X0 ms0 arr s) (ht' : t < arr.length)
    (hpix : (X0 arr[t]).pix = (P.accs t t).length) (hkids : (X0 arr[t]).kids = (P.kids t t).length)
    (hms : (ms0 t).mtype = if P.sh t then .share4 else .recursive4) :
    ∃ s', headOne P.size s (arr[t], t) = some s' ∧ HeadInv P (t + 1) X0 ms0 arr s' := by
  have hmst : s.ms t = ms0 t := by rw [inv.ms t ht, if_neg (by omega)]
  have hc : ∀ k, k < 4 → s.cnt k t = ((P.own k t).length : Int) := by
    intro k hk; rw [inv.cnt k hk t ht, if_neg (by omega)]
  have hxp : (s.X arr[t]).pix = (P.accs t t).length := by rw [inv.node, ← hpix]
  have hxk : (s.X arr[t]).kids = (P.kids t t).length := by rw [inv.node, ← hkids]
  have hxg : (s.X arr[t]).gray = (X0 arr[t]).gray := by rw [inv.node]
  have st0 : s.start 0 = P.off t := by rw [inv.start 0 (by omega)]; simp [Plan.starts]
  have stk : ∀ k, k < 4 → k ≠ 0 → s.start k = P.sec k t := by
    intro k hk h0; rw [inv.start k hk]; simp [Plan.starts, Plan.sec, h0]
  have b1 := stk 1 (by omega) (by omega)
  have b2 := stk 2 (by omega) (by omega)
  have b3 := stk 3 (by omega) (by omega)
  have c0 := hc 0 (by omega)
  have c1 := hc 1 (by omega)
  have c2 := hc 2 (by omega)
  have c3 := hc 3 (by omega)
  have hh := Plan.head_size (P := P) ht
  have hs0 := Plan.off_lt_sec (P := P) (i := t)
  have headhead : ∀ j, j ≠ t → P.off j + 4 + P.ci j ≤ P.off t ∨ P.off t + 4 + P.ci t ≤ P.off j :=
    fun j hj => Plan.head_head hj
  -- the new start values and region objects do not depend on the type
  have hstart : ∀ x0c : Int, x0c = P.off (t + 1) → ∀ k, k < 4 →
      (if k = 0 then x0c else s.start k + s.cnt k t) = (P.starts (t + 1) k : Int) := by
    intro x0c hx k hk
    by_cases h0 : k = 0
    · simp only [Plan.starts, if_pos h0, hx]
    · rw [if_neg h0, inv.start k hk, hc k hk]
      simp only [Plan.starts, if_neg h0, Plan.cum]; push_cast; omega
  have hcnt : ∀ x0 : Int, x0 = P.sec 0 t → ∀ k, k < 4 → ∀ j, j < P.N →
      (if j = t then (if k = 0 then x0 else s.start k) else s.cnt k j)
        = if j < t + 1 then (P.sec k j : Int) else ((P.own k j).length : Int) := by
    intro x0 hx k hk j hj
    by_cases hjt : j = t
    · subst hjt
      rw [if_pos rfl, if_pos (show j < j + 1 by omega)]
      by_cases h0 : k = 0
      · rw [if_pos h0, h0, hx]
      · rw [if_neg h0, stk k hk h0]
    · rw [if_neg hjt, inv.cnt k hk j hj]
      by_cases hlt : j < t
      · rw [if_pos hlt, if_pos (by omega)]
      · rw [if_neg hlt, if_neg (by omega)]
  have hnode : ∀ r, Function.update s.X arr[t] { s.X arr[t] with index := t } r =
      { X0 r with
        index := (Function.update s.X arr[t] { s.X arr[t] with index := t } r).index } := by
    intro r
    by_cases h : r = arr[t]
    · subst h; rw [Function.update_self, inv.node]
    · rw [Function.update_of_ne h]; exact inv.node r
  have hindex : ∀ j (h : j < arr.length), j < t + 1 →
      (Function.update s.X arr[t] { s.X arr[t] with index := t } arr[j]).index = j := by
    intro j h hjt
    by_cases e : j = t
    · subst e; rw [Function.update_self]
    · rw [Function.update_of_ne]
      · exact inv.index j h (by omega)
      · intro e'
        exact e ((List.Nodup.getElem_inj_iff hnd).mp e')
  have hms' : ∀ j, j < P.N →
      Function.update s.ms t { s.ms t with points := (P.off t : Int), gray := (s.X arr[t]).gray } j
      = if j < t + 1 then
        { ms0 j with points := P.off j, gray := ((arr[j]?).map fun r => (X0 r).gray).getD 0 }
        else ms0 j := by
    intro j hj
    by_cases e : j = t
    · subst e
      rw [Function.update_self, if_pos (by omega), hmst, hxg, List.getElem?_eq_getElem ht']
      rfl
    · rw [Function.update_of_ne e, inv.ms j hj]
      by_cases hlt : j < t
      · rw [if_pos hlt, if_pos (by omega)]
      · rw [if_neg hlt, if_neg (by omega)]
  by_cases hsh : P.sh t = true
  · have hci : P.ci t = 0 := by simp [Plan.ci, hsh]
    have hch : P.ch t = (P.accs t t).length := by simp [Plan.ch, hsh]
    rw [hci] at hs0 hh
    have hoff : (P.off t : Int) + 4 + ((P.accs t t).length + (P.own 0 t).length) = P.off (t + 1) := by
      simp only [Plan.off, Plan.blk, hci, Plan.cap, hch, if_true]; push_cast; omega
    obtain ⟨m', e', h1, h2⟩ := wrs_spec (size := P.size) (m := s.mem)
      [(2 * (P.off t : Int), (P.off t : Int) + 4), (2 * ((P.off t : Int) + 1), P.sec 1 t),
       (2 * ((P.off t : Int) + 2), P.sec 2 t), (2 * ((P.off t : Int) + 3), P.sec 3 t),
       (2 * (P.off t : Int) + 1, (P.off t : Int) + 4 + (P.own 0 t).length),
       (2 * ((P.off t : Int) + 1) + 1, (P.sec 1 t : Int) + (P.own 1 t).length),
       (2 * ((P.off t : Int) + 2) + 1, (P.sec 2 t : Int) + (P.own 2 t).length),
       (2 * ((P.off t : Int) + 3) + 1, (P.sec 3 t : Int) + (P.own 3 t).length)]
      (by simp only [List.map_cons, List.map_nil, List.nodup_cons, List.mem_cons, List.not_mem_nil,
            List.nodup_nil, or_false, and_true, not_false_eq_true]
          omega)
      (by simp only [List.forall_mem_cons]; refine ⟨?_, ?_, ?_, ?_, ?_, ?_, ?_, ?_, by simp⟩ <;> omega)
    have h2' : ∀ c, ¬ (2 * (P.off t : Int) ≤ c ∧ c < 2 * (P.off t : Int) + 8) → m' c = s.mem c := by
      intro c hc
      apply h2
      simp only [List.forall_mem_cons]
      refine ⟨?_, ?_, ?_, ?_, ?_, ?_, ?_, ?_, by simp⟩ <;> omega
    simp only [List.forall_mem_cons] at h1
    obtain ⟨g0, g1, g2, g3, g4, g5, g6, g7, -⟩ := h1
    rw [← b1, ← b2, ← b3, ← c0, ← c1, ← c2, ← c3, ← st0] at e'
    refine ⟨{ X := Function.update s.X arr[t] { s.X arr[t] with index := t }
              ms := Function.update s.ms t
                { s.ms t with points := s.start 0, gray := (s.X arr[t]).gray }
              mem := m'
              start := fun k => if k = 0 then s.start 0 + 4 + (((s.X arr[t]).pix : Int) + s.cnt 0 t)
                else s.start k + s.cnt k t
              cnt := fun k j => if j = t then (if k = 0 then s.start 0 + 4 else s.start k)
                else s.cnt k j }, ?_, ?_⟩
    · simp only [headOne]
      rw [if_pos (by rw [hmst, hms, if_pos hsh]), e']
      rfl
    · refine ⟨?_, ?_, ?_, hnode, hindex, ?_⟩
      · intro j hj
        by_cases e : j = t
        · subst e
          refine ⟨?_, by rw [hsh]; simp⟩
          intro k hk
          have : k = 0 ∨ k = 1 ∨ k = 2 ∨ k = 3 := by omega
          dsimp only
          simp only [sub_zero]
          rcases this with rfl | rfl | rfl | rfl
          · exact ⟨by rw [Nat.cast_zero, add_zero, g0, ← hs0]; simp,
              by rw [Nat.cast_zero, add_zero, g4, ← hs0]; simp⟩
          · exact ⟨g1, g5⟩
          · exact ⟨g2, g6⟩
          · exact ⟨g3, g7⟩
        · have hd := headhead j e
          rw [hci] at hd
          obtain ⟨i1, i2⟩ := inv.heads j (by omega)
          refine ⟨i1.congr fun c a b => h2' c (by omega), fun hs => ?_⟩
          have hk := Plan.ci_kids hs
          exact (i2 hs).congr fun c a b => h2' c (by simp only [List.length_nil] at b; omega)
      · intro k hk
        exact hstart _ (by rw [hxp, st0, c0]; exact hoff) k hk
      · exact hcnt _ (by omega)
      · intro j hj
        have := hms' j hj
        rw [← st0] at this
        exact this
  · have hsh' : P.sh t = false := by simpa using hsh
    have hci : P.ci t = (2 + (P.kids t t).length) / 2 := by simp [Plan.ci, hsh]
    have hch : P.ch t = 0 := by simp [Plan.ch, hsh]
    have hck := Plan.ci_kids hsh'
    have hx0 : (P.off t : Int) + (4 + (2 + ((P.kids t t).length : Int)) / 2) = P.sec 0 t := by
      rw [← hs0, hci]; push_cast; omega
    have hoff : (P.sec 0 t : Int) + (P.own 0 t).length = P.off (t + 1) := by
      rw [← hs0]
      simp only [Plan.off, Plan.blk, Plan.cap, hch, if_true]; push_cast; omega
    obtain ⟨m', e', h1, h2⟩ := wrs_spec (size := P.size) (m := s.mem)
      [(2 * ((P.off t : Int) + 4), 0),
       (2 * (P.off t : Int), (P.sec 0 t : Int)), (2 * ((P.off t : Int) + 1), P.sec 1 t),
       (2 * ((P.off t : Int) + 2), P.sec 2 t), (2 * ((P.off t : Int) + 3), P.sec 3 t),
       (2 * (P.off t : Int) + 1, (P.sec 0 t : Int) + (P.own 0 t).length),
       (2 * ((P.off t : Int) + 1) + 1, (P.sec 1 t : Int) + (P.own 1 t).length),
       (2 * ((P.off t : Int) + 2) + 1, (P.sec 2 t : Int) + (P.own 2 t).length),
       (2 * ((P.off t : Int) + 3) + 1, (P.sec 3 t : Int) + (P.own 3 t).length)]
      (by simp only [List.map_cons, List.map_nil, List.nodup_cons, List.mem_cons, List.not_mem_nil,
            List.nodup_nil, or_false, and_true, not_false_eq_true]
          omega)
      (by simp only [List.forall_mem_cons]
          refine ⟨?_, ?_, ?_, ?_, ?_, ?_, ?_, ?_, ?_, by simp⟩ <;> omega)
    have h2' : ∀ c, ¬ (2 * (P.off t : Int) ≤ c ∧ c < 2 * (P.off t : Int) + 9) → m' c = s.mem c := by
      intro c hc
      apply h2
      simp only [List.forall_mem_cons]
      refine ⟨?_, ?_, ?_, ?_, ?_, ?_, ?_, ?_, ?_, by simp⟩ <;> omega
    simp only [List.forall_mem_cons] at h1
    obtain ⟨gt, g0, g1, g2, g3, g4, g5, g6, g7, -⟩ := h1
    rw [← b1, ← b2, ← b3, ← c0, ← c1, ← c2, ← c3, ← hx0, ← hxk, ← st0] at e'
    refine ⟨{ X := Function.update s.X arr[t] { s.X arr[t] with index := t }
              ms := Function.update s.ms t
                { s.ms t with points := s.start 0, gray := (s.X arr[t]).gray }
              mem := m'
              start := fun k => if k = 0 then
                s.start 0 + (4 + (2 + ((s.X arr[t]).kids : Int)) / 2) + s.cnt 0 t
                else s.start k + s.cnt k t
              cnt := fun k j => if j = t then (if k = 0 then
                s.start 0 + (4 + (2 + ((s.X arr[t]).kids : Int)) / 2) else s.start k)
                else s.cnt k j }, ?_, ?_⟩
    · simp only [headOne]
      rw [if_neg (by rw [hmst, hms, if_neg hsh]; simp), e']
      rfl
    · refine ⟨?_, ?_, ?_, hnode, hindex, ?_⟩
      · intro j hj
        by_cases e : j = t
        · subst e
          refine ⟨?_, fun _ => ⟨gt, by simp⟩⟩
          intro k hk
          have : k = 0 ∨ k = 1 ∨ k = 2 ∨ k = 3 := by omega
          dsimp only
          simp only [sub_zero]
          rcases this with rfl | rfl | rfl | rfl
          · exact ⟨by rw [Nat.cast_zero, add_zero, g0], by rw [Nat.cast_zero, add_zero, g4]⟩
          · exact ⟨g1, g5⟩
          · exact ⟨g2, g6⟩
          · exact ⟨g3, g7⟩
        · have hd := headhead j e
          obtain ⟨i1, i2⟩ := inv.heads j (by omega)
          refine ⟨i1.congr fun c a b => h2' c (by omega), fun hs => ?_⟩
          have hk := Plan.ci_kids hs
          exact (i2 hs).congr fun c a b => h2' c (by simp only [List.length_nil] at b; omega)
      · intro k hk
        exact hstart _ (by rw [hxk, st0, c0, hx0]; exact hoff) k hk
      · exact hcnt _ (by rw [hxk, st0, hx0])
      · intro j hj
        have := hms' j hj
        rw [← st0] at this
        exact this

theorem head_loop {X0 : XForest} {ms0 : Nat → Mser} {arr : List Reg} {s : HeadSt}
    (hN : arr.length = P.N) (hnd : arr.Nodup)
    (hpix : ∀ t (h : t < arr.length), (X0 arr[t]).pix = (P.accs t t).length)
    (hkids : ∀ t (h : t < arr.length), (X0 arr[t]).kids = (P.kids t t).length)
    (hms : ∀ t, t < P.N → (ms0 t).mtype = if P.sh t then .share4 else .recursive4)
    (inv : HeadInv P 0 X0 ms0 arr s) :
    ∃ s', arr.zipIdx.foldlM (headOne P.size) s = some s' ∧ HeadInv P P.N X0 ms0 arr s' := by
  have gen : ∀ (n t : Nat) (s : HeadSt), t + n = P.N → HeadInv P t X0 ms0 arr s →
      ∃ s', ((arr.drop t).zipIdx t).foldlM (headOne P.size) s = some s' ∧
        HeadInv P P.N X0 ms0 arr s' := by
    intro n
    induction n with
    | zero =>
      intro t s h inv
      obtain rfl : t = P.N := by omega
      rw [← hN, List.drop_length]
      exact ⟨s, rfl, by rw [hN]; exact inv⟩
    | succ n ih =>
      intro t s h inv
      have ht : t < arr.length := by omega
      obtain ⟨s1, e1, i1⟩ := head_step hN hnd (by omega) inv ht (hpix t ht) (hkids t ht)
        (hms t (by omega))
      obtain ⟨s2, e2, i2⟩ := ih (t + 1) s1 (by omega) i1
      refine ⟨s2, ?_, i2⟩
      rw [List.drop_eq_getElem_cons ht, List.zipIdx_cons, List.foldlM_cons, e1]
      exact e2
  have := gen P.N 0 s (by omega) inv
  simpa using this

/-! ### Pixels -/

theorem lay_point {m : Mem} {L : Nat → Nat → Nat} {S : Nat → Nat → List Pt} {d : Nat → Int}
    {tab : Nat → List Nat} (lay : Lay P m L S d tab) (fit : Fits P S tab) {k j : Nat} (hk : k < 4)
    (hj : j < P.N) (room : (S k j).length + 1 ≤ P.cap k j) (x y : Int) :
    ∃ m', wrs P.size m [(2 * ((P.sec k j : Int) + (S k j).length), x),
        (2 * ((P.sec k j : Int) + (S k j).length) + 1, y)] = some m' ∧
      Lay P m' L (fun l i => if l = k ∧ i = j then S k j ++ [(x, y)] else S l i) d tab := by
  have hs := Plan.sec_lt (P := P) hj hk
  have hsec : ∀ i l, i < P.N → l < 4 → ¬ (l = k ∧ i = j) →
      P.sec l i + P.cap l i ≤ P.sec k j ∨ P.sec k j + P.cap k j ≤ P.sec l i :=
    fun i l hi hl h => Plan.sec_sec hi hj hl hk h
  have hhead : ∀ i, i < P.N → P.off i + 4 + P.ci i ≤ P.sec k j ∨ P.sec k j + P.cap k j ≤ P.off i :=
    fun i hi => Plan.head_sec hi hj
  obtain ⟨m', e', h1, h2⟩ := wrs_spec (size := P.size) (m := m)
    [(2 * ((P.sec k j : Int) + (S k j).length), x),
        (2 * ((P.sec k j : Int) + (S k j).length) + 1, y)] (by simp)
    (by simp only [List.forall_mem_cons]; refine ⟨?_, ?_, by simp⟩ <;> omega)
  have h2' : ∀ c, c ≠ 2 * ((P.sec k j : Int) + (S k j).length) →
      c ≠ 2 * ((P.sec k j : Int) + (S k j).length) + 1 → m' c = m c := by
    intro c a b
    apply h2
    simp only [List.forall_mem_cons]
    exact ⟨a, b, by simp⟩
  simp only [List.forall_mem_cons] at h1
  refine ⟨m', e', ?_, ?_, ?_⟩
  · intro i hi
    have := hhead i hi
    exact (lay.head i hi).congr fun c a b => h2' c (by omega) (by omega)
  · intro i hi l hl
    by_cases h : l = k ∧ i = j
    · obtain ⟨rfl, rfl⟩ := h
      simp only [and_self, if_true]
      intro t ht
      rw [List.length_append, List.length_singleton] at ht
      by_cases htl : t < (S l i).length
      · rw [List.getElem_append_left htl, h2' _ (by omega) (by omega), h2' _ (by omega) (by omega)]
        exact lay.pts i hi l hl t htl
      · obtain rfl : t = (S l i).length := by omega
        rw [List.getElem_append_right (by omega)]
        simp [h1]
    · have := hsec i l hi hl h
      have := fit.pts i hi l hl
      simp only [if_neg h]
      exact (lay.pts i hi l hl).congr fun c a b => h2' c (by omega) (by omega)
  · intro i hi hsh
    have := hhead i hi
    have := Plan.ci_kids hsh
    have := fit.table i hi hsh
    exact (lay.table i hi hsh).congr fun c a b => h2' c (by omega) (by omega)

/-- The point of pixel `rc` of patch `k`. -/
def ptOf (E : Env) (k : Nat) (rc : Nat × Nat) : Pt :=
  ((rc.2 : Int) + (E.pi k).left, (rc.1 : Int) + (E.pi k).top)

/-- The pixels of the list `l` of patch `k` with link word `j`. -/
def linked (E : Env) (k : Nat) (link : Nat → Int) (j : Nat) (l : List (Nat × Nat)) : List Pt :=
  (l.filter fun rc => link (Flood.idx (E.pi k).width rc.2 rc.1) = (j : Int)).map (ptOf E k)

theorem linked_append (E : Env) (k : Nat) (link : Nat → Int) (j : Nat) (l l' : List (Nat × Nat)) :
    linked E k link j (l ++ l') = linked E k link j l ++ linked E k link j l' := by
  simp [linked]

/-- The ranges while thread `k` is at work: `pre` is done. -/
def during (P : Plan) (E : Env) (k : Nat) (link : Nat → Int) (pre : List (Nat × Nat))
    (l j : Nat) : List Pt :=
  if l = k then linked E k link j pre else if l < k then P.own l j else []

theorem fill_loop {E : Env} {k : Nat} (hk : k < 4) {link : Nat → Int} {L : Nat → Nat → Nat}
    (hown : ∀ j, j < P.N → P.own k j = linked E k link j (scan (E.pi k).width (E.pi k).height))
    (hlink : ∀ rc ∈ scan (E.pi k).width (E.pi k).height,
      link (Flood.idx (E.pi k).width rc.2 rc.1) = -1 ∨
      ∃ j, j < P.N ∧ link (Flood.idx (E.pi k).width rc.2 rc.1) = ((j : Nat) : Int))
    (b0 : Int × Int × Int × Int) :
    ∀ (post pre : List (Nat × Nat)) (s : FillSt),
      scan (E.pi k).width (E.pi k).height = pre ++ post →
      Lay P s.mem L (during P E k link pre) (fun _ => 0) (fun _ => []) →
      (∀ j, j < P.N → s.pos j = (P.sec k j : Int) + (linked E k link j pre).length) →
      (∀ j, j < P.N → s.box j = (linked E k link j pre).foldl (fun b p => growBox b p.1 p.2) b0) →
      ∃ s', post.foldlM (fillOne E P.size P.N k link) s = some s' ∧
        Lay P s'.mem L (during P E k link (pre ++ post)) (fun _ => 0) (fun _ => []) ∧
        (∀ j, j < P.N → s'.box j
          = (linked E k link j (pre ++ post)).foldl (fun b p => growBox b p.1 p.2) b0) := by
  intro post
  induction post with
  | nil =>
    intro pre s _ lay _ hbox
    rw [List.append_nil]
    exact ⟨s, rfl, lay, hbox⟩
  | cons rc post ih =>
    intro pre s hscan lay hpos hbox
    have hmem : rc ∈ scan (E.pi k).width (E.pi k).height := by rw [hscan]; simp
    have hsplit : pre ++ rc :: post = (pre ++ [rc]) ++ post := by simp
    have fit : Fits P (during P E k link pre) (fun _ => []) := by
      refine ⟨?_, fun _ _ _ => by simp⟩
      intro j hj l hl
      simp only [during]
      split
      · rename_i h; subst h
        have := hown j hj
        rw [hscan, linked_append] at this
        simp only [Plan.cap, this, List.length_append]; omega
      · split
        · simp [Plan.cap]
        · simp
    rcases hlink rc hmem with hl | ⟨j, hj, hl⟩
    · -- not in a reported region
      have hlk : ∀ i : Nat, linked E k link i (pre ++ [rc]) = linked E k link i pre := by
        intro i
        rw [linked_append]
        simp only [linked, List.filter_cons, hl, List.filter_nil]
        rw [if_neg]
        · simp
        · simp only [decide_eq_true_eq]; omega
      have hdu : during P E k link (pre ++ [rc]) = during P E k link pre := by
        funext l i; simp only [during, hlk]
      obtain ⟨s', e', h1, h2⟩ := ih (pre ++ [rc]) s (by rw [hscan, hsplit]) (by rw [hdu]; exact lay)
        (by intro i hi; rw [hlk]; exact hpos i hi) (by intro i hi; rw [hlk]; exact hbox i hi)
      refine ⟨s', ?_, by rw [hsplit]; exact h1, by rw [hsplit]; exact h2⟩
      rw [List.foldlM_cons]
      simp only [fillOne, hl, if_true]
      exact e'
    · have hlkj : linked E k link j (pre ++ [rc]) = linked E k link j pre ++ [ptOf E k rc] := by
        rw [linked_append]; congr 1
        simp only [linked, List.filter_cons, hl]
        simp
      have hlk : ∀ i : Nat, i ≠ j → linked E k link i (pre ++ [rc]) = linked E k link i pre := by
        intro i hi
        rw [linked_append]
        simp only [linked, List.filter_cons, hl, List.filter_nil]
        rw [if_neg]
        · simp
        · simp only [decide_eq_true_eq]; omega
      have hdj : during P E k link pre k j = linked E k link j pre := by simp [during]
      have room : (during P E k link pre k j).length + 1 ≤ P.cap k j := by
        have := hown j hj
        rw [hscan, hsplit, linked_append, hlkj] at this
        rw [hdj]
        simp only [Plan.cap, this, List.length_append, List.length_singleton]; omega
      obtain ⟨m', e1, lay1⟩ := lay_point lay fit hk hj room (ptOf E k rc).1 (ptOf E k rc).2
      have hdu : (fun l i => if l = k ∧ i = j then during P E k link pre k j ++
          [((ptOf E k rc).1, (ptOf E k rc).2)] else during P E k link pre l i)
          = during P E k link (pre ++ [rc]) := by
        funext l i
        by_cases h : l = k ∧ i = j
        · obtain ⟨rfl, rfl⟩ := h
          simp only [and_self, if_true, hdj]
          simp only [during, if_true, hlkj]
        · rw [if_neg h]
          simp only [during]
          by_cases hlk' : l = k
          · rw [if_pos hlk', if_pos hlk', hlk i fun e => h ⟨hlk', e⟩]
          · rw [if_neg hlk', if_neg hlk']
      rw [hdu] at lay1
      rw [hdj, ← hpos j hj] at e1
      obtain ⟨s', e', h1, h2⟩ := ih (pre ++ [rc])
        { mem := m', pos := Function.update s.pos j (s.pos j + 1)
          box := Function.update s.box j (growBox (s.box j) (ptOf E k rc).1 (ptOf E k rc).2) }
        (by rw [hscan, hsplit]) lay1
        (by
          intro i hi
          by_cases e : i = j
          · subst e
            dsimp only
            rw [Function.update_self, hlkj, hpos i hi, List.length_append, List.length_singleton]
            push_cast; omega
          · dsimp only
            rw [Function.update_of_ne e, hlk i e]; exact hpos i hi)
        (by
          intro i hi
          by_cases e : i = j
          · subst e
            dsimp only
            rw [Function.update_self, hlkj, hbox i hi, List.foldl_append]
            rfl
          · dsimp only
            rw [Function.update_of_ne e, hlk i e]; exact hbox i hi)
      refine ⟨s', ?_, by rw [hsplit]; exact h1, by rw [hsplit]; exact h2⟩
      rw [List.foldlM_cons]
      simp only [fillOne, hl]
      rw [if_neg (by omega), if_pos (by omega), Int.toNat_natCast]
      simp only [ptOf] at e1 e' ⊢
      rw [e1]
      exact e'

end

end Verif.Extract
