import Verif.Proof.BlockMemory

/-!
# Properties C32, C33, C47: block memory
-/

namespace Verif.Props

open Verif.Block

variable {T : Type} {m : Shift}

/-- A history of operations. -/
def blockRuns (m : Shift) : List (Op T) → BM T × List (Ptr × T) → Option (BM T × List (Ptr × T))
  | [], s => some s
  | o :: ops, s => (o.run m s).bind (blockRuns m ops)

/-- What the elements in use must be: a plain list. -/
def listStep (l : List T) : Op T → List T
  | .push v => l ++ [v]
  | .release k => l.eraseIdx k
  | .restart _ _ _ => []

/-- The block sizes of a history can be computed on the machine. -/
def SmallBases (m : Shift) (ops : List (Op T)) : Prop :=
  ∀ b un mx, Op.restart b un mx ∈ ops → eff m b < 31

theorem map_erase {α β : Type} (f : α → β) : ∀ (l : List α) (k : Nat), (l.eraseIdx k).map f = (l.map f).eraseIdx k
  | [], _ => rfl
  | _ :: _, 0 => rfl
  | a :: l, k + 1 => by simp [map_erase f l k]

theorem live_nil {S : BM T} : Live S ([] : List (Ptr × T)) where
  old x hx := by cases hx
  holds x hx := by cases hx
  nodup := List.nodup_nil
  free x hx := by cases hx

theorem blockRuns_ok : ∀ (ops : List (Op T)) (S : BM T) (l : List (Ptr × T)), SmallBases m ops → Ok m S → Live S l →
    ∃ S' l', blockRuns m ops (S, l) = some (S', l') ∧ Ok m S' ∧ Live S' l' ∧
      l'.map Prod.snd = ops.foldl listStep (l.map Prod.snd)
  | [], S, l, _, h, hl => ⟨S, l, rfl, h, hl, rfl⟩
  | o :: ops, S, l, hb, h, hl => by
    have hb' : SmallBases m ops := fun b un mx hm => hb b un mx (List.mem_cons_of_mem _ hm)
    cases o with
    | push v =>
      obtain ⟨S1, e, h1, hl1, _⟩ := push_ok h hl v
      obtain ⟨S', l', e', h2, h3, h4⟩ := blockRuns_ok ops S1 _ hb' h1 hl1
      exact ⟨S', l', by rw [blockRuns, e]; exact e', h2, h3, by rw [h4]; simp [listStep]⟩
    | release k =>
      obtain ⟨S1, l1, e, h1, hl1, rfl⟩ := release_ok h hl k
      obtain ⟨S', l', e', h2, h3, h4⟩ := blockRuns_ok ops S1 _ hb' h1 hl1
      exact ⟨S', l', by rw [blockRuns, e]; exact e', h2, h3, by rw [h4, map_erase]; rfl⟩
    | restart b un mx =>
      obtain ⟨S1, e, h1, _, hr, _⟩ := init_ok (m := m) un mx (hb b un mx (by simp)) (.inl h)
      have hl1 : Live S1 ([] : List (Ptr × T)) :=
        live_nil
      obtain ⟨S', l', e', h2, h3, h4⟩ := blockRuns_ok ops S1 _ hb' h1 hl1
      refine ⟨S', l', ?_, h2, h3, by rw [h4]; simp [listStep]⟩
      rw [blockRuns]
      simp only [Op.run, e, Option.bind_some]
      exact e'

theorem fresh_init {b : Nat} (un : Bool) (mx : Nat) (hb : eff m b < 31) (h0 : b ≠ 0 ∨ un = true) :
    ∃ S : BM T, init m fresh b un mx = some S ∧ Ok m S ∧ S.count = 0 ∧ S.reuse = [] ∧ S.maxReuse = mx ∧ S.base = b :=
  init_ok un mx hb (.inr ⟨rfl, fun h => by
    rcases h0 with h0 | h0
    · exact h0 h.1
    · rw [h0] at h; cases h.2⟩)

/-- **C32** Any history of appending, recycling and starting again, on a new object: no access is invalid, the
elements in use are those of a plain list, each can be read back at the address it was given when it was appended,
and no two share an address. (`b < 31` on a standard machine; the exponent 0 is C47.) -/
theorem C32_history {b : Nat} {un : Bool} {mx : Nat} {ops : List (Op T)} (hb : eff m b < 31) (h0 : b ≠ 0 ∨ un = true)
    (hops : SmallBases m ops) :
    ∃ S l, blockRuns m (.restart b un mx :: ops) (fresh, []) = some (S, l) ∧
      l.map Prod.snd = ops.foldl listStep [] ∧ (l.map Prod.fst).Nodup ∧ ∀ x ∈ l, load S x.1 = some x.2 := by
  obtain ⟨S0, e, h, _⟩ := fresh_init (T := T) (m := m) un mx hb h0
  have hl : Live S0 ([] : List (Ptr × T)) :=
    live_nil
  obtain ⟨S', l', e', h2, h3, h4⟩ := blockRuns_ok ops S0 [] hops h hl
  refine ⟨S', l', ?_, h4, h3.nodup, fun x hx => ?_⟩
  · rw [blockRuns]; simp only [Op.run, e, Option.bind_some]; exact e'
  · have := h3.old x hx
    rw [load, if_pos (h2.old_valid this.1 this.2)]
    exact h3.holds x hx

/-- **C32** (recycling) An appended element never gets the address of an element in use, after any history. -/
theorem C32_address_not_in_use {b : Nat} {un : Bool} {mx : Nat} {ops : List (Op T)} (hb : eff m b < 31)
    (h0 : b ≠ 0 ∨ un = true) (hops : SmallBases m ops) {S : BM T} {l : List (Ptr × T)}
    (hr : blockRuns m (.restart b un mx :: ops) (fresh, []) = some (S, l)) : get S ∉ l.map Prod.fst := by
  obtain ⟨S0, e, h, _⟩ := fresh_init (T := T) (m := m) un mx hb h0
  have hl : Live S0 ([] : List (Ptr × T)) :=
    live_nil
  obtain ⟨S', l', e', h2, h3, _⟩ := blockRuns_ok ops S0 [] hops h hl
  rw [blockRuns] at hr
  simp only [Op.run, e, Option.bind_some] at hr
  rw [hr] at e'
  obtain ⟨rfl, rfl⟩ := Prod.mk.inj (Option.some.inj e')
  intro hm
  obtain ⟨x, hx, ex⟩ := List.mem_map.1 hm
  have ho := h3.old x hx
  unfold Block.get at ex
  split at ex
  · rename_i p l' er
    exact h3.free x hx (by rw [er, ex]; simp)
  · rw [ex, h2.count] at ho
    exact absurd ho.2 (Nat.lt_irrefl _)

theorem runs_push (vs : List T) : ∀ (S : BM T) (l : List (Ptr × T)), Ok m S → Live S l → S.reuse = [] →
    l.length = S.count → (∀ i (hi : i < l.length), l[i].1 = (i / S.size, i % S.size)) →
    ∃ S' l', blockRuns m (vs.map Op.push) (S, l) = some (S', l') ∧ Ok m S' ∧ Live S' l' ∧ S'.count = l'.length ∧
      l'.map Prod.snd = l.map Prod.snd ++ vs ∧ ∀ i (hi : i < l'.length), l'[i].1 = (i / S'.size, i % S'.size) := by
  induction vs with
  | nil => intro S l h hl hr hc ha; exact ⟨S, l, rfl, h, hl, hc.symm, by simp, ha⟩
  | cons v vs ih =>
    intro S l h hl hr hc ha
    obtain ⟨S1, e, h1, hl1, _⟩ := push_ok h hl v
    have eS : S1 = add { S with mem := Function.update S.mem (get S) (some v) } := by
      simp only [Op.run, store, if_pos h.get_valid, Option.bind_some, Option.some.injEq, Prod.mk.injEq] at e
      exact e.1.symm
    obtain ⟨f1, f2, f3⟩ := add_fields (S := { S with mem := Function.update S.mem (get S) (some v) })
    rw [← eS] at f1 f2 f3
    dsimp only at f1 f2 f3
    rw [if_pos hr] at f2
    rw [hr] at f3
    have hget : get S = (S.count / S.size, S.count % S.size) := by
      have hpos := h.size_pos
      have ho := h.off_lt
      unfold Block.get
      rw [hr]
      have e1 : S.count / S.size = S.cur := by
        rw [h.count, Nat.mul_comm, Nat.mul_add_div hpos, Nat.div_eq_of_lt ho]; omega
      have e2 : S.count % S.size = S.off := by
        rw [h.count, Nat.mul_comm, Nat.mul_add_mod, Nat.mod_eq_of_lt ho]
      rw [e1, e2]
    obtain ⟨S', l', e', h2, h3, h4, h5, h6⟩ := ih S1 (l ++ [(get S, v)]) h1 hl1 f3 (by rw [f2]; simp [hc]) (by
      intro i hi
      rw [f1]
      by_cases hil : i < l.length
      · rw [List.getElem_append_left hil]; exact ha i hil
      · have : i = l.length := by simp at hi; omega
        subst this
        simp [hget, hc])
    refine ⟨S', l', ?_, h2, h3, h4, by rw [h5]; simp, h6⟩
    rw [List.map_cons, blockRuns, e]
    exact e'

/-- **C32** The array of recycled addresses is never overrun. -/
theorem C32_recycled_bounded {b : Nat} {un : Bool} {mx : Nat} {ops : List (Op T)} (hb : eff m b < 31)
    (h0 : b ≠ 0 ∨ un = true) (hops : SmallBases m ops) {S : BM T} {l : List (Ptr × T)}
    (hr : blockRuns m (.restart b un mx :: ops) (fresh, []) = some (S, l)) : S.reuse.length ≤ S.maxReuse := by
  obtain ⟨S0, e, h, _⟩ := fresh_init (T := T) (m := m) un mx hb h0
  obtain ⟨S', l', e', h2, _⟩ := blockRuns_ok ops S0 [] hops h live_nil
  rw [blockRuns] at hr
  simp only [Op.run, e, Option.bind_some] at hr
  rw [e'] at hr
  cases hr
  exact h2.free_max

/-- **C32** (reading by number) After appending the values `vs`, element `i` is `vs[i]`, and it still is at the
address it was given when it was appended. -/
theorem C32_append_read {b : Nat} {un : Bool} {mx : Nat} (vs : List T) (hb : eff m b < 31) (h0 : b ≠ 0 ∨ un = true) :
    ∃ S l, blockRuns m (.restart b un mx :: vs.map .push) (fresh, []) = some (S, l) ∧ S.count = vs.length ∧
      l.map Prod.snd = vs ∧ ∀ i (hi : i < vs.length), ∃ p, atAddr m S i = some p ∧ load S p = some vs[i] ∧
        (l.map Prod.fst)[i]? = some p := by
  obtain ⟨S0, e, h, hc, hr, _⟩ := fresh_init (T := T) (m := m) un mx hb h0
  have hl : Live S0 ([] : List (Ptr × T)) :=
    live_nil
  obtain ⟨S, l, e', h2, h3, h4, h5, h6⟩ := runs_push vs S0 [] h hl hr hc.symm (fun i hi => by cases hi)
  rw [List.map_nil, List.nil_append] at h5
  have hlen : l.length = vs.length := by rw [← h5]; simp
  refine ⟨S, l, ?_, by omega, h5, fun i hi => ?_⟩
  · rw [blockRuns]; simp only [Op.run, e, Option.bind_some]; exact e'
  · obtain ⟨a1, a2⟩ := atAddr_eq h2 (i := i) (by omega)
    have hil : i < l.length := by omega
    refine ⟨_, a1, ?_, ?_⟩
    · rw [load, if_pos a2, ← h6 i hil, h3.holds _ (List.getElem_mem hil)]
      congr 1
      simp [← h5]
    · rw [← h6 i hil]; simp [hil]

/-- **C32** (visiting) After any history the visitor sees exactly the addresses of the elements number 0, 1, …, in
order, each once; all elements in use are among them. -/
theorem C32_visitor {b : Nat} {un : Bool} {mx : Nat} {ops : List (Op T)} (hb : eff m b < 31) (h0 : b ≠ 0 ∨ un = true)
    (hops : SmallBases m ops) {S : BM T} {l : List (Ptr × T)}
    (hr : blockRuns m (.restart b un mx :: ops) (fresh, []) = some (S, l)) :
    ∃ L, visits S (S.count + 1) Pos.start = some L ∧ L.length = S.count ∧ L.Nodup ∧
      (∀ i (hi : i < L.length), atAddr m S i = some L[i]) ∧ ∀ x ∈ l, x.1 ∈ L := by
  obtain ⟨S0, e, h, _⟩ := fresh_init (T := T) (m := m) un mx hb h0
  have hl : Live S0 ([] : List (Ptr × T)) :=
    live_nil
  obtain ⟨S', l', e', h2, h3, _⟩ := blockRuns_ok ops S0 [] hops h hl
  rw [blockRuns] at hr
  simp only [Op.run, e, Option.bind_some] at hr
  rw [hr] at e'
  obtain ⟨rfl, rfl⟩ := Prod.mk.inj (Option.some.inj e')
  have hv := visits_eq h2 S.count 0 Pos.start (by omega) rfl (fun _ => ⟨rfl, rfl⟩) (fun u e => absurd e (by omega))
    (S.count + 1) (by omega)
  refine ⟨_, hv, by simp, ?_, ?_, ?_⟩
  · refine List.Nodup.map_on ?_ List.nodup_range
    intro i _ j _ e
    simp only [Nat.zero_add, Prod.mk.injEq] at e
    rw [← Nat.div_add_mod i S.size, ← Nat.div_add_mod j S.size, e.1, e.2]
  · intro i hi
    simp only [List.length_map, List.length_range] at hi
    rw [(atAddr_eq h2 hi).1]
    simp
  · intro x hx
    obtain ⟨a, c⟩ := h3.old x hx
    have hpos := h2.size_pos
    refine List.mem_map.2 ⟨x.1.1 * S.size + x.1.2, List.mem_range.2 c, ?_⟩
    rw [Nat.zero_add, Nat.mul_comm, Nat.mul_add_div hpos, Nat.div_eq_of_lt a, Nat.mul_add_mod, Nat.mod_eq_of_lt a]
    rfl

/-- Blocks of two elements: three appended, the second recycled, two appended; the first of these gets the recycled
address. -/
example : ∃ S, blockRuns .standard (.restart 1 false 3 :: [.push 10, .push 11, .push 12, .release 1, .push 13, .push 14])
    (fresh, []) = some (S, [((0, 0), 10), ((1, 0), 12), ((0, 1), 13), ((1, 1), 14)]) ∧ S.blocks = 3 ∧
      visits S 5 Pos.start = some [(0, 0), (0, 1), (1, 0), (1, 1)] := ⟨_, rfl, rfl, rfl⟩

example : SmallBases .standard ([.push 10, .restart 5 true 0] : List (Op Nat)) := by
  intro b un mx h
  simp only [List.mem_cons, Op.restart.injEq, List.not_mem_nil, or_false, reduceCtorEq, false_or] at h
  rw [h.1]; decide

/-- **C33** (violated) By the rules of C++ the call `init(2000, …)` which both algorithms make for each patch is
undefined on a new object, and so is every `at` after it. -/
theorem C33_false (un : Bool) (mx : Nat) :
    init .standard (fresh : BM T) 2000 un mx = none ∧ ∀ (S : BM T) i, S.base = 2000 → atAddr .standard S i = none := by
  refine ⟨rfl, fun S i h => ?_⟩
  rw [atAddr, h]
  rfl

/-- **C33** (what holds) On a machine that shifts by the amount modulo 32 the call gives blocks of 65536 elements, and
C32 holds for it. -/
theorem C33_masked_partial (un : Bool) (mx : Nat) (ops : List (Op T)) (hops : SmallBases .masked ops) :
    (∃ S : BM T, init .masked fresh 2000 un mx = some S ∧ S.size = 65536) ∧
    ∃ S l, blockRuns .masked (.restart 2000 un mx :: ops) (fresh, []) = some (S, l) ∧
      l.map Prod.snd = ops.foldl listStep [] ∧ (l.map Prod.fst).Nodup ∧ ∀ x ∈ l, load S x.1 = some x.2 := by
  refine ⟨?_, C32_history (by decide) (.inl (by decide)) hops⟩
  obtain ⟨S, e, h, _, _, _, hb⟩ := fresh_init (T := T) (m := .masked) (b := 2000) un mx (by decide) (.inl (by decide))
  refine ⟨S, e, ?_⟩
  rw [h.size, hb]; decide

/-- **C47** (what holds) A new object can be initialised with every exponent from 1 to 30. -/
theorem C47_exponents_partial {b : Nat} (un : Bool) (mx : Nat) (h1 : 1 ≤ b) (h2 : b ≤ 30) :
    ∃ S : BM T, init .standard fresh b un mx = some S ∧ S.size = 2 ^ b := by
  obtain ⟨S, e, h, _, _, _, hb⟩ := fresh_init (T := T) (m := .standard) (b := b) un mx (by show b < 31; omega) (.inl (by omega))
  exact ⟨S, e, by rw [h.size, hb]; rfl⟩

/-- **C47** (violated) The exponent 0, which the assertion admits, makes `init` take the first element of an empty
vector. -/
theorem C47_false (m : Shift) (mx : Nat) : init m (fresh : BM T) 0 false mx = none := rfl

example : ∃ S : BM Nat, init .standard fresh 3 false 0 = some S ∧ S.size = 8 := ⟨_, rfl, rfl⟩

end Verif.Props
