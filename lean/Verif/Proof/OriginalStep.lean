import Verif.Proof.OriginalBase
import Verif.Proof.Conn

/-!
# Original detector: one neighbour
-/

namespace Verif.Original

open Function (update)
open Relation (ReflTransGen)
open Verif.Spec (LConn)

variable {E : Env} {s : St} {Ls : Nat → List Nat} {g cur : Nat} {pend : List Nat} {all : List Nat}

/-- The search for the root ends at a region without parent. -/
theorem findRoot_spec (h : Inv E s Ls g cur pend) (c : Nat) : ∀ n o (regs : Nat → Reg), s.nreg ≤ n + o → o < s.nreg →
    (∀ x, o ≤ x → regs x = s.regs x) →
    ∃ root regs', findRoot c n o regs = some (root, regs') ∧ Up (par s) o root ∧ par s root = none ∧ root < s.nreg ∧
      ∀ x, regs' x = regs x ∨ (o ≤ x ∧ x < s.nreg ∧ Up (par s) x root ∧ regs' x = { s.regs x with short := c }) := by
  intro n
  induction n with
  | zero => intro o regs h1 h2; omega
  | succ n ih =>
    intro o regs h1 h2 h3
    rw [findRoot]
    by_cases hs : (regs o).short = o
    · rw [if_pos hs]
      rw [h3 o le_rfl] at hs
      exact ⟨o, regs, rfl, .refl, (h.short_self o h2).1 hs, h2, fun x => .inl rfl⟩
    · rw [if_neg hs]
      dsimp only
      rw [h3 o le_rfl] at hs ⊢
      have hu := h.short o h2
      have hl := h.up_lt h2 hu
      have hlt : o < (s.regs o).short := lt_of_le_of_ne hl.2 (Ne.symm hs)
      obtain ⟨root, regs', k1, k2, k3, k4, k5⟩ := ih (s.regs o).short (update regs o { s.regs o with short := c })
        (by omega) hl.1 (by
          intro x hx
          rw [Function.update_of_ne (by omega)]
          exact h3 x (by omega))
      refine ⟨root, regs', k1, hu.trans k2, k3, k4, fun x => ?_⟩
      rcases k5 x with h6 | ⟨h6, h7, h8, h9⟩
      · by_cases hx : x = o
        · subst hx
          rw [Function.update_self] at h6
          exact .inr ⟨le_rfl, h2, hu.trans k2, h6⟩
        · rw [Function.update_of_ne hx] at h6
          exact .inl h6
      · exact .inr ⟨by omega, h7, h8, h9⟩

/-- Changing shortcuts to ancestors. -/
theorem Inv.cut (h : Inv E s Ls g cur pend) {regs : Nat → Reg} {c : Nat}
    (hr : ∀ x, regs x = s.regs x ∨ (x < s.nreg ∧ Up (par s) x c ∧ regs x = { s.regs x with short := c }))
    (hc : par s c = none) : Inv E { s with regs := regs } Ls g cur pend := by
  have e1 : ∀ x, (regs x).parent = (s.regs x).parent := fun x => by rcases hr x with h | ⟨-, -, h⟩ <;> rw [h]
  have e2 : ∀ x, (regs x).gray = (s.regs x).gray := fun x => by rcases hr x with h | ⟨-, -, h⟩ <;> rw [h]
  have e3 : ∀ x, (regs x).merged = (s.regs x).merged := fun x => by rcases hr x with h | ⟨-, -, h⟩ <;> rw [h]
  have e4 : ∀ x, (regs x).head = (s.regs x).head := fun x => by rcases hr x with h | ⟨-, -, h⟩ <;> rw [h]
  have e5 : ∀ x, (regs x).tail = (s.regs x).tail := fun x => by rcases hr x with h | ⟨-, -, h⟩ <;> rw [h]
  have e6 : ∀ x, (regs x).size = (s.regs x).size := fun x => by rcases hr x with h | ⟨-, -, h⟩ <;> rw [h]
  have ep : par { s with regs := regs } = par s := funext e1
  constructor
  · exact h.eD
  · exact h.earea
  · exact h.eimg
  · exact h.ecap
  · rw [ep]; exact h.par_lt
  · rw [ep]; simp only [e2]; exact h.gray_le
  · rw [ep]; simp only [e2, e3]; exact h.merged
  · rw [ep]; intro r hr'
    rcases hr r with h1 | ⟨-, h1, h2⟩
    · show Up _ r (regs r).short; rw [h1]; exact h.short r hr'
    · show Up _ r (regs r).short; rw [h2]; exact h1
  · rw [ep]; intro r hr'
    show (regs r).short = r ↔ _
    rcases hr r with h1 | ⟨-, h1, h2⟩
    · rw [h1]; exact h.short_self r hr'
    · rw [h2]
      constructor
      · intro e; dsimp only at e; rw [← e]; exact hc
      · intro e; exact (Up.of_root e).1 h1
  · simp only [e4]; exact h.head
  · simp only [e5]; exact h.last
  · simp only [e4]; exact h.head_reg
  · simp only [e6]; exact h.size
  · exact h.nodup
  · rw [ep]; exact h.mem
  · simp only [e2]; exact h.reg
  · rw [ep]; exact h.sub
  · rw [ep]; exact h.chain
  · simp only [e2]; exact h.conn
  · rw [ep]; simp only [e2, e3]; exact h.closed
  · exact h.seen
  · simp only [e2]; exact h.level
  · exact h.pend_reg
  · exact h.pend_nodup
  · rw [ep]; exact h.done

/-- Hanging the root `x` below `cur`. -/
theorem Inv.hang (hE : E.OK all) (h : Inv E s Ls g cur pend) (hg : Growing s g cur) {x : Nat} (hx : x < s.nreg) (hxr : par s x = none) (hxc : x ≠ cur)
    {a o : Nat} (ha : a ∈ Ls cur) (hao : E.adj a o) (ho : o ∈ Ls x)
    {regs : Nat → Reg} {pts : Nat → Point}
    (hcur : regs cur = { s.regs cur with tail := (s.regs x).tail, size := (s.regs cur).size + (s.regs x).size })
    (hroot : regs x = { s.regs x with merged := decide ((s.regs x).gray = (s.regs cur).gray), parent := some cur, short := cur })
    (hother : ∀ y, y ≠ cur → y ≠ x → regs y = s.regs y ∨ (y < s.nreg ∧ Up (par s) y x ∧ regs y = { s.regs y with short := cur }))
    (hpts : pts = update s.pts (s.regs cur).tail { s.pts (s.regs cur).tail with next := some (s.regs x).head }) :
    Inv E { s with regs := regs, pts := pts } (update Ls cur (Ls cur ++ Ls x)) g cur pend := by
  have hc : cur < s.nreg := by have := hg.last; omega
  have hxlt : x < cur := by have := hg.last; omega
  have e2 : ∀ y, (regs y).gray = (s.regs y).gray := fun y => by
    by_cases h1 : y = cur
    · subst h1; rw [hcur]
    · by_cases h2 : y = x
      · subst h2; rw [hroot]
      · rcases hother y h1 h2 with h | ⟨-, -, h⟩ <;> rw [h]
  have e4 : ∀ y, (regs y).head = (s.regs y).head := fun y => by
    by_cases h1 : y = cur
    · subst h1; rw [hcur]
    · by_cases h2 : y = x
      · subst h2; rw [hroot]
      · rcases hother y h1 h2 with h | ⟨-, -, h⟩ <;> rw [h]
  have e5 : ∀ y, y ≠ cur → (regs y).tail = (s.regs y).tail := fun y h1 => by
    by_cases h2 : y = x
    · subst h2; rw [hroot]
    · rcases hother y h1 h2 with h | ⟨-, -, h⟩ <;> rw [h]
  have e6 : ∀ y, y ≠ cur → (regs y).size = (s.regs y).size := fun y h1 => by
    by_cases h2 : y = x
    · subst h2; rw [hroot]
    · rcases hother y h1 h2 with h | ⟨-, -, h⟩ <;> rw [h]
  have e3 : ∀ y, y ≠ x → (regs y).merged = (s.regs y).merged := fun y h2 => by
    by_cases h1 : y = cur
    · subst h1; rw [hcur]
    · rcases hother y h1 h2 with h | ⟨-, -, h⟩ <;> rw [h]
  have ep : par { s with regs := regs, pts := pts } = update (par s) x (some cur) := by
    funext y
    by_cases h2 : y = x
    · subst h2; rw [Function.update_self]; show (regs y).parent = _; rw [hroot]
    · rw [Function.update_of_ne h2]; show (regs y).parent = (s.regs y).parent
      by_cases h1 : y = cur
      · subst h1; rw [hcur]
      · rcases hother y h1 h2 with h | ⟨-, -, h⟩ <;> rw [h]
  have er : ∀ c, (pts c).reg = (s.pts c).reg := fun c => by
    rw [hpts]; by_cases h1 : c = (s.regs cur).tail
    · subst h1; rw [Function.update_self]
    · rw [Function.update_of_ne h1]
  have hup := fun a b => Up.hang (a := a) (b := b) hxr hg.root hxc
  have hps : ∀ y p, (update (par s) x (some cur)) y = some p → (y = x ∧ p = cur) ∨ (y ≠ x ∧ par s y = some p) := by
    intro y p hy
    by_cases h2 : y = x
    · subst h2; rw [Function.update_self] at hy; cases hy; exact .inl ⟨rfl, rfl⟩
    · rw [Function.update_of_ne h2] at hy; exact .inr ⟨h2, hy⟩
  have hrs : ∀ y, (update (par s) x (some cur)) y = none → y ≠ x ∧ par s y = none := by
    intro y hy
    have : y ≠ x := by rintro rfl; rw [Function.update_self] at hy; cases hy
    rw [Function.update_of_ne this] at hy; exact ⟨this, hy⟩
  have hdisj : ∀ c, c ∈ Ls cur → c ∉ Ls x := fun c h1 h2 => hxc (h.root_same hx hc hxr hg.root h2 h1)
  have htl : (s.regs cur).tail ∈ Ls cur := List.mem_of_getLast? (h.last cur hc)
  have hgx : (s.regs x).gray ≤ (s.regs cur).gray := by rw [hg.gray]; exact h.level x hx
  have hLs : ∀ y, y ≠ cur → update Ls cur (Ls cur ++ Ls x) y = Ls y := fun y hy => Function.update_of_ne hy _ _
  have hLc : update Ls cur (Ls cur ++ Ls x) cur = Ls cur ++ Ls x := Function.update_self _ _ _
  have hpc : ∀ y p, par s y = some p → y < s.nreg → y ≠ cur := by
    rintro y p hp - rfl; rw [hg.root] at hp; cases hp
  constructor
  · exact h.eD
  · exact h.earea
  · exact h.eimg
  · exact h.ecap
  · rw [ep]; intro y hy p hp
    rcases hps y p hp with ⟨rfl, rfl⟩ | ⟨-, hp⟩
    · exact ⟨hxlt, hc⟩
    · exact h.par_lt y hy p hp
  · rw [ep]; intro y hy p hp
    show (regs y).gray ≤ (regs p).gray
    rw [e2, e2]
    rcases hps y p hp with ⟨rfl, rfl⟩ | ⟨-, hp⟩
    · exact hgx
    · exact h.gray_le y hy p hp
  · rw [ep]; intro y hy
    show (regs y).merged = true ↔ ∃ p, _ ∧ (regs y).gray = (regs p).gray
    simp only [e2]
    by_cases h2 : y = x
    · subst h2
      rw [hroot, Function.update_self]
      simp
    · rw [e3 y h2, Function.update_of_ne h2]
      exact h.merged y hy
  · rw [ep]; intro y hy
    show Up _ y (regs y).short
    rw [hup]
    by_cases h1 : y = cur
    · subst h1; rw [hcur]; exact .inl (h.short y hy)
    · by_cases h2 : y = x
      · subst h2; rw [hroot]; exact .inr ⟨.refl, rfl⟩
      · rcases hother y h1 h2 with h3 | ⟨-, h3, h4⟩
        · rw [h3]; exact .inl (h.short y hy)
        · rw [h4]; exact .inr ⟨h3, rfl⟩
  · rw [ep]; intro y hy
    show (regs y).short = y ↔ _
    by_cases h1 : y = cur
    · subst h1; rw [hcur, Function.update_of_ne (Ne.symm hxc)]; exact h.short_self y hy
    · by_cases h2 : y = x
      · subst h2; rw [hroot, Function.update_self]
        simp only [reduceCtorEq, iff_false]; exact fun e => h1 e.symm
      · rw [Function.update_of_ne h2]
        rcases hother y h1 h2 with h3 | ⟨-, h3, h4⟩
        · rw [h3]; exact h.short_self y hy
        · rw [h4]
          constructor
          · intro e; exact absurd e.symm h1
          · intro e; exact absurd ((Up.of_root e).1 h3).symm h2
  · intro y hy
    show _ = some (regs y).head
    rw [e4]
    by_cases h1 : y = cur
    · subst h1; rw [hLc, List.head?_append_of_ne_nil _ (h.ne_nil hy)]; exact h.head y hy
    · rw [hLs y h1]; exact h.head y hy
  · intro y hy
    show _ = some (regs y).tail
    by_cases h1 : y = cur
    · subst h1; rw [hLc, List.getLast?_append, h.last x hx, hcur]; rfl
    · rw [hLs y h1, e5 y h1]; exact h.last y hy
  · intro y hy
    show (pts (regs y).head).reg = _
    rw [er, e4]; exact h.head_reg y hy
  · intro y hy
    show (regs y).size = _
    by_cases h1 : y = cur
    · subst h1; rw [hLc, hcur, List.length_append, ← h.size y hy, ← h.size x hx]
    · rw [hLs y h1, e6 y h1]; exact h.size y hy
  · intro y hy
    by_cases h1 : y = cur
    · subst h1; rw [hLc, List.nodup_append]
      exact ⟨h.nodup y hy, h.nodup x hx, fun a ha b hb e => hdisj a ha (e ▸ hb)⟩
    · rw [hLs y h1]; exact h.nodup y hy
  · rw [ep]; intro y hy c
    simp only [er, hup]
    by_cases h1 : y = cur
    · subst h1; rw [hLc, List.mem_append, h.mem y hy, h.mem x hx]
      constructor
      · rintro (⟨q, h3, h4⟩ | ⟨q, h3, h4⟩)
        · exact ⟨q, h3, .inl h4⟩
        · exact ⟨q, h3, .inr ⟨h4, rfl⟩⟩
      · rintro ⟨q, h3, h4 | ⟨h4, -⟩⟩
        · exact .inl ⟨q, h3, h4⟩
        · exact .inr ⟨q, h3, h4⟩
    · rw [hLs y h1, h.mem y hy]
      constructor
      · rintro ⟨q, h3, h4⟩; exact ⟨q, h3, .inl h4⟩
      · rintro ⟨q, h3, h4 | ⟨-, h4⟩⟩
        · exact ⟨q, h3, h4⟩
        · exact absurd h4 h1
  · intro c q hq
    show q < s.nreg ∧ _ ∧ _ = (regs q).gray
    rw [e2]; exact h.reg c q (by rw [← er]; exact hq)
  · rw [ep]; intro y hy p hp
    rcases hps y p hp with ⟨rfl, rfl⟩ | ⟨-, hp⟩
    · rw [hLc, hLs y hxc]; exact (List.suffix_append _ _).isInfix
    · have h1 := hpc y p hp hy
      rw [hLs y h1]
      have h3 := h.sub y hy p hp
      by_cases h2 : p = cur
      · subst h2; rw [hLc]; exact h3.trans (List.prefix_append _ _).isInfix
      · rw [hLs p h2]; exact h3
  · rw [ep]; intro y hy hp0
    obtain ⟨h2, hp⟩ := hrs y hp0
    clear hp0
    show List.IsChain (fun a b => (pts a).next = some b) _
    have hn : ∀ a, a ≠ (s.regs cur).tail → (pts a).next = (s.pts a).next := fun a ha => by
      rw [hpts, Function.update_of_ne ha]
    by_cases h1 : y = cur
    · subst h1; rw [hLc]
      exact chain_append (n := fun a => (s.pts a).next) (n' := fun a => (pts a).next) (h.chain y hy hp) (h.chain x hx hxr)
        (h.last y hy) (h.head x hx) (h.nodup y hy) (hdisj _ htl) hn (by rw [hpts, Function.update_self])
    · rw [hLs y h1]
      refine chain_congr (n := fun a => (s.pts a).next) (n' := fun a => (pts a).next) (h.chain y hy hp) fun a ha => hn a ?_
      rintro rfl
      exact h1 (h.root_same hy hc hp hg.root ha htl)
  · intro y hy
    show ∀ a ∈ _, ∀ b ∈ _, LConn E.adj E.val (regs y).gray a b
    rw [e2]
    by_cases h1 : y = cur
    · subst h1; rw [hLc]
      have k1 : LConn E.adj E.val (s.regs y).gray a o :=
        .single ⟨hao, h.val_le hy ha, (h.val_le hx ho).trans hgx⟩
      have k2 : LConn E.adj E.val (s.regs y).gray o a :=
        .single ⟨hE.symm _ _ hao, (h.val_le hx ho).trans hgx, h.val_le hy ha⟩
      intro b hb c hc'
      rw [List.mem_append] at hb hc'
      rcases hb with hb | hb <;> rcases hc' with hc' | hc'
      · exact h.conn y hy b hb c hc'
      · exact ((h.conn y hy b hb a ha).trans k1).trans ((h.conn x hx o ho c hc').mono hgx)
      · exact (((h.conn x hx b hb o ho).mono hgx).trans k2).trans (h.conn y hy a ha c hc')
      · exact (h.conn x hx b hb c hc').mono hgx
    · rw [hLs y h1]; exact h.conn y hy
  · rw [ep]; intro y hy p hp
    show (regs y).merged = false → ∀ c ∈ _, ∀ o, E.adj c o → E.val o ≤ (regs y).gray → o ∈ _
    rw [e2]
    rcases hps y p hp with ⟨rfl, rfl⟩ | ⟨h2, hp⟩
    · rw [hroot, hLs y hxc]
      intro hm c hcy b hcb hb
      simp only [decide_eq_false_iff_not] at hm
      have hlt : E.val b < g := by rw [← hg.gray]; omega
      obtain ⟨q, hq⟩ := h.seen b hcb.2.1 hlt
      have hbp : b ∉ pend := fun hb' => by
        have := (h.reg b p (h.pend_reg b hb')).2.2; rw [hg.gray] at this; omega
      have hcp : c ∉ pend := fun hc' => hdisj c ((h.mem p hc c).2 ⟨p, h.pend_reg c hc', .refl⟩) hcy
      by_cases hv : E.val b ≤ E.val c
      · obtain ⟨qc, hqc, -⟩ := (h.mem y hy c).1 hcy
        exact h.done c qc hqc hcp b hcb hv y hy hxr hcy
      · obtain ⟨r, h5, h6, h7⟩ := h.root_of hq
        have := h.done b q hq hbp c (hE.symm _ _ hcb) (by omega) r h5 h6 h7
        rw [h.root_same hy h5 hxr h6 hcy this]; exact h7
    · have h1 := hpc y p hp hy
      rw [e3 y h2, hLs y h1]
      exact h.closed y hy p hp
  · intro c h1 h2
    simp only [er]; exact h.seen c h1 h2
  · intro y hy
    show (regs y).gray ≤ g
    rw [e2]; exact h.level y hy
  · intro c hc'; show (pts c).reg = _; rw [er]; exact h.pend_reg c hc'
  · exact h.pend_nodup
  · rw [ep]; intro c q hq hcp b hcb hv r hr hp0
    obtain ⟨h2, hp⟩ := hrs r hp0
    clear hp0
    have hq : (s.pts c).reg = some q := by rw [← er]; exact hq
    by_cases h1 : r = cur
    · subst h1; rw [hLc, List.mem_append, List.mem_append]
      rintro (h3 | h3)
      · exact .inl (h.done c q hq hcp b hcb hv r hr hp h3)
      · exact .inr (h.done c q hq hcp b hcb hv x hx hxr h3)
    · rw [hLs r h1]; exact h.done c q hq hcp b hcb hv r hr hp

/-- A neighbour without region. -/
theorem Inv.append (hE : E.OK all) (h : Inv E s Ls g cur pend) (hg : Growing s g cur) {a o : Nat} (ha : a ∈ pend)
    (hao : E.adj a o) (ho : (s.pts o).reg = none) (hv : E.val o = g)
    {regs : Nat → Reg} {pts : Nat → Point} {st : List Nat}
    (hcur : regs = update s.regs cur { s.regs cur with tail := o, size := (s.regs cur).size + 1 })
    (hpts : pts = update (update s.pts (s.regs cur).tail { s.pts (s.regs cur).tail with next := some o }) o
      { update s.pts (s.regs cur).tail { s.pts (s.regs cur).tail with next := some o } o with reg := some cur }) :
    Inv E { s with regs := regs, pts := pts, stack := st } (update Ls cur (Ls cur ++ [o])) g cur (o :: pend) := by
  have hc : cur < s.nreg := by have := hg.last; omega
  have e2 : ∀ y, (regs y).gray = (s.regs y).gray := fun y => by
    rw [hcur]; by_cases h1 : y = cur
    · subst h1; rw [Function.update_self]
    · rw [Function.update_of_ne h1]
  have e3 : ∀ y, (regs y).merged = (s.regs y).merged := fun y => by
    rw [hcur]; by_cases h1 : y = cur
    · subst h1; rw [Function.update_self]
    · rw [Function.update_of_ne h1]
  have e4 : ∀ y, (regs y).head = (s.regs y).head := fun y => by
    rw [hcur]; by_cases h1 : y = cur
    · subst h1; rw [Function.update_self]
    · rw [Function.update_of_ne h1]
  have e7 : ∀ y, (regs y).short = (s.regs y).short := fun y => by
    rw [hcur]; by_cases h1 : y = cur
    · subst h1; rw [Function.update_self]
    · rw [Function.update_of_ne h1]
  have e5 : ∀ y, y ≠ cur → (regs y).tail = (s.regs y).tail := fun y h1 => by rw [hcur, Function.update_of_ne h1]
  have e6 : ∀ y, y ≠ cur → (regs y).size = (s.regs y).size := fun y h1 => by rw [hcur, Function.update_of_ne h1]
  have ep : par { s with regs := regs, pts := pts, stack := st } = par s := by
    funext y
    show (regs y).parent = (s.regs y).parent
    rw [hcur]; by_cases h1 : y = cur
    · subst h1; rw [Function.update_self]
    · rw [Function.update_of_ne h1]
  have htl : (s.regs cur).tail ∈ Ls cur := List.mem_of_getLast? (h.last cur hc)
  have hto : (s.regs cur).tail ≠ o := by
    intro e
    obtain ⟨q, hq, -⟩ := (h.mem cur hc _).1 htl
    rw [e, ho] at hq; cases hq
  have ero : (pts o).reg = some cur := by rw [hpts, Function.update_self]
  have er : ∀ c, c ≠ o → (pts c).reg = (s.pts c).reg := fun c hc' => by
    rw [hpts, Function.update_of_ne hc']
    by_cases h1 : c = (s.regs cur).tail
    · subst h1; rw [Function.update_self]
    · rw [Function.update_of_ne h1]
  have hn : ∀ c, c ≠ (s.regs cur).tail → (pts c).next = (s.pts c).next := fun c hc' => by
    rw [hpts]
    by_cases h1 : c = o
    · subst h1; rw [Function.update_self, Function.update_of_ne hc']
    · rw [Function.update_of_ne h1, Function.update_of_ne hc']
  have hnt : (pts (s.regs cur).tail).next = some o := by
    rw [hpts, Function.update_of_ne hto, Function.update_self]
  have hno : ∀ r < s.nreg, o ∉ Ls r := fun r hr hor => by
    obtain ⟨q, hq, -⟩ := (h.mem r hr o).1 hor; rw [ho] at hq; cases hq
  have hLs : ∀ y, y ≠ cur → update Ls cur (Ls cur ++ [o]) y = Ls y := fun y hy => Function.update_of_ne hy _ _
  have hLc : update Ls cur (Ls cur ++ [o]) cur = Ls cur ++ [o] := Function.update_self _ _ _
  have hac : a ∈ Ls cur := (h.mem cur hc a).2 ⟨cur, h.pend_reg a ha, .refl⟩
  have hreg : ∀ c q, (pts c).reg = some q → (c = o ∧ q = cur) ∨ (c ≠ o ∧ (s.pts c).reg = some q) := by
    intro c q hq
    by_cases h1 : c = o
    · subst h1; rw [ero] at hq; cases hq; exact .inl ⟨rfl, rfl⟩
    · rw [er c h1] at hq; exact .inr ⟨h1, hq⟩
  constructor
  · exact h.eD
  · exact h.earea
  · exact h.eimg
  · exact h.ecap
  · rw [ep]; exact h.par_lt
  · rw [ep]; simp only [e2]; exact h.gray_le
  · rw [ep]; simp only [e2, e3]; exact h.merged
  · rw [ep]; simp only [e7]; exact h.short
  · rw [ep]; simp only [e7]; exact h.short_self
  · intro y hy
    show _ = some (regs y).head
    rw [e4]
    by_cases h1 : y = cur
    · subst h1; rw [hLc, List.head?_append_of_ne_nil _ (h.ne_nil hy)]; exact h.head y hy
    · rw [hLs y h1]; exact h.head y hy
  · intro y hy
    show _ = some (regs y).tail
    by_cases h1 : y = cur
    · subst h1; rw [hLc, List.getLast?_append, hcur, Function.update_self]; rfl
    · rw [hLs y h1, e5 y h1]; exact h.last y hy
  · intro y hy
    show (pts (regs y).head).reg = _
    rw [e4]
    have h1 := h.head_reg y hy
    rw [er _ (by intro e; rw [e, ho] at h1; cases h1)]; exact h1
  · intro y hy
    show (regs y).size = _
    by_cases h1 : y = cur
    · subst h1; rw [hLc, hcur, Function.update_self, List.length_append, ← h.size y hy]; rfl
    · rw [hLs y h1, e6 y h1]; exact h.size y hy
  · intro y hy
    by_cases h1 : y = cur
    · subst h1; rw [hLc, List.nodup_append]
      refine ⟨h.nodup y hy, by simp, fun a ha b hb e => ?_⟩
      simp only [List.mem_singleton] at hb
      exact hno y hy (hb ▸ e ▸ ha)
    · rw [hLs y h1]; exact h.nodup y hy
  · rw [ep]; intro y hy c
    show _ ↔ ∃ q, (pts c).reg = some q ∧ _
    by_cases h2 : c = o
    · subst h2; rw [ero]
      by_cases h1 : y = cur
      · subst h1; rw [hLc]
        simp only [List.mem_append, List.mem_singleton, or_true, true_iff]; exact ⟨y, rfl, .refl⟩
      · rw [hLs y h1]
        refine ⟨fun h3 => absurd h3 (hno y hy), ?_⟩
        rintro ⟨q, h3, h4⟩
        cases h3
        exact absurd ((Up.of_root hg.root).1 h4) h1
    · rw [er c h2, ← h.mem y hy]
      by_cases h1 : y = cur
      · subst h1; rw [hLc]; simp [h2]
      · rw [hLs y h1]
  · intro c q hq
    show q < s.nreg ∧ _ ∧ _ = (regs q).gray
    rw [e2]
    rcases hreg c q hq with ⟨rfl, rfl⟩ | ⟨-, hq⟩
    · exact ⟨hc, hao.2.1, by rw [hv, hg.gray]⟩
    · exact h.reg c q hq
  · rw [ep]; intro y hy p hp
    have h1 : y ≠ cur := by rintro rfl; rw [hg.root] at hp; cases hp
    rw [hLs y h1]
    have h3 := h.sub y hy p hp
    by_cases h2 : p = cur
    · subst h2; rw [hLc]; exact h3.trans (List.prefix_append _ _).isInfix
    · rw [hLs p h2]; exact h3
  · rw [ep]; intro y hy hp
    show List.IsChain (fun a b => (pts a).next = some b) _
    by_cases h1 : y = cur
    · subst h1; rw [hLc]
      exact chain_append (n := fun a => (s.pts a).next) (n' := fun a => (pts a).next) (h.chain y hy hp)
        (List.isChain_singleton _) (h.last y hy) rfl (h.nodup y hy) (by simpa using hto) hn hnt
    · rw [hLs y h1]
      refine chain_congr (n := fun a => (s.pts a).next) (n' := fun a => (pts a).next) (h.chain y hy hp) fun a ha => hn a ?_
      rintro rfl
      exact h1 (h.root_same hy hc hp hg.root ha htl)
  · intro y hy
    show ∀ a ∈ _, ∀ b ∈ _, LConn E.adj E.val (regs y).gray a b
    rw [e2]
    by_cases h1 : y = cur
    · subst h1; rw [hLc]
      have k1 : LConn E.adj E.val (s.regs y).gray a o :=
        .single ⟨hao, h.val_le hy hac, by rw [hv, hg.gray]⟩
      have k2 : LConn E.adj E.val (s.regs y).gray o a :=
        .single ⟨hE.symm _ _ hao, by rw [hv, hg.gray], h.val_le hy hac⟩
      intro b hb c hc'
      rw [List.mem_append, List.mem_singleton] at hb hc'
      rcases hb with hb | rfl <;> rcases hc' with hc' | rfl
      · exact h.conn y hy b hb c hc'
      · exact (h.conn y hy b hb a hac).trans k1
      · exact k2.trans (h.conn y hy a hac c hc')
      · exact .refl
    · rw [hLs y h1]; exact h.conn y hy
  · rw [ep]; intro y hy p hp
    show (regs y).merged = false → ∀ c ∈ _, ∀ o, E.adj c o → E.val o ≤ (regs y).gray → o ∈ _
    have h1 : y ≠ cur := by rintro rfl; rw [hg.root] at hp; cases hp
    rw [e2, e3, hLs y h1]
    exact h.closed y hy p hp
  · intro c h1 h2
    show ∃ q, (pts c).reg = some q
    by_cases h3 : c = o
    · subst h3; exact ⟨cur, ero⟩
    · rw [er c h3]; exact h.seen c h1 h2
  · simp only [e2]; exact h.level
  · intro c hc'
    show (pts c).reg = _
    by_cases h3 : c = o
    · subst h3; exact ero
    · rw [er c h3]
      rcases List.mem_cons.1 hc' with h4 | h4
      · exact absurd h4 h3
      · exact h.pend_reg c h4
  · rw [List.nodup_cons]
    refine ⟨fun h3 => ?_, h.pend_nodup⟩
    have := h.pend_reg o h3; rw [ho] at this; cases this
  · rw [ep]; intro c q hq hcp b hcb hv' r hr hp
    rw [List.mem_cons, not_or] at hcp
    rcases hreg c q hq with ⟨h3, -⟩ | ⟨-, hq⟩
    · exact absurd h3 hcp.1
    · by_cases h1 : r = cur
      · subst h1; rw [hLc, List.mem_append, List.mem_append]
        rintro (h3 | h3)
        · exact .inl (h.done c q hq hcp.2 b hcb hv' r hr hp h3)
        · exact absurd (List.mem_singleton.1 h3) hcp.1
      · rw [hLs r h1]; exact h.done c q hq hcp.2 b hcb hv' r hr hp

/-- A neighbour with a region: it is in the list of `cur` afterwards. -/
theorem meet_spec (hE : E.OK all) (h : Inv E s Ls g cur pend) (hg : Growing s g cur) {a o q : Nat} (ha : a ∈ pend)
    (hao : E.adj a o) (ho : (s.pts o).reg = some q) :
    ∃ s' Ls', meet cur q s = some s' ∧ Inv E s' Ls' g cur pend ∧ Growing s' g cur ∧ o ∈ Ls' cur ∧ s'.nreg = s.nreg ∧
      s'.stack = s.stack ∧ (∀ c, (s'.pts c).reg = (s.pts c).reg) ∧ Ls cur ⊆ Ls' cur := by
  have hc : cur < s.nreg := by have := hg.last; omega
  have hq := (h.reg o q ho).1
  have hac : a ∈ Ls cur := (h.mem cur hc a).2 ⟨cur, h.pend_reg a ha, .refl⟩
  have hsh := h.short q hq
  obtain ⟨root, regs, k1, k2, k3, k4, k5⟩ := findRoot_spec h cur s.nreg (s.regs q).short s.regs (by omega)
    (h.up_lt hq hsh).1 (fun _ _ => rfl)
  have hqr : Up (par s) q root := hsh.trans k2
  have hor : o ∈ Ls root := (h.mem root k4 o).2 ⟨q, ho, hqr⟩
  have hall : ∀ x, update regs q { regs q with short := cur } x = s.regs x ∨
      (x < s.nreg ∧ Up (par s) x root ∧ update regs q { regs q with short := cur } x = { s.regs x with short := cur }) := by
    intro x
    by_cases h1 : x = q
    · subst h1
      right
      rw [Function.update_self]
      refine ⟨hq, hqr, ?_⟩
      rcases k5 x with h2 | ⟨-, -, -, h2⟩ <;> rw [h2]
    · rw [Function.update_of_ne h1]
      rcases k5 x with h2 | ⟨-, h3, h4, h2⟩
      · exact .inl h2
      · exact .inr ⟨h3, h4, h2⟩
  unfold meet
  rw [k1]
  dsimp only
  by_cases hrc : root = cur
  · rw [if_neg (by simpa using hrc)]
    subst hrc
    refine ⟨_, Ls, rfl, h.cut hall hg.root, ⟨hg.last, ?_, ?_⟩, hor, rfl, rfl, fun _ => rfl, fun _ h => h⟩
    · show (update regs q { regs q with short := root } root).parent = none
      rcases hall root with h2 | ⟨-, -, h2⟩ <;> rw [h2] <;> exact hg.root
    · show (update regs q { regs q with short := root } root).gray = g
      rcases hall root with h2 | ⟨-, -, h2⟩ <;> rw [h2] <;> exact hg.gray
  · rw [if_pos hrc]
    have hcr : cur ≠ root := Ne.symm hrc
    have hA : update regs q { regs q with short := cur } cur = s.regs cur := by
      rcases hall cur with h2 | ⟨-, h2, -⟩
      · exact h2
      · exact absurd ((Up.of_root hg.root).1 h2) hrc
    generalize hB : update regs q { regs q with short := cur } = regs1 at hall hA
    rw [Function.update_of_ne hcr, hA]
    have hR : ∃ sh, regs1 root = { s.regs root with short := sh } := by
      rcases hall root with h2 | ⟨-, -, h2⟩
      · exact ⟨_, h2⟩
      · exact ⟨_, h2⟩
    obtain ⟨sh, hR⟩ := hR
    simp only [Function.update_self, Function.update_of_ne hrc, hR]
    refine ⟨_, update Ls cur (Ls cur ++ Ls root), rfl, h.hang hE hg k4 k3 hrc hac hao hor ?_ ?_ ?_ rfl, ⟨hg.last, ?_, ?_⟩, ?_,
      rfl, rfl, ?_, ?_⟩
    · rw [Function.update_of_ne hcr, Function.update_self]
    · rw [Function.update_self]
    · intro y h1 h2
      rw [Function.update_of_ne h2, Function.update_of_ne h1, Function.update_of_ne h2]
      exact hall y
    · dsimp only [par]
      rw [Function.update_of_ne hcr, Function.update_self]; exact hg.root
    · dsimp only
      rw [Function.update_of_ne hcr, Function.update_self]; exact hg.gray
    · rw [Function.update_self]; exact List.mem_append_right _ hor
    · intro c
      show (update s.pts _ _ c).reg = _
      by_cases h1 : c = (s.regs cur).tail
      · subst h1; rw [Function.update_self]
      · rw [Function.update_of_ne h1]
    · rw [Function.update_self]; exact List.subset_append_left _ _

end Verif.Original
