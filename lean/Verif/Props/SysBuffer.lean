import Verif.Proof.SysBuffer

/-!
# Properties C149–C154: buffers in memory

`write`, `read` … are the operations of the byte buffers, `textWrite`, `textRead`, `readChar`, `lineLoop` those of the text buffers.
-/

namespace Verif.Props

open Verif.Spec
open Verif.SysBuffer (Writer Reader write read readStr writeItems readItems textWrite textRead readChar lineLoop seekTo Seek write_spec writeItems_end
  readItems_spec read_spec textWrite_spec bytesOf get)

/-- **C149** (partial: the position is not negative).  A write puts the bytes at the position, keeps the others, fills a gap before them with
zeros and moves the position behind them. -/
theorem C149_write_partial (w : Writer) (data : List Nat) (h : 0 ≤ w.pos) :
    ∃ b, write w data = some { buf := b, pos := w.pos + data.length } ∧ WrittenAt w.buf data b w.pos.toNat := write_spec w data h

example : (0 : Int) ≤ (⟨[1, 2, 3], 5⟩ : Writer).pos ∧ (write ⟨[1, 2, 3], 5⟩ [7, 8]).map (fun w => w.buf) = some [1, 2, 3, 0, 0, 7, 8] ∧
    (write ⟨[1, 2, 3, 4], 1⟩ [7, 8]).map (fun w => w.buf) = some [1, 7, 8, 4] := by decide

/-- C149 does not hold of negative positions, which a seek does not prevent: with a larger offset from the end than there are bytes, a write goes
before the buffer. -/
theorem not_C149_negative : write ⟨[1, 2, 3], seekTo 3 0 4 Seek.fromEnd⟩ [7] = none := by decide

/-- **C150**.  Numbers that fit and blocks of bytes, written one after the other at the end of a buffer, are read back from there in the same order;
the status does not change, and the reader stands behind them. -/
theorem C150_round_trip (b : List Nat) (items : List Item) (h : ∀ x ∈ items, x.fits) (ok : Bool) :
    ∃ b', writeItems items ⟨b, b.length⟩ = some ⟨b', b'.length⟩ ∧
      readItems items ⟨b', b.length, ok⟩ = some (items.map some, ⟨b', b'.length, ok⟩) := by
  refine ⟨_, writeItems_end items b, ?_⟩
  have := readItems_spec items h b [] ok
  rw [List.append_nil] at this
  exact this

/-- Numbers of one, two and four bytes, and a block. -/
def someItems : List Item := [.u 1 200, .i 2 (-300), .u 4 4000000000, .block [0, 9], .i 4 (-2147483648)]

example : ∀ x ∈ someItems, x.fits := by
  unfold someItems
  intro x hx
  simp only [List.mem_cons, List.not_mem_nil, or_false] at hx
  rcases hx with rfl | rfl | rfl | rfl | rfl <;> (unfold Item.fits; decide)

example : (writeItems someItems ⟨[5], 1⟩).map (fun w => w.buf) = some [5, 200, 212, 254, 0, 40, 107, 238, 0, 9, 0, 0, 0, 128] := by decide

/-- **C151** (partial: the position is not negative).  A read of more bytes than remain changes only the status; any other returns the bytes at the
position and moves behind them. -/
theorem C151_read_partial (r : Reader) (n : Nat) (h : 0 ≤ r.pos) :
    ((r.data.length : Int) - r.pos < n → read r n = some (none, { r with ok := false })) ∧
    ((n : Int) ≤ (r.data.length : Int) - r.pos → read r n = some (some ((r.data.drop r.pos.toNat).take n), { r with pos := r.pos + n })) := by
  refine ⟨fun hn => if_pos hn, fun hn => ?_⟩
  have e1 : r.data = r.data.take r.pos.toNat ++ ((r.data.drop r.pos.toNat).take n ++ (r.data.drop r.pos.toNat).drop n) := by
    rw [List.take_append_drop, List.take_append_drop]
  have l1 : (r.data.take r.pos.toNat).length = r.pos.toNat := by rw [List.length_take]; omega
  have l2 : ((r.data.drop r.pos.toNat).take n).length = n := by rw [List.length_take, List.length_drop]; omega
  have hs := read_spec ((r.data.drop r.pos.toNat).take n) (r.data.take r.pos.toNat) ((r.data.drop r.pos.toNat).drop n) r.ok
  rw [← e1, List.length_append, l1, l2] at hs
  have e2 : ((r.pos.toNat : Nat) : Int) = r.pos := by omega
  have e3 : ((r.pos.toNat + n : Nat) : Int) = r.pos + n := by omega
  rw [e2, e3] at hs
  exact hs

example : (0 : Int) ≤ (⟨[1, 2, 3], 1, true⟩ : Reader).pos ∧ (read ⟨[1, 2, 3], 1, true⟩ 2).map (fun s => s.1) = some (some [2, 3]) ∧
    (read ⟨[1, 2, 3], 1, true⟩ 3).map (fun s => (s.1, s.2.pos, s.2.ok)) = some (none, 1, false) := by decide

/-- C151 does not hold of negative positions: the remaining size is then larger than the buffer, and bytes before it are read. -/
theorem not_C151_negative : read ⟨[1, 2, 3], seekTo 3 0 4 Seek.fromEnd, true⟩ 1 = none := by decide

/-- **C152** (partial: no character is 0).  A string written at the end of a byte buffer is read back. -/
theorem C152_string_partial (b str : List Nat) (h : ∀ c ∈ str, c ≠ 0) (ok : Bool) :
    ∃ b', write ⟨b, b.length⟩ str = some ⟨b', b'.length⟩ ∧ readStr ⟨b', b.length, ok⟩ str.length = some (some str, ⟨b', b'.length, ok⟩) := by
  refine ⟨b ++ str, SysBuffer.write_end b str, ?_⟩
  have := read_spec str b [] ok
  rw [List.append_nil] at this
  unfold readStr
  rw [this]
  have e : str.takeWhile (fun c => decide (c ≠ 0)) = str := by
    clear this
    induction str with
    | nil => rfl
    | cons a l ih =>
      rw [List.takeWhile_cons_of_pos (by simpa using h a (List.mem_cons_self ..)), ih fun c hc => h c (List.mem_cons_of_mem _ hc)]
  simp only [Option.map_some]
  rw [e]

example : ∀ c ∈ [104, 105], c ≠ 0 := by decide

/-- C152 does not hold of strings with a character 0: the rest is lost. -/
theorem not_C152_zero : (write ⟨[], 0⟩ [104, 0, 105]).bind (fun w => (readStr ⟨w.buf, 0, true⟩ 3).map fun s => s.1) = some (some [104]) := by decide

/-- **C153** (partial: the position is in the text or at its end).  A text is written at the position, the characters elsewhere stay, and it is read
back from there. -/
theorem C153_text_partial (w : Writer) (str : List Nat) (h0 : 0 ≤ w.pos) (h1 : w.pos ≤ w.buf.length) (ok : Bool) :
    ∃ b, textWrite str w = some { buf := b, pos := w.pos + str.length } ∧ WrittenAt w.buf str b w.pos.toNat ∧
      textRead ⟨b, w.pos, ok⟩ str.length = some (some str, ⟨b, w.pos + str.length, ok⟩) := by
  obtain ⟨b, h2, h3⟩ := textWrite_spec str w h0 h1
  refine ⟨b, h2, h3, ?_⟩
  obtain ⟨h4, h5⟩ := h3
  unfold textRead
  dsimp only
  rw [if_neg (by omega), if_pos (by omega)]
  have : (b.drop w.pos.toNat).take str.length = str := by
    refine SysBuffer.getD_ext (by rw [List.length_take, List.length_drop]; omega) fun i hi => ?_
    rw [List.length_take, List.length_drop] at hi
    have h6 := h5 (w.pos.toNat + i) (by omega)
    rw [if_pos (by omega), Nat.add_sub_cancel_left] at h6
    rw [← h6, List.getD_eq_getElem?_getD, List.getD_eq_getElem?_getD, List.getElem?_take_of_lt (by omega), List.getElem?_drop]
  rw [this]

example : (0 : Int) ≤ (⟨[97, 98, 99], 2⟩ : Writer).pos ∧ (⟨[97, 98, 99], 2⟩ : Writer).pos ≤ 3 ∧
    (textWrite [120, 121] ⟨[97, 98, 99], 2⟩).map (fun w => w.buf) = some [97, 98, 120, 121] := by decide

/-- C153 does not hold beyond the end: the text is appended without the gap, the position moves on from where it was, and reading the text back from
the position it was written at fails. -/
theorem not_C153_gap : (textWrite [120, 121] ⟨[97], 3⟩).map (fun w => (w.buf, w.pos)) = some ([97, 120, 121], 5) ∧
    (textWrite [120, 121] ⟨[97], 3⟩).bind (fun w => (textRead ⟨w.buf, 3, true⟩ 2).map fun s => s.1) = some none := by decide

/-- **C154** (partial: only the value of the character, not the position after it).  `read_char` returns the character at the position. -/
theorem C154_char_partial (r : Reader) (h0 : 0 ≤ r.pos) (h1 : r.pos < r.data.length) : ∃ s, readChar r = some (r.data.getD r.pos.toNat 0, s) := by
  unfold readChar
  rw [if_neg (by omega), if_pos ⟨h0, h1⟩]
  exact ⟨_, rfl⟩

example : (0 : Int) ≤ (⟨[97, 98], 1, true⟩ : Reader).pos ∧ (⟨[97, 98], 1, true⟩ : Reader).pos < 2 ∧
    (readChar ⟨[97, 98], 1, true⟩).map (fun s => s.1) = some 98 := by decide

/-- C154 does not hold of the position: `read_char` does not move it. -/
theorem not_C154_moves (r : Reader) (h0 : 0 ≤ r.pos) (h1 : r.pos < r.data.length) : readChar r = some (r.data.getD r.pos.toNat 0, r) := by
  unfold readChar
  rw [if_neg (by omega), if_pos ⟨h0, h1⟩]

/-- Therefore `read_line` does not end while text remains: after any number of steps its loop is still running, at the same position. -/
theorem not_C154_line (r : Reader) (h0 : 0 ≤ r.pos) (h1 : r.pos < r.data.length) : ∀ (n : Nat) (str : List Nat), lineLoop n r str = some (none, r)
  | 0, _ => rfl
  | n + 1, str => by
    rw [lineLoop, if_neg (by omega), not_C154_moves r h0 h1, Option.bind_some]
    exact not_C154_line r h0 h1 n _

end Verif.Props
