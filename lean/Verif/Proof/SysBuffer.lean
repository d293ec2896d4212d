import Verif.Model.SysBuffer
import Verif.Spec.Buffer
import Mathlib.Tactic.Ring

/-!
# Byte buffers and text buffers in memory
-/

namespace Verif.SysBuffer

open Verif.Spec

theorem put_spec : ∀ (data : List Nat) (w : Writer), 0 ≤ w.pos → w.pos + data.length ≤ w.buf.length →
    ∃ b, put data w = some { buf := b, pos := w.pos + data.length } ∧ b.length = w.buf.length ∧
      ∀ i, b.getD i 0 = if w.pos.toNat ≤ i ∧ i < w.pos.toNat + data.length then data.getD (i - w.pos.toNat) 0 else w.buf.getD i 0
  | [], w, _, _ => ⟨w.buf, by simp [put], rfl, fun i => by rw [if_neg (by simp)]⟩
  | a :: l, w, h0, h1 => by
    rw [List.length_cons] at h1
    obtain ⟨b, h2, h3, h4⟩ := put_spec l { buf := w.buf.set w.pos.toNat a, pos := w.pos + 1 } (by dsimp only; omega)
      (by dsimp only; rw [List.length_set]; omega)
    dsimp only at h2 h3 h4
    rw [List.length_set] at h3
    refine ⟨b, ?_, h3, ?_⟩
    · rw [put, if_pos (by omega), h2, List.length_cons]
      congr 2
      push_cast
      omega
    · intro i
      rw [h4 i, List.length_cons]
      have e : (w.pos + 1).toNat = w.pos.toNat + 1 := by omega
      rw [e]
      by_cases hi : i = w.pos.toNat
      · rw [if_neg (by omega), if_pos (by omega), hi, Nat.sub_self]
        rw [List.getD_eq_getElem?_getD, List.getElem?_set_self (by omega)]
        simp
      · by_cases hj : w.pos.toNat + 1 ≤ i ∧ i < w.pos.toNat + 1 + l.length
        · rw [if_pos hj, if_pos (by omega)]
          have : i - w.pos.toNat = (i - (w.pos.toNat + 1)) + 1 := by omega
          rw [this]
          simp
        · rw [if_neg hj, if_neg (by omega), List.getD_eq_getElem?_getD, List.getElem?_set_ne (fun h => hi h.symm), List.getD_eq_getElem?_getD]

/-- What a write does. -/
theorem write_spec (w : Writer) (data : List Nat) (h0 : 0 ≤ w.pos) :
    ∃ b, write w data = some { buf := b, pos := w.pos + data.length } ∧ WrittenAt w.buf data b w.pos.toNat := by
  unfold write expand
  dsimp only
  by_cases ha : w.pos + data.length - w.buf.length > 0
  · rw [if_pos ha]
    obtain ⟨b, h1, h2, h3⟩ := put_spec data { w with buf := w.buf ++ List.replicate (w.pos + data.length - w.buf.length).toNat 0 } h0
      (by dsimp only; rw [List.length_append, List.length_replicate]; omega)
    dsimp only at h1 h2 h3
    rw [List.length_append, List.length_replicate] at h2
    refine ⟨b, h1, ?_, ?_⟩
    · rw [h2]; omega
    · intro i _
      rw [h3 i]
      split
      · rfl
      · rw [List.getD_eq_getElem?_getD, List.getD_eq_getElem?_getD]
        by_cases hi : i < w.buf.length
        · rw [List.getElem?_append_left hi]
        · rw [List.getElem?_append_right (by omega), List.getElem?_eq_none (l := w.buf) (by omega), List.getElem?_replicate]
          split <;> rfl
  · rw [if_neg ha]
    obtain ⟨b, h1, h2, h3⟩ := put_spec data w h0 (by omega)
    refine ⟨b, h1, ?_, fun i _ => h3 i⟩
    rw [h2]; omega

theorem getD_ext {l m : List Nat} (h : l.length = m.length) (h' : ∀ i < l.length, l.getD i 0 = m.getD i 0) : l = m := by
  refine List.ext_getElem h fun i h1 h2 => ?_
  have := h' i h1
  rw [List.getD_eq_getElem?_getD, List.getD_eq_getElem?_getD, List.getElem?_eq_getElem h1, List.getElem?_eq_getElem h2] at this
  simpa using this

/-- A write at the end appends. -/
theorem write_end (b data : List Nat) : write ⟨b, b.length⟩ data = some ⟨b ++ data, (b ++ data).length⟩ := by
  obtain ⟨c, h1, h2, h3⟩ := write_spec ⟨b, b.length⟩ data (by dsimp only; omega)
  rw [h1]
  dsimp only at h2 h3 ⊢
  rw [Int.toNat_natCast] at h2 h3
  have hl : c.length = (b ++ data).length := by
    rw [h2, List.length_append]
    omega
  have : c = b ++ data := by
    refine getD_ext hl fun i hi => ?_
    rw [h3 i hi, List.getD_eq_getElem?_getD, List.getD_eq_getElem?_getD, List.getD_eq_getElem?_getD]
    rw [hl, List.length_append] at hi
    by_cases hb : i < b.length
    · rw [if_neg (by omega), List.getElem?_append_left hb]
    · rw [if_pos (by omega), List.getElem?_append_right (by omega)]
  rw [this, List.length_append]
  rfl

theorem get_spec : ∀ (l pre post : List Nat) (ok : Bool),
    get l.length ⟨pre ++ (l ++ post), pre.length, ok⟩ = some (l, ⟨pre ++ (l ++ post), (pre ++ l).length, ok⟩)
  | [], pre, post, ok => by simp [get]
  | a :: l, pre, post, ok => by
    rw [List.length_cons, get, if_pos (by dsimp only; simp only [List.length_append, List.length_cons]; omega)]
    have ih := get_spec l (pre ++ [a]) post ok
    have e1 : pre ++ [a] ++ (l ++ post) = pre ++ (a :: l ++ post) := by simp
    have e2 : ((pre.length : Int) + 1) = (pre ++ [a]).length := by simp
    dsimp only
    rw [e2, ← e1, ih, Option.map_some]
    have e3 : (pre ++ [a] ++ (l ++ post)).getD (pre.length : Int).toNat 0 = a := by
      rw [Int.toNat_natCast, List.getD_eq_getElem?_getD]
      simp
    rw [e3]
    simp

/-- A read of the bytes that follow. -/
theorem read_spec (l pre post : List Nat) (ok : Bool) :
    read ⟨pre ++ (l ++ post), pre.length, ok⟩ l.length = some (some l, ⟨pre ++ (l ++ post), (pre ++ l).length, ok⟩) := by
  unfold read
  rw [if_neg (by simp only [List.length_append]; omega), get_spec]
  rfl

theorem toBytes_length : ∀ k v, (toBytes k v).length = k
  | 0, _ => rfl
  | k + 1, v => by rw [toBytes, List.length_cons, toBytes_length k]

theorem from_to : ∀ k v, fromBytes (toBytes k v) = v % 256 ^ k
  | 0, v => by simp [toBytes, fromBytes, Nat.mod_one]
  | k + 1, v => by
    rw [toBytes, fromBytes, from_to k, Nat.pow_succ, Nat.mul_comm (256 ^ k) 256, Nat.mod_mul]

/-- The bytes of an item. -/
def bytesOf : Item → List Nat
  | .u k v => toBytes k v
  | .i k v => toBytes k (v % (256 ^ k : Nat)).toNat
  | .block l => l

/-- Writing an item. -/
def writeItem (w : Writer) : Item → Option Writer
  | .u k v => writeU w k v
  | .i k v => writeI w k v
  | .block l => write w l

/-- Reading an item of the same kind. -/
def readItem (r : Reader) : Item → Option (Option Item × Reader)
  | .u k _ => (readU r k).map fun s => (s.1.map (Item.u k), s.2)
  | .i k _ => (readI r k).map fun s => (s.1.map (Item.i k), s.2)
  | .block l => (read r l.length).map fun s => (s.1.map Item.block, s.2)

/-- Writing a list of items. -/
def writeItems : List Item → Writer → Option Writer
  | [], w => some w
  | x :: l, w => (writeItem w x).bind (writeItems l)

/-- Reading a list of items of the same kinds. -/
def readItems : List Item → Reader → Option (List (Option Item) × Reader)
  | [], r => some ([], r)
  | x :: l, r => (readItem r x).bind fun s => (readItems l s.2).map fun t => (s.1 :: t.1, t.2)

theorem writeItem_end (b : List Nat) (x : Item) : writeItem ⟨b, b.length⟩ x = some ⟨b ++ bytesOf x, (b ++ bytesOf x).length⟩ := by
  cases x with
  | u k v => exact write_end b _
  | i k v => exact write_end b _
  | block l => exact write_end b _

theorem writeItems_end : ∀ (l : List Item) (b : List Nat),
    writeItems l ⟨b, b.length⟩ = some ⟨b ++ l.flatMap bytesOf, (b ++ l.flatMap bytesOf).length⟩
  | [], b => by simp [writeItems]
  | x :: l, b => by
    rw [writeItems, writeItem_end, Option.bind_some, writeItems_end l, List.flatMap_cons, List.append_assoc]

theorem readItem_spec (x : Item) (hx : x.fits) (pre post : List Nat) (ok : Bool) :
    readItem ⟨pre ++ (bytesOf x ++ post), pre.length, ok⟩ x =
      some (some x, ⟨pre ++ (bytesOf x ++ post), (pre ++ bytesOf x).length, ok⟩) := by
  cases x with
  | u k v =>
    have h := read_spec (toBytes k v) pre post ok
    rw [toBytes_length] at h
    have hv : v % 256 ^ k = v := Nat.mod_eq_of_lt hx
    show (readU ⟨pre ++ (toBytes k v ++ post), pre.length, ok⟩ k).map _ = _
    unfold readU
    rw [h]
    simp only [Option.map_some, from_to, hv]
    rfl
  | i k v =>
    have h := read_spec (toBytes k (v % (256 ^ k : Nat)).toNat) pre post ok
    rw [toBytes_length] at h
    obtain ⟨h0, h1, h2⟩ := hx
    show (readI ⟨pre ++ (toBytes k (v % (256 ^ k : Nat)).toNat ++ post), pre.length, ok⟩ k).map _ = _
    unfold readI
    rw [h]
    simp only [Option.map_some, from_to]
    have key : (if 2 * ((v % (256 ^ k : Nat)).toNat % 256 ^ k) < 256 ^ k then (((v % (256 ^ k : Nat)).toNat % 256 ^ k : Nat) : Int)
        else (((v % (256 ^ k : Nat)).toNat % 256 ^ k : Nat) : Int) - (256 ^ k : Nat)) = v := by
      generalize 256 ^ k = n at h1 h2 ⊢
      have hn : (0 : Int) < n := by omega
      have hlt : (v % (n : Int)) < n := Int.emod_lt_of_pos v hn
      have hge : 0 ≤ v % (n : Int) := Int.emod_nonneg v (by omega)
      rw [Nat.mod_eq_of_lt (by omega), Int.toNat_of_nonneg hge]
      by_cases hv : 0 ≤ v
      · have : v % (n : Int) = v := Int.emod_eq_of_lt hv (by omega)
        rw [this] at hlt hge ⊢
        rw [if_pos (by omega)]
      · have : v % (n : Int) = v + n := by
          rw [← Int.add_emod_right, Int.emod_eq_of_lt (by omega) (by omega)]
        rw [this] at hlt hge ⊢
        rw [if_neg (by omega)]
        omega
    rw [key]
    rfl
  | block l =>
    have h := read_spec l pre post ok
    show (read ⟨pre ++ (l ++ post), pre.length, ok⟩ l.length).map _ = _
    rw [h]
    rfl

theorem readItems_spec : ∀ (l : List Item), (∀ x ∈ l, x.fits) → ∀ (pre post : List Nat) (ok : Bool),
    readItems l ⟨pre ++ (l.flatMap bytesOf ++ post), pre.length, ok⟩ =
      some (l.map some, ⟨pre ++ (l.flatMap bytesOf ++ post), (pre ++ l.flatMap bytesOf).length, ok⟩)
  | [], _, pre, post, ok => by simp [readItems]
  | x :: l, h, pre, post, ok => by
    rw [readItems, List.flatMap_cons, List.append_assoc, readItem_spec x (h x (List.mem_cons_self ..)), Option.bind_some]
    have ih := readItems_spec l (fun y hy => h y (List.mem_cons_of_mem _ hy)) (pre ++ bytesOf x) post ok
    rw [List.append_assoc] at ih
    dsimp only
    rw [ih, Option.map_some, List.map_cons, List.append_assoc]

/-- The text writer within the text. -/
theorem textWrite_spec : ∀ (data : List Nat) (w : Writer), 0 ≤ w.pos → w.pos ≤ w.buf.length →
    ∃ b, textWrite data w = some { buf := b, pos := w.pos + data.length } ∧ WrittenAt w.buf data b w.pos.toNat
  | [], w, _, h1 => ⟨w.buf, by simp [textWrite], by
      refine ⟨?_, fun i _ => by rw [if_neg (by simp)]⟩
      rw [List.length_nil]; omega⟩
  | a :: l, w, h0, h1 => by
    rw [textWrite]
    by_cases h : w.pos < w.buf.length
    · rw [if_pos h, if_pos h0]
      obtain ⟨b, h2, h3, h4⟩ := textWrite_spec l { buf := w.buf.set w.pos.toNat a, pos := w.pos + 1 } (by dsimp only; omega)
        (by dsimp only; rw [List.length_set]; omega)
      dsimp only at h2 h3 h4
      rw [List.length_set] at h3
      have e : (w.pos + 1).toNat = w.pos.toNat + 1 := by omega
      rw [e] at h3 h4
      refine ⟨b, ?_, ?_, ?_⟩
      · rw [h2, List.length_cons]
        congr 2
        push_cast
        omega
      · rw [h3, List.length_cons]; omega
      · intro i hi
        rw [h4 i hi, List.length_cons]
        by_cases hi : i = w.pos.toNat
        · rw [if_neg (by omega), if_pos (by omega), hi, Nat.sub_self]
          rw [List.getD_eq_getElem?_getD, List.getElem?_set_self (by omega)]
          simp
        · by_cases hj : w.pos.toNat + 1 ≤ i ∧ i < w.pos.toNat + 1 + l.length
          · rw [if_pos hj, if_pos (by omega)]
            have : i - w.pos.toNat = (i - (w.pos.toNat + 1)) + 1 := by omega
            rw [this]
            simp
          · rw [if_neg hj, if_neg (by omega), List.getD_eq_getElem?_getD, List.getElem?_set_ne (fun h => hi h.symm), List.getD_eq_getElem?_getD]
    · rw [if_neg h]
      have hp : w.pos = w.buf.length := by omega
      obtain ⟨b, h2, h3, h4⟩ := textWrite_spec l { buf := w.buf ++ [a], pos := w.pos + 1 } (by dsimp only; omega)
        (by dsimp only; rw [List.length_append, List.length_singleton]; omega)
      dsimp only at h2 h3 h4
      rw [List.length_append, List.length_singleton] at h3
      have e : (w.pos + 1).toNat = w.pos.toNat + 1 := by omega
      rw [e] at h3 h4
      refine ⟨b, ?_, ?_, ?_⟩
      · rw [h2, List.length_cons]
        congr 2
        push_cast
        omega
      · rw [h3, List.length_cons]; omega
      · intro i hi
        rw [h4 i hi, List.length_cons]
        by_cases hi : i = w.pos.toNat
        · rw [if_neg (by omega), if_pos (by omega), hi, Nat.sub_self]
          rw [List.getD_eq_getElem?_getD, List.getElem?_append_right (by omega)]
          have : w.pos.toNat - w.buf.length = 0 := by omega
          rw [this]
          simp
        · by_cases hj : w.pos.toNat + 1 ≤ i ∧ i < w.pos.toNat + 1 + l.length
          · rw [if_pos hj, if_pos (by omega)]
            have : i - w.pos.toNat = (i - (w.pos.toNat + 1)) + 1 := by omega
            rw [this]
            simp
          · rw [if_neg hj, if_neg (by omega), List.getD_eq_getElem?_getD, List.getD_eq_getElem?_getD]
            by_cases hb : i < w.buf.length
            · rw [List.getElem?_append_left hb]
            · rw [List.getElem?_eq_none (by rw [List.length_append, List.length_singleton]; omega), List.getElem?_eq_none (by omega)]

end Verif.SysBuffer
