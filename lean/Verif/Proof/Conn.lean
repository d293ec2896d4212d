import Verif.Spec.Conn

/-!
# Level connectivity: basic lemmas
-/

namespace Verif.Spec

open Relation (ReflTransGen)

section LConn
variable {α : Type _} {adj : α → α → Prop} {g : α → Nat}

theorem LConn.mono {l l' : Nat} (h : l ≤ l') {a b : α} (hc : LConn adj g l a b) :
    LConn adj g l' a b := by
  unfold LConn at *
  refine ReflTransGen.mono ?_ _ _ hc
  exact fun _ _ ⟨h1, h2, h3⟩ => ⟨h1, Nat.le_trans h2 h, Nat.le_trans h3 h⟩

theorem LConn.symm (hs : ∀ a b, adj a b → adj b a) {l : Nat} {a b : α}
    (hc : LConn adj g l a b) : LConn adj g l b a := by
  induction hc with
  | refl => exact .refl
  | tail _ h ih => exact .head ⟨hs _ _ h.1, h.2.2, h.2.1⟩ ih

theorem LConn.trans {l : Nat} {a b c : α} (h1 : LConn adj g l a b) (h2 : LConn adj g l b c) :
    LConn adj g l a c := ReflTransGen.trans h1 h2

theorem LConn.edge {l : Nat} {a b : α} (h : adj a b) (ha : g a ≤ l) (hb : g b ≤ l) :
    LConn adj g l a b := .single ⟨h, ha, hb⟩

end LConn

end Verif.Spec
