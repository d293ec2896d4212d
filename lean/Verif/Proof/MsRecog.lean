import Verif.Model.Ms
import Verif.Proof.LinearRecog

/-!
# Recognition of the ms detector: the loops of the linear detector with the array of V2
-/

namespace Verif.Linear

open Verif.Spec Verif.Recog

variable {ι : Type} [DecidableEq ι] {cfg : Cfg} {R : RForest ι}

theorem recognizeM_spec {T : Recog.Tree ι} (hT : T.Ok) (h64 : Rounding cfg.r64) (hsz : ∀ r, T.live r → T.sz r < 2 ^ 31)
    {order : List ι} (hnd : order.Nodup) (hreg : ∀ r ∈ order, T.isReg r) (hall : ∀ r, T.live r → r ∈ order)
    (hR : Shows T R) (hfresh : ∀ r, (R r).flag = .unknown ∧ (R r).counted = false) (msize exceed : Nat) :
    ∃ out, Ms.recognizeM cfg order msize exceed R = some out ∧ Outcome T cfg (decide (0 < cfg.delta)) order out := by
  obtain ⟨s, e1, h1⟩ := selectSerial_spec (cfg := cfg) hT (le_refl T.m) hnd hreg hall hR (fun r _ => hfresh r)
  obtain ⟨e2, h2⟩ := select_eq (cfg := cfg) T.m hnd (fun r => (hfresh r).1)
  rw [e2] at e1
  have hst : startIndex s.lev 256 = s.total := (order_spec hT hnd hreg hall h1 (msize := s.total.toNat) (by omega)).choose_spec.2.2.2
  obtain ⟨arr, e3, h3, _⟩ := order_spec hT hnd hreg hall h1
    (msize := (reserve msize (startIndex s.lev 256).toNat exceed).1)
    (by have := reserve_ge msize (startIndex s.lev 256).toNat exceed; omega)
  rw [← order_eq (h2 s e1)] at e3
  unfold Ms.recognizeM
  rw [e1]; simp only; rw [e3]; simp only
  by_cases hd : 0 < cfg.dup
  · rw [if_pos hd]; exact dedup_outcome hT h64 h3 h1
  · rw [if_neg hd]; exact ⟨_, rfl, keepAll_outcome hT h64 (not_lt.1 hd) hsz h3 h1⟩

end Verif.Linear
