import Verif.Spec.Conn

/-!
# Specification: when two region trees are the same

Region identities (addresses) differ between runs; everything else must agree.
-/

namespace Verif.Spec

/-- `T` and `T'` are the same tree over the pixels `px`: `f` is a one-to-one correspondence between
the regions that exist which keeps pixel labels, gray levels, sizes, parents and pixel sets. -/
structure SameTree {α ι ι' : Type _} (px : Finset α) (T : RegionTree α ι) (T' : RegionTree α ι')
    (f : ι → ι') : Prop where
  reg : ∀ r, T.isReg r → T'.isReg (f r)
  inj : ∀ r s, T.isReg r → T.isReg s → f r = f s → r = s
  surj : ∀ r', T'.isReg r' → ∃ r, T.isReg r ∧ f r = r'
  lab : ∀ p ∈ px, f (T.lab p) = T'.lab p
  gray : ∀ r, T.isReg r → T'.gray (f r) = T.gray r
  size : ∀ r, T.isReg r → T'.size (f r) = T.size r
  parent : ∀ r, T.isReg r → T'.parent (f r) = (T.parent r).map f
  under : ∀ r, T.isReg r → ∀ p ∈ px, (T'.Under (f r) p ↔ T.Under r p)

end Verif.Spec
