import Verif.Spec.Quotient

/-!
# A basis of a quotient at a radius
-/

namespace Permaviss

/-- At radius `t` the generators of `Q` which are alive form a basis of the quotient of `Mt` by `Nt`: they
lie in `Mt`, together with `Nt` they span it, and they are independent modulo `Nt`. -/
structure QuotBasisAt {α : Type} [LinearOrder α] (p : ℕ) (amb : List (α × α)) (Q : Basis α)
    (Mt Nt : Submodule (ZMod p) (ℕ → ZMod p)) (t : α) : Prop where
  mem : ∀ i, AliveBar Q.barcode i t → barRestr p amb t (Q.coords.zcol p i) ∈ Mt
  span : Mt ≤ Nt ⊔ Submodule.span (ZMod p)
    (Set.range fun i : {i // AliveBar Q.barcode i t} => barRestr p amb t (Q.coords.zcol p i))
  indep : LinearIndependent (ZMod p)
    fun i : {i // AliveBar Q.barcode i t} => Nt.mkQ (barRestr p amb t (Q.coords.zcol p i))

end Permaviss
