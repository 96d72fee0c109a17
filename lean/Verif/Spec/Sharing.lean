import Verif.Model.ChainsMem

/-!
# Which arrays an object of `local_chains` holds
-/

namespace Permaviss

namespace MChains

/-- All arrays of the object exist, with one row for each reference. -/
def OK (m : Memory) (C : MChains) : Prop :=
  ∀ e ∈ C, e.coord.addr < m.length ∧ (m.at_ e.coord).nrows = e.ref.length

/-- The arrays of the object were allocated after `m`, exist in `m'`, and are different from each other. -/
structure New (m m' : Memory) (C : MChains) : Prop where
  lo : ∀ e ∈ C, m.length ≤ e.coord.addr
  hi : ∀ e ∈ C, e.coord.addr < m'.length
  ne : C.Pairwise fun e f => e.coord.addr ≠ f.coord.addr

/-- On every piece where both have chains, the arrays have the same number of columns. -/
def SameWidth (m : Memory) (A B : MChains) : Prop :=
  ∀ e ∈ A.zip B, e.1.ref ≠ [] → e.2.ref ≠ [] → (m.at_ e.1.coord).ncols = (m.at_ e.2.coord).ncols

end MChains

end Permaviss
