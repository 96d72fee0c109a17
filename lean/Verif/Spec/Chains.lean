import Verif.Model.Chains

/-!
# What a `local_chains` object means

An entry represents, for each expression `g`, a vector of local coordinates: the row of its reference,
or zero when the expression is not referenced.
-/

namespace Permaviss

/-- The row of expression `g`. -/
def LEntry.row (e : LEntry) (g : Nat) : List Int :=
  if g ∈ e.ref then e.coord.getD (e.ref.idxOf g) [] else []

/-- Coordinate `j` of expression `g`. -/
def LEntry.val (e : LEntry) (g j : Nat) : Int := (e.row g).getD j 0

/-- The standard format for a piece with `w` local generators: increasing references, one row of
length `w` for each. -/
structure LEntry.WF (w : Nat) (e : LEntry) : Prop where
  increasing : e.ref.Pairwise (· < ·)
  rows : e.ref.length = e.coord.length
  width : ∀ r ∈ e.coord, r.length = w

/-- The standard format for a list of pieces with `ws` generators. -/
def LChains.WF (ws : List Nat) (C : LChains) : Prop :=
  List.Forall₂ (fun w e => LEntry.WF w e) ws C

/-- Coordinate `j` on piece `k` of expression `g`. -/
def LChains.val (C : LChains) (k g j : Nat) : Int := (C.getD k LEntry.empty).val g j

end Permaviss
