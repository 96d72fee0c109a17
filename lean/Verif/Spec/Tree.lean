import Mathlib.Logic.Relation

/-!
# Specification: points connected by edges
-/

namespace Permaviss

/-- `a` and `b` are joined by a path of edges from the list, in either direction. -/
def Joined {V : Type} (T : List (V × V)) : V → V → Prop := Relation.EqvGen fun a b => (a, b) ∈ T

/-- All points are joined. -/
def Connects {V : Type} (T : List (V × V)) : Prop := ∀ a b, Joined T a b

end Permaviss
