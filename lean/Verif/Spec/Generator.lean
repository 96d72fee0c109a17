import Verif.Model.Generator

/-!
# The numbers a generator gives

The generator is a parameter; here is what it gives from a state on, without any of the functions of the library.
-/

namespace Permaviss.Spec

open Permaviss

variable {σ : Type} (G : Generator σ)

/-- The state after `k` numbers have been drawn. -/
def stateAfter (s : σ) : ℕ → σ
  | 0 => s
  | k + 1 => (G.next (stateAfter s k)).2

/-- The numbers that will be drawn, in order. -/
def futureDraws (s : σ) (k : ℕ) : ℝ := (G.next (stateAfter G s k)).1

/-- The call sets the seed. -/
def IsSeeded : SampleCall → Prop
  | .takeSample _ _ seed => seed.isSome
  | .randomCircle _ _ _ _ seed => seed.isSome
  | _ => False

end Permaviss.Spec
