import Verif.Spec.Quotient

/-!
# Specification: chain complexes of persistence modules and their homology

A chain complex is given by barcode bases `Base[0], Base[1], …` and matrices `D[d]`, of a morphism from
the module of `Base[d]` to the one of `Base[d-1]`.
-/

namespace Permaviss

variable {α : Type} [LinearOrder α]

/-- The bars in degree `d`; none beyond the last degree. -/
def barsAt (Base : List (Basis α)) (d : ℕ) : List (α × α) := ((Base[d]?).map Basis.barcode).getD []

/-- The differential from degree `d` to degree `d - 1`. -/
def diffAt (D : List Mat) (d : ℕ) : Mat := D.getD d ⟨0, []⟩

/-- Cycles of degree `d` at radius `t`. -/
noncomputable def modCycles (p : ℕ) (D : List Mat) (Base : List (Basis α)) :
    ℕ → α → Submodule (ZMod p) (ℕ → ZMod p)
  | 0, t => barModule p (barsAt Base 0) t
  | d + 1, t => kerAt p (barsAt Base (d + 1)) (barsAt Base d) (diffAt D (d + 1)) t

/-- Boundaries of degree `d` at radius `t`. -/
noncomputable def modBounds (p : ℕ) (D : List Mat) (Base : List (Basis α)) (d : ℕ) (t : α) :
    Submodule (ZMod p) (ℕ → ZMod p) :=
  imAt p (barsAt Base (d + 1)) (barsAt Base d) (diffAt D (d + 1)) t

/-- The rank of the map from radius `s` to radius `t` in homology of degree `d`; for `s = t` this is
the dimension of the homology at `t`. -/
noncomputable def homRank (p : ℕ) (D : List Mat) (Base : List (Basis α)) (d : ℕ) (s t : α) : ℕ :=
  quotRank p (barsAt Base d) (modCycles p D Base d) (modBounds p D Base d) s t

/-- Inputs of `module_persistence_homology`: ordinary barcode bases and the matrices of a chain complex
between them (a matrix is only needed between two nonzero modules).  The rounding used for sorting does
not merge different ends of bars out of order. -/
structure ChainInput (rnd : α → α) (p : ℕ) (D : List Mat) (Base : List (Basis α)) : Prop where
  prime : p.Prime
  nonempty : Base ≠ []
  flat : ∀ X ∈ Base, X.flat = true → X.barcode = []
  dim : ∀ X ∈ Base, X.dim = X.barcode.length
  bars : ∀ X ∈ Base, ∀ b ∈ X.barcode, b.1 < b.2
  unbroken : ∀ X ∈ Base, X.brokenDiff = none
  sorted : ∀ X ∈ Base, X.sorted = true → X.barcode.Pairwise fun a b => a.1 ≤ b.1
  rounding : ∀ X ∈ Base, ∀ Y ∈ Base, ∀ a ∈ X.barcode, ∀ b ∈ Y.barcode,
    ∀ x, x = a.1 ∨ x = a.2 → ∀ y, y = b.1 ∨ y = b.2 → rnd x ≤ rnd y → x ≤ y
  mor : ∀ d, barsAt Base d ≠ [] → barsAt Base (d + 1) ≠ [] → ∃ F, D[d + 1]? = some F ∧
    IsMorphism p (barsAt Base (d + 1)) (barsAt Base d) F
  complex : ∀ d t, modBounds p D Base d t ≤ modCycles p D Base d t

/-- The generators of `X` alive and not zero at radius `t` form a basis of `M t`; a generator which died
is zero. -/
structure GeneratesAt (p : ℕ) (amb : List (α × α)) (X : Basis α)
    (M : α → Submodule (ZMod p) (ℕ → ZMod p)) : Prop where
  indep : ∀ t, LinearIndependent (ZMod p)
    (fun i : {i // AliveBar X.barcode i t ∧ barRestr p amb t (X.coords.zcol p i) ≠ 0} =>
      barRestr p amb t (X.coords.zcol p i))
  span : ∀ t, Submodule.span (ZMod p) (Set.range fun i : {i // AliveBar X.barcode i t ∧
      barRestr p amb t (X.coords.zcol p i) ≠ 0} => barRestr p amb t (X.coords.zcol p i)) = M t
  dead : ∀ t i b, X.barcode[i]? = some b → b.2 ≤ t → barRestr p amb t (X.coords.zcol p i) = 0

end Permaviss
