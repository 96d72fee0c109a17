import Verif.Spec.Homology
import Verif.Spec.Bars
import Verif.Spec.Cech

/-!
# Specification: decomposition of a chain along the first page
-/

namespace Permaviss

variable {α : Type} [LE α]

/-- The chain `z` is the combination of the boundaries `im` and of the representatives `hom` with
coefficients `γ` and `β`, and only uses generators born at or before the radius `r`. -/
structure Decomposes (p : ℕ) (im hom : Basis α) (z : ℕ → ZMod p) (r : α) (γ β : ℕ → ZMod p) :
    Prop where
  sum : z = ∑ k ∈ Finset.range im.dim, γ k • im.chain p k +
    ∑ k ∈ Finset.range hom.dim, β k • hom.chain p k
  im_born : ∀ k < im.dim, γ k ≠ 0 → ∃ b, im.barcode[k]? = some b ∧ b.1 ≤ r
  hom_born : ∀ k < hom.dim, β k ≠ 0 → ∃ b, hom.barcode[k]? = some b ∧ b.1 ≤ r

/-- The chain `z` of dimension `deg` on piece `k` of column `n` is a cycle, and its simplices are
present at radius `r`; `ρ` is the radius of a simplex. -/
def SSEnv.IsCycleAt {α : Type} [LinearOrder α] [Zero α] (E : SSEnv α) (ρ : List ℕ → α)
    (n k deg : ℕ) (z : ℕ → ZMod E.p) (r : α) : Prop :=
  (∃ o, E.piece n k = .ok o ∧ bdry E.p o.diff deg z = 0) ∧
    ∀ i, z i ≠ 0 → ∃ s, (E.G n k deg)[i]? = some s ∧ ρ s ≤ r

/-- The number of homology classes of degree `deg` of piece `k` of column `n`. -/
def SSEnv.classes {α : Type} [LinearOrder α] [Zero α] (E : SSEnv α) (n deg k : ℕ) : ℕ :=
  match E.hom0 n k deg with
  | .ok B => B.dim
  | .error _ => 0

/-- The position on the first page of the first class of piece `k`: the classes of column `n` and degree
`deg` are numbered one piece after the other. -/
def SSEnv.classStart {α : Type} [LinearOrder α] [Zero α] (E : SSEnv α) (n deg k : ℕ) : ℕ :=
  ∑ l ∈ Finset.range k, E.classes n deg l

/-- One step of the zig-zag on piece `k` of column `n`: the chain `w` of dimension `deg + 1` has
`∂ w + z = ∑ β a • hom a`, a combination of representatives of classes of the piece.  The classes are
born at or before the radius `r`, and the simplices of `w` are present at `r`. -/
structure SSEnv.ZigZag {α : Type} [LinearOrder α] [Zero α] (E : SSEnv α) (ρ : List ℕ → α)
    (n deg k : ℕ) (z : ℕ → ZMod E.p) (r : α) (w β : ℕ → ZMod E.p) : Prop where
  closes : ∃ o hom, E.piece n k = .ok o ∧ E.hom0 n k deg = .ok hom ∧
    bdry E.p o.diff (deg + 1) w + z = ∑ a ∈ Finset.range hom.dim, β a • hom.chain E.p a ∧
    ∀ a < hom.dim, β a ≠ 0 → ∃ b, hom.barcode[a]? = some b ∧ b.1 ≤ r
  present : ∀ i, w i ≠ 0 → ∃ s, (E.G n k (deg + 1))[i]? = some s ∧ ρ s ≤ r

/-- The Čech differential of a chain `c` on piece `l` of column `n + 1`, on piece `k` of column `n`: each
simplex is sent to itself, with coefficient `(-1) ^ deg` times the entry of the differential `D` of the
nerve. -/
def SSEnv.cechOf {α : Type} [LinearOrder α] [Zero α] (E : SSEnv α) (D : Mat) (n deg k l : ℕ)
    (c : ℕ → ZMod E.p) : ℕ → ZMod E.p := fun j =>
  match (E.G n k deg)[j]? with
  | some s => if s ∈ E.G (n + 1) l deg then
      (-1) ^ deg * D.z E.p k l * c ((E.G (n + 1) l deg).idxOf s) else 0
  | none => 0

end Permaviss
