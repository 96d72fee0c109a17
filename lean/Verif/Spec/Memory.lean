import Verif.Model.Py

/-!
# Arrays in memory

numpy arrays are passed by reference, `np.transpose` returns a view of the same memory, `np.copy` allocates, and
`A[i] = v` writes in place.
-/

namespace Permaviss

/-- A two dimensional array in memory. -/
structure Buf where
  nrows : Nat
  ncols : Nat
  entry : Nat → Nat → Int

namespace Buf

/-- The array seen with rows and columns exchanged. -/
def tr (b : Buf) : Buf := ⟨b.ncols, b.nrows, fun i j => b.entry j i⟩

/-- `A[i]`. -/
def row (b : Buf) (i : Nat) : List Int := (List.range b.ncols).map (b.entry i)

/-- All rows. -/
def rows (b : Buf) : List (List Int) := (List.range b.nrows).map b.row

/-- The contents after `A[i] = v`. -/
def setRow (b : Buf) (i : Nat) (v : List Int) : Buf :=
  { b with entry := fun a c => if a = i then v.getD c 0 else b.entry a c }

end Buf

/-- The memory: the arrays that were allocated, in the order of allocation. -/
abbrev Memory := List Buf

/-- A reference to an array, or a transposed view of it. -/
structure Ref where
  addr : Nat
  flip : Bool
  deriving DecidableEq

/-- `np.transpose(A)`: a view, nothing is copied. -/
def Ref.T (r : Ref) : Ref := ⟨r.addr, !r.flip⟩

namespace Memory

/-- The contents of an array. -/
def at_ (m : Memory) (r : Ref) : Buf :=
  if r.flip then (m.getD r.addr ⟨0, 0, fun _ _ => 0⟩).tr else m.getD r.addr ⟨0, 0, fun _ _ => 0⟩

/-- A new array. -/
def alloc (m : Memory) (b : Buf) : Ref × Memory := (⟨m.length, false⟩, m ++ [b])

/-- `np.copy(A)`. -/
def copy (m : Memory) (r : Ref) : Ref × Memory := m.alloc (m.at_ r)

/-- `A[i] = v`. -/
def setRow (m : Memory) (r : Ref) (i : Nat) (v : List Int) : Memory :=
  m.set r.addr (if r.flip then ((m.at_ r).setRow i v).tr else (m.at_ r).setRow i v)

/-- The matrix stored in an array, by columns as everywhere in the model. -/
def mat (m : Memory) (r : Ref) : Mat := ⟨(m.at_ r).nrows, (m.at_ r).tr.rows⟩

/-- All arrays that existed in `m` have the same contents in `m'`. -/
def Unchanged (m m' : Memory) : Prop := ∀ r : Ref, r.addr < m.length → m'.at_ r = m.at_ r

end Memory

end Permaviss
