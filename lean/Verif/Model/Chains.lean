import Verif.Model.Complexes
import Verif.Model.Gauss

/-!
# `spectral_sequence/local_chains_class.py`

A chain on a column of the spectral sequence is stored piece by piece of the cover: for each piece a
list of references (the numbers of the expressions that are not zero there) and one row of local
coordinates for each reference.
-/

namespace Permaviss

/-- The entry of a `local_chains` object on one piece of the cover: `ref[k]` and the rows of
`coord[k]`.  The list `[]` and an array without rows are both represented by `[]`.
See local_chains_class.py:36-41. -/
structure LEntry where
  ref : List Nat
  coord : List (List Int)
  deriving DecidableEq, Repr

/-- A `local_chains` object.  See local_chains_class.py:12-68. -/
abbrev LChains := List LEntry

/-- The entry `[]`, `[]`.  See local_chains_class.py:64-66. -/
def LEntry.empty : LEntry := ⟨[], []⟩

/-- `local_chains(n)`, local_chains_class.py:61-66. -/
def LChains.zeros (n : Nat) : LChains := List.replicate n LEntry.empty

/-- `add_entry(index, ref, coord)`, local_chains_class.py:73-106.  An index out of range raises
`IndexError`; adding `[]`, `[]` does nothing. -/
def LChains.addEntry (C : LChains) (index : Nat) (ref : List Nat) (coord : List (List Int)) :
    Except PyErr LChains :=
  if ref.length ≠ coord.length then .error .valueError
  else if ref.length = 0 then .ok C
  else if C.length ≤ index then .error .indexError
  else .ok (C.set index ⟨ref, coord⟩)

/-- `local_chains(ref, coord)`, local_chains_class.py:52-60: one entry.  Every array must have one row
for each reference. -/
def LEntry.mk? (ref : List Nat) (coord : List (List Int)) : Except PyErr LEntry :=
  if ref.length ≠ coord.length then .error .valueError else .ok ⟨ref, coord⟩

/-- Entry-wise sum of two rows of the same length.  See local_chains_class.py:128-129. -/
def addRow (a b : List Int) : List Int := List.zipWith (· + ·) a b

/-- `C_coord[np.isin(C_ref, A_ref)] += A_coord`, local_chains_class.py:128-129, on the rows of
`C_coord`: the rows whose reference is in `aref` get the rows of `acoord`, in order. -/
def scatterRows (aref : List Nat) : List Nat → List (List Int) → List (List Int) → List (List Int)
  | c :: cs, row :: rows, acoord =>
    if c ∈ aref then
      match acoord with
      | a :: as => addRow row a :: scatterRows aref cs rows as
      | [] => row :: scatterRows aref cs rows []
    else row :: scatterRows aref cs rows acoord
  | _, rows, _ => rows

/-- The numpy shapes of `C_coord[np.isin(C_ref, A_ref)] += A_coord` match.  See local_chains_class.py:128-129. -/
def scatterOk (aref cref : List Nat) (acoord : List (List Int)) : Bool :=
  (cref.filter fun c => decide (c ∈ aref)).length == acoord.length

/-- One round of `__add__`, local_chains_class.py:122-137. -/
def LEntry.add (A B : LEntry) : Except PyErr LEntry :=
  if 0 < min A.ref.length B.ref.length then
    if scatterOk A.ref (npUnique (A.ref ++ B.ref)) A.coord &&
        scatterOk B.ref (npUnique (A.ref ++ B.ref)) B.coord then
      .ok ⟨npUnique (A.ref ++ B.ref),
        scatterRows B.ref (npUnique (A.ref ++ B.ref))
          (scatterRows A.ref (npUnique (A.ref ++ B.ref))
            (List.replicate (npUnique (A.ref ++ B.ref)).length
              (List.replicate (A.coord.headD []).length 0)) A.coord) B.coord⟩
    else .error .valueError
  else if 0 < A.ref.length then LEntry.mk? (npUnique (A.ref ++ B.ref)) A.coord
  else if 0 < B.coord.length then LEntry.mk? (npUnique (A.ref ++ B.ref)) B.coord
  else LEntry.mk? (npUnique (A.ref ++ B.ref)) []

/-- `A + B`, local_chains_class.py:111-139.  `B` must have an entry for each entry of `A`. -/
def LChains.add : LChains → LChains → Except PyErr LChains
  | [], _ => .ok []
  | _ :: _, [] => .error .indexError
  | a :: as, b :: bs => do
    let c ← a.add b
    let cs ← LChains.add as bs
    pure (c :: cs)

/-- `minus`, local_chains_class.py:144-149. -/
def LChains.minus (p : Nat) (C : LChains) : LChains :=
  C.map fun e => ⟨e.ref, e.coord.map (negMod p)⟩

/-- The linear combination `Σ_k cs[k] * rows[k]` of rows of length `n`.  See local_chains_class.py:172-173. -/
def combine (n : Nat) (cs : List Int) (rows : List (List Int)) : List Int :=
  (List.zipWith scale cs rows).foldl addRow (List.replicate n 0)

/-- One round of `sums`, local_chains_class.py:169-176: `matmul(coord.T, (coord_sums.T)[ref]).T`.
`nexp` is the number of columns of `coord_sums`; a reference above it raises `IndexError`. -/
def LEntry.sums (e : LEntry) (sums : List (List Int)) (nexp : Nat) : Except PyErr LEntry :=
  if e.ref.length = 0 then .ok LEntry.empty
  else if e.ref.all (fun i => decide (i < nexp)) then
    .ok ⟨List.range sums.length, sums.map fun s =>
      combine (e.coord.headD []).length (e.ref.map fun i => s.getD i 0) e.coord⟩
  else .error .indexError

/-- `local_chains.sums(chains, coord_sums)`, local_chains_class.py:154-178; `coord_sums` is given by
rows and has `nexp` columns. -/
def LChains.sums (C : LChains) (sums : List (List Int)) (nexp : Nat) : Except PyErr LChains :=
  C.mapM fun e => e.sums sums nexp

/-- `local_chains.copy_seq(seq)`, local_chains_class.py:183-189: values are not shared in the model,
so a copy is the identity. -/
def LChains.copySeq (seq : List LChains) : List LChains := seq

end Permaviss
