import Verif.Spec.Memory
import Verif.Model.Spectral
import Verif.Model.InPlace

/-!
# `spectral_sequence/local_chains_class.py`, with the arrays in memory

The methods of `local_chains` again, with references to the arrays of coordinates.  The arrays of references
(`ref`) are only replaced and never written to in the code, so they are values here; so are arrays that are only
read, as `coord_sums`.
-/

namespace Permaviss

/-- The entry of a `local_chains` object on one piece of the cover.  See local_chains_class.py:36-41. -/
structure MEntry where
  ref : List Nat
  coord : Ref
  deriving DecidableEq

/-- A `local_chains` object.  See local_chains_class.py:12-68. -/
abbrev MChains := List MEntry

/-- The chains that an object stands for when the memory is `m`.  See local_chains_class.py:36-41. -/
def MChains.read (m : Memory) (C : MChains) : LChains := C.map fun e => ⟨e.ref, (m.at_ e.coord).rows⟩

/-- A new array with given rows of `nc` entries.  See local_chains_class.py:59-60. -/
def Buf.ofRows (nc : Nat) (rows : List (List Int)) : Buf :=
  ⟨rows.length, nc, fun i j => (rows.getD i []).getD j 0⟩

/-- The loop of `local_chains(ref, coord)`, local_chains_class.py:55-59: every array is copied. -/
def newChainsLoop : List (List Nat × Ref) → Memory → Except PyErr MChains × Memory
  | [], m => (.ok [], m)
  | (ref, a) :: es, m =>
    if ref.length ≠ (m.at_ a).nrows then (.error .valueError, m)
    else
      let (c, m) := m.copy a
      thenDo (newChainsLoop es m) fun C m => (.ok (⟨ref, c⟩ :: C), m)

/-- `local_chains(ref, coord)`, local_chains_class.py:51-59. -/
def newChainsMem (refs : List (List Nat)) (arrs : List Ref) (m : Memory) : Except PyErr MChains × Memory :=
  if refs.length ≠ arrs.length then (.error .valueError, m) else newChainsLoop (refs.zip arrs) m

/-- `add_entry(index, ref, coord)`, local_chains_class.py:73-106.  `none` is the list `[]`.  The array of the caller
is stored, not a copy. -/
def addEntryMem (C : MChains) (index : Nat) (ref : List Nat) (coord : Option Ref) (m : Memory) :
    Except PyErr MChains × Memory :=
  match coord with
  | none => if ref.length = 0 then (.ok C, m) else (.error .valueError, m)
  | some a =>
    if ref.length = (m.at_ a).nrows then
      if index < C.length then (.ok (C.set index ⟨ref, a⟩), m) else (.error .indexError, m)
    else (.error .valueError, m)

/-- The loop of `__add__`, local_chains_class.py:120-137.  Lines 126-128 make a new array and fill it; lines 130 and
132 take the array of a summand. -/
def addLoopMem : MChains → MChains → Memory → Except PyErr (List (List Nat × Ref)) × Memory
  | [], _, m => (.ok [], m)
  | _ :: _, [], m => (.error .indexError, m)
  | a :: as, b :: bs, m =>
    let cref := npUnique (a.ref ++ b.ref)
    let A := (m.at_ a.coord).rows
    let B := (m.at_ b.coord).rows
    let nc := (m.at_ a.coord).ncols
    if 0 < min a.ref.length b.ref.length then
      if scatterOk a.ref cref A && scatterOk b.ref cref B then
        let (c, m) := m.alloc (Buf.ofRows nc (scatterRows b.ref cref (scatterRows a.ref cref
          (List.replicate cref.length (List.replicate nc 0)) A) B))
        thenDo (addLoopMem as bs m) fun cs m => (.ok ((cref, c) :: cs), m)
      else (.error .valueError, m)
    else if 0 < a.ref.length then
      thenDo (addLoopMem as bs m) fun cs m => (.ok ((cref, a.coord) :: cs), m)
    else if 0 < B.length then
      thenDo (addLoopMem as bs m) fun cs m => (.ok ((cref, b.coord) :: cs), m)
    else
      let (c, m) := m.alloc (Buf.ofRows 0 [])
      thenDo (addLoopMem as bs m) fun cs m => (.ok ((cref, c) :: cs), m)

/-- `A + B`, local_chains_class.py:111-139. -/
def addChainsMem (A B : MChains) (m : Memory) : Except PyErr MChains × Memory :=
  thenDo (addLoopMem A B m) fun es m => newChainsMem (es.map Prod.fst) (es.map Prod.snd) m

/-- `minus`, local_chains_class.py:144-149: the object gets new arrays, the old ones are not written to. -/
def minusMem (p : Nat) : MChains → Memory → MChains × Memory
  | [], m => ([], m)
  | e :: es, m =>
    if 0 < (m.at_ e.coord).nrows then
      let (c, m) := m.alloc { m.at_ e.coord with entry := fun i j => (-(m.at_ e.coord).entry i j) % (p : Int) }
      let (es, m) := minusMem p es m
      (⟨e.ref, c⟩ :: es, m)
    else
      let (es, m) := minusMem p es m
      (e :: es, m)

/-- The loop of `sums`, local_chains_class.py:169-177. -/
def sumsLoopMem (sums : List (List Int)) (nexp : Nat) :
    MChains → Memory → Except PyErr (List (List Nat × Ref)) × Memory
  | [], m => (.ok [], m)
  | e :: es, m =>
    if e.ref.length = 0 then
      let (c, m) := m.alloc (Buf.ofRows 0 [])
      thenDo (sumsLoopMem sums nexp es m) fun cs m => (.ok (([], c) :: cs), m)
    else if e.ref.all (fun i => decide (i < nexp)) then
      let nc := (m.at_ e.coord).ncols
      let (c, m) := m.alloc (Buf.ofRows nc (sums.map fun s =>
        combine nc (e.ref.map fun i => s.getD i 0) (m.at_ e.coord).rows))
      thenDo (sumsLoopMem sums nexp es m) fun cs m => (.ok ((List.range sums.length, c) :: cs), m)
    else (.error .indexError, m)

/-- `local_chains.sums(chains, coord_sums)`, local_chains_class.py:154-178. -/
def sumsChainsMem (C : MChains) (sums : List (List Int)) (nexp : Nat) (m : Memory) :
    Except PyErr MChains × Memory :=
  thenDo (sumsLoopMem sums nexp C m) fun es m => newChainsMem (es.map Prod.fst) (es.map Prod.snd) m

/-- `local_chains.copy_seq(seq)`, local_chains_class.py:183-189. -/
def copySeqMem : List MChains → Memory → Except PyErr (List MChains) × Memory
  | [], m => (.ok [], m)
  | C :: Cs, m =>
    thenDo (newChainsMem (C.map MEntry.ref) (C.map MEntry.coord) m) fun D m =>
      thenDo (copySeqMem Cs m) fun Ds m => (.ok (D :: Ds), m)

/-- `chains.coord[k][np.invert(ext_bool[local_ref])] *= 0`, spectral_sequence_class.py:1068-1070, in place, row by
row.  With no row to change nothing is written, as in the code. -/
def zeroEntryMem (mask : List Bool) (e : MEntry) (m : Memory) : Memory :=
  (List.range e.ref.length).foldl (fun m i =>
    if mask.getD (e.ref.getD i 0) false then m
    else m.setRow e.coord i (List.replicate (m.at_ e.coord).ncols 0)) m

/-- The loops of spectral_sequence_class.py:1066-1073 over all chains of a sequence. -/
def zeroSeqMem (mask : List Bool) (seq : List MChains) (m : Memory) : Memory :=
  seq.flatten.foldl (fun m e => zeroEntryMem mask e m) m

/-- The first lines of `extension`, spectral_sequence_class.py:1044-1073, on the stored representatives `seq`: a
copy is made, and the rows of classes that live until `max_r` are set to zero in the copy. -/
def extensionCopyMem (mask : List Bool) (seq : List MChains) (m : Memory) :
    Except PyErr (List MChains) × Memory :=
  thenDo (copySeqMem seq m) fun D m => (.ok D, zeroSeqMem mask D m)

end Permaviss
