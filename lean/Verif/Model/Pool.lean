import Verif.Model.Py

/-!
# `multiprocessing.Pool.map`

The pool used in MV_spectral_seq.py:122-126 and spectral_sequence_class.py:449-453, 808-812.  The tasks
are cut into chunks, each chunk is run by one worker from its first task to its last, and the results
are collected by index as the chunks complete, in any order (CPython `multiprocessing/pool.py`,
`mapstar`, `MapResult._set`).  Workers are separate processes: they work on a copy of the arguments, so a
task is a function of its argument.
-/

namespace Permaviss

variable {γ β : Type}

/-- `Pool._get_tasks`: the consecutive chunks of length `k`.  The first argument bounds their number.
See MV_spectral_seq.py:123-126. -/
def chunksOf (k : Nat) : Nat → List γ → List (List γ)
  | 0, _ => []
  | _ + 1, [] => []
  | fuel + 1, x :: xs => (x :: xs).take k :: chunksOf k fuel ((x :: xs).drop k)

/-- `mapstar`: a worker runs the tasks of its chunk in order; the first exception ends the chunk.
See MV_spectral_seq.py:123-126. -/
def runChunk (f : γ → Except PyErr β) (c : List γ) : Except PyErr (List β) := c.mapM f

/-- The state of a `MapResult`: the values received and the first exception received.
See MV_spectral_seq.py:123-126. -/
structure MapState (β : Type) where
  value : List (Option β)
  failed : Option PyErr

/-- `MapResult._set(i, result)` for chunks of length `k`: a successful chunk is written to
`value[i*k:(i+1)*k]`, the first exception is kept.  See MV_spectral_seq.py:123-126. -/
def MapState.set (k : Nat) (s : MapState β) (i : Nat) (r : Except PyErr (List β)) : MapState β :=
  match r with
  | .ok vs =>
    { s with value := s.value.take (i * k) ++ vs.map some ++ s.value.drop (i * k + vs.length) }
  | .error e => { s with failed := s.failed.or (some e) }

/-- `pool.map(f, xs, chunksize=k)` when the chunks complete in the given order.  `none` means that a
position of the result was never written.  See MV_spectral_seq.py:123-126. -/
def poolMap (f : γ → Except PyErr β) (k : Nat) (xs : List γ) (order : List Nat) :
    Except PyErr (List (Option β)) :=
  let chunks := chunksOf k xs.length xs
  let s := order.foldl (fun (s : MapState β) i => s.set k i (runChunk f (chunks.getD i [])))
    ⟨List.replicate xs.length none, none⟩
  match s.failed with
  | some e => .error e
  | none => .ok s.value

end Permaviss
