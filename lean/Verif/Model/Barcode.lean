import Verif.Model.Complexes

/-!
# `persistence_algebra/barcode_bases.py`

Radii live in any linear order.  Bars are pairs (birth, death).
-/

namespace Permaviss

variable {α : Type} [LinearOrder α]

/-- An instance of `barcode_basis`.

* `flat`: the barcode was given as the empty list, so `self.barcode` is a one dimensional array and
  `self.barcode[:, 0]` raises `IndexError`.
* `prevDim`: `self.prev_basis.dim`, or `none` if there is no previous basis.  The reference to the
  previous basis itself is simplified away: only its dimension is ever used.
* `wellDefined`: the attribute stored when `store_well_defined` is set.
* `brokenDiff`: `none` unless `broken_basis`.  See barcode_bases.py:112-164. -/
structure Basis (α : Type) where
  barcode : List (α × α)
  flat : Bool
  dim : Nat
  prevDim : Option Nat
  coords : Mat
  sorted : Bool
  wellDefined : Option (List Bool)
  brokenDiff : Option Mat
  deriving DecidableEq

/-- Entries of `l` where the mask is true, i.e. boolean indexing `l[mask]`.
See barcode_bases.py:135 and 152, image_kernel.py:257. -/
def maskBy {β : Type} : List Bool → List β → List β
  | true :: m, x :: l => x :: maskBy m l
  | false :: m, _ :: l => maskBy m l
  | _, _ => []

/-- Integer indexing `l[idx]`.  See barcode_bases.py:223-230. -/
def gather {β : Type} (l : List β) (idx : List Nat) : List β := idx.filterMap fun i => l[i]?

/-- `self.barcode[:, 0] < self.barcode[:, 1]`, barcode_bases.py:134. -/
def barMask (bars : List (α × α)) : List Bool := bars.map fun b => decide (b.1 < b.2)

/-- The coordinates part of the constructor, barcode_bases.py:138-152. -/
def initCoords (bars : List (α × α)) (prevDim : Option Nat) (coords : Mat) : Except PyErr Mat :=
  match prevDim with
  | none => .ok coords
  | some m =>
      if coords.ncols = 0 then .ok coords
      else if coords.nrows ≠ m then .error .valueError
      else if bars.length ≠ coords.ncols then .error .valueError
      else .ok ⟨coords.nrows, maskBy (barMask bars) coords.cols⟩

/-- `barcode_basis.__init__`, barcode_bases.py:112-164.  `broken` is the flag `broken_basis`. -/
def Basis.init (bars : List (α × α)) (flat : Bool) (prevDim : Option Nat) (coords : Mat)
    (storeWellDefined broken : Bool) (brokenDiff : Option Mat) : Except PyErr (Basis α) :=
  if broken && brokenDiff.isNone then .error .valueError
  else
    match initCoords bars prevDim coords with
    | .error e => .error e
    | .ok cs =>
      let dim := (bars.filter fun b => decide (b.1 < b.2)).length
      if storeWellDefined && bars.isEmpty then .error .unboundLocalError
      else
        let B : Basis α :=
          { barcode := bars.filter fun b => decide (b.1 < b.2)
            flat := flat && bars.isEmpty
            dim := dim
            prevDim := prevDim
            coords := cs
            sorted := false
            wellDefined := if storeWellDefined then some (barMask bars) else none
            brokenDiff := none }
        if broken then
          match brokenDiff with
          | some BD =>
              if BD.nrows = dim ∧ BD.ncols = dim then .ok { B with brokenDiff := some BD }
              else .error .valueError
          | none => .error .valueError
        else .ok B

/-- The order used by `sort`: rounded birth ascending, then rounded death descending.
See barcode_bases.py:221-222. -/
def barLE (rnd : α → α) (a b : α × α) : Prop :=
  rnd a.1 < rnd b.1 ∨ (rnd a.1 = rnd b.1 ∧ rnd b.2 ≤ rnd a.2)

instance (rnd : α → α) : DecidableRel (barLE rnd) := fun a b => by unfold barLE; infer_instance

/-- `np.lexsort((-aux_bars[:, 1], aux_bars[:, 0]))`, barcode_bases.py:221-222: a stable sort of the
positions.  `rnd` is `np.around(_, decimals=precision)`. -/
def sortOrder (rnd : α → α) (bars : List (α × α)) : List Nat :=
  ((bars.zip (List.range bars.length)).insertionSort fun a b => barLE rnd a.1 b.1).map Prod.snd

/-- `barcode_basis.sort`, barcode_bases.py:176-233; the new basis and the order. -/
def Basis.sort (rnd : α → α) (B : Basis α) : Except PyErr (Basis α × List Nat) :=
  if B.flat then .error .indexError
  else
    let order := sortOrder rnd B.barcode
    .ok ({ B with
            barcode := gather B.barcode order
            coords := if B.prevDim.isSome then ⟨B.coords.nrows, gather B.coords.cols order⟩
                      else B.coords
            sorted := true
            brokenDiff := B.brokenDiff.map fun M =>
              ⟨order.length, (gather M.cols order).map fun c => gather c order⟩ }, order)

/-- `changes_list`, barcode_bases.py:238-259. -/
def Basis.changesList (B : Basis α) : List α := npUnique (B.barcode.flatMap fun b => [b.1, b.2])

/-- The positions whose bar satisfies a test: `indices[bool_array]`, e.g. barcode_bases.py:288-291. -/
def barIndices (bars : List (α × α)) (q : α × α → Bool) : List Nat :=
  (List.range bars.length).filter fun i => ((bars[i]?).map q).getD false

/-- `active(rad)`, barcode_bases.py:261-291. -/
def Basis.active (B : Basis α) (rad : α) : Except PyErr (List Nat) :=
  if B.flat then .error .indexError
  else .ok (barIndices B.barcode fun b => decide (b.1 ≤ rad) && decide (rad < b.2))

/-- `birth(rad)`, barcode_bases.py:293-315. -/
def Basis.birth (B : Basis α) (rad : α) : Except PyErr (List Nat) :=
  if B.flat then .error .indexError
  else .ok (barIndices B.barcode fun b => decide (b.1 = rad))

/-- `death(rad)`, barcode_bases.py:317-339. -/
def Basis.death (B : Basis α) (rad : α) : Except PyErr (List Nat) :=
  if B.flat then .error .indexError
  else .ok (barIndices B.barcode fun b => decide (b.2 = rad))

/-- One column of `update_broken`, barcode_bases.py:379-383: `(A' + BD[:, dying] @ A[dying]) % p`,
where `A'` is `A` with the dying rows set to zero. -/
def updateBrokenCol (p : Nat) (BD : Mat) (dying : List Nat) (c : List Int) : List Int :=
  (List.range c.length).map fun i =>
    ((if i ∈ dying then 0 else c.getD i 0) +
      (dying.map fun k => BD.get i k * c.getD k 0).sum) % (p : Int)

/-- `update_broken(A, rad, p)`, barcode_bases.py:341-385.  Without broken differentials the product
raises `TypeError`. -/
def Basis.updateBroken (p : Nat) (B : Basis α) (A : Mat) (rad : α) : Except PyErr Mat :=
  match B.death rad with
  | .error e => .error e
  | .ok dying =>
      if dying = [] then .ok A
      else
        match B.brokenDiff with
        | none => .error .typeError
        | some BD => .ok ⟨A.nrows, A.cols.map (updateBrokenCol p BD dying)⟩

end Permaviss
