# PerMaViss in Lean 4: design of the model and of the proofs

Sources are read as text from `/repo/src/permaviss` (abbreviated `…/` below). Lean modules live in
`lean/Verif`:

* `Verif/Model/*`  – executable, total functions that follow the Python code function by function;
* `Verif/Spec/*`   – small specifications that do not mention the model's helpers;
* `Verif/Lemmas/*` – supporting mathematics;
* `Verif/Props/*`  – the property theorems, each next to a concrete non-vacuity `example`.

## Modelling conventions

* **Arrays.** A one dimensional numpy array is a `List`. A two dimensional array is stored *by
  columns* (the code transposes to work by columns), with the number of rows carried explicitly
  where the code asks for `np.size(A, 0)`. Entries are exact integers (`Int`): numpy's fixed width
  integers are not modelled, except in `Model/Machine*` (C78), and float-typed matrices with integral values are read as integers.
* **Python `%` and `//`** are `Int.fmod`/`Int.fdiv`; where the divisor is `p > 0` they coincide with
  `Int.emod`, which is used instead.
* **Radii** range over an arbitrary linear order (`[LinearOrder α]`) in every function that only
  compares them; NaN is excluded. Cover and sample generation use an ordered field / `ℝ`: floating
  point rounding is modelled for the corners of the cover only (C82–C84).
* **Exceptions** are values of `Except PyErr _`; each Python exception class that the code can raise
  on the modelled path is a constructor.
* **While loops and recursion** without a syntactic bound are given fuel and a dedicated error
  `PyErr.outOfFuel`; we prove that this error is never produced (termination).
* **In-place updates** are modelled by returning the new value, except in `Model/InPlace` (C89, C90), `Model/ImageKernelMem` (C98), `Model/ModuleHomologyMem` (C99) and `Model/ChainsMem` (C95), which have
  the memory with references, copies and transposed views of `Spec/Memory`. When a loop only writes the column
  under consideration and only reads finished ones, the model carries the list of finished columns
  plus the current one (stated in the comment of the definition).
* **`np.argsort`** (unstable) is a parameter: any function returning a sorting permutation.
  `np.lexsort` is stable and modelled by a stable sort.

## Plan per property

(see `properties.jsonl` for the statements)

| Id | Model | Proof |
|---|---|---|
| C01–C02 | `invModP`, fuelled Euclid loop | loop invariant `b ≡ n·a₀`, gcd preservation, measure `|a|` |
| C03 | `addModC`, `addArraysModC`, `multiplyModP` | unfolding + `Int.emod` arithmetic, stated with `Matrix`/sums |
| C04 | `indexPivot` | list induction |
| C05–C08 | `gaussCol` | fold invariant: finished columns have distinct pivots, are combinations recorded by `T`; pivot strictly decreases |
| C09–C11 | `solveModP`, `solveMatrixModP` | corollaries of C05–C08; converse from pivot independence; witnesses for unreduced `b` and for the transposition |
| C12–C13 | `gaussColRad` | loop invariant; completeness from pivots of eligible columns |
| C14 | `gaussBarcodes` | per-column reduction to `gaussCol` on the active submatrix |
| C15 | `flagComplex` | induction on the dimension: candidates = common lower neighbours |
| C16–C18 | `vietorisRips` | same induction, with radii; any sorting permutation |
| C19–C20 | `complexDifferentials` | entry characterisation, then sign cancelling involution on pairs of removed vertices |
| C21–C26 | `persistentHomology` | triangular basis argument: pivots of reduced columns (clearing) together with the non pivots index a triangular basis of chains |
| C27 | composition | C16–C26 glued together |
| C28–C31 | `BarcodeBasis` | list lemmas |
| C32 | `pivotCheckReduce` | measure (pivot, value mod p) |
| C33–C34 | `imageKernel` | sweep invariant over the critical radii; negation witness for the image |
| C35–C36 | `quotient`, `moduleHomology` | from the relative sweep; negation witness |
| C37–C43 | `Cover` | mixed radix arithmetic; box membership over an ordered field; adjacency, clique bound |
| C44 | `LocalChains` | list algebra |
| C45–C48 | `Cech` | chain level identities; negation witness for the skipped lift |
| C49–C53 | `MV` schedule | arithmetic of loops, permutation invariance of maps |
| C54 | `createMVss` | degree zero is C61.  For cubes in a line the second page is the last one: the page gives kernel and cokernel of the Čech map (`StripPages`), the lifts are cycles of the whole complex (`StripReps`, `StripLift`), `extension` solves the coordinates of a lift after its death (`StripExt`), C62 turns bars and coordinates into ranks (`StripDiag`).  The same argument needs only that the columns from the third one are zero and that the Čech map of chains is injective; both hold when no point lies in three cubes next to each other, because the cubes with a given simplex then form a line (`Thin`).  In degree one every cover is treated (`Plane…`): the rows of nerves are exact, so chains of the first three columns have only the classes of the last page at `(0,1)` and `(1,0)` (`PlaneRes`, `PlaneQuot`); the second page at `(1,0)` and `(0,1)` is the homology of the Čech maps (`PlaneMid`, `PlaneMph`), the third page at `(0,1)` is the quotient by the second differential (`PlaneTwo`), later pages do not change these positions (`PlanePages`), and the extension is as for a line (`PlaneLift`, `PlaneExt`, `PlaneDiag`).  The general theorem is not attempted: the code violates it |
| C55–C56 | `Samples` | ordered field arithmetic / real trigonometry |

| C57 | `imageKernel` | invariant `V = F·T` of the sweep under monotone deaths; negation witness |

| C58–C59 | `firstDifferential` | the zig-zag of C45–C48 applied to the generators; d1² = 0 from the anticommuting square |
| C60 | `allPages`, `moduleHomology` | C33–C36 on the rows of the first page; the wrong positions are characterised (`MPHAll`) |
| C61 | `createMVSS` | exactness of the Čech complex in degree zero of a cover with overlap ≥ max_r, ranks determine barcodes |
| C62 | `glueBars`, `imageKernel` with a broken basis | invariant over radii and columns: the columns with a pivot span the transported generators; ranks of a module resolved by the data.  For any number of levels (`BrokenMulti*`, `BrokenGlue`), when the call returns: recorded pivots may be outdated, but they stay distinct and active while the columns span all active rows, so the columns are independent by counting |
| C63 | `localPersistentHomology` | exchanging two neighbouring points is an isomorphism of the chain complexes (with a sign); barcodes are determined by ranks (C27) |
| C64, C65, C67 | `localPersistentHomology` | inclusions of Vietoris–Rips complexes give inequalities and equalities of ranks |
| C66 | `localPersistentHomology` | chains of degree zero modulo boundaries have a basis indexed by Mathlib's connected components of a `SimpleGraph` |
| C68 | `createMVss` | the generators of the second page are cycles at their births (`QuotTri`, `MPH`), and only classes alive at a radius are used (`LiftAlive`), so the lifts of row zero succeed (`TwoPageTotal`); the later pages only combine representatives (`RowTotal`) |
| C69 | `createMVss` | a witness in space (`Props/Break`) where `extension` raises; for `max_dim = 1` it never raises (C68).  When no point lies in three cubes next to each other all steps are shown to succeed: the pages (`ThinPages`), the lifts in `extension` (`ThinLift`, `ThinStep`, `ThinFull`, `ThinExt`) and the diagonals (`ThinTotal`), under conditions on the intersections which hold if two cubes share at most three points (C70) |
| C70 | `localPersistentHomology` | induction on the vertices of a flag complex: split off the smallest vertex, its link has two vertices less or it is a cone (`Clique`); C27 |
| C71, C72 | `localPersistentHomology` | a vertex whose link has no homology may be added without creating homology (`Clique`): cones, and graphs where the larger neighbours of every vertex are joined; C66 for degree zero, C63 to sort the points of a line |
| C73 | `localPersistentHomology` | removing the last vertex does not change the ranks if its link has no homology (`Removal`): the link of a repeated point is a cone; C63 for the position |
| C74 | `cechDiff` on all columns | for a fixed simplex of points the cubes that contain it span an acyclic subcomplex of the nerve: every cube but the last has a later neighbour joined to all its later neighbours (`dominated_acyclic`, `box_acyclic`) |
| C75 | `createMVss` with `max_dim = 2` | C61 and the degree one part of C54; at radius zero cycles of edges bound because distance zero is transitive (`chordal_acyclic`), which is needed for repeated points (`sum_up_to_zero`) |
| C76 | `createMVss` | the code gives too many bars on the second page or the right ones (`mph_all`), so an empty position has no homology; then by C74 a chain on the cubes whose boundary is a Čech boundary can be corrected until nothing is left outside the first column (`Collapse`); pages after the second one do not change what is used (`CollapsePages`) and the extension has one level |
| C77 | `createMVss` | the first column of the second page is the cokernel of the first differential with its representatives (`first_pos`), later pages do not change what is stored (`pages_second_reps`); a cycle of the whole complex with vertices in a cube is a cycle of the piece (`local_cycle`), hence a combination of the classes of the first page, hence of those of the second page |
| C78 | `Model/Machine`: the functions of `gauss_mod_p` and `persistent_homology` again, over arbitrary machine operations | operations exact up to `M` and `p * p <= M`: the coefficients of the Euclidean algorithm stay below `p` (invariant `a*abs x0 + b*abs x1 <= p`), entries stay in `[0, p)`, so products and sums stay below `p * p`; induction over the loops shows equality with the exact functions. Doubles and 64 bit integers satisfy the hypothesis; a witness above the bound.  `Model/MachineIK` does the same for `image_kernel`, `quotient` and `module_persistence_homology`: the arrays of the loop stay reduced (`IKRed`) |
| C79 | `createMVss` | with `max_div = 1` all positions are equal, so that no two cubes have a point in common and `C69_few_shared_partial` applies |
| C80 | `generateCover`, `createMVss` | corners move with the cloud, side and divisions are differences, so the tests of the cubes do not change (`generateCover_moves`); the rest of the computation only uses distances |
| C81 | `persistentHomology`, `localPersistentHomology` | rank and nullity of the boundary operators (`betti_relations`), bars through `t` are the dimension of the homology (C24), alternating sums telescope; listed simplices are the simplices of the Vietoris-Rips complex (`card_vr`) |
| C82 | `generateCoverR` with a `Rounding` | errors of each operation add up to at most 19 `u` `M` + 2 `η` for a corner (`lcorR_err`, `ucorR_err`), so consecutive slabs still share a segment of length `r` (`slab_cover`); `toDouble` is shown to be accurate (`double_accurate`) |
| C83 | `createMVssR` | the proofs of C54, C67, C68 and C75 only use that the sets of a grid are convex in the grid and that close points share a cube (`CoveredEnv`); corners are monotone in the position, and C82 gives the rest |
| C84 | `generateCoverR` | bounds on the quotient of two rounded numbers (`divR_count`); the number of cubes is the product of the divisions |
| C85 | `localPersistentHomology` | below `max_r` the complex is the disjoint union of those of the clusters; chains, cycles and boundaries are direct sums (`rank_parts`), ranks determine bars |
| C86 | `createMVss` | C75 identifies the bars with those of `localPersistentHomology`; then C63–C67 and C85 |
| C65, C87 | `localPersistentHomology`, `createMVss` | `C65_stability`: the distances are deformed linearly; while no two distances change their order the complexes are the same up to a reparametrisation and the bars move with the distances (`IsBars.transport`); there are finitely many changes of order, and matchings compose (`Matched.trans`).  C87: repeat points so that the clouds have the same size (C73), then C65.  The distance of barcodes is `BarsWithin` of `Spec/Bottleneck` |
| C88 | `localPersistentHomologyO` | C78 shows that the machine computes the barcodes of the rounded distances exactly, C65 that these are near |
| C89 | `Model/InPlace`: `gauss_col`, `gauss_col_rad`, `persistent_homology` with the memory they work on, `Spec/Memory` | the two new arrays hold the rows of the lists of the functional model after each write (`Holds`, `gaussLoopMem_eq`, `radColsMem_eq`, `clearMem_eq`), and all writes go to addresses beyond those of the caller |
| C90 | `updateBrokenMem` | rows set to zero one after the other (`zeroRows_spec`); only the array of the caller is written to |
| C91 | `Model/Shared`: `extension` and `create_MV_ss` with the values read from the class attribute `local_chains.p`, `Spec/Process` | the rounds whose value matters are `idx < n` (`extLoopAt_eq`), the value is that of the last construction (`attrAt_eq`); witnesses by evaluation of the model |
| C92 | `createMVss`, `Spec/CycleBasis` | the chains of the last page are those of the generators and of their lifts (`plane_pages`, `first_position`, `second_position`); these resolve the homology of the whole cloud (`plane_resolves`, `strip_resolves`), which gives existence and uniqueness of the coefficients (`LastCycles`, `CoveredEnv.last_cycles`) |
| C93 | `createMVss`, `Spec/CycleBasis` | position `(0, 0)` is kept from the second page on, with its chains (`pages_kept`); in degree zero chains on intersections are closed, so the classes of the row resolve the homology of the whole cloud (`zero_resolves`); with one entry on the diagonal `collapse_resolves` does (`ColumnCycles`) |
| C94 | `gaussCol`, `solveModP` | the invariants of the elimination do not use that `p` is prime, only that the inverse of a pivot, if returned, is one (`gaussCol_any`); `p = a b` gives the columns `(1, a)` and `(b, 0)`, the second `b` times the first, with different pivots |
| C95 | `Model/ChainsMem`, `Spec/Sharing` | the methods of `local_chains` with references to arrays; the constructor copies (`newChainsLoop_spec`), so arrays of summands that `+` passes on are copied at its end (`Prepares.makes`); rows set to zero one by one (`zeroEntryMem_aux`) |
| C96 | `Props/CoverShapes` | C67, C70, C71, C72 and C73 carried over by `CoverRun.direct` (C75), which identifies the bars of degrees zero and one with those of the ordinary computation |
| C97 | `Model/ExtStore` | `extension` with the list it appends to and writes to; the loop is split in the part before the write and the part after it (`extLoop_eq`), so that the list is known by induction on the rounds (`extLoopStore_snd`) |
| C98 | `Model/ImageKernelMem` | `image_kernel` with references to `F`, `Im_coordinates`, `T` and `Ker_coordinates`; each step in memory does what the step on values does (`Sim`), with the invariant that the three arrays are new and different (`Layout`); `update_broken` gives a new array or none |
| C99 | `Model/ModuleHomologyMem` | the loop with calls of `image_kernel` in memory (C98); the coordinates that it returns are rectangular (`ikFinish_shaped`), so `(N|M)` is stored in an array without loss |
| C100 | `takeSample` | farthest point sampling (C55) and the pigeonhole principle: of the sample and one more point two have the same centre; C87 for barcodes; rounds only append |
| C101 | `Model/Generator`, `Spec/Generator` | the functions written with a generator that is passed on; by induction on the rounds they use a segment of its numbers (`genPoints_eq`), so they agree with `Model/Samples` |
| C102 | `takeSample` | minimum and position of the maximum commute with increasing functions (`npMin_map`, `npArgmax_map`), so all rounds are the same |
| C103 | `generateCover` | two runs with equal grids are compared cube by cube (`cover_transfer`), intersections follow from C43 |
| C104 | `localPersistentHomology` | no boundaries in the last degree, so the basis of C23 is one of cycles; carried to the Vietoris-Rips complex as in C27 |
| C105 | `localPersistentHomology`, `createMVss` | specification in `Spec/Tree.lean`; each edge lowers the number of classes by at most one, the tree of edges that lower it (longest first in the list, built from its end) has the counts of C66, and two barcodes with the same counts are equal up to order |

## What is modelled

| Python | Lean | Not modelled |
|---|---|---|
| `gauss_mod_p/*` | `Model/Arith`, `Model/Gauss`, `Model/Machine`, `Model/InPlace` | fixed width integers and doubles appear only in `Model/Machine` and `Model/MachineIK` (C78); there the loops have the number of rounds that is enough for exact numbers |
| `simplicial_complexes/*` | `Model/Complexes` | `np.argsort` is a parameter |
| `persistence_algebra/barcode_bases.py` | `Model/Barcode`, `Model/InPlace` | printing; `np.around` is a parameter `rnd` |
| `persistence_algebra/PH_classic.py` | `Model/PH`, `Model/InPlace` | |
| `persistence_algebra/image_kernel.py` | `Model/ImageKernel`, `Model/ImageKernelMem`, `Model/MachineIK` | |
| `persistence_algebra/module_persistence_homology.py` | `Model/ModuleHomology`, `Model/ModuleHomologyMem`, `Model/MachineIK` | |
| `covers/cubical_cover.py` | `Model/Cover`, `Model/CoverR` | rounding appears only in `Model/CoverR` (C82–C84), as a parameter; doubles are an instance, without bounds on the exponent |
| `spectral_sequence/local_chains_class.py` | `Model/Chains`, `Model/ChainsMem` | sparse storage formats |
| `spectral_sequence/spectral_sequence_class.py` | `Model/Spectral`, `Model/Shared`, `Model/ExtStore` | printing; see the comments there for the pages above the second |
| `spectral_sequence/MV_spectral_seq.py` | `Model/MV`, `Model/LocalPH`, `Model/Pool` | processes: `Pool.map` is modelled by its chunks finishing in any order, a crash of a worker by an exception |
| `sample_point_clouds/examples.py` | `Model/Samples`, `Model/Generator` | the generator behind `np.random`: any function from states to numbers and states |

`visualization/`-like code (plots in `docs`) and the example scripts are not modelled.

* **C45–C48.** Local chains are compared with chains of the Vietoris–Rips complex of the whole cloud
  (`Lemmas/GlobalChains`), where the Čech differential is the alternating sum of inclusions.
* **C52.** `Pool.map` splits the tasks in chunks; `Model/Pool` records finished chunks in any order,
  and the theorem quantifies over all interleavings.

## Findings: where the code violates a property

Each of these is a theorem with a concrete witness; the corresponding property is marked partial and
accompanied by the strongest positive statement proved.


* **C10**: `solve_mod_p` returns a wrong answer for right hand sides with entries outside [0, p)
  (witness in `Props/Gauss.lean`).
* **C35** (`C35_violated`): in the relative mode of `image_kernel` a generator of M whose bar ends in
  A (image_kernel.py:202-206) keeps the multiples of generators of N which were added to it; only
  generators that become zero are stripped (230-233).  Since N's generators may be born later, the
  returned generator need not exist at its birth.  The bars are right, and the generators are right at
  every radius where all generators of N are born (`C35_quotient_late_partial`).
* **C34** (`C34_violated`): image_kernel.py:181 overwrites the death of an image generator that is
  already dead. A = {[0,4), [0,3)}, B = {[0,2), [0,1)}, F = (1 1; 0 1), p = 5 gives the image bar
  [0,3); from radius 2 on B is zero. The docstring example of `image_kernel` shows the same effect
  (first bar [1,5] instead of the documented [1,4]).
* **C36** (`C36_violated`): module_persistence_homology.py:103-105 returns `Base[d]` as homology when
  `Base[d-1]` is zero, without dividing by `Im[d]`.  Base = 0, [0,2), [0,2) with the identity in
  degree 2 reports the bar [0,2) in degree 1, where the homology is zero.
* **C57** (`C57_violated`): lines 193-194 only overwrite the active entries of `T[:, s]`, so `PreIm`
  is no longer a preimage of `Im`.
* `image_kernel` raises `UnboundLocalError` for a domain without bars (`store_well_defined` on an
  empty barcode, C28), so C33/C34 assume at least one bar.

* **C39** (`C39_violated`): a cloud with a constant coordinate is divided into zero cubes, since
  `div` is the ceiling of 0; no point is covered and every list returned is empty.

* **C82** (`C82_violated_integer`, `C82_violated_double`): cubical_cover.py:146-154 computes the corners in
  copies of `min_corner`, which have the type of the cloud, so on an array of integers every step
  drops the digits after the point: for `[[0], [5]]`, `max_div = 4`, `overlap = 1.4` the last cubes are
  empty and the point 5 is in none.  On doubles the points 0.1000000000000003 and 2.1 of a cloud from -1
  to 3.2 have no cube in common with `max_div = 2` and `overlap = 2`.  `C83_margin_needed`: the first cover
  loses a component.
* **C84** (`C84_violated_double`): `[[0.], [1.]]` with `max_div = 49` gives 50 cubes, because
  `1. / (1. / 49)` is larger than 49 (cubical_cover.py:127).

* **C53** (`C53_violated`): `persistent_homology` gets no entry for a diagonal without classes
  (MV_spectral_seq.py:213-276), so the entries of higher degree are shifted: for the octahedron with
  `max_dim = 3` the entry of index 1 is the barcode of degree 2.
* **C54** (`C54_violated`): `create_MV_ss` raises `ValueError` on six points of a four dimensional
  space.  On a position `(n, deg)` of the first page such that position `(n - 1, deg)` has no classes,
  `module_persistence_homology` returns `Base[n]` itself (as in C36), whose coordinates are not those
  expected by `compute_two_page_representatives`, and the shapes do not match.

* **C54** (`C54_violated_degree_two`, `Props/Wrong.lean`): `create_MV_ss` **returns a wrong barcode**.  Ten
  points in dimension five, Euclidean distances, four cubes, `max_dim = 3`: degree two gets four bars
  instead of three.  A loop shared by all cubes bounds in the intersections of two cubes next to each other
  from the moment it appears.  There are no classes of degree one on these intersections, so
  `cech_diff_and_lift_local` skips them (spectral_sequence_class.py:537-538), the lift is zero and so is the
  second differential computed from it.  In degree one this cannot happen (`C54_plane_partial`, C75).
* **C48** (`C48_violated`, `C54_violated_plane`): `cech_diff_and_lift` skips the pieces without classes
  in the degree, although the Čech differential need not vanish there.  In the plane this makes
  `create_MV_ss` raise `ValueError`.  Another consequence was evaluated on the model (not a theorem): for six points of a ring in space together
  with a far square on one side of the cover (`max_r = 24.9`, overlap 24.95, two divisions)
  `create_MV_ss` raises `RuntimeError`, and with a second far square on the other side it returns the
  right barcodes.
* **C69** (`C69_violated`): `lift_to_page` (spectral_sequence_class.py:378-412) leaves its loop with `break`
  at the first page where the module is zero.  If the classes of the first page at that position are all
  boundaries, `extension` keeps the part of its chains that bounds through the next column, and its last
  test raises `RuntimeError`.  The witness has ten points in space and a cover by two cubes: a loop of four
  points is seen by both cubes and by their intersection.
* **C62** (`C62_violated`): after `update_broken` the loop of `image_kernel` only looks again at a column
  when its entry at the recorded pivot became zero.  If the column has changed above that pivot (this
  needs a generator which becomes a combination of generators that later become others: three levels),
  the recorded pivot is not the pivot any more, dependent columns are accepted and `pivot_check_reduce`
  may cycle for ever.  In such cases the reduction may also need more steps than the fuel of the model.
* **C90** (`C90_violated`): `update_broken` (barcode_bases.py:382) sets rows of the array passed to it to zero; the
  result is in another array.  `image_kernel` passes an array of its own.
* **C91** (`C91_violated_threads`, `C91_violated_method`): the prime used by `local_chains.minus` is an attribute of
  the class, which every construction of a spectral sequence overwrites (spectral_sequence_class.py:137).  Two threads
  that call `create_MV_ss` with different primes disturb each other, and `extension` on an older object uses the
  prime of the newest one.
* **C97** (`C97_violated_list_grows`): every call of `extension` appends zero matrices to `extensions`
  (spectral_sequence_class.py:1055-1062) and writes its results to the first entries, so the list grows when the
  method is called again on the result of `create_MV_ss`.
* **C56** (`C56_violated`): `random_sphere` never uses its radius.  `ball` draws from a cube of side
  `radius` (`C56_ball`), and never returns for `radius <= 0` (`C56_ball_diverges`); `circle(0, r)` raises
  `ZeroDivisionError`.
* `compute_higher_representatives` (spectral_sequence_class.py:1012) reads `Hom_reps[target_page]` for
  `target_page >= 3`, although the coefficients in `PreIm[target_page - 1]` refer to the generators of page
  `target_page - 2`; the list read has more entries than there are positions for, so a nonzero `Gammas` leads
  to an `IndexError`.  The branch is only reached on page three or later.  This was read off the code; there is
  no witness among the theorems.
* Classes at positions `(n, deg)` with `n >= cp` and `deg + cp - 1 >=` the number of rows are not
  visited on page `cp` (C50 states the positions which are visited).

## Trusted base

Lean 4.33.0's kernel; the axioms `propext`, `Classical.choice`, `Quot.sound`; Mathlib's definitions
used in statements; and the reading of the Python/numpy code described in the comments of
`Verif/Model`. No axiom is added, and no `sorry`, `native_decide` or `bv_decide` is used.
