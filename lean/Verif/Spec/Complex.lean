import Mathlib.Data.List.Sort
import Mathlib.Order.Nat

/-!
# Specification: graphs, simplices, diameters, complexes

Independent of the model: nothing here mentions a modelled function.
-/

namespace Permaviss

/-- A graph given by its list of edges `[u, v]` with `u < v`, without repetition. -/
structure IsEdgeList (G : List (List Nat)) : Prop where
  edge : ∀ e ∈ G, ∃ u v, u < v ∧ e = [u, v]
  nodup : G.Nodup

/-- `s` lists, in increasing order, vertices that are pairwise joined by an edge of `G`. -/
def IsClique (G : List (List Nat)) (s : List Nat) : Prop :=
  s.Pairwise fun u v => u < v ∧ [u, v] ∈ G

/-- What is assumed of `np.argsort`: it returns a permutation of the positions that puts the values
in nondecreasing order.  Stability is not assumed. -/
def IsArgsort {α : Type} [LinearOrder α] (f : List α → List Nat) : Prop :=
  ∀ l, (f l).Perm (List.range l.length) ∧ ((f l).filterMap fun i => l[i]?).Pairwise (· ≤ ·)

/-- `r` is the largest of the distances `dist v u` with `u < v` in `s`. -/
def IsDiameter {α : Type} [LinearOrder α] (dist : Nat → Nat → α) (s : List Nat) (r : α) : Prop :=
  (∀ u ∈ s, ∀ v ∈ s, u < v → dist v u ≤ r) ∧ ∃ u ∈ s, ∃ v ∈ s, u < v ∧ dist v u = r

/-- `s` is an increasing list of vertices below `n` with all pairwise distances `< maxR`. -/
def IsSmall {α : Type} [LinearOrder α] (dist : Nat → Nat → α) (n : Nat) (maxR : α)
    (s : List Nat) : Prop :=
  (∀ v ∈ s, v < n) ∧ s.Pairwise fun u v => u < v ∧ dist v u < maxR

/-- A finite simplicial complex: `n` vertices and `C[i]` the list of simplices of dimension `i + 1`.
Simplices are increasing lists of vertices, not repeated, and every face is listed. -/
structure IsComplex (n : Nat) (C : List (List (List Nat))) : Prop where
  length : ∀ i S, C[i]? = some S → ∀ s ∈ S, s.length = i + 2
  sorted : ∀ S ∈ C, ∀ s ∈ S, s.Pairwise (· < ·)
  verts : ∀ S ∈ C, ∀ s ∈ S, ∀ v ∈ s, v < n
  nodup : ∀ S ∈ C, S.Nodup
  face : ∀ i S T, C[i]? = some S → C[i + 1]? = some T → ∀ t ∈ T, ∀ k, k < t.length →
    t.eraseIdx k ∈ S

end Permaviss
