import Verif.Props.SampleCover

/-!
# C102: `take_sample` depends on the order of the distances only
-/

namespace Permaviss

open Spec

variable {K : Type} [Field K] [LinearOrder K]

theorem npMin_map {g : K → K} (hg : StrictMono g) (h0 : g 0 = 0) (l : List K) : npMin (l.map g) = g (npMin l) := by
  cases l with
  | nil => exact h0.symm
  | cons x xs =>
    show (xs.map g).foldr min (g x) = g (xs.foldr min x)
    induction xs with
    | nil => rfl
    | cons y ys ih => simp only [List.map_cons, List.foldr_cons, ih, hg.monotone.map_min]

theorem npMax_map {g : K → K} (hg : StrictMono g) (h0 : g 0 = 0) (l : List K) : npMax (l.map g) = g (npMax l) := by
  cases l with
  | nil => exact h0.symm
  | cons x xs =>
    show (xs.map g).foldr max (g x) = g (xs.foldr max x)
    induction xs with
    | nil => rfl
    | cons y ys ih => simp only [List.map_cons, List.foldr_cons, ih, hg.monotone.map_max]

theorem idxOf_map_inj {g : K → K} (hg : Function.Injective g) (x : K) : ∀ l : List K,
    (l.map g).idxOf (g x) = l.idxOf x
  | [] => rfl
  | y :: l => by
    rw [List.map_cons, List.idxOf_cons, List.idxOf_cons, idxOf_map_inj hg x l]
    have h : (g y == g x) = (y == x) := by
      rw [Bool.eq_iff_iff, beq_iff_eq, beq_iff_eq]
      exact hg.eq_iff
    rw [h]

theorem npArgmax_map {g : K → K} (hg : StrictMono g) (h0 : g 0 = 0) (l : List K) :
    npArgmax (l.map g) = npArgmax l := by
  unfold npArgmax
  rw [npMax_map hg h0, idxOf_map_inj hg.injective]

theorem takeStep_congr {g : K → K} (hg : StrictMono g) (h0 : g 0 = 0) {D D' : Nat → Nat → K} {n : Nat} (hn : 0 < n)
    (hD : ∀ i < n, ∀ j < n, D' i j = g (D i j)) {sel : List Int} (hs : ∀ s ∈ sel, -1 ≤ s ∧ s < n) :
    takeStep D' n sel = takeStep D n sel := by
  have h : ((notSelected n sel).map fun i => npMin (sel.map fun s => D' i (pyIdx n s))) =
      ((notSelected n sel).map fun i => npMin (sel.map fun s => D i (pyIdx n s))).map g := by
    rw [List.map_map]
    refine List.map_congr_left fun i hi => ?_
    have hi' : i < n := (mem_notSelected.1 hi).1
    rw [Function.comp, ← npMin_map hg h0, List.map_map]
    congr 1
    exact List.map_congr_left fun s hs' => hD i hi' _ (pyIdx_lt hn (hs s hs').1 (hs s hs').2)
  unfold takeStep
  rw [h, npArgmax_map hg h0]

theorem takeStep_range {D : Nat → Nat → K} {n : Nat} (hn : 0 < n) {sel sel' : List Int}
    (hs : ∀ s ∈ sel, -1 ≤ s ∧ s < (n : Int)) (h : takeStep D n sel = .ok sel') : ∀ s ∈ sel', -1 ≤ s ∧ s < (n : Int) := by
  unfold takeStep at h
  split at h
  · cases h
  · injection h with h
    intro s hs'
    rw [← h, List.mem_append, List.mem_singleton] at hs'
    rcases hs' with hs' | rfl
    · exact hs s hs'
    · generalize npArgmax (K := K) _ = a
      rcases lt_or_ge a (notSelected n sel).length with ha | ha
      · rw [List_getD_eq_getElem _ _ ha]
        have := (mem_notSelected.1 (List.getElem_mem ha)).1
        omega
      · rw [List.getD_eq_getElem?_getD, List.getElem?_eq_none ha]; simp; omega

theorem takeLoop_congr {g : K → K} (hg : StrictMono g) (h0 : g 0 = 0) {D D' : Nat → Nat → K} {n : Nat} (hn : 0 < n)
    (hD : ∀ i < n, ∀ j < n, D' i j = g (D i j)) (L : List Nat) : ∀ {sel : List Int}, (∀ s ∈ sel, -1 ≤ s ∧ s < (n : Int)) →
    L.foldlM (fun sel _ => takeStep D' n sel) sel = L.foldlM (fun sel _ => takeStep D n sel) sel ∧
    ∀ sel', L.foldlM (fun sel _ => takeStep D n sel) sel = .ok sel' → ∀ s ∈ sel', -1 ≤ s ∧ s < (n : Int) := by
  induction L with
  | nil => exact fun hs => ⟨rfl, fun sel' h => by injection h with h; rw [← h]; exact hs⟩
  | cons x L ih =>
    intro sel hs
    rw [List.foldlM_cons, List.foldlM_cons, takeStep_congr hg h0 hn hD hs]
    cases e : takeStep D n sel with
    | error er => exact ⟨rfl, fun sel' h => by cases h⟩
    | ok s => exact ih (takeStep_range hn hs e)

variable [IsStrictOrderedRing K] [FloorRing K]

/-- **C102.** Two clouds whose distances correspond under a strictly increasing function `g`: `take_sample` takes the
points at the same positions.  With `g x = x` this says that an isometry moves the sample with the cloud, with
`g x = c x` that a change of units does, with another `g` that the kind of distance, say squared or not, has no
influence. -/
theorem C102_take_sample {d d' : List K → List K → K} {g : K → K} (hg : StrictMono g) (h0 : g 0 = 0)
    (f : List K → List K) (cloud : List (List K))
    (hd : ∀ x ∈ cloud, ∀ y ∈ cloud, d' (f x) (f y) = g (d x y)) (noSamples : Int) (u : K) (hu0 : 0 ≤ u) (hu1 : u < 1) :
    takeSample d' (cloud.map f) noSamples u = (takeSample d cloud noSamples u).map (List.map f) := by
  by_cases hne : cloud = []
  · subst hne; rfl
  have hn : 0 < cloud.length := List.length_pos_iff.2 hne
  have hget : ∀ i < cloud.length, (cloud.map f).getD i [] = f (cloud.getD i []) ∧ cloud.getD i [] ∈ cloud := by
    intro i hi
    rw [List_getD_eq_getElem _ _ (by simpa using hi), List_getD_eq_getElem _ _ hi, List.getElem_map]
    exact ⟨rfl, List.getElem_mem hi⟩
  have hD : ∀ i < cloud.length, ∀ j < cloud.length,
      squareform d' (cloud.map f) i j = g (squareform d cloud i j) := by
    intro i hi j hj
    unfold squareform
    split
    · exact h0.symm
    · rw [(hget _ (min_lt_of_left_lt hi)).1, (hget _ (max_lt hi hj)).1]
      exact hd _ (hget _ (min_lt_of_left_lt hi)).2 _ (hget _ (max_lt hi hj)).2
  have hk1 : 0 ≤ ⌊u * (cloud.length : K)⌋ := Int.floor_nonneg.2 (mul_nonneg hu0 (Nat.cast_nonneg _))
  have hk2 : ⌊u * (cloud.length : K)⌋ < cloud.length := by
    rw [Int.floor_lt]
    have : (0 : K) < cloud.length := by exact_mod_cast hn
    push_cast
    nlinarith
  have hs : ∀ s ∈ [⌊u * (cloud.length : K)⌋ - 1], -1 ≤ s ∧ s < (cloud.length : Int) := by
    intro s hs
    rw [List.mem_singleton] at hs
    omega
  obtain ⟨h1, h2⟩ := takeLoop_congr hg h0 hn hD
    (List.range (min (cloud.length : Int) noSamples - 1).toNat) hs
  unfold takeSample
  rw [if_neg hne, if_neg (by simpa using hne), List.length_map, h1]
  cases e : (List.range (min (cloud.length : Int) noSamples - 1).toNat).foldlM
      (fun sel _ => takeStep (squareform d cloud) cloud.length sel) [⌊u * (cloud.length : K)⌋ - 1] with
  | error er => rfl
  | ok sel =>
    have h2 := h2 sel e
    show Except.ok _ = Except.ok _
    congr 1
    rw [List.map_map]
    exact List.map_congr_left fun s hs => (hget _ (pyIdx_lt hn (h2 s hs).1 (h2 s hs).2)).1

/-- The third powers of the distances of points on a line, moved by one. -/
example : StrictMono (fun x : ℚ => x ^ 3) ∧ (0 : ℚ) ^ 3 = 0 ∧
    (∀ x ∈ [[0], [1], [4], [6], [10]], ∀ y ∈ [[0], [1], [4], [6], [10]],
      (fun x y => lineDist x y ^ 3) (x.map (· + 1)) (y.map (· + 1)) = (fun x : ℚ => x ^ 3) (lineDist x y)) ∧
    (takeSample (fun x y => lineDist x y ^ 3) ([[0], [1], [4], [6], [10]].map fun x => x.map (· + 1)) 4 (1 / 10)).toOption =
      some [[11], [1], [5], [7]] := by
  refine ⟨Odd.strictMono_pow (by decide), by norm_num, by decide +kernel, by decide +kernel⟩

end Permaviss
