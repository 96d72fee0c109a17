import Verif.Model.MV
import Verif.Lemmas.ExceptM
import Verif.Lemmas.Pages
import Verif.Lemmas.Vec

/-!
# Moving a cloud
-/

namespace Permaviss

section

variable {K : Type} [Field K] [LinearOrder K] [FloorRing K] [IsStrictOrderedRing K]
  {cloud : List (List K)} {dim : ℕ} {g : List K → List K} {v : ℕ → K}

theorem ok_bind_eq {ε β γ : Type} (x : β) (f : β → Except ε γ) : (Except.ok x >>= f) = f x := rfl

/-- `g` moves the points of the cloud by `v`. -/
def Moves (dim : ℕ) (cloud : List (List K)) (g : List K → List K) (v : ℕ → K) : Prop :=
  ∀ pt ∈ cloud, ∀ k < dim, (g pt).getD k 0 = pt.getD k 0 + v k

omit [FloorRing K] in
theorem foldr_min_add (l : List K) (a c : K) : (l.map (· + c)).foldr min (a + c) = l.foldr min a + c := by
  induction l with
  | nil => rfl
  | cons x l ih => rw [List.map_cons, List.foldr_cons, List.foldr_cons, ih, min_add_add_right]

omit [FloorRing K] in
theorem foldr_max_add (l : List K) (a c : K) : (l.map (· + c)).foldr max (a + c) = l.foldr max a + c := by
  induction l with
  | nil => rfl
  | cons x l ih => rw [List.map_cons, List.foldr_cons, List.foldr_cons, ih, max_add_add_right]

omit [FloorRing K] in
theorem corner_moves (hg : Moves dim cloud g v) (hne : cloud ≠ []) {k : ℕ} (hk : k < dim) :
    minCoord (cloud.map g) k = minCoord cloud k + v k ∧ maxCoord (cloud.map g) k = maxCoord cloud k + v k := by
  obtain ⟨x, l, rfl⟩ := List.exists_cons_of_ne_nil hne
  have e1 : ((x :: l).map g).map (fun y => y.getD k 0) = ((x :: l).map fun y => y.getD k 0).map (· + v k) := by
    rw [List.map_map, List.map_map]
    exact List.map_congr_left fun y hy => hg y hy k hk
  have e2 : (((x :: l).map g).headD []).getD k 0 = ((x :: l).headD []).getD k 0 + v k :=
    hg x (List.mem_cons_self ..) k hk
  unfold minCoord maxCoord
  rw [e1, e2, foldr_min_add, foldr_max_add]
  exact ⟨rfl, rfl⟩

omit [FloorRing K] in
theorem side_moves (hg : Moves dim cloud g v) (hne : cloud ≠ []) (maxDiv : ℕ) :
    coverSide maxDiv dim (cloud.map g) = coverSide maxDiv dim cloud := by
  unfold coverSide maxLength
  congr 2
  refine List.map_congr_left fun k hk => ?_
  obtain ⟨e1, e2⟩ := corner_moves hg hne (List.mem_range.1 hk)
  rw [e1, e2, add_sub_add_right_eq_sub]

theorem div_moves (hg : Moves dim cloud g v) (hne : cloud ≠ []) (maxDiv : ℕ) :
    coverDiv maxDiv dim (cloud.map g) = coverDiv maxDiv dim cloud := by
  unfold coverDiv
  rw [side_moves hg hne]
  refine List.map_congr_left fun k hk => ?_
  obtain ⟨e1, e2⟩ := corner_moves hg hne (List.mem_range.1 hk)
  rw [e1, e2, add_sub_add_right_eq_sub]

omit [FloorRing K] in
theorem cubePoints_moves (hg : Moves dim cloud g v) (hne : cloud ≠ []) (side overlap : K) (pos : List ℕ) :
    cubePoints side overlap dim (cloud.map g) pos = cubePoints side overlap dim cloud pos := by
  unfold cubePoints
  rw [List.length_map]
  refine List.filter_congr fun i hi => ?_
  have hi' := List.mem_range.1 hi
  have e : (cloud.map g).getD i [] = g (cloud.getD i []) := by
    rw [List_getD_eq_getElem _ _ (by rwa [List.length_map]), List_getD_eq_getElem _ _ hi', List.getElem_map]
  rw [e]
  unfold inHypercube
  have hmem : cloud.getD i [] ∈ cloud := by
    rw [List_getD_eq_getElem _ _ hi']; exact List.getElem_mem _
  rw [Bool.eq_iff_iff, List.all_eq_true, List.all_eq_true]
  refine forall₂_congr fun k hk => ?_
  have hk' := List.mem_range.1 hk
  rw [(corner_moves hg hne hk').1, hg _ hmem k hk']
  have h1 : ∀ a b c : K, (minCoord cloud k + v k + a - b > c + v k) ↔ (minCoord cloud k + a - b > c) := by
    intro a b c; constructor <;> intro h <;> linarith
  have h2 : ∀ a b c : K, (minCoord cloud k + v k + a + b < c + v k) ↔ (minCoord cloud k + a + b < c) := by
    intro a b c; constructor <;> intro h <;> linarith
  simp only [h1, h2]

/-- All points of an intersection are points of the first cube. -/
theorem intersectionCovers_mem {P : List (List ℕ)} {s l : List ℕ} (h : intersectionCovers P s = .ok l) :
    ∀ i ∈ l, ∃ L ∈ P, i ∈ L := by
  unfold intersectionCovers at h
  cases s with
  | nil => cases h
  | cons a rest =>
    dsimp only at h
    cases hP : P[a]? with
    | none => rw [hP] at h; cases h
    | some first =>
      rw [hP] at h
      have key : ∀ (rest : List ℕ) (acc l : List ℕ), rest.foldlM (fun acc k =>
          match P[k]? with
          | none => if acc = [] then Except.ok [] else Except.error PyErr.indexError
          | some l => Except.ok (acc.filter fun i => decide (i ∈ l))) acc = .ok l → ∀ i ∈ l, i ∈ acc := by
        intro rest
        induction rest with
        | nil =>
          intro acc l h i hi
          obtain rfl := Except.ok.inj h
          exact hi
        | cons k rest ih =>
          intro acc l h i hi
          rw [List.foldlM_cons, bind_ok] at h
          obtain ⟨acc', h1, h2⟩ := h
          have := ih _ _ h2 i hi
          cases hk : P[k]? with
          | none =>
            rw [hk] at h1
            dsimp only at h1
            split at h1
            · obtain rfl := Except.ok.inj h1; cases this
            · cases h1
          | some lk =>
            rw [hk] at h1
            obtain rfl := Except.ok.inj h1
            exact (List.mem_filter.1 this).1
      exact fun i hi => ⟨first, List.mem_of_getElem? hP, key _ _ _ h i hi⟩

/-- The pieces of the moved cloud are the moved pieces. -/
theorem generateCover_moves (hg : Moves dim cloud g v) (hne : cloud ≠ []) (maxDiv : ℕ) (overlap : K) :
    generateCover maxDiv overlap dim (cloud.map g) = (generateCover maxDiv overlap dim cloud).map fun c =>
      { c with clouds := c.pointsIN.map fun l => l.map fun idx => idx.map fun i => (cloud.map g).getD i [] } := by
  have hcube : ∀ side : K, cubePoints side overlap dim (cloud.map g) = cubePoints side overlap dim cloud :=
    fun side => funext fun pos => cubePoints_moves hg hne side overlap pos
  unfold generateCover coverOf
  rw [side_moves hg hne, div_moves hg hne, hcube]
  by_cases h0 : cloud = [] ∨ coverSide maxDiv dim cloud = 0
  · rw [if_pos (by rcases h0 with h0 | h0; exact absurd h0 hne; exact Or.inr h0), if_pos h0]
    rfl
  rw [if_neg (by rintro (h | h); exact hne (by simpa using h); exact h0 (Or.inr h)), if_neg h0]
  cases nerveHypercubeCover (coverDiv maxDiv dim cloud) with
  | error e => rfl
  | ok nerve =>
    dsimp only
    cases nerve.2.mapM fun simplices => simplices.mapM
          (intersectionCovers ((positions (coverDiv maxDiv dim cloud)).map
            (cubePoints (coverSide maxDiv dim cloud) overlap dim cloud))) with
    | error e => rfl
    | ok inter => rfl

/-- The clouds of the pieces consist of the listed points, which exist. -/
theorem generateCover_clouds {maxDiv : ℕ} {overlap : K} {c : CoverOut K}
    (h : generateCover maxDiv overlap dim cloud = .ok c) :
    (c.clouds = c.pointsIN.map fun l => l.map fun idx => idx.map fun i => cloud.getD i []) ∧
    ∀ l ∈ c.pointsIN, ∀ idx ∈ l, ∀ i ∈ idx, i < cloud.length := by
  unfold generateCover coverOf at h
  split at h
  · cases h
  split at h
  · cases h
  next nerve _ =>
  split at h
  · cases h
  next inter hinter =>
  obtain rfl := Except.ok.inj h
  refine ⟨rfl, ?_⟩
  have h0 : ∀ idx ∈ (positions (coverDiv maxDiv dim cloud)).map
      (cubePoints (coverSide maxDiv dim cloud) overlap dim cloud), ∀ i ∈ idx, i < cloud.length := by
    intro idx hidx i hi
    obtain ⟨pos, -, rfl⟩ := List.mem_map.1 hidx
    exact List.mem_range.1 (List.mem_filter.1 hi).1
  intro l hl idx hidx i hi
  rcases List.mem_cons.1 hl with rfl | hl
  · exact h0 idx hidx i hi
  obtain ⟨n, hn, rfl⟩ := List.getElem_of_mem hl
  obtain ⟨e1, e2⟩ := mapM_ok_spec hinter
  obtain ⟨k, hk, rfl⟩ := List.getElem_of_mem hidx
  obtain ⟨e3, e4⟩ := mapM_ok_spec (e2 n (by omega) hn)
  obtain ⟨L, hL, hiL⟩ := intersectionCovers_mem (e4 k (by omega) hk) i hi
  exact h0 L hL i hiL

theorem createEnv_moves (hg : Moves dim cloud g v) (hne : cloud ≠ []) {pdist : List (List K) → List (List K)}
    (hd : ∀ c : List (List K), (∀ pt ∈ c, pt ∈ cloud) → pdist (c.map g) = pdist c) (argsort : List K → List Nat)
    (rnd : K → K) (maxR : K) (maxDim maxDiv : ℕ) (overlap : K) (p : ℕ) :
    createEnv pdist argsort rnd maxR maxDim maxDiv overlap dim (cloud.map g) p =
      createEnv pdist argsort rnd maxR maxDim maxDiv overlap dim cloud p := by
  unfold createEnv
  rw [generateCover_moves hg hne]
  cases hc : generateCover maxDiv overlap dim cloud with
  | error e => rfl
  | ok c =>
    obtain ⟨hcl, hlt⟩ := generateCover_clouds hc
    have hpage : ∀ n number, pageZeroColumn pdist argsort rnd
        { c with clouds := c.pointsIN.map fun l => l.map fun idx => idx.map fun i => (cloud.map g).getD i [] }
        maxR maxDim p n number = pageZeroColumn pdist argsort rnd c maxR maxDim p n number := by
      intro n number
      unfold pageZeroColumn
      rw [hcl]
      dsimp only
      unfold atE
      rw [List.getElem?_map, List.getElem?_map]
      cases hl : c.pointsIN[n]? with
      | none => rfl
      | some l =>
        dsimp only [Option.map_some]
        have hl' := List.mem_of_getElem? hl
        rw [ok_bind_eq, ok_bind_eq]
        congr 1
        refine congrArg (fun f => (List.range number).mapM f) (funext fun k => ?_)
        rw [List.getElem?_map, List.getElem?_map]
        cases hk : l[k]? with
        | none => rfl
        | some idx =>
          have hk' := List.mem_of_getElem? hk
          dsimp only [Option.map_some]
          rw [ok_bind_eq, ok_bind_eq]
          have e : (idx.map fun i => (cloud.map g).getD i []) = (idx.map fun i => cloud.getD i []).map g := by
            rw [List.map_map]
            refine List.map_congr_left fun i hi => ?_
            have hi' := hlt l hl' idx hk' i hi
            rw [Function.comp_apply, List_getD_eq_getElem _ _ (by rwa [List.length_map]),
              List_getD_eq_getElem _ _ hi', List.getElem_map]
          have e2 := hd (idx.map fun i => cloud.getD i []) (by
            intro pt hpt
            obtain ⟨i, hi, rfl⟩ := List.mem_map.1 hpt
            rw [List_getD_eq_getElem _ _ (hlt l hl' idx hk' i hi)]
            exact List.getElem_mem _)
          unfold localPersistentHomology
          rw [e, List.length_map, e2]
    change ((complexDifferentials c.nerve.1 c.nerve.2 p) >>= _) = ((complexDifferentials c.nerve.1 c.nerve.2 p) >>= _)
    simp only [hpage]

end

end Permaviss
