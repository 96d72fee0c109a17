import Verif.Lemmas.Diam
import Verif.Lemmas.CoverMain
import Verif.Props.Cover
import Verif.Props.Pages
import Verif.Model.MV

/-! The data on which the spectral sequence is computed. -/

namespace Permaviss

open Finset

/-! ## The differentials of a complex -/

section

variable {p N : ℕ} {C : List (List (List ℕ))} {D : List Mat}

/-- Entries of the differentials and faces. -/
theorem diff_get_iff (hp : 2 ≤ p) (hC : IsComplex N C) (h : complexDifferentials N C p = .ok (N, D))
    {n : ℕ} {M : Mat} (hM : D[n]? = some M) :
    M.nrows = (simplicesOf N C n).length ∧ M.ncols = (simplicesOf N C (n + 1)).length ∧
    ∀ (k l : ℕ) (s t : List ℕ), (simplicesOf N C n)[k]? = some s → (simplicesOf N C (n + 1))[l]? = some t →
      (M.get k l ≠ 0 ↔ ∃ q < t.length, s = t.eraseIdx q) := by
  obtain ⟨-, hlen, -, h0, h1⟩ := C19_differentials_boundary hp hC N D h
  have hn : n < C.length := hlen ▸ (List.getElem?_eq_some_iff.1 hM).1
  cases n with
  | zero =>
    obtain ⟨M', e1, e2, e3, e4⟩ := h0 C[0] (List.getElem?_eq_getElem hn)
    rw [hM] at e1
    obtain rfl := Option.some.inj e1
    have hS1 : simplicesOf N C (0 + 1) = C[0] := by
      simp only [simplicesOf]; exact List_getD_eq_getElem _ _ hn
    rw [hS1]
    refine ⟨by rw [e2]; simp [simplicesOf], e3, ?_⟩
    intro k l s t hs ht
    have htm := List.mem_of_getElem? ht
    have hl := hC.length 0 C[0] (List.getElem?_eq_getElem hn) t htm
    match t, hl with
    | [u, v], _ =>
      have hsrt := hC.sorted _ (List.getElem_mem hn) _ htm
      have huv : u < v := by simpa using hsrt
      obtain ⟨f1, f2, f3⟩ := e4 l u v ht
      have hs' : s = [k] := by
        simp only [simplicesOf, List.getElem?_map, Option.map_eq_some_iff] at hs
        obtain ⟨a, ha, rfl⟩ := hs
        obtain ⟨_, rfl⟩ := List.getElem?_eq_some_iff.1 ha
        simp
      subst hs'
      constructor
      · intro hne
        by_cases hku : k = u
        · exact ⟨1, by simp, by simp [hku]⟩
        · by_cases hkv : k = v
          · exact ⟨0, by simp, by simp [hkv]⟩
          · exact absurd (f3 k hku hkv) hne
      · rintro ⟨q, hq, e⟩
        have : q = 0 ∨ q = 1 := by simp at hq; omega
        rcases this with rfl | rfl
        · simp at e; subst e; rw [f2]; omega
        · simp at e; subst e; rw [f1]; omega
  | succ n =>
    obtain ⟨M', e1, e2, e3, e4⟩ := h1 n C[n] C[n + 1] (List.getElem?_eq_getElem (by omega))
      (List.getElem?_eq_getElem hn)
    rw [hM] at e1
    obtain rfl := Option.some.inj e1
    have hS0 : simplicesOf N C (n + 1) = C[n] := by
      simp only [simplicesOf]; exact List_getD_eq_getElem _ _ (by omega)
    have hS1 : simplicesOf N C (n + 1 + 1) = C[n + 1] := by
      simp only [simplicesOf]; exact List_getD_eq_getElem _ _ hn
    rw [hS0, hS1]
    refine ⟨e2, e3, ?_⟩
    intro k l s t hs ht
    obtain ⟨f1, f2⟩ := e4 k l s t hs ht
    constructor
    · intro hne
      by_contra hc
      push Not at hc
      exact hne (f2 hc)
    · rintro ⟨q, hq, e⟩
      rw [f1 q hq e]
      have hp' : (0 : ℤ) < p := by omega
      rw [Int.fmod_eq_emod_of_nonneg _ hp'.le]
      rcases Nat.even_or_odd q with hq' | hq'
      · rw [hq'.neg_one_pow, Int.emod_eq_of_lt (by omega) (by omega)]; omega
      · rw [hq'.neg_one_pow]
        intro e0
        have := Int.dvd_of_emod_eq_zero e0
        have := Int.le_of_dvd (a := (p : ℤ)) (b := 1) (by omega) (by simpa using this)
        omega

end

/-- A face by one vertex less. -/
theorem eraseIdx_of_perm {s t : List ℕ} {v : ℕ} (hs : s.Pairwise (· < ·)) (ht : t.Pairwise (· < ·))
    (h : t.Perm (v :: s)) : ∃ q < t.length, s = t.eraseIdx q := by
  have hv : v ∈ t := h.mem_iff.2 (by simp)
  refine ⟨t.idxOf v, List.idxOf_lt_length_of_mem hv, ?_⟩
  rw [← List.erase_eq_eraseIdx_of_idxOf (a := v) (l := t) rfl]
  have hp : (t.erase v).Perm s := by
    have := h.erase v
    rwa [List.erase_cons_head] at this
  refine (List.Perm.eq_of_pairwise (le := (· < ·)) (fun x y _ _ (h1 : x < y) (h2 : y < x) => by omega)
    ?_ hs hp).symm
  exact List.Pairwise.sublist List.erase_sublist ht

/-! ## The nerve -/

theorem nerve_complex (div : List ℕ) : ∃ C, nerveHypercubeCover div = .ok (div.prod, C) ∧
    IsComplex div.prod C ∧ C.length = 2 ^ div.length ∧ C ≠ [] ∧
    ∀ n, 0 < (simplicesOf div.prod C (n + 1)).length → ∀ s ∈ simplicesOf div.prod C n,
      ∃ t ∈ simplicesOf div.prod C (n + 1), ∃ q < t.length, s = t.eraseIdx q := by
  obtain ⟨G, C, g1, g2, g3, g4, g5, g6, g7, g8⟩ := nerve_ok div
  have hG : ∀ e ∈ G, ∀ v ∈ e, v < div.prod := by
    intro e he v hv
    have h2 := g2.edge e he
    obtain ⟨a, b, hab, rfl⟩ := h2
    exact g3 [a, b] (by simp) (by simp [IsClique, hab, he]) v hv
  obtain ⟨C', c1, c2⟩ := C15_flag_complex_is_complex G g2 div.prod (2 ^ div.length) hG
  have hCC : C' = C := by
    have : nerveHypercubeCover div = .ok (div.prod, C') := by
      simp only [nerveHypercubeCover, g1]; exact c1
    rw [g4] at this
    exact (congrArg Prod.snd (Except.ok.inj this)).symm
  subst hCC
  have hpow : 0 < 2 ^ div.length := by positivity
  refine ⟨C', g4, c2, g5, by rintro rfl; simp at g5; omega, ?_⟩
  intro n hn s hs
  by_cases hpos : ∀ d ∈ div, 0 < d
  · obtain ⟨C'', h1, h2, h3, h4⟩ := C42_pure hpos
    have : C'' = C' := by
      rw [g4] at h1
      exact (congrArg Prod.snd (Except.ok.inj h1)).symm
    subst this
    have hl : n < C''.length := by
      by_contra hc
      simp only [simplicesOf] at hn
      rw [List.getD_eq_getElem?_getD, List.getElem?_eq_none (by omega)] at hn
      simp at hn
    have hSn : simplicesOf div.prod C'' (n + 1) = C''[n] := by
      simp only [simplicesOf]; exact List_getD_eq_getElem _ _ hl
    rw [hSn] at hn ⊢
    obtain ⟨t0, ht0⟩ := List.exists_mem_of_length_pos hn
    have hb := h2 _ (List.getElem_mem hl) t0 ht0
    rw [c2.length n _ (List.getElem?_eq_getElem hl) t0 ht0] at hb
    obtain ⟨s1, s2, -⟩ := simplicesOf_spec c2 hs
    cases n with
    | zero =>
      obtain ⟨u, rfl⟩ := List.length_eq_one_iff.1 s1
      have hu : u < div.prod := by simpa [simplicesOf] using hs
      obtain ⟨v, T, t, -, e2, e3, e4⟩ := h4 u hu (by omega)
      rw [List.getElem?_eq_getElem hl] at e2
      obtain rfl := Option.some.inj e2
      exact ⟨t, e3, eraseIdx_of_perm s2 (c2.sorted _ (List.getElem_mem hl) t e3) e4⟩
    | succ n =>
      have hSn' : simplicesOf div.prod C'' (n + 1) = C''[n] := by
        simp only [simplicesOf]; exact List_getD_eq_getElem _ _ (by omega)
      rw [hSn'] at hs
      obtain ⟨v, T, t, -, e2, e3, e4⟩ := h3 n _ s (List.getElem?_eq_getElem (by omega)) hs (by omega)
      rw [List.getElem?_eq_getElem hl] at e2
      obtain rfl := Option.some.inj e2
      exact ⟨t, e3, eraseIdx_of_perm s2 (c2.sorted _ (List.getElem_mem hl) t e3) e4⟩
  · exfalso
    have h0 := prod_eq_zero_of_not_pos hpos
    obtain ⟨t0, ht0⟩ := List.exists_mem_of_length_pos hn
    obtain ⟨t1, t2, t3⟩ := simplicesOf_spec c2 ht0
    match t0, t1 with
    | a :: _, _ => have := t3 a (by simp); omega

/-! ## Page zero -/

section

variable {K : Type} [Field K] [LinearOrder K] [FloorRing K] [IsStrictOrderedRing K]

theorem atE_ok {β : Type} {l : List β} {i : ℕ} {x : β} (h : l[i]? = some x) : atE l i = .ok x := by
  simp only [atE, h]

theorem addOutputFirst_ok {α : Type} [LinearOrder α] [Zero α] {rows : ℕ} {outs : List (LocalOut α)}
    (h : ∀ o ∈ outs, rows ≤ o.ph.hom.length) :
    ∃ c, addOutputFirst rows outs.length outs = .ok c ∧ c.outs = outs := by
  by_cases hne : outs = []
  · subst hne
    exact ⟨⟨[], [], List.replicate rows 0, List.replicate rows []⟩, rfl, rfl⟩
  · have key : ∀ deg ∈ List.range rows, ∃ hs, homsOfDegree outs outs.length deg = .ok hs := by
      intro deg hd
      obtain ⟨hs, h1, _⟩ := homsOfDegree_ok (outs := outs) (deg := deg) fun o ho =>
        lt_of_lt_of_le (by simpa using hd) (h o ho)
      exact ⟨hs, h1⟩
    obtain ⟨hs, hhs⟩ := mapM_ok_of key
    refine ⟨{ outs := outs
              cycleDims := hs.map fun l => runningSums 0 (l.map Basis.dim) ++ [0]
              dims := hs.map fun l => (l.map Basis.dim).sum
              bars := hs.map fun l => l.flatMap Basis.barcode }, ?_, rfl⟩
    unfold addOutputFirst
    rw [if_neg hne, hhs]
    rfl

/-- The cover `out` is that of a grid: `div` are the numbers of cubes along the coordinates, the cube at position
`pos` has the points `In pos`, and every simplex of the nerve has the points which its cubes have in common. -/
structure GridCover (cloud : List (List K)) (div : List ℕ) (In : List ℕ → ℕ → Prop) (out : CoverOut K)
    (C : List (List (List ℕ))) (L : List (List ℕ)) : Prop where
  nerve : out.nerve = (div.prod, C)
  run : nerveHypercubeCover div = .ok (div.prod, C)
  length : L.length = div.prod
  cubes : ∀ pos, IsPos div pos → ∃ l, L[rank div pos]? = some l ∧ l.Pairwise (· < ·) ∧
    ∀ i, i ∈ l ↔ i < cloud.length ∧ In pos i
  clouds : out.clouds = out.pointsIN.map (fun l => l.map fun idx => idx.map fun i => cloud.getD i [])
  lists : out.pointsIN.length = C.length + 1
  table : ∀ (n : ℕ) (l : List (List ℕ)), out.pointsIN[n]? = some l →
    l.length = (simplicesOf div.prod C n).length ∧
    ∀ (k : ℕ) (s : List ℕ), (simplicesOf div.prod C n)[k]? = some s → ∃ pts, l[k]? = some pts ∧
      pts.Pairwise (· < ·) ∧ ∀ i, i ∈ pts ↔ ∀ v ∈ s, i ∈ L.getD v []

theorem coverOf_grid (cloud : List (List K)) (div : List ℕ) {pts : List ℕ → List ℕ} {In : List ℕ → ℕ → Prop}
    (hsort : ∀ pos, (pts pos).Pairwise (· < ·)) (hin : ∀ pos i, i ∈ pts pos ↔ i < cloud.length ∧ In pos i) :
    ∃ out C L, coverOf cloud div pts = .ok out ∧ GridCover cloud div In out C L := by
  obtain ⟨out, L, rest, h1, h3, h4, h5, h6', h7, h8, h9⟩ := coverOf_ok cloud div hsort
  have h6 : ∀ pos, IsPos div pos → ∃ l, L[rank div pos]? = some l ∧ l.Pairwise (· < ·) ∧
      ∀ i, i ∈ l ↔ i < cloud.length ∧ In pos i := fun pos hpos => ⟨_, h6' pos hpos, hsort pos, hin pos⟩
  obtain ⟨C, c1, -⟩ := nerve_complex div
  have hN : out.nerve = (div.prod, C) := by
    rw [h3] at c1
    exact Except.ok.inj c1
  have hN2 : out.nerve.2 = C := by rw [hN]
  rw [hN2] at h7 h8
  refine ⟨out, C, L, h1, hN, c1, h5, h6, h9, by rw [h4]; simp [h7], ?_⟩
  intro n l hl
  rw [h4] at hl
  cases n with
  | zero =>
    simp only [List.getElem?_cons_zero, Option.some.injEq] at hl
    subst hl
    refine ⟨by simp [simplicesOf, h5], ?_⟩
    intro k s hks
    simp only [simplicesOf, List.getElem?_map, Option.map_eq_some_iff] at hks
    obtain ⟨a, ha, rfl⟩ := hks
    obtain ⟨hk, rfl⟩ := List.getElem?_eq_some_iff.1 ha
    have hk' : k < div.prod := by simpa using hk
    have hkL : k < L.length := by omega
    have hpos : ∀ d ∈ div, 0 < d := by
      by_contra hc
      have := prod_eq_zero_of_not_pos hc
      omega
    refine ⟨L[k], List.getElem?_eq_getElem hkL, ?_, ?_⟩
    · obtain ⟨q1, q2⟩ := posAt_spec hpos hk'
      obtain ⟨l', e1, e2, -⟩ := h6 _ q1
      rw [q2, List.getElem?_eq_getElem hkL] at e1
      rw [Option.some.inj e1]; exact e2
    · intro i
      simp [List.getD_eq_getElem?_getD, hkL]
  | succ n =>
    rw [List.getElem?_cons_succ] at hl
    have hn : n < C.length := h7 ▸ (List.getElem?_eq_some_iff.1 hl).1
    obtain ⟨R, r1, r2, r3⟩ := h8 n C[n] (List.getElem?_eq_getElem hn)
    rw [hl] at r1
    obtain rfl := Option.some.inj r1
    have hS : simplicesOf div.prod C (n + 1) = C[n] := by
      simp only [simplicesOf]; exact List_getD_eq_getElem _ _ hn
    rw [hS]
    exact ⟨r2, fun k s hks => r3 k s hks⟩

/-- What `generate_cover` returns, by simplices of the nerve. -/
theorem cover_table {maxDiv dim : Nat} {overlap : K} {cloud : List (List K)} {lo hi : Nat → K}
    {side : K} (hne : cloud ≠ []) (hd : 0 < dim) (hm : 0 < maxDiv)
    (hbox : IsBox maxDiv dim cloud lo hi side) (hs : 0 < side) :
    ∃ (out : CoverOut K) (div : List Nat) (C : List (List (List ℕ))) (L : List (List ℕ)),
      generateCover maxDiv overlap dim cloud = .ok out ∧ IsDiv dim lo hi side div ∧
      GridCover cloud div (fun pos i => InCube dim lo side overlap pos (cloud.getD i [])) out C L := by
  obtain ⟨e1, e2, e3⟩ := isBox_unique hm hbox (coverSide_isBox hne hd hm)
  subst e3
  have hdiv := coverDiv_isDiv hne hs
  obtain ⟨out, C, L, h1, h2⟩ := coverOf_grid cloud (coverDiv maxDiv dim cloud)
    (pts := cubePoints (coverSide maxDiv dim cloud) overlap dim cloud)
    (In := fun pos i => InCube dim lo (coverSide maxDiv dim cloud) overlap pos (cloud.getD i []))
    (fun _ => cubePoints_spec.1) (fun pos i => by
      rw [cubePoints_spec.2, InCube.congr fun d hd => (e1 d hd).symm])
  refine ⟨out, _, C, L, ?_, ⟨hdiv.1, fun d hd => by rw [e1 d hd, e2 d hd]; exact hdiv.2 d hd⟩, h2⟩
  simp only [generateCover, hne, hs.ne', or_self, if_false, h1]

/-- Page `0` is completed on every cover by a grid, and what has then been computed. -/
theorem envOf_ok {p : ℕ} (hp : p.Prime) {pdist : List (List K) → List (List K)}
    {d : List K → List K → K} (hdist : IsDistTable pdist d) {argsort : List K → List Nat}
    (ha : IsArgsort argsort) (rnd : K → K) {maxR : K} (hmax : 0 < maxR) (maxDim : ℕ)
    {dim : Nat} {cloud : List (List K)} {div : List ℕ} {In : List ℕ → ℕ → Prop} {out : CoverOut K}
    {C : List (List (List ℕ))} {L : List (List ℕ)} (hdl : div.length = dim)
    (hG : GridCover cloud div In out C L) :
    ∃ (E : SSEnv K), envOf pdist argsort rnd maxR maxDim p out = .ok E ∧
      SSOK rnd E (diam d fun v => cloud.getD v []) ∧
      E.p = p ∧ E.maxR = maxR ∧ E.rows = maxDim ∧ E.noPages = min (maxDim + 2) (2 ^ dim) ∧
      E.columns.length = 2 ^ dim ∧ E.spxNumber.length = 2 ^ dim + 1 ∧
      IsComplex div.prod C ∧
      complexDifferentials div.prod C p = .ok (div.prod, E.nerveDiff) ∧
      (∀ n, E.spx n = (simplicesOf div.prod C n).length) ∧
      (∀ n < E.columns.length, ∀ (k : ℕ) (s : List ℕ), (simplicesOf div.prod C n)[k]? = some s →
        ∃ pts, E.pts n k = .ok pts ∧ pts.Pairwise (· < ·) ∧
          ∀ i, i ∈ pts ↔ ∀ v ∈ s, i ∈ L.getD v []) ∧
      ∀ n < E.columns.length, ∀ k < E.spx n, ∃ o pts, E.piece n k = .ok o ∧ E.pts n k = .ok pts ∧
        localPersistentHomology pdist argsort rnd (pts.map fun v => cloud.getD v []) maxR maxDim p = .ok o := by
  obtain ⟨hN, hN', hL, hL', hcl, hpl, htab⟩ := hG
  obtain ⟨C', c1, hC, hClen, hCne, hcof⟩ := nerve_complex div
  have : C' = C := by
    rw [hN'] at c1
    exact (congrArg Prod.snd (Except.ok.inj c1)).symm
  subst this
  rw [hdl] at hClen
  obtain ⟨D, hD, hDlen⟩ := C19_differentials_total (p := p) hC hCne
  set pt : ℕ → List K := fun v => cloud.getD v [] with hpt
  have hspx : ∀ n, (div.prod :: C'.map List.length).getD n 0 = (simplicesOf div.prod C' n).length := by
    intro n
    cases n with
    | zero => simp [simplicesOf]
    | succ n =>
      simp only [simplicesOf, List.getD_cons_succ]
      by_cases hn : n < C'.length
      · rw [getD_map_lt hn, List_getD_eq_getElem _ _ hn]
      · rw [List.getD_eq_getElem?_getD, List.getElem?_eq_none (by simpa using hn),
          List.getD_eq_getElem?_getD, List.getElem?_eq_none (by simpa using hn)]
        rfl
  -- the columns
  have hpts : ∀ n < C'.length, ∃ l, out.pointsIN[n]? = some l ∧
      l.length = (simplicesOf div.prod C' n).length ∧ ∀ pts ∈ l, pts.Pairwise (· < ·) := by
    intro n hn
    obtain ⟨e1, e2⟩ := htab n _ (List.getElem?_eq_getElem (show n < out.pointsIN.length by omega))
    refine ⟨_, List.getElem?_eq_getElem (show n < out.pointsIN.length by omega), e1, ?_⟩
    intro pts hpts
    obtain ⟨k, hk, rfl⟩ := List.getElem_of_mem hpts
    obtain ⟨pts', f1, f2, -⟩ := e2 k _ (List.getElem?_eq_getElem (by omega))
    rw [List.getElem?_eq_getElem hk] at f1
    rw [Option.some.inj f1]; exact f2
  have hcol : ∀ n ∈ List.range C'.length, ∃ c : Column K,
      pageZeroColumn pdist argsort rnd out maxR maxDim p n ((div.prod :: C'.map List.length).getD n 0) =
        .ok c := by
    intro n hn
    have hn' : n < C'.length := by simpa using hn
    obtain ⟨l, e1, e2, e3⟩ := hpts n hn'
    have e4 : atE out.clouds n = .ok (l.map fun idx => idx.map pt) := by
      apply atE_ok
      rw [hcl, List.getElem?_map, e1]
      rfl
    unfold pageZeroColumn
    rw [e4, hspx]
    obtain ⟨outs, ho⟩ := mapM_ok_of (ε := PyErr) (xs := List.range (simplicesOf div.prod C' n).length)
      (f := fun k => do
        let c ← atE (l.map fun idx => idx.map pt) k
        localPersistentHomology pdist argsort rnd c maxR maxDim p) (by
        intro k hk
        have hk' : k < l.length := by rw [e2]; simpa using hk
        obtain ⟨o, ho, -⟩ := local_piece hp hdist ha rnd pt (e3 _ (List.getElem_mem hk')) hmax maxDim
        refine ⟨o, ?_⟩
        rw [atE_ok (x := l[k].map pt) (by simp [hk'])]
        exact ho)
    obtain ⟨o1, o2⟩ := mapM_ok_spec ho
    rw [List.length_range] at o1
    obtain ⟨c, hc, -⟩ := addOutputFirst_ok (rows := maxDim) (outs := outs) (by
      intro o hom
      obtain ⟨k, hk, rfl⟩ := List.getElem_of_mem hom
      have := o2 k (by simpa using (by omega : k < (simplicesOf div.prod C' n).length)) hk
      have hk' : k < l.length := by omega
      rw [List.getElem_range, atE_ok (x := l[k].map pt) (by simp [hk'])] at this
      obtain ⟨o, ho, hP, g1, g2, -⟩ := local_piece hp hdist ha rnd pt (e3 _ (List.getElem_mem hk'))
        hmax maxDim
      replace this : localPersistentHomology pdist argsort rnd (l[k].map pt) maxR maxDim p = .ok outs[k] :=
        this
      rw [ho] at this
      rw [← Except.ok.inj this, g2, g1]
      have := le_max_left maxDim 1
      omega)
    rw [o1] at hc
    exact ⟨c, bind_ok.2 ⟨_, rfl, bind_ok.2 ⟨outs, ho, hc⟩⟩⟩
  obtain ⟨columns, hcols⟩ := mapM_ok_of hcol
  obtain ⟨k1, k2⟩ := mapM_ok_spec hcols
  rw [List.length_range] at k1
  set E : SSEnv K := { p := p, maxR := maxR, rows := maxDim, noPages := min (maxDim + 2) C'.length
                       spxNumber := div.prod :: C'.map List.length, nerveDiff := D,
                       pointsIN := out.pointsIN, columns := columns } with hE
  have hrun : envOf pdist argsort rnd maxR maxDim p out = .ok E := by
    unfold envOf
    simp only [bind, Except.bind, hN, hD, hcols]
    rfl
  have hEspx : ∀ n, E.spx n = (simplicesOf div.prod C' n).length := hspx
  have hEpts : ∀ n < C'.length, ∀ (k : ℕ) (s : List ℕ), (simplicesOf div.prod C' n)[k]? = some s →
        ∃ pts, E.pts n k = .ok pts ∧ pts.Pairwise (· < ·) ∧
          ∀ i, i ∈ pts ↔ ∀ v ∈ s, i ∈ L.getD v [] := by
    intro n hn k s hks
    have hnp : n < out.pointsIN.length := by omega
    obtain ⟨-, e2⟩ := htab n _ (List.getElem?_eq_getElem hnp)
    obtain ⟨pts, f1, f2, f3⟩ := e2 k s hks
    refine ⟨pts, ?_, f2, f3⟩
    unfold SSEnv.pts
    change (do let l ← atE out.pointsIN n; atE l k) = _
    rw [atE_ok (List.getElem?_eq_getElem hnp)]
    simp only [bind, Except.bind]
    exact atE_ok f1
  have hcolE : ∀ n < C'.length, ∃ c, E.columns[n]? = some c ∧ c.outs.length = E.spx n ∧
      addOutputFirst maxDim (E.spx n) c.outs = .ok c ∧
      ∀ k < E.spx n, ∃ o pts, c.outs[k]? = some o ∧ E.pts n k = .ok pts ∧
        localPersistentHomology pdist argsort rnd (pts.map pt) maxR maxDim p = .ok o ∧
        PieceOK rnd p maxDim maxR (diam d pt) o pts ∧ ∀ deg ≤ maxDim, ∀ s, s ∈ o.glob pts deg ↔
          s.length = deg + 1 ∧ s.Pairwise (· < ·) ∧ (∀ v ∈ s, v ∈ pts) ∧ diam d pt s < maxR := by
    intro n hn
    have hnc : n < columns.length := by omega
    have e := k2 n (by simpa using hn) hnc
    rw [List.getElem_range] at e
    obtain ⟨l, e1, e2, e3⟩ := hpts n hn
    have e4 : atE out.clouds n = .ok (l.map fun idx => idx.map pt) := by
      apply atE_ok
      rw [hcl, List.getElem?_map, e1]
      rfl
    unfold pageZeroColumn at e
    rw [e4, hspx] at e
    obtain ⟨x, hx, e⟩ := bind_ok.1 e
    obtain rfl := Except.ok.inj hx
    obtain ⟨outs, ho, e⟩ := bind_ok.1 e
    obtain ⟨o1, o2⟩ := mapM_ok_spec ho
    rw [List.length_range] at o1
    have hlo : ∀ o ∈ outs, maxDim ≤ o.ph.hom.length := by
      intro o hom
      obtain ⟨k, hk, rfl⟩ := List.getElem_of_mem hom
      have := o2 k (by simpa using (by omega : k < (simplicesOf div.prod C' n).length)) hk
      have hk' : k < l.length := by omega
      rw [List.getElem_range, atE_ok (x := l[k].map pt) (by simp [hk'])] at this
      obtain ⟨o, ho, hP, g1, g2, -⟩ := local_piece hp hdist ha rnd pt (e3 _ (List.getElem_mem hk'))
        hmax maxDim
      replace this : localPersistentHomology pdist argsort rnd (l[k].map pt) maxR maxDim p = .ok outs[k] :=
        this
      rw [ho] at this
      rw [← Except.ok.inj this, g2, g1]
      have := le_max_left maxDim 1
      omega
    obtain ⟨c, hc, hco⟩ := addOutputFirst_ok (rows := maxDim) (outs := outs) hlo
    rw [← o1, hc] at e
    obtain rfl := Except.ok.inj e
    refine ⟨columns[n], List.getElem?_eq_getElem hnc, by rw [hco, hEspx, o1], ?_, ?_⟩
    · rw [hEspx, ← o1, hco, hc]
    · intro k hk
      rw [hEspx] at hk
      have hkl : k < l.length := by omega
      have hko : k < outs.length := by omega
      have e5 := o2 k (by simpa using hk) hko
      rw [List.getElem_range, atE_ok (x := l[k].map pt) (by simp [hkl])] at e5
      replace e5 : localPersistentHomology pdist argsort rnd (l[k].map pt) maxR maxDim p = .ok outs[k] :=
        e5
      obtain ⟨o, ho', hP, g1, g2, g3⟩ := local_piece hp hdist ha rnd pt (e3 _ (List.getElem_mem hkl))
        hmax maxDim
      rw [ho'] at e5
      obtain rfl := Except.ok.inj e5
      refine ⟨outs[k], l[k], by rw [hco, List.getElem?_eq_getElem hko], ?_, ho', hP, ?_⟩
      · unfold SSEnv.pts
        change (do let l ← atE out.pointsIN n; atE l k) = _
        rw [atE_ok e1]
        simp only [bind, Except.bind]
        exact atE_ok (List.getElem?_eq_getElem hkl)
      · intro deg hdeg
        exact g3 deg (by rw [g1]; have := le_max_left maxDim 1; omega)
  have hpiece : ∀ n < C'.length, ∀ k < E.spx n, ∃ o pts, E.piece n k = .ok o ∧ E.pts n k = .ok pts ∧
      localPersistentHomology pdist argsort rnd (pts.map pt) maxR maxDim p = .ok o ∧
        PieceOK rnd p maxDim maxR (diam d pt) o pts ∧ ∀ deg ≤ maxDim, ∀ s, s ∈ o.glob pts deg ↔
          s.length = deg + 1 ∧ s.Pairwise (· < ·) ∧ (∀ v ∈ s, v ∈ pts) ∧ diam d pt s < maxR := by
    intro n hn k hk
    obtain ⟨c, hc, -, -, h⟩ := hcolE n hn
    obtain ⟨o, pts, e1, e2, e3⟩ := h k hk
    refine ⟨o, pts, ?_, e2, e3⟩
    unfold SSEnv.piece
    rw [atE_ok hc]
    simp only [bind, Except.bind]
    exact atE_ok e1
  refine ⟨E, hrun, ?_, rfl, rfl, rfl, by rw [← hClen], by rw [← hClen]; exact k1,
    by rw [← hClen]; simp [hE], hC, hD, hEspx, ?_, ?_⟩
  · refine ⟨hp, hmax, ?_, ?_, ?_, ?_, ?_, ?_, ?_, ?_, ?_⟩
    · intro n hn
      exact ⟨_, List.getElem?_eq_getElem (show n < D.length by rw [hDlen, ← k1]; exact hn)⟩
    · intro n M hM
      obtain ⟨e1, e2, -⟩ := diff_get_iff hp.two_le hC hD hM
      rw [hEspx, hEspx]
      exact ⟨e1, e2⟩
    · intro n M M' hM hM' k m
      exact C20_boundary_boundary_zero hp.two_le hC _ D hD n M M' hM hM' k m
    · intro n hn k hk
      obtain ⟨o, pts, e1, e2, -, e3, -⟩ := hpiece n (k1 ▸ hn) k hk
      exact ⟨o, pts, e1, e2, e3⟩
    · intro n hn k hk pts hpts deg hdeg s
      obtain ⟨o, pts', e1, e2, -, -, e4⟩ := hpiece n (k1 ▸ hn) k hk
      rw [hpts] at e2
      obtain rfl := Except.ok.inj e2
      have : E.G n k deg = o.glob pts deg := by simp only [SSEnv.G, e1, hpts]
      rw [this]
      exact e4 deg hdeg s
    · intro n M hM hn k hk l hl hz pts pts' hpts hpts'
      rw [hEspx] at hk hl
      have hn' : n + 1 < C'.length := k1 ▸ hn
      obtain ⟨-, -, hiff⟩ := diff_get_iff hp.two_le hC hD hM
      have es := List.getElem?_eq_getElem hk
      have et := List.getElem?_eq_getElem hl
      obtain ⟨q, hq, e⟩ := (hiff k l _ _ es et).1 hz
      obtain ⟨q1, q2, -, q3⟩ := hEpts n (by omega) k _ es
      obtain ⟨r1, r2, -, r3⟩ := hEpts (n + 1) hn' l _ et
      rw [hpts] at q2
      rw [hpts'] at r2
      obtain rfl := Except.ok.inj q2
      obtain rfl := Except.ok.inj r2
      intro i hi
      rw [q3]
      intro v hv
      rw [e] at hv
      exact (r3 i).1 hi v ((List.eraseIdx_sublist _ q).subset hv)
    · intro n M hM hpos k hk
      rw [hEspx] at hpos hk
      obtain ⟨t, ht, hq⟩ := hcof n hpos _ (List.getElem_mem hk)
      obtain ⟨l, hl, rfl⟩ := List.getElem_of_mem ht
      obtain ⟨-, -, hiff⟩ := diff_get_iff hp.two_le hC hD hM
      exact ⟨l, by rw [hEspx]; exact hl, (hiff k l _ _ (List.getElem?_eq_getElem hk)
        (List.getElem?_eq_getElem hl)).2 hq⟩
    · intro n hn hpos h0
      rw [hEspx] at hpos h0
      obtain ⟨t, ht⟩ := List.exists_mem_of_length_pos hpos
      have hf := simplicesOf_face hC ht (k := 0) (by
        rw [(simplicesOf_spec hC ht).1]; omega)
      rw [List.length_eq_zero_iff.1 h0] at hf
      exact absurd hf (by simp)
    · intro n hn
      obtain ⟨c, e1, e2, e3, -⟩ := hcolE n (k1 ▸ hn)
      exact ⟨c, e1, e2, e3⟩
  · intro n hn
    exact hEpts n (k1 ▸ hn)
  · intro n hn k hk
    obtain ⟨o, pts, e1, e2, e3, -⟩ := hpiece n (k1 ▸ hn) k hk
    exact ⟨o, pts, e1, e2, e3⟩


/-- `create_MV_ss` completes page `0`, and what it has then computed. -/
theorem createEnv_ok {p : ℕ} (hp : p.Prime) {pdist : List (List K) → List (List K)}
    {d : List K → List K → K} (hdist : IsDistTable pdist d) {argsort : List K → List Nat}
    (ha : IsArgsort argsort) (rnd : K → K) {maxR : K} (hmax : 0 < maxR) (maxDim : ℕ)
    {maxDiv dim : Nat} (overlap : K) {cloud : List (List K)} {lo hi : Nat → K}
    {side : K} (hne : cloud ≠ []) (hdim : 0 < dim) (hm : 0 < maxDiv)
    (hbox : IsBox maxDiv dim cloud lo hi side) (hs : 0 < side) :
    ∃ (E : SSEnv K) (div : List Nat) (C : List (List (List ℕ))) (L : List (List ℕ)),
      createEnv pdist argsort rnd maxR maxDim maxDiv overlap dim cloud p = .ok E ∧
      SSOK rnd E (diam d fun v => cloud.getD v []) ∧
      E.p = p ∧ E.maxR = maxR ∧ E.rows = maxDim ∧ E.noPages = min (maxDim + 2) (2 ^ dim) ∧
      E.columns.length = 2 ^ dim ∧ E.spxNumber.length = 2 ^ dim + 1 ∧
      IsDiv dim lo hi side div ∧ nerveHypercubeCover div = .ok (div.prod, C) ∧
      IsComplex div.prod C ∧
      complexDifferentials div.prod C p = .ok (div.prod, E.nerveDiff) ∧
      (∀ n, E.spx n = (simplicesOf div.prod C n).length) ∧
      L.length = div.prod ∧
      (∀ pos, IsPos div pos → ∃ l, L[rank div pos]? = some l ∧ l.Pairwise (· < ·) ∧
        ∀ i, i ∈ l ↔ i < cloud.length ∧ InCube dim lo side overlap pos (cloud.getD i [])) ∧
      (∀ n < E.columns.length, ∀ (k : ℕ) (s : List ℕ), (simplicesOf div.prod C n)[k]? = some s →
        ∃ pts, E.pts n k = .ok pts ∧ pts.Pairwise (· < ·) ∧
          ∀ i, i ∈ pts ↔ ∀ v ∈ s, i ∈ L.getD v []) ∧
      ∀ n < E.columns.length, ∀ k < E.spx n, ∃ o pts, E.piece n k = .ok o ∧ E.pts n k = .ok pts ∧
        localPersistentHomology pdist argsort rnd (pts.map fun v => cloud.getD v []) maxR maxDim p = .ok o := by
  obtain ⟨out, div, C, L, h1, h2, hG⟩ := cover_table (overlap := overlap) hne hdim hm hbox hs
  obtain ⟨E, e1, e2, e3, e4, e5, e6, e7, e8, e9, e10, e11, e12, e13⟩ :=
    envOf_ok hp hdist ha rnd hmax maxDim h2.1 hG
  refine ⟨E, div, C, L, ?_, e2, e3, e4, e5, e6, e7, e8, h2, hG.run, e9, e10, e11, hG.length, hG.cubes, e12, e13⟩
  unfold createEnv
  rw [h1]
  exact e1

end

end Permaviss
