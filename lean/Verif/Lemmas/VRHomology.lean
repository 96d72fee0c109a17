import Verif.Spec.VRHomology
import Verif.Props.Complexes
import Verif.Props.PH

/-!
# Vietoris-Rips complexes are filtered complexes, and their homology
-/

namespace Permaviss

open Finset

attribute [-instance] instMulZeroClassOfSemiring

variable {α : Type} [LinearOrder α] {p : ℕ}

/-! ## Chains on a list of simplices -/

theorem toChain_apply {S : List (List ℕ)} (hS : S.Nodup) (c : ℕ → ZMod p) {i : ℕ}
    (hi : i < S.length) : toChain (ZMod p) S c (S.getD i []) = c i := by
  simp only [toChain, LinearMap.coe_mk, AddHom.coe_mk, Finsupp.coe_finset_sum, Finset.sum_apply,
    Finsupp.smul_apply, smul_eq_mul]
  rw [Finset.sum_eq_single i]
  · simp
  · intro j hj hji
    rw [Finsupp.single_eq_of_ne, mul_zero]
    intro e
    rw [List_getD_eq_getElem _ _ hi, List_getD_eq_getElem _ _ (mem_range.1 hj)] at e
    exact hji ((List.Nodup.getElem_inj_iff hS).1 e).symm
  · intro h; exact absurd (mem_range.2 hi) h

theorem toChain_not_mem {S : List (List ℕ)} (c : ℕ → ZMod p) {s : List ℕ} (hs : s ∉ S) :
    toChain (ZMod p) S c s = 0 := by
  simp only [toChain, LinearMap.coe_mk, AddHom.coe_mk, Finsupp.coe_finset_sum, Finset.sum_apply,
    Finsupp.smul_apply, smul_eq_mul]
  refine Finset.sum_eq_zero fun i hi => ?_
  rw [Finsupp.single_eq_of_ne, mul_zero]
  intro e
  exact hs (e ▸ getD_mem' (mem_range.1 hi))

theorem simplicialBdry_toChain (S : List (List ℕ)) (c : ℕ → ZMod p) :
    simplicialBdry (ZMod p) (toChain (ZMod p) S c) = ∑ i ∈ range S.length, c i • faceSum (ZMod p) (S.getD i []) := by
  simp only [toChain, LinearMap.coe_mk, AddHom.coe_mk, map_sum, map_smul]
  refine Finset.sum_congr rfl fun i _ => ?_
  rw [simplicialBdry, Finsupp.linearCombination_single, one_smul]

theorem simplicesOf_nodup {n : ℕ} {C : List (List (List ℕ))} (hC : IsComplex n C) (e : ℕ) :
    (simplicesOf n C e).Nodup := by
  cases e with
  | zero =>
    exact List.Nodup.map (fun a b h => by simpa using h) List.nodup_range
  | succ e =>
    simp only [simplicesOf]
    by_cases he : e < C.length
    · rw [List_getD_eq_getElem _ _ he]; exact hC.nodup _ (List.getElem_mem he)
    · rw [List.getD_eq_getElem?_getD, List.getElem?_eq_none (not_lt.1 he)]; simp

theorem simplicesOf_spec {n : ℕ} {C : List (List (List ℕ))} (hC : IsComplex n C) {e : ℕ}
    {s : List ℕ} (hs : s ∈ simplicesOf n C e) :
    s.length = e + 1 ∧ s.Pairwise (· < ·) ∧ ∀ v ∈ s, v < n := by
  cases e with
  | zero =>
    simp only [simplicesOf, List.mem_map, List.mem_range] at hs
    obtain ⟨v, hv, rfl⟩ := hs
    simp [hv]
  | succ e =>
    simp only [simplicesOf] at hs
    by_cases he : e < C.length
    · rw [List_getD_eq_getElem _ _ he] at hs
      exact ⟨hC.length e _ (List.getElem?_eq_getElem he) s hs,
        hC.sorted _ (List.getElem_mem he) s hs, hC.verts _ (List.getElem_mem he) s hs⟩
    · rw [List.getD_eq_getElem?_getD, List.getElem?_eq_none (not_lt.1 he)] at hs
      simp at hs

theorem simplicesOf_face {n : ℕ} {C : List (List (List ℕ))} (hC : IsComplex n C) {e : ℕ}
    {s : List ℕ} (hs : s ∈ simplicesOf n C (e + 1)) {k : ℕ} (hk : k < s.length) :
    s.eraseIdx k ∈ simplicesOf n C e := by
  obtain ⟨hl, hsrt, hv⟩ := simplicesOf_spec hC hs
  simp only [simplicesOf] at hs
  have he : e < C.length := by
    by_contra he
    rw [List.getD_eq_getElem?_getD, List.getElem?_eq_none (not_lt.1 he)] at hs
    simp at hs
  rw [List_getD_eq_getElem _ _ he] at hs
  cases e with
  | zero =>
    have : (s.eraseIdx k).length = 1 := by rw [List.length_eraseIdx_of_lt hk]; omega
    obtain ⟨v, hv'⟩ := List.length_eq_one_iff.1 this
    rw [hv']
    refine List.mem_map.2 ⟨v, List.mem_range.2 (hv v ?_), rfl⟩
    exact (List.eraseIdx_sublist s k).subset (by rw [hv']; simp)
  | succ e =>
    simp only [simplicesOf]
    rw [List_getD_eq_getElem _ _ (by omega)]
    exact hC.face e _ _ (List.getElem?_eq_getElem (by omega)) (List.getElem?_eq_getElem he) s hs k hk

/-- The sign by which the differential of the code differs from the simplicial boundary. -/
def bdrySign (p : ℕ) (e : ℕ) : ZMod p := if e = 0 then -1 else 1

theorem bdrySign_mul (e : ℕ) : bdrySign p e * bdrySign p e = 1 := by
  unfold bdrySign; split <;> simp

/-- The entries of the differentials, in terms of faces. -/
theorem entry_spec (hp : 2 ≤ p) {n : ℕ} {C : List (List (List ℕ))} (hC : IsComplex n C) {n' : ℕ}
    {D : List Mat} (h : complexDifferentials n C p = .ok (n', D)) {e : ℕ} (he : e < C.length) :
    ∃ M, D[e]? = some M ∧ M.nrows = (simplicesOf n C e).length ∧
      M.ncols = (simplicesOf n C (e + 1)).length ∧
      ∀ i j, i < M.nrows → j < M.ncols →
        (∀ k, k < ((simplicesOf n C (e + 1)).getD j []).length →
          (simplicesOf n C e).getD i [] = ((simplicesOf n C (e + 1)).getD j []).eraseIdx k →
          M.z p i j = bdrySign p e * (-1) ^ k) ∧
        ((∀ k, k < ((simplicesOf n C (e + 1)).getD j []).length →
          (simplicesOf n C e).getD i [] ≠ ((simplicesOf n C (e + 1)).getD j []).eraseIdx k) →
          M.z p i j = 0) := by
  obtain ⟨-, hlen, -, h0, h1⟩ := C19_differentials_boundary hp hC n' D h
  have hT : C[e]? = some C[e] := List.getElem?_eq_getElem he
  have eT : C.getD e [] = C[e] := List_getD_eq_getElem _ _ he
  cases e with
  | zero =>
    obtain ⟨M, hM, hr, hc, hent⟩ := h0 _ hT
    refine ⟨M, hM, by simp [simplicesOf, hr], by simp only [simplicesOf, eT, hc], ?_⟩
    intro i j hi hj
    simp only [simplicesOf, eT]
    have hj' : j < C[0].length := by rw [← hc]; exact hj
    have htm : C[0].getD j [] ∈ C[0] := getD_mem' hj'
    have htl := hC.length 0 _ hT _ htm
    have hts := hC.sorted _ (List.getElem_mem he) _ htm
    have hget : C[0][j]? = some (C[0].getD j []) := by
      rw [List_getD_eq_getElem _ _ hj']; exact List.getElem?_eq_getElem hj'
    have ei : ((List.range n).map fun v => [v]).getD i [] = [i] := by
      rw [hr] at hi
      simp [List.getD_eq_getElem?_getD, hi]
    rw [ei]
    generalize hte : C[0].getD j [] = t at *
    match t, htl with
    | [u, v], _ =>
      have huv : u < v := by simpa using hts
      obtain ⟨g1, g2, g3⟩ := hent j u v hget
      refine ⟨fun k hk hik => ?_, fun hn => ?_⟩
      · match k, hk with
        | 0, _ =>
          simp only [List.eraseIdx_cons_zero, List.cons.injEq, and_true] at hik
          subst hik
          simp [Mat.z, g2, bdrySign]
        | 1, _ =>
          simp only [List.eraseIdx_cons_succ, List.eraseIdx_cons_zero, List.cons.injEq, and_true] at hik
          subst hik
          simp [Mat.z, g1, bdrySign]
      · have hv : i ≠ v := fun e => hn 0 (by simp) (by simp [e])
        have hu : i ≠ u := fun e => hn 1 (by simp) (by simp [e])
        simp [Mat.z, g3 i hu hv]
  | succ e =>
    have hS : C[e]? = some C[e] := List.getElem?_eq_getElem (by omega)
    have eS : C.getD e [] = C[e] := List_getD_eq_getElem _ _ (by omega)
    obtain ⟨M, hM, hr, hc, hent⟩ := h1 e _ _ hS hT
    refine ⟨M, hM, by simp only [simplicesOf, eS, hr], by simp only [simplicesOf, eT, hc], ?_⟩
    intro i j hi hj
    simp only [simplicesOf, eT, eS]
    have hj' : j < C[e + 1].length := by rw [← hc]; exact hj
    have hi' : i < C[e].length := by rw [← hr]; exact hi
    have := hent i j _ _ (List.getElem?_eq_getElem hi') (List.getElem?_eq_getElem hj')
    rw [List_getD_eq_getElem _ _ hj', List_getD_eq_getElem _ _ hi']
    refine ⟨fun k hk e' => ?_, fun hn => ?_⟩
    · simp [Mat.z, this.1 k hk e', cast_fmod, bdrySign]
    · simp [Mat.z, this.2 hn]

/-- `toChain` intertwines the differentials of the code and the simplicial boundary, up to sign. -/
theorem toChain_bdry (hp : 2 ≤ p) {n : ℕ} {C : List (List (List ℕ))} (hC : IsComplex n C) {n' : ℕ}
    {D : List Mat} (h : complexDifferentials n C p = .ok (n', D)) {e : ℕ} (he : e < C.length)
    (c : ℕ → ZMod p) :
    toChain (ZMod p) (simplicesOf n C e) (bdry p D (e + 1) c) =
      bdrySign p e • simplicialBdry (ZMod p) (toChain (ZMod p) (simplicesOf n C (e + 1)) c) := by
  obtain ⟨M, hM, hr, hc, hent⟩ := entry_spec hp hC h he
  rw [simplicialBdry_toChain]
  have e1 : bdry p D (e + 1) c = fun i => ∑ k ∈ range M.ncols, M.z p i k * c k := by
    simp only [bdry, hM, Option.map_some, Option.getD_some]; rfl
  rw [e1]
  simp only [toChain, LinearMap.coe_mk, AddHom.coe_mk, Finset.smul_sum, Finset.sum_smul]
  rw [Finset.sum_comm, hc]
  refine Finset.sum_congr rfl fun k hk => ?_
  have hk' := mem_range.1 hk
  set t := (simplicesOf n C (e + 1)).getD k [] with ht
  have htm : t ∈ simplicesOf n C (e + 1) := getD_mem' hk'
  obtain ⟨htl, hts, -⟩ := simplicesOf_spec hC htm
  have e2 := sum_faces (simplicesOf_nodup hC e) hts (fun k hk => simplicesOf_face hC htm hk)
    (fun s => (∑ j ∈ range t.length, if s = t.eraseIdx j then bdrySign p e * (-1) ^ j else 0) •
      Finsupp.single s (1 : ZMod p)) (by
      intro s _ hn
      rw [Finset.sum_eq_zero, zero_smul]
      intro j hj
      rw [if_neg (hn j (mem_range.1 hj))])
  have e3 : ∀ i ∈ range (simplicesOf n C e).length,
      (M.z p i k * c k) • Finsupp.single ((simplicesOf n C e).getD i []) (1 : ZMod p) =
      c k • ((∑ j ∈ range t.length, if (simplicesOf n C e).getD i [] = t.eraseIdx j then
        bdrySign p e * (-1) ^ j else 0) • Finsupp.single ((simplicesOf n C e).getD i []) (1 : ZMod p)) := by
    intro i hi
    have hz : M.z p i k = ∑ j ∈ range t.length,
        if (simplicesOf n C e).getD i [] = t.eraseIdx j then bdrySign p e * (-1) ^ j else 0 := by
      obtain ⟨g1, g2⟩ := hent i k (by rw [hr]; exact mem_range.1 hi) (by rw [hc]; exact hk')
      by_cases hex : ∃ j, j < t.length ∧ (simplicesOf n C e).getD i [] = t.eraseIdx j
      · obtain ⟨j, hj, hij⟩ := hex
        rw [g1 j hj hij, Finset.sum_eq_single j]
        · rw [if_pos hij]
        · intro b hb hbj
          rw [if_neg]
          intro hib
          exact hbj (eraseIdx_inj hts (mem_range.1 hb) hj (hib.symm.trans hij))
        · intro hn; exact absurd (mem_range.2 hj) hn
      · rw [g2 fun j hj hij => hex ⟨j, hj, hij⟩, Finset.sum_eq_zero]
        intro j hj
        rw [if_neg fun hij => hex ⟨j, mem_range.1 hj, hij⟩]
    rw [hz, mul_comm, mul_smul]
  rw [Finset.sum_congr rfl e3, ← Finset.smul_sum, e2, smul_comm]
  congr 1
  rw [faceSum, if_neg (by omega), Finset.smul_sum]
  refine Finset.sum_congr rfl fun j hj => ?_
  rw [Finset.sum_eq_single j]
  · rw [if_pos rfl, mul_smul]
  · intro b hb hbj
    rw [if_neg]
    intro hib
    exact hbj (eraseIdx_inj hts (mem_range.1 hb) (mem_range.1 hj) hib.symm)
  · intro hn; exact absurd hj hn

/-! ## The Vietoris-Rips complex -/

section VR

variable [Zero α] {argsort : List α → List Nat} {Dist : List (List α)} {maxR : α} {maxDim : Int}

/-- The radii of all degrees. -/
def VRComplex.allRads (V : VRComplex α) : List (List α) := V.rad0 :: V.rads

/-- A position in the list of simplices has a radius: `0` for a vertex, else the diameter. -/
theorem vr_radius (h : IsArgsort argsort) {e i : ℕ}
    (hi : i < (simplicesOf Dist.length (vietorisRips argsort Dist maxR maxDim).simplices e).length) :
    ∃ r, ((vietorisRips argsort Dist maxR maxDim).allRads.getD e [])[i]? = some r ∧
      (e = 0 → r = 0) ∧ (e ≠ 0 → IsDiameter (distAt Dist)
        ((simplicesOf Dist.length (vietorisRips argsort Dist maxR maxDim).simplices e).getD i []) r) := by
  obtain ⟨h0, hl, hR⟩ := C17_vietoris_rips_radii argsort h Dist maxR maxDim
  set V := vietorisRips argsort Dist maxR maxDim with hV
  cases e with
  | zero =>
    refine ⟨0, ?_, fun _ => rfl, fun h => absurd rfl h⟩
    have hv : V.verts = Dist.length := rfl
    simp only [simplicesOf, List.length_map, List.length_range] at hi
    simp [VRComplex.allRads, h0, hv, hi]
  | succ e =>
    simp only [simplicesOf] at hi ⊢
    have he : e < V.simplices.length := by
      by_contra he
      rw [List.getD_eq_getElem?_getD, List.getElem?_eq_none (not_lt.1 he)] at hi
      simp at hi
    have he' : e < V.rads.length := by rw [hl]; exact he
    obtain ⟨g1, g2⟩ := hR e _ _ (List.getElem?_eq_getElem he) (List.getElem?_eq_getElem he')
    rw [List_getD_eq_getElem _ _ he] at hi ⊢
    have hi' : i < V.rads[e].length := by rw [g1]; exact hi
    refine ⟨V.rads[e][i], ?_, fun h => by omega, fun _ => ?_⟩
    · simp [VRComplex.allRads, List.getD_eq_getElem?_getD, he', hi']
    · rw [List_getD_eq_getElem _ _ hi]
      exact g2 i _ _ (List.getElem?_eq_getElem hi) (List.getElem?_eq_getElem hi')

theorem vr_rads_length (h : IsArgsort argsort) (e : ℕ) :
    ((vietorisRips argsort Dist maxR maxDim).allRads.getD e []).length =
      (simplicesOf Dist.length (vietorisRips argsort Dist maxR maxDim).simplices e).length := by
  obtain ⟨h0, hl, hR⟩ := C17_vietoris_rips_radii argsort h Dist maxR maxDim
  set V := vietorisRips argsort Dist maxR maxDim with hV
  cases e with
  | zero =>
    have hv : V.verts = Dist.length := rfl
    simp [VRComplex.allRads, h0, hv, simplicesOf]
  | succ e =>
    simp only [VRComplex.allRads, simplicesOf, List.getD_cons_succ]
    by_cases he : e < V.simplices.length
    · have he' : e < V.rads.length := by rw [hl]; exact he
      rw [List_getD_eq_getElem _ _ he, List_getD_eq_getElem _ _ he']
      exact (hR e _ _ (List.getElem?_eq_getElem he) (List.getElem?_eq_getElem he')).1
    · rw [List.getD_eq_getElem?_getD, List.getElem?_eq_none (by omega), List.getD_eq_getElem?_getD,
        List.getElem?_eq_none (by omega)]
      rfl

/-- Presence at radius `t`, for the simplices of the complex. -/
theorem vr_born (h : IsArgsort argsort) (hpos : ∀ i j, 0 ≤ distAt Dist i j) {e i : ℕ} {t : α}
    (ht : 0 ≤ t) (hi : i < (simplicesOf Dist.length
      (vietorisRips argsort Dist maxR maxDim).simplices e).length) :
    Born (vietorisRips argsort Dist maxR maxDim).allRads e i t ↔
      VRSimplex (distAt Dist) Dist.length e t
        ((simplicesOf Dist.length (vietorisRips argsort Dist maxR maxDim).simplices e).getD i []) := by
  obtain ⟨hC, -⟩ := C18_vietoris_rips_filtration argsort h Dist maxR maxDim hpos
  obtain ⟨r, hr, hr0, hr1⟩ := vr_radius h hi
  obtain ⟨g1, g2, g3⟩ := simplicesOf_spec (n := Dist.length) hC (getD_mem' (x := []) hi)
  have hb : Born (vietorisRips argsort Dist maxR maxDim).allRads e i t ↔ r ≤ t := by
    unfold Born
    rw [hr]
    exact ⟨fun ⟨r', e', h'⟩ => by cases e'; exact h', fun h' => ⟨r, rfl, h'⟩⟩
  rw [hb]
  generalize hs : (simplicesOf Dist.length
    (vietorisRips argsort Dist maxR maxDim).simplices e).getD i [] = s at *
  constructor
  · intro hrt
    refine ⟨g1, g3, ?_⟩
    by_cases he : e = 0
    · subst he
      obtain ⟨v, rfl⟩ := List.length_eq_one_iff.1 g1
      simp
    · refine List.Pairwise.imp_of_mem (fun {u v} hu hv huv => ?_) g2
      exact ⟨huv, ((hr1 he).1 u hu v hv huv).trans hrt⟩
  · rintro ⟨-, -, hpw⟩
    by_cases he : e = 0
    · rw [hr0 he]; exact ht
    · obtain ⟨u, hu, v, hv, huv, e'⟩ := (hr1 he).2
      rw [← e']
      obtain ⟨a, ha, rfl⟩ := List.getElem_of_mem hu
      obtain ⟨b, hb, rfl⟩ := List.getElem_of_mem hv
      have hab : a < b := by
        by_contra hc
        rcases Nat.lt_or_ge b a with hc' | hc'
        · have := List.pairwise_iff_getElem.1 g2 b a hb ha hc'
          omega
        · have : a = b := by omega
          subst this; omega
      exact (List.pairwise_iff_getElem.1 hpw a b ha hb hab).2

/-- Every simplex of the Vietoris-Rips complex at a radius below `maxR` is listed. -/
theorem vr_listed (h : IsArgsort argsort) {e : ℕ} {t : α}
    (he : e ≤ (vietorisRips argsort Dist maxR maxDim).simplices.length) (ht : t < maxR) {s : List ℕ}
    (hs : VRSimplex (distAt Dist) Dist.length e t s) :
    s ∈ simplicesOf Dist.length (vietorisRips argsort Dist maxR maxDim).simplices e := by
  obtain ⟨-, -, hS⟩ := C16_vietoris_rips_simplices argsort h Dist maxR maxDim
  obtain ⟨h1, h2, h3⟩ := hs
  cases e with
  | zero =>
    obtain ⟨v, rfl⟩ := List.length_eq_one_iff.1 h1
    exact List.mem_map.2 ⟨v, List.mem_range.2 (h2 v (by simp)), rfl⟩
  | succ e =>
    simp only [simplicesOf]
    rw [List_getD_eq_getElem _ _ (by omega)]
    refine ((hS e _ (List.getElem?_eq_getElem (by omega))).2 s).2 ⟨h1, h2, ?_⟩
    exact h3.imp fun h => ⟨h.1, lt_of_le_of_lt h.2 ht⟩

/-- The output of `vietoris_rips` and `complex_differentials` is a filtered complex. -/
theorem vr_filtComplex (hp : 2 ≤ p) (h : IsArgsort argsort) (hpos : ∀ i j, 0 ≤ distAt Dist i j)
    (hmax : 0 < maxR) {n' : ℕ} {D : List Mat}
    (hD : complexDifferentials Dist.length (vietorisRips argsort Dist maxR maxDim).simplices p =
      .ok (n', D)) :
    FiltComplex p D (vietorisRips argsort Dist maxR maxDim).allRads maxR := by
  obtain ⟨hC, hsort, hnn, hlt, -⟩ := C18_vietoris_rips_filtration argsort h Dist maxR maxDim hpos
  obtain ⟨-, hlen, -⟩ := C16_vietoris_rips_simplices argsort h Dist maxR maxDim
  obtain ⟨h0, hl, -⟩ := C17_vietoris_rips_radii argsort h Dist maxR maxDim
  obtain ⟨-, hDl, hsh, -, -⟩ := C19_differentials_boundary hp hC n' D hD
  have hrows : ∀ e M, D[e]? = some M →
      M.nrows = (simplicesOf Dist.length (vietorisRips argsort Dist maxR maxDim).simplices e).length ∧
      M.ncols = (simplicesOf Dist.length (vietorisRips argsort Dist maxR maxDim).simplices (e + 1)).length := by
    intro e M hM
    have he := (List.getElem?_eq_some_iff.1 hM).1
    obtain ⟨M', hM', h1, h2, -⟩ := entry_spec hp (n := Dist.length) hC hD (by omega : e < _)
    rw [hM] at hM'; cases hM'
    exact ⟨h1, h2⟩
  refine ⟨?_, ?_, ?_, hsh, ?_, ?_, ?_, ?_, ?_, ?_, hmax⟩
  · simp only [VRComplex.allRads, List.length_cons]; omega
  · intro hn; rw [hn] at hDl; simp at hDl; omega
  · intro e M hM
    rw [vr_rads_length h, vr_rads_length h]; exact hrows e M hM
  · intro e M N hM hN i k
    exact C20_boundary_boundary_zero hp hC n' D hD e M N hM hN i k
  · intro Q hQ
    rcases List.mem_cons.1 hQ with rfl | hQ
    · rw [h0]; exact List.pairwise_replicate.2 (Or.inr le_rfl)
    · exact hsort Q hQ
  · intro r hr
    simp only [VRComplex.allRads, List.getD_cons_zero, h0] at hr
    exact List.eq_of_mem_replicate hr
  · intro e M hM i j hne t hb
    obtain ⟨r1, r2⟩ := hrows e M hM
    have he := (List.getElem?_eq_some_iff.1 hM).1
    have hj : j < M.ncols := by
      obtain ⟨r, hr, -⟩ := hb
      rw [r2, ← vr_rads_length h]; exact (List.getElem?_eq_some_iff.1 hr).1
    have hi : i < M.nrows := by
      by_contra hc
      exact hne ((hsh M (List.mem_of_getElem? hM)).1.zv_zero (not_lt.1 hc) j)
    have ht : 0 ≤ t := by
      obtain ⟨r, hr, hrt⟩ := hb
      refine le_trans ?_ hrt
      simp only [VRComplex.allRads, List.getD_cons_succ] at hr
      have he' : e < (vietorisRips argsort Dist maxR maxDim).rads.length := by rw [hl]; omega
      rw [List_getD_eq_getElem _ _ he'] at hr
      exact hnn _ (List.getElem_mem he') _ (List.mem_of_getElem? hr)
    rw [vr_born h hpos ht (by omega)] at hb ⊢
    obtain ⟨M', hM', -, -, hent⟩ := entry_spec hp (n := Dist.length) hC hD (by omega : e < _)
    rw [hM] at hM'; cases hM'
    obtain ⟨-, g2⟩ := hent i j hi hj
    have hex : ∃ k, k < ((simplicesOf Dist.length
        (vietorisRips argsort Dist maxR maxDim).simplices (e + 1)).getD j []).length ∧
        (simplicesOf Dist.length (vietorisRips argsort Dist maxR maxDim).simplices e).getD i [] =
        ((simplicesOf Dist.length
        (vietorisRips argsort Dist maxR maxDim).simplices (e + 1)).getD j []).eraseIdx k := by
      by_contra hn
      exact hne (g2 fun k hk hik => hn ⟨k, hk, hik⟩)
    obtain ⟨k, hk, hik⟩ := hex
    rw [hik]
    obtain ⟨b1, b2, b3⟩ := hb
    refine ⟨by rw [List.length_eraseIdx_of_lt hk]; omega, ?_, b3.sublist (List.eraseIdx_sublist _ _)⟩
    exact fun v hv => b2 v ((List.eraseIdx_sublist _ _).subset hv)
  · intro e hne
    rw [← List.length_pos_iff, vr_rads_length h] at hne ⊢
    have hm := getD_mem' (x := []) hne
    have hl' := (simplicesOf_spec (n := Dist.length) hC hm).1
    exact List.length_pos_of_mem (simplicesOf_face (n := Dist.length) hC hm (k := 0) (by omega))
  · intro Q hQ r hr
    rcases List.mem_cons.1 hQ with rfl | hQ
    · rw [h0] at hr; rw [List.eq_of_mem_replicate hr]; exact hmax
    · exact hlt Q hQ r hr

/-! ### Comparison of homologies -/

section Compare

variable (h : IsArgsort argsort) (hpos : ∀ i j, 0 ≤ distAt Dist i j)

include h hpos

theorem toChain_mem {e : ℕ} {t : α} (ht : 0 ≤ t) {c : ℕ → ZMod p}
    (hc : c ∈ chainsAt p (vietorisRips argsort Dist maxR maxDim).allRads e t) :
    toChain (ZMod p) (simplicesOf Dist.length (vietorisRips argsort Dist maxR maxDim).simplices e) c ∈
      vrChains (ZMod p) (distAt Dist) Dist.length e t := by
  obtain ⟨hC, -⟩ := C18_vietoris_rips_filtration argsort h Dist maxR maxDim hpos
  rw [vrChains, Finsupp.mem_supported']
  intro s hs
  by_cases hm : s ∈ simplicesOf Dist.length (vietorisRips argsort Dist maxR maxDim).simplices e
  · obtain ⟨i, hi, rfl⟩ := List.getElem_of_mem hm
    rw [← List_getD_eq_getElem _ [] hi] at hs ⊢
    rw [toChain_apply (simplicesOf_nodup (n := Dist.length) hC e) c hi]
    by_contra hne
    exact hs ((vr_born h hpos ht hi).1 (hc i hne))
  · exact toChain_not_mem c hm

theorem toChain_surj {e : ℕ} {t : α} (ht : 0 ≤ t) (ht' : t < maxR)
    (he : e ≤ (vietorisRips argsort Dist maxR maxDim).simplices.length) {x : List ℕ →₀ ZMod p}
    (hx : x ∈ vrChains (ZMod p) (distAt Dist) Dist.length e t) :
    ∃ c ∈ chainsAt p (vietorisRips argsort Dist maxR maxDim).allRads e t,
      toChain (ZMod p) (simplicesOf Dist.length (vietorisRips argsort Dist maxR maxDim).simplices e) c = x := by
  obtain ⟨hC, -⟩ := C18_vietoris_rips_filtration argsort h Dist maxR maxDim hpos
  rw [vrChains, Finsupp.mem_supported'] at hx
  refine ⟨fun i => if i < (simplicesOf Dist.length
    (vietorisRips argsort Dist maxR maxDim).simplices e).length then x ((simplicesOf Dist.length
    (vietorisRips argsort Dist maxR maxDim).simplices e).getD i []) else 0, ?_, ?_⟩
  · intro i hi
    dsimp only at hi
    split at hi
    · next hlt =>
      rw [vr_born h hpos ht hlt]
      by_contra hn
      exact hi (hx _ hn)
    · exact absurd rfl hi
  · ext s
    by_cases hm : s ∈ simplicesOf Dist.length (vietorisRips argsort Dist maxR maxDim).simplices e
    · obtain ⟨i, hi, rfl⟩ := List.getElem_of_mem hm
      rw [← List_getD_eq_getElem _ [] hi,
        toChain_apply (simplicesOf_nodup (n := Dist.length) hC e) _ hi, if_pos hi]
    · rw [toChain_not_mem _ hm]
      by_contra hne
      refine hm (vr_listed h he ht' ?_)
      by_contra hn
      exact hne (hx s hn).symm

theorem toChain_inj {e : ℕ} {t : α} {c : ℕ → ZMod p}
    (hc : c ∈ chainsAt p (vietorisRips argsort Dist maxR maxDim).allRads e t)
    (h0 : toChain (ZMod p) (simplicesOf Dist.length
      (vietorisRips argsort Dist maxR maxDim).simplices e) c = 0) : c = 0 := by
  obtain ⟨hC, -⟩ := C18_vietoris_rips_filtration argsort h Dist maxR maxDim hpos
  funext i
  by_contra hne
  obtain ⟨r, hr, -⟩ := hc i hne
  have hi := (List.getElem?_eq_some_iff.1 hr).1
  rw [vr_rads_length h] at hi
  apply hne
  rw [← toChain_apply (simplicesOf_nodup (n := Dist.length) hC e) c hi, h0]; rfl

variable (hp : p.Prime) {n' : ℕ} {D : List Mat} (hmax : 0 < maxR)
  (hD : complexDifferentials Dist.length (vietorisRips argsort Dist maxR maxDim).simplices p =
      .ok (n', D)) {e : ℕ} {t : α} (ht : 0 ≤ t) (ht' : t < maxR)
  (he : e < (vietorisRips argsort Dist maxR maxDim).simplices.length)

include hp hmax hD ht he

theorem toChain_cycle_iff {c : ℕ → ZMod p}
    (hc : c ∈ chainsAt p (vietorisRips argsort Dist maxR maxDim).allRads e t) :
    bdry p D e c = 0 ↔ simplicialBdry (ZMod p) (toChain (ZMod p) (simplicesOf Dist.length
      (vietorisRips argsort Dist maxR maxDim).simplices e) c) = 0 := by
  obtain ⟨hC, -⟩ := C18_vietoris_rips_filtration argsort h Dist maxR maxDim hpos
  have F := vr_filtComplex hp.two_le h hpos hmax hD
  cases e with
  | zero =>
    rw [simplicialBdry_toChain]
    refine ⟨fun _ => Finset.sum_eq_zero fun i hi => ?_, fun _ => rfl⟩
    have := (simplicesOf_spec (n := Dist.length) hC
      (getD_mem' (x := []) (mem_range.1 hi))).1
    rw [faceSum, if_pos (by omega), smul_zero]
  | succ e =>
    have hb := toChain_bdry hp.two_le (n := Dist.length) hC hD (by omega : e < _) c
    constructor
    · intro h0
      rw [h0, map_zero] at hb
      have := congrArg (fun x => bdrySign p e • x) hb.symm
      simpa [smul_smul, bdrySign_mul] using this
    · intro h0
      rw [h0, smul_zero] at hb
      have := Fact.mk hp
      exact toChain_inj h hpos (t := t) ((F.filt hp).face e t c hc) hb

theorem toChain_cycles {c : ℕ → ZMod p}
    (hc : c ∈ cyclesAt p D (vietorisRips argsort Dist maxR maxDim).allRads e t) :
    toChain (ZMod p) (simplicesOf Dist.length (vietorisRips argsort Dist maxR maxDim).simplices e) c ∈
      vrCycles (ZMod p) (distAt Dist) Dist.length e t :=
  ⟨toChain_mem h hpos ht hc.1, (toChain_cycle_iff h hpos hp hmax hD ht he hc.1).1 hc.2⟩

include ht'

/-- The comparison of cycles. -/
noncomputable def cyclesEquiv :
    cyclesAt p D (vietorisRips argsort Dist maxR maxDim).allRads e t ≃ₗ[ZMod p]
      vrCycles (ZMod p) (distAt Dist) Dist.length e t :=
  LinearEquiv.ofBijective ((toChain (ZMod p) (simplicesOf Dist.length
    (vietorisRips argsort Dist maxR maxDim).simplices e)).restrict
      fun _ hc => toChain_cycles h hpos hp hmax hD ht he hc) (by
    refine ⟨?_, ?_⟩
    · rw [injective_iff_map_eq_zero]
      rintro ⟨c, hc⟩ h0
      apply Subtype.ext
      exact toChain_inj h hpos (t := t) hc.1 (congrArg Subtype.val h0)
    · rintro ⟨x, hx⟩
      obtain ⟨c, hc, rfl⟩ := toChain_surj h hpos ht ht' he.le hx.1
      exact ⟨⟨c, hc, (toChain_cycle_iff h hpos hp hmax hD ht he hc).2 hx.2⟩, Subtype.ext rfl⟩)

/-- The comparison of homologies. -/
noncomputable def homologyEquiv :
    homologyAt p D (vietorisRips argsort Dist maxR maxDim).allRads e t ≃ₗ[ZMod p]
      vrHomology (ZMod p) (distAt Dist) Dist.length e t :=
  Submodule.Quotient.equiv _ _ (cyclesEquiv h hpos hp hmax hD ht ht' he) (by
    obtain ⟨hC, -⟩ := C18_vietoris_rips_filtration argsort h Dist maxR maxDim hpos
    have hb := fun c => toChain_bdry hp.two_le (n := Dist.length) hC hD he c
    ext ⟨x, hx⟩
    constructor
    · rintro ⟨⟨c, hc⟩, ⟨y, hy, hyc⟩, hcx⟩
      have hcx : toChain (ZMod p) (simplicesOf Dist.length
        (vietorisRips argsort Dist maxR maxDim).simplices e) c = x := congrArg Subtype.val hcx
      refine ⟨bdrySign p e • toChain (ZMod p) (simplicesOf Dist.length
        (vietorisRips argsort Dist maxR maxDim).simplices (e + 1)) y,
        Submodule.smul_mem _ _ (toChain_mem h hpos ht hy), ?_⟩
      have hyc : bdry p D (e + 1) y = c := hyc
      rw [map_smul, ← hb y, hyc, hcx]; rfl
    · rintro ⟨y, hy, hyx⟩
      have hyx : simplicialBdry (ZMod p) y = x := hyx
      obtain ⟨w, hw, rfl⟩ := toChain_surj h hpos ht ht' (Nat.succ_le_of_lt he) hy
      have key : toChain (ZMod p) (simplicesOf Dist.length
          (vietorisRips argsort Dist maxR maxDim).simplices e)
          (bdry p D (e + 1) (bdrySign p e • w)) = x := by
        rw [hb, map_smul, map_smul, smul_smul, bdrySign_mul, one_smul, hyx]
      have hmem : bdry p D (e + 1) (bdrySign p e • w) ∈
          chainsAt p (vietorisRips argsort Dist maxR maxDim).allRads e t := by
        have := Fact.mk hp
        exact ((vr_filtComplex hp.two_le h hpos hmax hD).filt hp).face e t _
          (Submodule.smul_mem _ _ hw)
      refine ⟨⟨bdry p D (e + 1) (bdrySign p e • w), hmem,
        (toChain_cycle_iff h hpos hp hmax hD ht he hmem).2 ?_⟩,
        ⟨_, Submodule.smul_mem _ _ hw, rfl⟩, Subtype.ext key⟩
      rw [key]; exact hx.2)

theorem homologyEquiv_class {c : ℕ → ZMod p}
    (hc : c ∈ cyclesAt p D (vietorisRips argsort Dist maxR maxDim).allRads e t) :
    homologyEquiv h hpos hp hmax hD ht ht' he (homClass c hc) =
      vrClass (toChain (ZMod p) (simplicesOf Dist.length
        (vietorisRips argsort Dist maxR maxDim).simplices e) c)
        (toChain_cycles h hpos hp hmax hD ht he hc) := rfl

end Compare

end VR

end Permaviss
