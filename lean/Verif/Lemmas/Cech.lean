import Verif.Model.Spectral
import Verif.Lemmas.Chains
import Verif.Lemmas.Pages
import Verif.Lemmas.VRHomology
import Verif.Spec.Cech
import Verif.Lemmas.Barcode

/-! The Čech differential in terms of simplices of the whole cloud. -/

namespace Permaviss

open Finset

attribute [-instance] instMulZeroClassOfSemiring

variable {α : Type} [LinearOrder α] [Zero α]

/-! ## Simplices of the pieces as lists of points of the cloud -/

/-- What is known of one piece. -/
structure PieceOK (rnd : α → α) (p rows : ℕ) (maxR : α) (ρ : List ℕ → α) (o : LocalOut α)
    (pts : List ℕ) : Prop where
  inc : pts.Pairwise (· < ·)
  verts : o.cpx.verts = pts.length
  cpx : IsComplex o.cpx.verts o.cpx.simplices
  levels : rows ≤ o.cpx.simplices.length
  levels' : 0 < o.cpx.simplices.length
  diff : ∃ n', complexDifferentials o.cpx.verts o.cpx.simplices p = .ok (n', o.diff)
  filt : FiltComplex p o.diff o.cpx.allRads maxR
  run : persistentHomology rnd p (o.cpx.allRads.getD 0 []).length o.diff o.cpx.allRads maxR = .ok o.ph
  rad : ∀ deg ≤ o.cpx.simplices.length, o.cpx.allRads.getD deg [] = (o.glob pts deg).map ρ

theorem getD_strictMono {pts : List ℕ} (h : pts.Pairwise (· < ·)) {i j : ℕ} (hij : i < j)
    (hj : j < pts.length) : pts.getD i 0 < pts.getD j 0 := by
  rw [List_getD_eq_getElem _ _ hj, List_getD_eq_getElem _ _ (hij.trans hj)]
  exact List.pairwise_iff_getElem.1 h i j _ hj hij

theorem getD_inj {pts : List ℕ} (h : pts.Pairwise (· < ·)) {i j : ℕ} (hi : i < pts.length)
    (hj : j < pts.length) (e : pts.getD i 0 = pts.getD j 0) : i = j := by
  rcases lt_trichotomy i j with hc | hc | hc
  · have := getD_strictMono h hc hj; omega
  · exact hc
  · have := getD_strictMono h hc hi; omega

theorem map_getD_inj {pts : List ℕ} (h : pts.Pairwise (· < ·)) : ∀ {s t : List ℕ},
    (∀ v ∈ s, v < pts.length) → (∀ v ∈ t, v < pts.length) →
    s.map (fun v => pts.getD v 0) = t.map (fun v => pts.getD v 0) → s = t
  | [], [], _, _, _ => rfl
  | [], b :: t, _, _, e => by simp at e
  | a :: s, [], _, _, e => by simp at e
  | a :: s, b :: t, hs, ht, e => by
    simp only [List.map_cons, List.cons.injEq] at e
    rw [getD_inj h (hs a (by simp)) (ht b (by simp)) e.1,
      map_getD_inj h (fun v hv => hs v (by simp [hv])) (fun v hv => ht v (by simp [hv])) e.2]

theorem map_getD_pairwise {pts : List ℕ} (h : pts.Pairwise (· < ·)) {s : List ℕ}
    (hs : s.Pairwise (· < ·)) (hv : ∀ v ∈ s, v < pts.length) :
    (s.map fun v => pts.getD v 0).Pairwise (· < ·) := by
  rw [List.pairwise_map]
  exact hs.imp_of_mem fun {a b} ha hb hab => getD_strictMono h hab (hv b hb)

section

variable {rnd : α → α} {p rows : ℕ} {maxR : α} {ρ : List ℕ → α} {o : LocalOut α} {pts : List ℕ}

theorem PieceOK.simplex (h : PieceOK rnd p rows maxR ρ o pts) {deg : ℕ} {s : List ℕ}
    (hs : s ∈ simplicesOf o.cpx.verts o.cpx.simplices deg) :
    s.length = deg + 1 ∧ s.Pairwise (· < ·) ∧ ∀ v ∈ s, v < pts.length := by
  obtain ⟨h1, h2, h3⟩ := simplicesOf_spec h.cpx hs
  rw [h.verts] at h3
  exact ⟨h1, h2, h3⟩

theorem PieceOK.glob_nodup (h : PieceOK rnd p rows maxR ρ o pts) (deg : ℕ) :
    (o.glob pts deg).Nodup := by
  refine (simplicesOf_nodup h.cpx deg).map_on ?_
  intro s hs t ht e
  exact map_getD_inj h.inc (h.simplex hs).2.2 (h.simplex ht).2.2 e

theorem PieceOK.mem_glob (h : PieceOK rnd p rows maxR ρ o pts) {deg : ℕ} {s : List ℕ}
    (hs : s ∈ o.glob pts deg) : s.length = deg + 1 ∧ s.Pairwise (· < ·) ∧ ∀ v ∈ s, v ∈ pts := by
  obtain ⟨t, ht, rfl⟩ := List.mem_map.1 hs
  obtain ⟨h1, h2, h3⟩ := h.simplex ht
  refine ⟨by simpa using h1, map_getD_pairwise h.inc h2 h3, ?_⟩
  intro v hv
  obtain ⟨w, hw, rfl⟩ := List.mem_map.1 hv
  exact getD_mem' (h3 w hw)

theorem PieceOK.glob_zero (h : PieceOK rnd p rows maxR ρ o pts) :
    o.glob pts 0 = pts.map fun v => [v] := by
  unfold LocalOut.glob simplicesOf
  rw [h.verts, List.map_map]
  refine List.ext_getElem (by simp) fun i h1 h2 => ?_
  simp only [List.getElem_map, List.getElem_range, Function.comp, List.map_cons, List.map_nil]
  rw [List_getD_eq_getElem _ _ (by simpa using h2)]

/-- Faces of simplices of a piece are simplices of the piece. -/
theorem PieceOK.face (h : PieceOK rnd p rows maxR ρ o pts) {deg : ℕ} {s : List ℕ}
    (hs : s ∈ o.glob pts (deg + 1)) {k : ℕ} (hk : k < s.length) : s.eraseIdx k ∈ o.glob pts deg := by
  obtain ⟨t, ht, rfl⟩ := List.mem_map.1 hs
  have := simplicesOf_face h.cpx ht (by simpa using hk)
  rw [List.eraseIdx_map]
  exact List.mem_map.2 ⟨_, this, rfl⟩

end

/-! ## Local Čech matrices -/

theorem findIdx?_nodup {β : Type} [BEq β] [LawfulBEq β] {L : List β} (hL : L.Nodup) (v : β) (j : ℕ) :
    L.findIdx? (fun x => x == v) = some j ↔ L[j]? = some v := by
  rw [List.findIdx?_eq_some_iff_getElem]
  constructor
  · rintro ⟨hj, h1, -⟩
    rw [List.getElem?_eq_getElem hj]
    simpa using h1
  · intro h
    obtain ⟨hj, e⟩ := List.getElem?_eq_some_iff.1 h
    refine ⟨hj, by simpa using e, ?_⟩
    intro i hi
    simp only [Bool.not_eq_true, beq_eq_false_iff_ne]
    intro e'
    have := (List.Nodup.getElem_inj_iff hL (hi := by omega) (hj := hj)).1 (e'.trans e.symm)
    omega

theorem getD_map_lt {β γ : Type} {l : List β} {i : ℕ} (h : i < l.length) (f : β → γ) (x : γ) :
    (l.map f).getD i x = f l[i] := by
  rw [List_getD_eq_getElem _ _ (by simpa using h), List.getElem_map]

theorem spike_length (n : ℕ) (i : Option ℕ) (x : ℤ) : (spike n i x).length = n := by simp [spike]

theorem spike_getD {n : ℕ} (i : Option ℕ) (x : ℤ) {j : ℕ} (hj : j < n) :
    (spike n i x).getD j 0 = if i = some j then x else 0 := by
  rw [List_getD_eq_getElem _ _ (by simpa [spike] using hj)]
  simp [spike]

theorem spike_find {β : Type} [DecidableEq β] [BEq β] [LawfulBEq β] {L : List β} (hL : L.Nodup) (v : β) (x : ℤ) {n j : ℕ}
    (hn : n = L.length) (hj : j < n) :
    (spike n (L.findIdx? fun x => x == v) x).getD j 0 = if L[j]? = some v then x else 0 := by
  rw [spike_getD _ _ hj]
  by_cases h : L[j]? = some v
  · rw [if_pos h, if_pos ((findIdx?_nodup hL v j).2 h)]
  · rw [if_neg h, if_neg fun e => h ((findIdx?_nodup hL v j).1 e)]

theorem npIntersect1d_eq {a b : List ℕ} {d : ℕ} (ha : a.Pairwise (· < ·)) (hb : b.Pairwise (· < ·))
    (hla : a.length = d) (hlb : b.length = d) : (npIntersect1d a b).length = d ↔ b = a := by
  have han : a.Nodup := ha.imp fun h => h.ne
  rw [npIntersect1d_length han]
  constructor
  · intro h
    have hall : ∀ x ∈ a, x ∈ b := by
      intro x hx
      have := List.length_filter_eq_length_iff.1 (h.trans hla.symm) x hx
      simpa using this
    have hperm : a.Perm b :=
      (List.subperm_of_subset han hall).perm_of_length_le (by omega)
    exact (List.Perm.eq_of_pairwise (le := (· < ·)) (fun x y _ _ (h1 : x < y) (h2 : y < x) => by omega) ha hb hperm).symm
  · rintro rfl
    rw [← hla]
    exact List.length_filter_eq_length_iff.2 fun x hx => by simpa using hx

theorem mapM_atE {β : Type} (l : List β) (n : ℕ) (hn : n ≤ l.length) :
    (List.range n).mapM (atE l) = .ok (l.take n) := by
  obtain ⟨ys, hys⟩ := mapM_ok_of (f := atE l) (xs := List.range n) (by
    intro i hi
    have hi' := List.mem_range.1 hi
    exact ⟨l[i]'(by omega), by unfold atE; rw [List.getElem?_eq_getElem (by omega)]⟩)
  rw [hys]
  obtain ⟨h1, h2⟩ := mapM_ok_spec hys
  congr 1
  refine List.ext_getElem (by simpa using by simpa [hn] using h1) fun i hi hi' => ?_
  have hi2 : i < n := by simpa using by simpa using lt_of_lt_of_eq hi h1
  have := h2 i (by simpa using hi2) hi
  unfold atE at this
  simp only [List.getElem_range] at this
  rw [List.getElem?_eq_getElem (by omega)] at this
  simp only [Except.ok.injEq] at this
  rw [List.getElem_take]
  exact this.symm

theorem gatherE_ok {β : Type} (x : β) {l : List β} {idx : List ℕ} (h : ∀ i ∈ idx, i < l.length) :
    gatherE l idx = .ok (idx.map fun i => l.getD i x) := by
  unfold gatherE
  rw [if_pos (by simpa using h), gather_eq_map x h]

section

variable {rnd : α → α} {rows : ℕ} {maxR : α} {ρ : List ℕ → α}

theorem localCechMatrix_spec {E : SSEnv α} {n deg l k : ℕ} {o o' : LocalOut α} {pts pts' : List ℕ}
    (ho : E.piece n k = .ok o) (hp : E.pts n k = .ok pts) (ho' : E.piece (n + 1) l = .ok o')
    (hp' : E.pts (n + 1) l = .ok pts') (hP : PieceOK rnd E.p rows maxR ρ o pts)
    (hP' : PieceOK rnd E.p rows maxR ρ o' pts') (hdeg : deg ≤ rows) (hsub : pts' ⊆ pts) (c : ℤ) :
    ∃ M, localCechMatrix E n deg l k c = .ok M ∧ M.nrows = (E.G n k deg).length ∧
      M.ncols = (E.G (n + 1) l deg).length ∧ M.WellShaped ∧
      ∀ j i, j < M.nrows → i < M.ncols → M.get j i =
        if (E.G n k deg)[j]? = (E.G (n + 1) l deg)[i]? then (c * (-1) ^ deg) % (E.p : ℤ) else 0 := by
  have hG : E.G n k deg = o.glob pts deg := by simp only [SSEnv.G, ho, hp]
  have hG' : E.G (n + 1) l deg = o'.glob pts' deg := by simp only [SSEnv.G, ho', hp']
  rw [hG, hG']
  unfold localCechMatrix
  simp only [ho, hp, ho', hp', bind, Except.bind]
  cases deg with
  | zero =>
    rw [if_pos rfl]
    have hne : ¬ (o.cpx.verts = 0 ∧ 0 < o'.cpx.verts) := by
      rintro ⟨h1, h2⟩
      rw [hP.verts] at h1
      rw [hP'.verts] at h2
      obtain ⟨x, hx⟩ := List.exists_mem_of_length_pos h2
      have := hsub hx
      rw [List.length_eq_zero_iff.1 h1] at this
      simp at this
    rw [if_neg hne, hP'.verts, mapM_atE _ _ le_rfl, List.take_length]
    refine ⟨_, rfl, ?_, ?_, ?_, ?_⟩
    · simp [LocalOut.glob, simplicesOf]
    · simp [LocalOut.glob, simplicesOf, Mat.ncols, hP'.verts]
    · intro col hcol
      obtain ⟨pt, -, rfl⟩ := List.mem_map.1 hcol
      exact spike_length _ _ _
    · intro j i hj hi
      have hj' : j < o.cpx.verts := hj
      have hi' : i < pts'.length := by simpa [Mat.ncols] using hi
      have hmem : pts'[i] ∈ pts := hsub (List.getElem_mem hi')
      have hL : pts.Nodup := hP.inc.imp fun h => h.ne
      have hsome : some (argmaxEq pts pts'[i]) = pts.findIdx? fun x => x == pts'[i] := by
        unfold argmaxEq
        cases hf : pts.findIdx? fun x => x == pts'[i] with
        | some a => rfl
        | none =>
          rw [List.findIdx?_eq_none_iff] at hf
          have := hf _ hmem
          simp at this
      unfold Mat.get
      rw [getD_map_lt hi', hsome,
        spike_find hL _ _ hP.verts hj', hP.glob_zero, hP'.glob_zero, List.getElem?_map,
        List.getElem?_map, List.getElem?_eq_getElem hi']
      rw [hP.verts] at hj'
      rw [List.getElem?_eq_getElem hj']
      simp
  | succ d =>
    rw [if_neg (Nat.succ_ne_zero d)]
    have hl := hP.levels
    have hl' := hP'.levels
    have e1 : o.simplices (d + 1) = .ok (simplicesOf o.cpx.verts o.cpx.simplices (d + 1)) := by
      simp only [LocalOut.simplices, atE, simplicesOf, Nat.add_sub_cancel]
      rw [List_getD_eq_getElem _ _ (by omega), List.getElem?_eq_getElem (by omega)]
    have e2 : o'.simplices (d + 1) = .ok (simplicesOf o'.cpx.verts o'.cpx.simplices (d + 1)) := by
      simp only [LocalOut.simplices, atE, simplicesOf, Nat.add_sub_cancel]
      rw [List_getD_eq_getElem _ _ (by omega), List.getElem?_eq_getElem (by omega)]
    have e3 : (simplicesOf o'.cpx.verts o'.cpx.simplices (d + 1)).mapM (gatherE pts') =
        .ok (o'.glob pts' (d + 1)) := by
      obtain ⟨ys, hys⟩ := mapM_ok_of (f := gatherE pts')
        (xs := simplicesOf o'.cpx.verts o'.cpx.simplices (d + 1))
        (fun s hs => ⟨_, gatherE_ok 0 (hP'.simplex hs).2.2⟩)
      rw [hys]
      obtain ⟨g1, g2⟩ := mapM_ok_spec hys
      congr 1
      unfold LocalOut.glob
      refine List.ext_getElem (by simpa using g1) fun i hi hi' => ?_
      have hi2 : i < (simplicesOf o'.cpx.verts o'.cpx.simplices (d + 1)).length := by omega
      have := g2 i hi2 hi
      rw [gatherE_ok 0 (hP'.simplex (List.getElem_mem hi2)).2.2] at this
      rw [List.getElem_map]
      exact (Except.ok.inj this).symm
    rw [e1, e2]
    dsimp only
    rw [e3]
    dsimp only
    refine ⟨_, rfl, ?_, ?_, ?_, ?_⟩
    · simp [LocalOut.glob]
    · simp [Mat.ncols]
    · intro col hcol
      obtain ⟨v, -, rfl⟩ := List.mem_map.1 hcol
      exact spike_length _ _ _
    · intro j i hj hi
      have hj' : j < (simplicesOf o.cpx.verts o.cpx.simplices (d + 1)).length := hj
      have hi' : i < (o'.glob pts' (d + 1)).length := by simpa [Mat.ncols] using hi
      obtain ⟨v1, v2, -⟩ := hP'.mem_glob (List.getElem_mem hi')
      have hm : matchSimplex (d + 1) pts (simplicesOf o.cpx.verts o.cpx.simplices (d + 1))
          (o'.glob pts' (d + 1))[i] =
          (o.glob pts (d + 1)).findIdx? fun x => x == (o'.glob pts' (d + 1))[i] := by
        generalize (o'.glob pts' (d + 1))[i] = w at v1 v2 ⊢
        unfold matchSimplex LocalOut.glob
        rw [List.findIdx?_map]
        generalize hS : simplicesOf o.cpx.verts o.cpx.simplices (d + 1) = S
        have hall : ∀ s ∈ S, ((npIntersect1d w (gather pts s)).length ==
            d + 1 + 1) = ((fun x => x == w) ∘
              fun s => s.map fun v => pts.getD v 0) s := by
          intro s hs
          rw [← hS] at hs
          obtain ⟨s1, s2, s3⟩ := hP.simplex hs
          rw [gather_eq_map 0 s3, Bool.eq_iff_iff]
          simp only [Function.comp, beq_iff_eq]
          exact npIntersect1d_eq v2 (map_getD_pairwise hP.inc s2 s3) v1 (by simpa using s1)
        clear hS
        induction S with
        | nil => rfl
        | cons s S ih =>
          rw [List.findIdx?_cons, List.findIdx?_cons, hall s (by simp)]
          have := ih fun s hs => hall s (by simp [hs])
          split
          · rfl
          · rw [this]
      unfold Mat.get
      rw [getD_map_lt hi', hm,
        spike_find (hP.glob_nodup (d + 1)) _ _ (by simp [LocalOut.glob]) hj',
        List.getElem?_eq_getElem hi']

end

end Permaviss
