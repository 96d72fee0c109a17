import Verif.Lemmas.PHTrace
import Verif.Lemmas.Barcode

/-!
# The bases returned by `persistent_homology`

Every bar has a key: the position of its leading simplex.
-/

namespace Permaviss

open Finset GOK

variable {α : Type} [LinearOrder α] [Zero α] {p : ℕ}

theorem filterMap_bind_of {β γ δ : Type} (l : List β) (f : β → Option δ) (g : β → Option γ)
    (h : γ → Option δ) (H : ∀ k ∈ l, f k = (g k).bind h) :
    l.filterMap f = (l.filterMap g).filterMap h := by
  rw [List.filterMap_filterMap]
  exact List.filterMap_congr H

theorem filterMap_ite {β δ : Type} (l : List β) (q : β → Prop) [DecidablePred q] (F : β → δ) :
    l.filterMap (fun x => if q x then some (F x) else none) =
      (l.filter fun x => decide (q x)).map F := by
  induction l with
  | nil => rfl
  | cons a l ih => by_cases h : q a <;> simp [h, ih]

section trace

variable {maxRad : α} {D : List Mat} {R : List (List α)} {P : ℕ → List Nat}
  {rts : ℕ → List (List Int × List Int)} {fin : ℕ → List (BarCol α)} {levels : List (PHLevel α)}

/-- The birth radius of the simplex with key `j`. -/
def bR (R : List (List α)) (e j : ℕ) : α := (R.getD e []).getD j 0

/-- The death radius of the basis element with key `j`. -/
def dR (maxRad : α) (R : List (List α)) (P : ℕ → List Nat)
    (rts : ℕ → List (List Int × List Int)) (e j : ℕ) : α :=
  if j ∈ P e then bR R (e + 1) (kap (nn R (e + 1)) (P (e + 1)) (rts e) j) else maxRad

/-- The bar with key `j`. -/
def keyBar (maxRad : α) (R : List (List α)) (P : ℕ → List Nat)
    (rts : ℕ → List (List Int × List Int)) (e j : ℕ) : BarCol α :=
  ((bR R e j, dR maxRad R P rts e j), colOf (nn R) P rts e j)

/-- The bar of the image with key `j`, and its preimage. -/
def keyIm (maxRad : α) (R : List (List α)) (P : ℕ → List Nat)
    (rts : ℕ → List (List Int × List Int)) (e j : ℕ) : BarCol α × List Int :=
  (((dR maxRad R P rts e j, maxRad), colOf (nn R) P rts e j),
    colOf (nn R) P rts (e + 1) (kap (nn R (e + 1)) (P (e + 1)) (rts e) j))

variable (F : FiltComplex p D R maxRad) (H : PHTrace p maxRad D R P rts fin levels)

include F H

theorem PHTrace.kap_eq (hp : p.Prime) {e j k : ℕ} {M : Mat} (hM : D[e]? = some M)
    (hk : k ∈ nonPivots M.ncols (P (e + 1)))
    (h : indexPivot ((rts e).getD k ([], [])).1 = some j) :
    j ∈ P e ∧ kap (nn R (e + 1)) (P (e + 1)) (rts e) j = k := by
  have hk' := mem_nonPivots.1 hk
  have hjP : j ∈ P e := by
    rw [H.Peq e M hM, mem_stepOut_pivots]
    exact ⟨k, hk'.1, hk'.2, h⟩
  refine ⟨hjP, ?_⟩
  obtain ⟨h1, h2, h3⟩ := H.kap_spec F hjP
  have h1 : kap (nn R (e + 1)) (P (e + 1)) (rts e) j < (rts e).length := by
    rw [H.rlen e M hM, (F.rows e M hM).2]; exact h1
  have hk1 : k < (rts e).length := by rw [H.rlen e M hM]; exact hk'.1
  exact (H.gok e M hM).piv_inj hp h1 hk1
    ((((H.gok e M hM).rv_red h1).indexPivot_some hp.pos).1 h3)
    ((((H.gok e M hM).rv_red hk1).indexPivot_some hp.pos).1 h)

theorem PHTrace.P_nodup (hp : p.Prime) (e : ℕ) : (P e).Nodup := by
  rcases lt_or_ge e D.length with he | he
  · obtain ⟨M, hM⟩ : ∃ M, D[e]? = some M := ⟨_, List.getElem?_eq_getElem he⟩
    rw [H.Peq e M hM]
    simp only [stepOut, List.Nodup, List.pairwise_filterMap, imMat_getD]
    refine List.Pairwise.imp_of_mem ?_ (nonPivots_nodup M.ncols (P (e + 1)))
    intro a b ha hb hab i hi j hj hij
    subst hij
    exact hab ((H.kap_eq F hp hM ha hi).2.symm.trans (H.kap_eq F hp hM hb hj).2)
  · rw [H.Plast e he]; exact List.nodup_nil

/-- The finite bars. -/
theorem PHTrace.fin_eq (hp : p.Prime) (e : ℕ) :
    fin e = ((P e).filter fun j => decide (bR R e j < dR maxRad R P rts e j)).map
      (keyBar maxRad R P rts e) := by
  rcases lt_or_ge e D.length with he | he
  · obtain ⟨M, hM⟩ : ∃ M, D[e]? = some M := ⟨_, List.getElem?_eq_getElem he⟩
    rw [H.fineq e M hM]
    rw [← filterMap_ite]
    rw [H.Peq e M hM]
    simp only [stepOut, imMat_getD]
    refine filterMap_bind_of _ _ _ _ fun k hk => ?_
    simp only [phFinite, imMat_getD]
    cases hi : indexPivot ((rts e).getD k ([], [])).1 with
    | none => rfl
    | some j =>
      obtain ⟨h1, h2⟩ := H.kap_eq F hp hM hk hi
      simp only [Option.bind_some, dR, if_pos h1, h2, keyBar, colOf]
      rfl
  · rw [H.finlast e he, H.Plast e he]; rfl

/-- The infinite bars of positive degree. -/
theorem PHTrace.inf_eq (e : ℕ) (M : Mat) (hM : D[e]? = some M) :
    (stepOut maxRad M (R.getD e []) (R.getD (e + 1) []) (P (e + 1)) (rts e)).infinite =
      ((nonPivots (nn R (e + 1)) (P (e + 1))).filter fun k =>
        decide (npAny ((rts e).getD k ([], [])).1 = false)).map (keyBar maxRad R P rts (e + 1)) := by
  rw [← filterMap_ite]
  simp only [stepOut, (F.rows e M hM).2]
  refine List.filterMap_congr fun k hk => ?_
  have := (mem_nonPivots.1 hk).2
  simp only [phInfinite, imMat_getD, trMat_getD, keyBar, dR, colOf, if_neg this]
  cases npAny ((rts e).getD k ([], [])).1 <;> simp [bR]

/-- The bars of the image. -/
theorem PHTrace.im_eq (hp : p.Prime) (e : ℕ) (M : Mat) (hM : D[e]? = some M) :
    (stepOut maxRad M (R.getD e []) (R.getD (e + 1) []) (P (e + 1)) (rts e)).im =
      (P e).map (keyIm maxRad R P rts e) := by
  rw [← List.filterMap_eq_map]
  conv_rhs => rw [H.Peq e M hM]
  simp only [stepOut, imMat_getD]
  refine filterMap_bind_of _ _ _ _ fun k hk => ?_
  simp only [phIm, imMat_getD, trMat_getD]
  cases hi : indexPivot ((rts e).getD k ([], [])).1 with
  | none =>
    rw [← npAny_eq_false'] at hi
    simp only [hi]; rfl
  | some j =>
    have hany : npAny ((rts e).getD k ([], [])).1 = true := by
      by_contra hc
      rw [Bool.not_eq_true, npAny_eq_false', hi] at hc
      cases hc
    obtain ⟨h1, h2⟩ := H.kap_eq F hp hM hk hi
    have hkP := (mem_nonPivots.1 hk).2
    simp only [hany, if_true, Option.bind_some, Function.comp, keyIm, dR, if_pos h1, h2, colOf,
      if_neg hkP]
    rfl

/-- Keys of `Hom[e]`: the basis elements which are cycles and live for a while. -/
structure KeysOK (p : ℕ) (maxRad : α) (D : List Mat) (R : List (List α)) (P : ℕ → List Nat)
    (rts : ℕ → List (List Int × List Int)) (e : ℕ) (keys : List ℕ) : Prop where
  nodup : keys.Nodup
  mem : ∀ j, j ∈ keys ↔ j < nn R e ∧ bdry p D e (zv p (colOf (nn R) P rts e j)) = 0 ∧
    bR R e j < dR maxRad R P rts e j

omit F H in
theorem bR_lt {e j : ℕ} (F : FiltComplex p D R maxRad) (h : j < nn R e) : bR R e j < maxRad := by
  rw [bR, List_getD_eq_getElem _ _ h]
  have : e < R.length := by
    by_contra hc
    rw [nn, List.getD_eq_getElem?_getD, List.getElem?_eq_none (by omega)] at h
    simp at h
  refine F.bound (R.getD e []) ?_ _ (List.getElem_mem _)
  rw [List_getD_eq_getElem _ _ this]; exact List.getElem_mem this

theorem PHTrace.keys_zero (hp : p.Prime) :
    ∃ keys, KeysOK p maxRad D R P rts 0 keys ∧
      phZero maxRad (nn R 0) (P 0) (fin 0) = keys.map (keyBar maxRad R P rts 0) := by
  refine ⟨((P 0).filter fun j => decide (bR R 0 j < dR maxRad R P rts 0 j)) ++
    nonPivots (nn R 0) (P 0), ⟨?_, ?_⟩, ?_⟩
  · refine List.Nodup.append ((H.P_nodup F hp 0).filter _) (nonPivots_nodup _ _) ?_
    intro a ha hb
    exact (mem_nonPivots.1 hb).2 (List.mem_of_mem_filter ha)
  · intro j
    simp only [List.mem_append, List.mem_filter, decide_eq_true_eq, mem_nonPivots]
    constructor
    · rintro (⟨h1, h2⟩ | ⟨h1, h2⟩)
      · exact ⟨H.P_lt F h1, rfl, h2⟩
      · refine ⟨h1, rfl, ?_⟩
        rw [dR, if_neg h2]; exact bR_lt F h1
    · rintro ⟨h1, -, h3⟩
      by_cases hP : j ∈ P 0
      · exact Or.inl ⟨hP, h3⟩
      · exact Or.inr ⟨h1, hP⟩
  · rw [phZero, List.map_append, ← H.fin_eq F hp 0]
    congr 1
    refine List.map_congr_left fun k hk => ?_
    have hk' := mem_nonPivots.1 hk
    simp only [keyBar, dR, if_neg hk'.2, colOf]
    have h0 : bR R 0 k = 0 := by
      rw [bR, List_getD_eq_getElem _ _ hk'.1]; exact F.zero _ (List.getElem_mem _)
    rw [h0]

theorem PHTrace.keys_succ (hp : p.Prime) (e : ℕ) (he : e < D.length) :
    ∃ keys L, KeysOK p maxRad D R P rts (e + 1) keys ∧ levels[e]? = some L ∧
      L.hom = keys.map (keyBar maxRad R P rts (e + 1)) ∧
      L.im = (P e).map (keyIm maxRad R P rts e) := by
  obtain ⟨M, hM⟩ : ∃ M, D[e]? = some M := ⟨_, List.getElem?_eq_getElem he⟩
  have hm := H.matching F hp
  refine ⟨((P (e + 1)).filter fun j => decide (bR R (e + 1) j < dR maxRad R P rts (e + 1) j)) ++
    ((nonPivots (nn R (e + 1)) (P (e + 1))).filter fun k =>
        decide (npAny ((rts e).getD k ([], [])).1 = false)), _, ⟨?_, ?_⟩, H.leveq e M hM, ?_, ?_⟩
  · refine List.Nodup.append ((H.P_nodup F hp _).filter _) ((nonPivots_nodup _ _).filter _) ?_
    intro a ha hb
    exact (mem_nonPivots.1 (List.mem_of_mem_filter hb)).2 (List.mem_of_mem_filter ha)
  · intro j
    simp only [List.mem_append, List.mem_filter, decide_eq_true_eq, mem_nonPivots]
    have hzero : ∀ j, j < nn R (e + 1) → j ∉ P (e + 1) →
        (npAny ((rts e).getD j ([], [])).1 = false ↔
          bdry p D (e + 1) (zv p (colOf (nn R) P rts (e + 1) j)) = 0) := by
      intro j hj hjP
      have hjM : j < M.ncols := by rw [(F.rows e M hM).2]; exact hj
      have e1 : zv p (colOf (nn R) P rts (e + 1) j) = tv p (rts e) j := by
        simp only [colOf, if_neg hjP]; rfl
      rw [e1, H.bdry_tv F hM hp hjM hjP]
      exact ((H.gok e M hM).rv_red (by rw [H.rlen e M hM]; exact hjM)).npAny_false hp.pos
    constructor
    · rintro (⟨h1, h2⟩ | ⟨⟨h1, h2⟩, h3⟩)
      · exact ⟨H.P_lt F h1, by
          have := Fact.mk hp
          exact hm.bd_P (e + 1) h1, h2⟩
      · refine ⟨h1, (hzero j h1 h2).1 h3, ?_⟩
        rw [dR, if_neg h2]; exact bR_lt F h1
    · rintro ⟨h1, h2, h3⟩
      by_cases hP : j ∈ P (e + 1)
      · exact Or.inl ⟨hP, h3⟩
      · exact Or.inr ⟨⟨h1, hP⟩, (hzero j h1 hP).2 h2⟩
  · rw [List.map_append, ← H.fin_eq F hp (e + 1), H.inf_eq F e M hM]
  · rw [H.im_eq F hp e M hM]

/-- Shape of the coordinates. -/
theorem PHTrace.colOf_ok (hp : p.Prime) {e j : ℕ} (hj : j < nn R e) :
    (colOf (nn R) P rts e j).length = nn R e ∧ RedL p (colOf (nn R) P rts e j) := by
  by_cases hP : j ∈ P e
  · obtain ⟨M, hM⟩ := H.mem_P F hP
    obtain ⟨h1, h2, h3⟩ := H.kap_spec F hP
    have h1 : kap (nn R (e + 1)) (P (e + 1)) (rts e) j < (rts e).length := by
      rw [H.rlen e M hM, (F.rows e M hM).2]; exact h1
    have := (H.gok e M hM).ok _ (List.getElem_mem h1)
    simp only [colOf, if_pos hP]
    rw [List_getD_eq_getElem _ _ h1]
    exact ⟨by rw [this.len1, (F.rows e M hM).1]; rfl, this.red1⟩
  · cases e with
    | zero =>
      simp only [colOf, if_neg hP]
      refine ⟨by simp [unitVec], ?_⟩
      intro x hx
      simp only [unitVec, List.mem_map] at hx
      obtain ⟨i, -, rfl⟩ := hx
      have := hp.two_le
      split <;> omega
    | succ e =>
      obtain ⟨M, hM⟩ := F.exists_diff hj
      have h1 : j < (rts e).length := by rw [H.rlen e M hM, (F.rows e M hM).2]; exact hj
      have := (H.gok e M hM).ok _ (List.getElem_mem h1)
      simp only [colOf, if_neg hP]
      rw [List_getD_eq_getElem _ _ h1]
      exact ⟨by rw [this.len2, (F.rows e M hM).2]; rfl, this.red2⟩

end trace

/-! ## Storing the results -/

theorem maskBy_all {β γ : Type} (q : β → Bool) (l : List β) (m : List γ) (h : l.length = m.length)
    (hq : ∀ x ∈ l, q x = true) : maskBy (l.map q) m = m := by
  induction l generalizing m with
  | nil => cases m <;> simp_all [maskBy]
  | cons a l ih =>
    cases m with
    | nil => simp at h
    | cons b m => simp [maskBy, hq a (by simp), ih m (by simpa using h) fun x hx => hq x (by simp [hx])]

/-- What `storeHom` returns. -/
structure HomOK (rnd : α → α) (n : ℕ) (bar : ℕ → BarCol α) (keys : List ℕ) (B : Basis α) : Prop where
  bars : B.barcode = keys.map fun j => (bar j).1
  cols : B.coords.cols = keys.map fun j => (bar j).2
  rows : keys ≠ [] → B.coords.nrows = n ∧ B.prevDim = some n
  dim : B.dim = keys.length
  order : B.barcode.Pairwise (barLE rnd)
  broken : B.brokenDiff = none

theorem storeHom_spec (rnd : α → α) (n : ℕ) (bar : ℕ → BarCol α) (keys : List ℕ)
    (hb : ∀ j ∈ keys, (bar j).1.1 < (bar j).1.2) :
    ∃ B keys', storeHom rnd n n (keys.map bar) = .ok B ∧ keys'.Perm keys ∧ HomOK rnd n bar keys' B := by
  by_cases hk : keys = []
  · subst hk
    exact ⟨_, [], rfl, List.Perm.refl _, rfl, rfl, by simp, rfl, by simp, rfl⟩
  · have hne : keys.map bar ≠ [] := by simpa using hk
    have hmask : ∀ x ∈ (keys.map bar).map Prod.fst, decide (x.1 < x.2) = true := by
      intro x hx
      simp only [List.mem_map, exists_exists_and_eq_and] at hx
      obtain ⟨j, hj, rfl⟩ := hx
      exact decide_eq_true (hb j hj)
    have hfil : ((keys.map bar).map Prod.fst).filter (fun b => decide (b.1 < b.2)) =
        (keys.map bar).map Prod.fst := List.filter_eq_self.2 hmask
    have hinit : Basis.init ((keys.map bar).map Prod.fst) false (some n)
        ⟨n, (keys.map bar).map Prod.snd⟩ false false none = .ok
        { barcode := (keys.map bar).map Prod.fst, flat := false, dim := keys.length
          prevDim := some n, coords := ⟨n, (keys.map bar).map Prod.snd⟩, sorted := false
          wellDefined := none, brokenDiff := none } := by
      unfold Basis.init initCoords
      have h1 : (Mat.mk n ((keys.map bar).map Prod.snd)).ncols ≠ 0 := by
        simpa [Mat.ncols] using hk
      have h2 : ((keys.map bar).map Prod.fst).length =
        (Mat.mk n ((keys.map bar).map Prod.snd)).ncols := by simp [Mat.ncols]
      simp only [h1, if_false, h2, ne_eq, not_true_eq_false, hfil]
      rw [barMask, maskBy_all _ _ _ (by simp) hmask]
      simp [Mat.ncols]
    have hperm : (sortOrder rnd ((keys.map bar).map Prod.fst)).Perm (List.range keys.length) := by
      have := sortOrder_perm rnd ((keys.map bar).map Prod.fst)
      simpa using this
    have hkp := gather_perm (l := keys) hperm
    have hstab := sortOrder_stable rnd ((keys.map bar).map Prod.fst)
    have hlt : ∀ i ∈ sortOrder rnd ((keys.map bar).map Prod.fst),
        i < ((keys.map bar).map Prod.fst).length := by
      intro i hi
      have := (sortOrder_perm rnd ((keys.map bar).map Prod.fst)).mem_iff.1 hi
      exact List.mem_range.1 this
    have hord : (gather ((keys.map bar).map Prod.fst)
        (sortOrder rnd ((keys.map bar).map Prod.fst))).Pairwise (barLE rnd) := by
      unfold gather
      rw [List.pairwise_filterMap]
      refine hstab.imp ?_
      intro i j h a ha b hb
      exact (h a b ha hb).1
    refine ⟨{ barcode := gather ((keys.map bar).map Prod.fst)
                (sortOrder rnd ((keys.map bar).map Prod.fst))
              flat := false, dim := keys.length, prevDim := some n
              coords := ⟨n, gather ((keys.map bar).map Prod.snd)
                (sortOrder rnd ((keys.map bar).map Prod.fst))⟩
              sorted := true, wellDefined := none, brokenDiff := none },
      gather keys (sortOrder rnd ((keys.map bar).map Prod.fst)), ?_, hkp, ?_⟩
    · unfold storeHom
      rw [if_neg hne, hinit]
      simp only [Basis.sort, Bool.false_eq_true, if_false, Except.map]
      rfl
    · constructor
      · simp only [gather_map, List.map_map]; rfl
      · simp only [gather_map, List.map_map]; rfl
      · intro _; simp
      · exact hkp.length_eq.symm
      · exact hord
      · rfl

/-- What `storeIm` returns. -/
structure ImOK (rnd : α → α) (n n' : ℕ) (bar : ℕ → BarCol α × List Int) (keys : List ℕ)
    (B : Basis α) (Q : Mat) : Prop extends HomOK rnd n (fun j => (bar j).1) keys B where
  pcols : Q.cols = keys.map fun j => (bar j).2
  prows : Q.nrows = n'

theorem storeIm_spec (rnd : α → α) (n n' : ℕ) (bar : ℕ → BarCol α × List Int) (keys : List ℕ)
    (hb : ∀ j ∈ keys, (bar j).1.1.1 < (bar j).1.1.2) :
    ∃ B Q keys', storeIm rnd n n' n (keys.map bar) = .ok (B, Q) ∧ keys'.Perm keys ∧
      ImOK rnd n n' bar keys' B Q := by
  by_cases hk : keys = []
  · subst hk
    exact ⟨_, _, [], rfl, List.Perm.refl _, ⟨⟨rfl, rfl, by simp, rfl, by simp, rfl⟩, rfl, rfl⟩⟩
  · have hne : keys.map bar ≠ [] := by simpa using hk
    have hne1 : (keys.map bar).map (fun x => x.1.1) ≠ [] := by simpa using hk
    have hmask : ∀ x ∈ (keys.map bar).map (fun x => x.1.1), decide (x.1 < x.2) = true := by
      intro x hx
      simp only [List.mem_map, exists_exists_and_eq_and] at hx
      obtain ⟨j, hj, rfl⟩ := hx
      exact decide_eq_true (hb j hj)
    have hfil : ((keys.map bar).map (fun x => x.1.1)).filter (fun b => decide (b.1 < b.2)) =
        (keys.map bar).map (fun x => x.1.1) := List.filter_eq_self.2 hmask
    have hinit : Basis.init ((keys.map bar).map (fun x => x.1.1)) false (some n)
        ⟨n, (keys.map bar).map (fun x => x.1.2)⟩ true false none = .ok
        { barcode := (keys.map bar).map (fun x => x.1.1), flat := false, dim := keys.length
          prevDim := some n, coords := ⟨n, (keys.map bar).map (fun x => x.1.2)⟩, sorted := false
          wellDefined := some (barMask ((keys.map bar).map (fun x => x.1.1)))
          brokenDiff := none } := by
      unfold Basis.init initCoords
      have h1 : (Mat.mk n ((keys.map bar).map (fun x => x.1.2))).ncols ≠ 0 := by
        simpa [Mat.ncols] using hk
      have h2 : ((keys.map bar).map (fun x => x.1.1)).length =
        (Mat.mk n ((keys.map bar).map (fun x => x.1.2))).ncols := by simp [Mat.ncols]
      have h3 : ((keys.map bar).map (fun x => x.1.1)).isEmpty = false := by
        simpa using hk
      simp only [h1, if_false, h2, ne_eq, not_true_eq_false, hfil, h3]
      rw [barMask, maskBy_all _ _ _ (by simp) hmask]
      simp [Mat.ncols]
    have hperm : (sortOrder rnd ((keys.map bar).map (fun x => x.1.1))).Perm
        (List.range keys.length) := by
      have := sortOrder_perm rnd ((keys.map bar).map (fun x => x.1.1))
      simpa using this
    have hkp := gather_perm (l := keys) hperm
    have hstab := sortOrder_stable rnd ((keys.map bar).map (fun x => x.1.1))
    have hord : (gather ((keys.map bar).map (fun x => x.1.1))
        (sortOrder rnd ((keys.map bar).map (fun x => x.1.1)))).Pairwise (barLE rnd) := by
      unfold gather
      rw [List.pairwise_filterMap]
      refine hstab.imp ?_
      intro i j h a ha b hb
      exact (h a b ha hb).1
    refine ⟨{ barcode := gather ((keys.map bar).map (fun x => x.1.1))
                (sortOrder rnd ((keys.map bar).map (fun x => x.1.1)))
              flat := false, dim := keys.length, prevDim := some n
              coords := ⟨n, gather ((keys.map bar).map (fun x => x.1.2))
                (sortOrder rnd ((keys.map bar).map (fun x => x.1.1)))⟩
              sorted := true
              wellDefined := some (barMask ((keys.map bar).map (fun x => x.1.1)))
              brokenDiff := none },
      ⟨n', gather (maskBy (barMask ((keys.map bar).map (fun x => x.1.1)))
        ((keys.map bar).map fun x => x.2)) (sortOrder rnd ((keys.map bar).map (fun x => x.1.1)))⟩,
      gather keys (sortOrder rnd ((keys.map bar).map (fun x => x.1.1))), ?_, hkp, ?_⟩
    · unfold storeIm
      rw [if_neg hne, hinit]
      simp only [Basis.sort, Bool.false_eq_true, if_false]
      rfl
    · constructor
      · constructor
        · simp only [gather_map, List.map_map]; rfl
        · simp only [gather_map, List.map_map]; rfl
        · intro _; simp
        · exact hkp.length_eq.symm
        · exact hord
        · rfl
      · simp only []
        rw [barMask, maskBy_all _ _ _ (by simp) hmask, gather_map, gather_map, List.map_map]; rfl
      · rfl


omit [Zero α] in
theorem tail_getD' (R : List (List α)) (e : ℕ) : R.tail.getD e [] = R.getD (e + 1) [] := by
  cases R <;> simp

theorem storeHoms_spec (rnd : α → α) (maxRad : α) (Q : ℕ → Basis α → Prop) (Ls : List (PHLevel α)) :
    ∀ (Rs : List (List α)) (k : ℕ),
    (∀ (i : ℕ) L, Ls[i]? = some L → ∃ B,
      storeHom rnd (Rs.getD i []).length (basisDim maxRad (Rs.getD i [])) L.hom = .ok B ∧
        Q (k + i) B) →
    ∃ Bs, storeHoms rnd maxRad Ls Rs = .ok Bs ∧ Bs.length = Ls.length ∧
      ∀ (i : ℕ) L, Ls[i]? = some L → ∃ B, Bs[i]? = some B ∧ Q (k + i) B := by
  induction Ls with
  | nil => intro Rs k _; exact ⟨[], rfl, rfl, by simp⟩
  | cons L Ls ih =>
    intro Rs k h
    obtain ⟨B, hB, hQ⟩ := h 0 L rfl
    obtain ⟨Bs, h1, h2, h3⟩ := ih Rs.tail (k + 1) (fun i L' hi => by
      obtain ⟨B', hB', hQ'⟩ := h (i + 1) L' (by simpa using hi)
      rw [tail_getD']
      exact ⟨B', hB', by rwa [Nat.add_assoc, Nat.add_comm 1 i]⟩)
    refine ⟨B :: Bs, ?_, by simp [h2], ?_⟩
    · simp only [storeHoms, hB, h1]
    · intro i L' hi
      cases i with
      | zero => exact ⟨B, rfl, hQ⟩
      | succ i =>
        obtain ⟨B', hB', hQ'⟩ := h3 i L' (by simpa using hi)
        exact ⟨B', by simpa using hB', by rwa [Nat.add_assoc, Nat.add_comm 1 i] at hQ'⟩

theorem storeIms_spec (rnd : α → α) (maxRad : α) (Q : ℕ → Basis α × Mat → Prop)
    (Ls : List (PHLevel α)) :
    ∀ (R : List (List α)) (bd : ℕ) (k : ℕ),
    (∀ (i : ℕ) L, Ls[i]? = some L → ∃ B,
      storeIm rnd (R.getD i []).length (R.getD (i + 1) []).length
        (if i = 0 then bd else basisDim maxRad (R.getD i [])) L.im = .ok B ∧ Q (k + i) B) →
    ∃ Bs, storeIms rnd maxRad Ls (R.getD 0 []).length bd R.tail = .ok Bs ∧ Bs.length = Ls.length ∧
      ∀ (i : ℕ) L, Ls[i]? = some L → ∃ B, Bs[i]? = some B ∧ Q (k + i) B := by
  induction Ls with
  | nil => intro R bd k _; exact ⟨[], rfl, rfl, by simp⟩
  | cons L Ls ih =>
    intro R bd k h
    obtain ⟨B, hB, hQ⟩ := h 0 L rfl
    obtain ⟨Bs, h1, h2, h3⟩ := ih R.tail (basisDim maxRad (R.tail.getD 0 [])) (k + 1)
      (fun i L' hi => by
        obtain ⟨B', hB', hQ'⟩ := h (i + 1) L' (by simpa using hi)
        rw [tail_getD', tail_getD']
        refine ⟨B', ?_, by rwa [Nat.add_assoc, Nat.add_comm 1 i]⟩
        rw [if_neg (by omega)] at hB'
        by_cases h0 : i = 0
        · subst h0; rw [if_pos rfl, tail_getD']; exact hB'
        · rw [if_neg h0]; exact hB')
    refine ⟨B :: Bs, ?_, by simp [h2], ?_⟩
    · rw [if_pos rfl, ← tail_getD'] at hB
      simp only [storeIms, hB]
      rw [h1]
    · intro i L' hi
      cases i with
      | zero => exact ⟨B, rfl, hQ⟩
      | succ i =>
        obtain ⟨B', hB', hQ'⟩ := h3 i L' (by simpa using hi)
        exact ⟨B', by simpa using hB', by rwa [Nat.add_assoc, Nat.add_comm 1 i] at hQ'⟩

theorem FiltComplex.basisDim_eq {maxRad : α} {D : List Mat} {R : List (List α)}
    (F : FiltComplex p D R maxRad) (e : ℕ) : basisDim maxRad (R.getD e []) = nn R e := by
  unfold basisDim nn
  congr 1
  rw [List.filter_eq_self]
  intro r hr
  refine decide_eq_true ?_
  have : e < R.length := by
    by_contra hc
    rw [List.getD_eq_getElem?_getD, List.getElem?_eq_none (by omega)] at hr
    simp at hr
  refine F.bound (R.getD e []) ?_ r hr
  rw [List_getD_eq_getElem _ _ this]; exact List.getElem_mem this

/-- Everything about the output of `persistent_homology`. -/
structure PHSpec (p : ℕ) (rnd : α → α) (maxRad : α) (D : List Mat) (R : List (List α))
    (P : ℕ → List Nat) (rts : ℕ → List (List Int × List Int)) (out : PHOut α) : Prop where
  homlen : out.hom.length = D.length + 1
  imlen : out.im.length = D.length + 1
  prelen : out.preIm.length = D.length + 1
  hom : ∀ e, e ≤ D.length → ∃ B keys, out.hom[e]? = some B ∧ KeysOK p maxRad D R P rts e keys ∧
    HomOK rnd (nn R e) (keyBar maxRad R P rts e) keys B
  im : ∀ e, e < D.length → ∃ B Q keys, out.im[e]? = some B ∧ out.preIm[e + 1]? = some Q ∧
    keys.Perm (P e) ∧ ImOK rnd (nn R e) (nn R (e + 1)) (keyIm maxRad R P rts e) keys B Q
  top : ∃ B, out.im[D.length]? = some B ∧ B.barcode = [] ∧ B.dim = 0
  pre0 : out.preIm[0]? = some ⟨0, []⟩

theorem persistentHomology_spec (hp : p.Prime) (rnd : α → α) {maxRad : α} {D : List Mat}
    {R : List (List α)} (F : FiltComplex p D R maxRad) :
    ∃ out P rts fin levels, persistentHomology rnd p (R.getD 0 []).length D R maxRad = .ok out ∧
      PHTrace p maxRad D R P rts fin levels ∧ PHSpec p rnd maxRad D R P rts out := by
  have hD : ∀ M ∈ D, M.WellShaped ∧ M.Reduced p ∧ (M.nrows = 0 → M.ncols = 0) := by
    intro M hM
    obtain ⟨e, he, rfl⟩ := List.getElem_of_mem hM
    refine ⟨(F.shape _ hM).1, (F.shape _ hM).2, fun h0 => ?_⟩
    have hr := F.rows e _ (List.getElem?_eq_getElem he)
    by_contra hc
    apply F.faces e
    · intro h; rw [hr.2, h] at hc; exact hc rfl
    · rw [← List.length_eq_zero_iff, ← hr.1]; exact h0
  obtain ⟨P, rts, fin, levels, h1, H⟩ := phLoop_trace hp maxRad D hD R
  obtain ⟨k0, hk0, e0⟩ := H.keys_zero F hp
  obtain ⟨B0, k0', hB0, hperm0, hok0⟩ := storeHom_spec rnd (nn R 0) (keyBar maxRad R P rts 0) k0
    (fun j hj => ((hk0.mem j).1 hj).2.2)
  have KOK : ∀ {e keys keys'}, KeysOK p maxRad D R P rts e keys → keys'.Perm keys →
      KeysOK p maxRad D R P rts e keys' := by
    intro e keys keys' hk hp'
    exact ⟨hp'.nodup_iff.2 hk.nodup, fun j => by rw [hp'.mem_iff]; exact hk.mem j⟩
  have hlev : ∀ (i : ℕ) L, levels[i]? = some L → i < D.length := by
    intro i L h; rw [← H.len]; exact (List.getElem?_eq_some_iff.1 h).1
  obtain ⟨Hs, hHs, hHl, hHq⟩ := storeHoms_spec rnd maxRad
    (fun e B => ∃ keys, KeysOK p maxRad D R P rts e keys ∧
      HomOK rnd (nn R e) (keyBar maxRad R P rts e) keys B) levels R.tail 1 (by
    intro i L hL
    obtain ⟨keys, L', hk, hL', hh, -⟩ := H.keys_succ F hp i (hlev i L hL)
    rw [hL] at hL'; cases hL'
    obtain ⟨B, k', hB, hperm, hok⟩ := storeHom_spec rnd (nn R (i + 1))
      (keyBar maxRad R P rts (i + 1)) keys (fun j hj => ((hk.mem j).1 hj).2.2)
    rw [tail_getD', F.basisDim_eq, hh]
    refine ⟨B, hB, k', ?_, ?_⟩
    · rw [Nat.add_comm 1 i]; exact KOK hk hperm
    · rw [Nat.add_comm 1 i]; exact hok)
  obtain ⟨Is, hIs, hIl, hIq⟩ := storeIms_spec rnd maxRad
    (fun e BQ => ∃ keys, keys.Perm (P e) ∧
      ImOK rnd (nn R e) (nn R (e + 1)) (keyIm maxRad R P rts e) keys BQ.1 BQ.2) levels R
      (nn R 0) 0 (by
    intro i L hL
    obtain ⟨keys, L', hk, hL', -, hi⟩ := H.keys_succ F hp i (hlev i L hL)
    rw [hL] at hL'; cases hL'
    obtain ⟨B, Q, k', hB, hperm, hok⟩ := storeIm_spec rnd (nn R i) (nn R (i + 1))
      (keyIm maxRad R P rts i) (P i) (fun j hj => by
        simp only [keyIm, dR, if_pos hj]
        exact bR_lt F (H.kap_spec F hj).1)
    refine ⟨(B, Q), ?_, k', ?_, ?_⟩
    · rw [hi, F.basisDim_eq]
      have : (if i = 0 then nn R 0 else nn R i) = nn R i := by
        split
        · next h => rw [h]
        · rfl
      rw [this]; exact hB
    · rw [Nat.zero_add]; exact hperm
    · rw [Nat.zero_add]; exact hok)
  obtain ⟨top, htop0⟩ : ∃ top : Basis α, top =
    { barcode := [], flat := true, dim := 0, prevDim := none, coords := ⟨1, []⟩, sorted := false
      wellDefined := none, brokenDiff := none } := ⟨_, rfl⟩
  refine ⟨{ hom := B0 :: Hs, im := Is.map Prod.fst ++ [top], preIm := ⟨0, []⟩ :: Is.map Prod.snd },
    P, rts, fin, levels, ?_, H, ?_⟩
  · unfold persistentHomology
    rw [if_neg F.ne, h1]
    simp only []
    have e0' : phZero maxRad (R.getD 0 []).length (P 0) (fin 0) = _ := e0
    have hB0' : storeHom rnd (R.getD 0 []).length (R.getD 0 []).length
      (k0.map (keyBar maxRad R P rts 0)) = _ := hB0
    rw [e0', hB0', hHs]
    simp only []
    have hIs' : storeIms rnd maxRad levels (R.getD 0 []).length (R.getD 0 []).length R.tail = _ := hIs
    rw [hIs', htop0]
    rfl
  · have htop : (Is.map Prod.fst).length = D.length := by rw [List.length_map, hIl, H.len]
    constructor
    · simp [hHl, H.len]
    · simp [hIl, H.len]
    · simp [hIl, H.len]
    · intro e he
      cases e with
      | zero => exact ⟨B0, k0', rfl, KOK hk0 hperm0, hok0⟩
      | succ e =>
        obtain ⟨B, hB, keys, hk, hok⟩ := hHq e _ (List.getElem?_eq_getElem (by rw [H.len]; omega))
        rw [Nat.add_comm 1 e] at hk hok
        exact ⟨B, keys, by simpa using hB, hk, hok⟩
    · intro e he
      obtain ⟨⟨B, Q⟩, hB, keys, hk, hok⟩ := hIq e _ (List.getElem?_eq_getElem (by rw [H.len]; omega))
      rw [Nat.zero_add] at hk hok
      refine ⟨B, Q, keys, ?_, ?_, hk, hok⟩
      · simp only []
        rw [List.getElem?_append_left (by omega), List.getElem?_map, hB]; rfl
      · simp only [List.getElem?_cons_succ]
        rw [List.getElem?_map, hB]; rfl
    · refine ⟨top, ?_, by rw [htop0], by rw [htop0]⟩
      simp only []
      rw [List.getElem?_append_right (by omega), htop, Nat.sub_self]; rfl
    · rfl

end Permaviss
