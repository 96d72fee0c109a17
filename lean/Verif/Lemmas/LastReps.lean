import Verif.Lemmas.PlaneDiag

/-!
# The cycles which are stored with the last page, in total degree `e + 1`
-/

namespace Permaviss

open Finset

attribute [-instance] instMulZeroClassOfSemiring

section

variable {α : Type} [LinearOrder α] [Zero α] {rnd : α → α} {E : SSEnv α} {ρ : List ℕ → α}

/-- The sum over the pieces of the first column of the chains of expression `g`. -/
noncomputable def SSEnv.valSum (E : SSEnv α) (deg : ℕ) (X : LChains) (g : ℕ) : List ℕ →₀ ZMod E.p :=
  E.glSum deg fun k j => (X.val k g j : ZMod E.p)

/-- The representatives stored at the positions `(0, e + 1)` and `(1, e)` of the last page: their sums over the
pieces of the first column resolve the homology of the whole complex. -/
structure LastCycles (E : SSEnv α) (ρ : List ℕ → α) (N : ℕ) (S : SSt α) (e : ℕ) (X Y : LChains)
    [Fact E.p.Prime] : Prop where
  repsX : (S.hom (E.noPages - 1) 0 (e + 1)).basis.barcode ≠ [] → S.reps (E.noPages - 1) 0 (e + 1) = [X]
  repsY : (S.hom (E.noPages - 1) 1 e).basis.barcode ≠ [] → ∃ C, S.reps (E.noPages - 1) 1 e = [C, Y]
  wf : ∀ b ∈ (S.hom (E.noPages - 1) 0 (e + 1)).basis.barcode ++ (S.hom (E.noPages - 1) 1 e).basis.barcode,
    b.1 < b.2 ∧ b.2 ≤ E.maxR
  res : ∃ BD, Resolves ((S.hom (E.noPages - 1) 0 (e + 1)).basis.barcode ++ (S.hom (E.noPages - 1) 1 e).basis.barcode)
    E.maxR BD (E.ZG ρ N (e + 1)) (E.BG ρ N (e + 1)) fun j =>
      if j < (S.hom (E.noPages - 1) 0 (e + 1)).basis.barcode.length then E.valSum (e + 1) X j
      else E.valSum (e + 1) Y (j - (S.hom (E.noPages - 1) 0 (e + 1)).basis.barcode.length)

theorem Resolves.congr {K V : Type} [Field K] [AddCommGroup V] [Module K V] {bars : List (α × α)} {R : α}
    {D : ℕ → ℕ → K} {Z B : α → Submodule K V} {w w' : ℕ → V} (h : Resolves bars R D Z B w)
    (hw : ∀ j < bars.length, w j = w' j) : Resolves bars R D Z B w' := by
  have hlt : ∀ {j : ℕ} {b : α × α}, bars[j]? = some b → j < bars.length :=
    fun hb => (List.getElem?_eq_some_iff.1 hb).1
  refine ⟨h.monoZ, h.monoB, fun j b hb => hw j (hlt hb) ▸ h.born j b hb, fun t ht c hc => ?_, fun t ht => ?_,
    fun j b hb hR => ?_⟩
  · refine h.indep t ht c ?_
    rwa [Finset.sum_congr rfl fun j hj => by rw [hw j (mem_range.1 hj)]]
  · rw [h.span t ht]
    congr 2
    ext x
    constructor
    · rintro ⟨j, ⟨b, hb, hh⟩, rfl⟩; exact ⟨j, ⟨b, hb, hh⟩, hw j (hlt hb)⟩
    · rintro ⟨j, ⟨b, hb, hh⟩, rfl⟩; exact ⟨j, ⟨b, hb, hh⟩, (hw j (hlt hb)).symm⟩
  · have := h.dies j b hb hR
    rwa [hw j (hlt hb), Finset.sum_congr rfl fun i hi => by rw [hw i (mem_range.1 hi)]] at this

theorem lastCycles_of [Fact E.p.Prime] {N e : ℕ} {S : SSt α} {Q K : Basis α} {x : ℕ → ℕ → ZMod E.p}
    {v : ℕ → ℕ → ℕ → ZMod E.p} {Y : LChains} {BD : ℕ → ℕ → ZMod E.p}
    (q1 : (S.hom (E.noPages - 1) 0 (e + 1)).basis.barcode = Q.barcode)
    (k1 : (S.hom (E.noPages - 1) 1 e).basis.barcode = K.barcode)
    (dQ : Q.dim = Q.barcode.length) (dK : K.dim = K.barcode.length)
    (hX : Q.dim ≠ 0 → ∃ X, S.reps (E.noPages - 1) 0 (e + 1) = [X] ∧
      ChainIs E 0 (e + 1) Q.dim (fun k i => E.fam 0 (e + 1) k (x i)) X)
    (hY : K.dim ≠ 0 → (∃ C, S.reps (E.noPages - 1) 1 e = [C, Y]) ∧
      ChainIs E 0 (e + 1) K.dim (fun k j => v j k) Y)
    (hwf : ∀ b ∈ Q.barcode ++ K.barcode, b.1 < b.2 ∧ b.2 ≤ E.maxR)
    (hR : Resolves (Q.barcode ++ K.barcode) E.maxR BD (E.ZG ρ N (e + 1)) (E.BG ρ N (e + 1))
      (E.stripGen e Q.barcode.length x v)) :
    ∃ X Y, LastCycles E ρ N S e X Y := by
  obtain ⟨X, hX1, hX2⟩ : ∃ X : LChains, (Q.barcode ≠ [] → S.reps (E.noPages - 1) 0 (e + 1) = [X]) ∧
      ∀ i < Q.barcode.length, E.whole (e + 1) (x i) = E.valSum (e + 1) X i := by
    by_cases hq : Q.barcode = []
    · exact ⟨[], fun hc => absurd hq hc, fun i hi => by rw [hq] at hi; cases hi⟩
    · obtain ⟨X, x1, x2⟩ := hX (by rw [dQ]; exact fun hc => hq (List.length_eq_zero_iff.1 hc))
      refine ⟨X, fun _ => x1, fun i hi => ?_⟩
      rw [whole_eq]
      exact glSum_congr fun k hk => (x2.val k hk i (dQ ▸ hi)).symm
  refine ⟨X, Y, by rw [q1]; exact hX1, fun hne => ?_, by rw [q1, k1]; exact hwf, BD, ?_⟩
  · rw [k1] at hne
    exact (hY (by rw [dK]; exact fun hc => hne (List.length_eq_zero_iff.1 hc))).1
  · rw [q1, k1]
    refine hR.congr fun j hj => ?_
    unfold SSEnv.stripGen
    rw [List.length_append] at hj
    by_cases hjq : j < Q.barcode.length
    · rw [if_pos hjq, if_pos hjq, hX2 j hjq]
    · rw [if_neg hjq, if_neg hjq]
      have hK : K.dim ≠ 0 := by omega
      exact glSum_congr fun k hk => ((hY hK).2.val k hk _ (by omega)).symm

/-- Covers without triple intersections. -/
theorem strip_cycles (h : SSOK rnd E ρ) {N : ℕ} {D : Mat} (C : CoverOK E ρ N D) (hI : E.CechInj ρ D)
    (hlen : 2 ≤ E.columns.length) (hpos : 0 < E.spx 0)
    (hNp : E.noPages ≤ E.columns.length + 1) (h2 : 2 ≤ E.noPages)
    (hz : ∀ n deg, 2 ≤ n → E.firstBars deg n = []) {S : SSt α}
    (hS : allPages rnd E E.columns.length = .ok S) {e : ℕ} (he : e + 1 < E.rows)
    (hround : ∀ i j, i = e ∨ i = e + 1 → j = e ∨ j = e + 1 → ∀ n m, ∀ a ∈ E.firstBars i n,
      ∀ b ∈ E.firstBars j m, ∀ x, x = a.1 ∨ x = a.2 → ∀ y, y = b.1 ∨ y = b.2 → rnd x ≤ rnd y → x ≤ y)
    (hgap : E.firstBars e 0 = [] → E.firstBars e 1 = [])
    (hskip : E.firstBars e 1 ≠ [] → ∀ k < E.spx 0, E.classes 0 e k = 0 → E.G 0 k e = []) {nc : ℕ} (hnc : 2 ≤ nc)
    (hrun : (∃ out, diagonal rnd E S nc (e + 1) = .ok out) ∨ ∃ cols, diagCols rnd E S nc (e + 1) = .ok cols) :
    have := Fact.mk h.prime
    ∃ X Y, LastCycles E ρ N S e X Y := by
  intro hF
  have hD := C.diff
  obtain ⟨M, hM, -⟩ := firstDifferential_spec h hD C.cols he
  obtain ⟨M', hM', -⟩ := firstDifferential_spec h hD C.cols (show e < E.rows by omega)
  obtain ⟨Q, I, P0, G0, hbI, hcomb, -, hX⟩ := first_position h hlen hpos hNp h2 hz hS he
    (hround _ _ (Or.inr rfl) (Or.inr rfl)) hM
  obtain ⟨K, eK, dK, G1, birthK, keptK, hK⟩ := second_position h hlen hNp h2 hz hS (show e < E.rows by omega)
    (hround _ _ (Or.inl rfl) (Or.inl rfl)) hgap hskip hD hM'
  have hQR := G0.le_maxR h (by omega) he
  have hKR := G1.le_maxR h (by omega) (show e < E.rows by omega)
  have lastK : (S.hom (E.noPages - 1) 1 e).basis.barcode = K.barcode ∧
      (S.hom (E.noPages - 1) 1 e).basis.dim = K.dim := by
    by_cases hc : E.noPages = 2
    · rw [hc]
      change (S.hom 1 1 e).basis.barcode = _ ∧ (S.hom 1 1 e).basis.dim = _
      rw [eK]; exact ⟨rfl, rfl⟩
    · have := keptK (E.noPages - 1) (by omega) (by omega)
      exact ⟨this.bars, this.dim⟩
  have hlastQ := P0.last' h2
  have hzc : ZeroColumns S := allPages_zeroColumns hNp hz hS
  have dQ : Q.dim = Q.barcode.length := P0.liftH.dim
  have hpd : K.dim ≠ 0 → S.pageDim E (E.noPages - 1) e 1 ≠ 0 := by
    intro hk
    unfold SSt.pageDim
    by_cases hc : E.noPages = 2
    · rw [hc, if_pos rfl, ← h.firstBars_length' (by omega) (by omega)]
      obtain ⟨-, I1, P1, -⟩ := hK hk
      intro h0
      have hl := List.length_eq_zero_iff.1 h0
      have : K.barcode ≠ [] := by
        intro h1
        rw [h1] at dK
        exact hk dK
      obtain ⟨b, hb⟩ := List.exists_mem_of_ne_nil _ this
      obtain ⟨i, hi⟩ := List.mem_iff_getElem?.1 hb
      have h5 := G1.indep b.1 (Pi.single i 1)
        (fun j hj => Pi.single_eq_of_ne (by rintro rfl; exact hj ⟨b, hi, le_rfl, G1.wf b hb⟩) _) (by
          rw [hl]
          have : barRestr E.p ([] : List (α × α)) b.1 (∑ j ∈ range K.barcode.length,
              (Pi.single i 1 : ℕ → ZMod E.p) j • K.coords.zcol E.p j) = 0 := by
            funext j
            refine restr_apply_neg ?_
            rintro ⟨c, hc, -⟩
            simp at hc
          rw [this]; exact Submodule.zero_mem _) i
      rw [Pi.single_eq_same] at h5
      exact one_ne_zero h5
    · rw [if_neg (by omega)]
      by_cases hc3 : E.noPages = 3
      · rw [hc3]
        change (S.hom 1 1 e).basis.dim ≠ 0
        rw [eK]; exact hk
      · rw [(keptK (E.noPages - 1 - 1) (by omega) (by omega)).dim]
        exact hk
  obtain ⟨v, Y, hY, hlift, hext⟩ : ∃ (v : ℕ → ℕ → ℕ → ZMod E.p) (Y : LChains),
      (K.dim ≠ 0 → (∃ C, S.reps (E.noPages - 1) 1 e = [C, Y]) ∧ ChainIs E 0 (e + 1) K.dim (fun k j => v j k) Y) ∧
      (∀ j b, K.barcode[j]? = some b → ∀ k < E.spx 0, E.PresentAt ρ 0 k (e + 1) (v j k) b.1 ∧
        E.bd 0 k (e + 1) (v j k) + E.cechSum D 0 e k (fun l => E.fam 1 e l (K.coords.zcol E.p j)) = 0) ∧
      (K.dim ≠ 0 → ∀ exts, extension rnd E S 1 e = .ok exts → ∃ B1 B0, exts = [B1, B0] ∧
        MatOK E.p K.dim K.dim B1 ∧ anyRows B1.cols = false ∧ ExtOut E ρ D e K Q I v B0) := by
    by_cases hk : K.dim = 0
    · refine ⟨0, [], fun hc => absurd hk hc, fun j b hb => ?_, fun hc => absurd hk hc⟩
      rw [dK, List.length_eq_zero_iff] at hk
      rw [hk] at hb; simp at hb
    · obtain ⟨hp1, I1, P1, hI1, C1, L, v, hr, hC1, hL, -, hlift⟩ := hK hk
      exact ⟨v, L, fun _ => ⟨⟨C1, hr⟩, hL⟩, hlift, fun _ exts hx => extension_spec h hD C.cols hp1 hpos he h2 P1 hI1 hk P0 hKR hQR G1
        G0.born hbI hr hC1 hL hlift hX hx⟩
  have hdata : ∀ c : ℕ → ℕ → ZMod E.p,
      (K.dim ≠ 0 → ∃ B0, ExtOut E ρ D e K Q I v B0 ∧ c = fun i j => B0.zcol E.p j i) →
      StripData E ρ D M M' e Q.barcode K.barcode (Q.coords.zcol E.p) (K.coords.zcol E.p) v c := by
    intro c hc
    refine ⟨G0, G1, hlift, fun j b hb hbR => ?_⟩
    obtain ⟨B0, hB0, rfl⟩ := hc (by
      intro hk
      rw [dK, List.length_eq_zero_iff] at hk
      rw [hk] at hb; simp at hb)
    obtain ⟨u, g, w, h1, h3⟩ := hB0.dies j b hb hbR
    exact ⟨u, g, w, h1.born hbI, hcomb _ _ h1, h3⟩
  have hwf : ∀ b ∈ Q.barcode ++ K.barcode, b.1 < b.2 ∧ b.2 ≤ E.maxR := by
    intro b hb
    rcases List.mem_append.1 hb with hb | hb
    · exact ⟨G0.wf b hb, hQR b hb⟩
    · exact ⟨G1.wf b hb, hKR b hb⟩
  obtain ⟨hnil, hdiag⟩ | ⟨hne, ext, hdiag, r1, r2, r3, c, hc, hz'⟩ := diagonal_two
    (P := fun B0 => ExtOut E ρ D e K Q I v B0) hnc h2 hzc dQ dK hlastQ.1 hlastQ.2 lastK.1 lastK.2 hpd
    (fun hk exts hx => by
      obtain ⟨B1, B0, x1, x2, x3, x4⟩ := hext hk exts hx
      exact ⟨B1, B0, x1, x2, x3, x4.shape, x4⟩) hrun
  · have hK0 : K.barcode = [] := (List.append_eq_nil_iff.1 hnil).2
    have hR := strip_resolves h C hI he hM hM' (hdata (fun _ _ => 0) (fun hk => absurd (by rw [dK, hK0]; rfl) hk))
      hF (BD := fun _ _ => 0) (fun i _ j _ => by split <;> rfl)
    exact lastCycles_of hlastQ.1 lastK.1 dQ dK hX hY hwf hR
  · have hR := strip_resolves h C hI he hM hM' (hdata c hc) hF (BD := fun i j => ext.z E.p i j) hz'
    exact lastCycles_of hlastQ.1 lastK.1 dQ dK hX hY hwf hR

/-- Degree one, for any cover. -/
theorem plane_cycles (h : SSOK rnd E ρ) {N : ℕ} {D D' : Mat} (C : CoverOK E ρ N D)
    (hI : E.CechEx ρ D D') (hlen : 2 < E.columns.length) (hpos : 0 < E.spx 0) (he : 1 < E.rows)
    (hNp : E.noPages ≤ E.columns.length + 1) (h4 : 4 ≤ E.noPages) (hD' : E.nerveDiff[1]? = some D')
    (hR : 0 < E.maxR)
    (hg : ∀ d, E.firstBars 0 d = [] → E.firstBars 0 (d + 1) = [])
    (hb0 : ∀ d < E.columns.length, ∀ b ∈ E.firstBars 0 d, b.1 = 0)
    (hzero : E.ZG ρ N 1 0 ≤ E.BG ρ N 1 0)
    (hround : ∀ i j, i < 2 → j < 2 → ∀ n m, ∀ a ∈ E.firstBars i n,
      ∀ b ∈ E.firstBars j m, ∀ x, x = a.1 ∨ x = a.2 → ∀ y, y = b.1 ∨ y = b.2 → rnd x ≤ rnd y → x ≤ y)
    {S : SSt α} (hS : allPages rnd E E.columns.length = .ok S) {nc : ℕ} (hnc : 2 ≤ nc) {out : Option (Basis α)}
    (hrun : diagonal rnd E S nc 1 = .ok out) :
    have := Fact.mk h.prime
    ∃ X Y, LastCycles E ρ N S 0 X Y := by
  intro hF
  obtain ⟨M1, hM1, -⟩ := firstDifferential_spec h C.diff C.cols he
  obtain ⟨M, hM, -⟩ := firstDifferential_spec h C.diff C.cols (show 0 < E.rows by omega)
  obtain ⟨M2, hM2, -⟩ := firstDifferential_spec h hD' hlen (show 0 < E.rows by omega)
  obtain ⟨K, I, H, I1, Q, I2, A⟩ := plane_pages h C hI hlen he hNp h4 hD' hM hM1 hM2 hg hb0
    (fun deg hd => hround deg deg hd hd) hS
  have hQR := A.third.endR
  have hKR := A.mid.gens.le_maxR h (by omega) (by omega)
  have dQ : Q.dim = Q.barcode.length := A.third.liftH.dim
  have dK : K.dim = K.barcode.length := A.mid.liftH.dim
  have lastK := A.keptK (E.noPages - 1) (by omega) (by omega)
  have lastQ := A.keptQ (E.noPages - 1) (by omega) (by omega)
  have hpd : K.dim ≠ 0 → S.pageDim E (E.noPages - 1) 0 1 ≠ 0 := by
    intro hk
    unfold SSt.pageDim
    rw [if_neg (by omega), (A.keptK (E.noPages - 1 - 1) (by omega) (by omega)).dim]
    exact hk
  set x : ℕ → ℕ → ZMod E.p := fun i => linOf (H.coords.zcol E.p) H.barcode.length (Q.coords.zcol E.p i) with hx
  obtain ⟨v, Y, hY, hlift, hext⟩ : ∃ (v : ℕ → ℕ → ℕ → ZMod E.p) (Y : LChains),
      (K.dim ≠ 0 → (∃ C, S.reps (E.noPages - 1) 1 0 = [C, Y]) ∧ ChainIs E 0 1 K.dim (fun k j => v j k) Y) ∧
      (∀ j b, K.barcode[j]? = some b → ∀ k < E.spx 0, E.PresentAt ρ 0 k 1 (v j k) b.1 ∧
        E.bd 0 k 1 (v j k) + E.cechSum D 0 0 k (fun l => E.fam 1 0 l (K.coords.zcol E.p j)) = 0) ∧
      (K.dim ≠ 0 → ∀ exts, extension rnd E S 1 0 = .ok exts → ∃ B1 B0, exts = [B1, B0] ∧
        PlaneExt E ρ N K Q x v B1 B0) := by
    by_cases hk : K.dim = 0
    · refine ⟨0, [], fun hc => absurd hk hc, fun j b hb => ?_, fun hc => absurd hk hc⟩
      rw [dK, List.length_eq_zero_iff] at hk
      rw [hk] at hb; simp at hb
    · obtain ⟨hp1, C1, L, v, hr, hC1, hL, hlift⟩ := A.repsK hk
      exact ⟨v, L, fun _ => ⟨⟨C1, hr⟩, hL⟩, hlift, fun _ exts hx => extension_plane h C hD' hlen hp1 hpos he h4 hR hb0 hzero hM1 hM2
        A.mid A.keptK hk A.first A.third A.keptQ hr hC1 hL hlift A.repsQ hx⟩
  have hdata : ∀ c c' : ℕ → ℕ → ZMod E.p,
      (K.dim ≠ 0 → ∃ B1 B0, PlaneExt E ρ N K Q x v B1 B0 ∧ c = (fun i j => B0.zcol E.p j i) ∧
        c' = fun i j => B1.zcol E.p j i) →
      PlaneData E ρ N D M M2 Q.barcode K.barcode x (K.coords.zcol E.p) v c c' := by
    intro c c' hc
    refine ⟨A.third.gens, ?_, hlift, fun j b hb hbR => ?_⟩
    · have := A.mid.gens
      rw [rowBounds_eq (by omega) hM2] at this
      exact this
    obtain ⟨B1, B0, hB, rfl, rfl⟩ := hc (by
      intro hk
      rw [dK, List.length_eq_zero_iff] at hk
      rw [hk] at hb; simp at hb)
    exact hB.dies j b hb hbR
  have hwf : ∀ b ∈ Q.barcode ++ K.barcode, b.1 < b.2 ∧ b.2 ≤ E.maxR := by
    intro b hb
    rcases List.mem_append.1 hb with hb | hb
    · exact ⟨A.third.gens.wf b hb, hQR b hb⟩
    · exact ⟨A.mid.gens.wf b hb, hKR b hb⟩
  obtain ⟨hnil, hdiag⟩ | ⟨hne, ext, -, hdiag, r1, r2, r3, c, c', hc, hz'⟩ := diagonal_pair (e := 0)
    (P := fun B1 B0 => PlaneExt E ρ N K Q x v B1 B0) hnc (by omega) (fun hc => absurd hc (by omega)) dQ dK
    lastQ.bars lastQ.dim lastK.bars lastK.dim hpd
    (fun hk exts hx => by
      obtain ⟨B1, B0, x1, x2⟩ := hext hk exts hx
      exact ⟨B1, B0, x1, x2.shape1, x2.shape0, x2⟩) (Or.inl ⟨out, hrun⟩)
  · have hK0 : K.barcode = [] := (List.append_eq_nil_iff.1 hnil).2
    have hRes := plane_resolves h C hD' hI hlen he hM hM2 (hdata (fun _ _ => 0) (fun _ _ => 0)
      (fun hk => absurd (by rw [dK, hK0]; rfl) hk))
      hF (BD := fun _ _ => 0) (fun i _ j _ => by split <;> [split <;> rfl; rfl])
    exact lastCycles_of (e := 0) lastQ.bars lastK.bars dQ dK A.repsQ hY hwf hRes
  · have hRes := plane_resolves h C hD' hI hlen he hM hM2 (hdata c c' hc) hF (BD := fun i j => ext.z E.p i j) hz'
    exact lastCycles_of (e := 0) lastQ.bars lastK.bars dQ dK A.repsQ hY hwf hRes

end

end Permaviss
