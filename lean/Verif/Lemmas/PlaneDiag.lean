import Verif.Lemmas.PlanePages
import Verif.Lemmas.StripDiag

/-!
# The diagonal of total degree one, for covers with triple intersections
-/

namespace Permaviss

open Finset

attribute [-instance] instMulZeroClassOfSemiring

section

variable {α : Type} [LinearOrder α] [Zero α] {rnd : α → α} {E : SSEnv α} {ρ : List ℕ → α}

/-- The homology of degree one is what the diagonal gives, when it gives a result. -/
theorem plane_diagonal (h : SSOK rnd E ρ) {N : ℕ} {D D' : Mat} (C : CoverOK E ρ N D)
    (hI : E.CechEx ρ D D') (hlen : 2 < E.columns.length) (hpos : 0 < E.spx 0) (he : 1 < E.rows)
    (hNp : E.noPages ≤ E.columns.length + 1) (h4 : 4 ≤ E.noPages) (hD' : E.nerveDiff[1]? = some D')
    (hR : 0 < E.maxR)
    (hg : ∀ d, E.firstBars 0 d = [] → E.firstBars 0 (d + 1) = [])
    (hb0 : ∀ d < E.columns.length, ∀ b ∈ E.firstBars 0 d, b.1 = 0)
    (hzero : E.ZG ρ N 1 0 ≤ E.BG ρ N 1 0)
    (hround : ∀ i j, i < 2 → j < 2 → ∀ n m, ∀ a ∈ E.firstBars i n,
      ∀ b ∈ E.firstBars j m, ∀ x, x = a.1 ∨ x = a.2 → ∀ y, y = b.1 ∨ y = b.2 → rnd x ≤ rnd y → x ≤ y)
    {S : SSt α} (hS : allPages rnd E E.columns.length = .ok S) {nc : ℕ} (hnc : 2 ≤ nc) {out : Option (Basis α)}
    (hrun : diagonal rnd E S nc 1 = .ok out) :
    have := Fact.mk h.prime
    (out = none ∧ ∀ s t, s ≤ t → t < E.maxR → rankThrough (E.ZG ρ N 1) (E.BG ρ N 1) s t = 0) ∨
    ∃ Q, out = some Q ∧ (∀ b ∈ Q.barcode, b.1 < b.2) ∧
      (∀ s t, s ≤ t → t < E.maxR →
        barsThrough Q.barcode s t = rankThrough (E.ZG ρ N 1) (E.BG ρ N 1) s t) ∧
      ∀ s t, s ≤ t → E.maxR ≤ t → barsThrough Q.barcode s t = 0 := by
  intro hF
  obtain ⟨M1, hM1, -⟩ := firstDifferential_spec h C.diff C.cols he
  obtain ⟨M, hM, -⟩ := firstDifferential_spec h C.diff C.cols (show 0 < E.rows by omega)
  obtain ⟨M2, hM2, -⟩ := firstDifferential_spec h hD' hlen (show 0 < E.rows by omega)
  obtain ⟨K, I, H, I1, Q, I2, A⟩ := plane_pages h C hI hlen he hNp h4 hD' hM hM1 hM2 hg hb0
    (fun deg hd => hround deg deg hd hd) hS
  have hQR := A.third.endR
  have hKR := A.mid.gens.le_maxR h (by omega) (by omega)
  have dQ : Q.dim = Q.barcode.length := A.third.liftH.dim
  have dK : K.dim = K.barcode.length := A.mid.liftH.dim
  have lastK := A.keptK (E.noPages - 1) (by omega) (by omega)
  have lastQ := A.keptQ (E.noPages - 1) (by omega) (by omega)
  have hpd : K.dim ≠ 0 → S.pageDim E (E.noPages - 1) 0 1 ≠ 0 := by
    intro hk
    unfold SSt.pageDim
    rw [if_neg (by omega), (A.keptK (E.noPages - 1 - 1) (by omega) (by omega)).dim]
    exact hk
  set x : ℕ → ℕ → ZMod E.p := fun i => linOf (H.coords.zcol E.p) H.barcode.length (Q.coords.zcol E.p i) with hx
  obtain ⟨v, hlift, hext⟩ : ∃ v : ℕ → ℕ → ℕ → ZMod E.p,
      (∀ j b, K.barcode[j]? = some b → ∀ k < E.spx 0, E.PresentAt ρ 0 k 1 (v j k) b.1 ∧
        E.bd 0 k 1 (v j k) + E.cechSum D 0 0 k (fun l => E.fam 1 0 l (K.coords.zcol E.p j)) = 0) ∧
      (K.dim ≠ 0 → ∀ exts, extension rnd E S 1 0 = .ok exts → ∃ B1 B0, exts = [B1, B0] ∧
        PlaneExt E ρ N K Q x v B1 B0) := by
    by_cases hk : K.dim = 0
    · refine ⟨0, fun j b hb => ?_, fun hc => absurd hk hc⟩
      rw [dK, List.length_eq_zero_iff] at hk
      rw [hk] at hb; simp at hb
    · obtain ⟨hp1, C1, L, v, hr, hC1, hL, hlift⟩ := A.repsK hk
      exact ⟨v, hlift, fun _ exts hx => extension_plane h C hD' hlen hp1 hpos he h4 hR hb0 hzero hM1 hM2
        A.mid A.keptK hk A.first A.third A.keptQ hr hC1 hL hlift A.repsQ hx⟩
  have hdata : ∀ c c' : ℕ → ℕ → ZMod E.p,
      (K.dim ≠ 0 → ∃ B1 B0, PlaneExt E ρ N K Q x v B1 B0 ∧ c = (fun i j => B0.zcol E.p j i) ∧
        c' = fun i j => B1.zcol E.p j i) →
      PlaneData E ρ N D M M2 Q.barcode K.barcode x (K.coords.zcol E.p) v c c' := by
    intro c c' hc
    refine ⟨A.third.gens, ?_, hlift, fun j b hb hbR => ?_⟩
    · have := A.mid.gens
      rw [rowBounds_eq (by omega) hM2] at this
      exact this
    obtain ⟨B1, B0, hB, rfl, rfl⟩ := hc (by
      intro hk
      rw [dK, List.length_eq_zero_iff] at hk
      rw [hk] at hb; simp at hb)
    exact hB.dies j b hb hbR
  obtain ⟨hnil, hdiag⟩ | ⟨hne, ext, -, hdiag, r1, r2, r3, c, c', hc, hz'⟩ := diagonal_pair (e := 0)
    (P := fun B1 B0 => PlaneExt E ρ N K Q x v B1 B0) hnc (by omega) (fun hc => absurd hc (by omega)) dQ dK
    lastQ.bars lastQ.dim lastK.bars lastK.dim hpd
    (fun hk exts hx => by
      obtain ⟨B1, B0, x1, x2⟩ := hext hk exts hx
      exact ⟨B1, B0, x1, x2.shape1, x2.shape0, x2⟩) (Or.inl ⟨out, hrun⟩)
  · have hdiag : diagonal rnd E S nc 1 = .ok none := hdiag
    rw [hrun] at hdiag
    refine Or.inl ⟨Except.ok.inj hdiag, fun s t hst htR => ?_⟩
    have hK0 : K.barcode = [] := (List.append_eq_nil_iff.1 hnil).2
    have hRes := plane_resolves h C hD' hI hlen he hM hM2 (hdata (fun _ _ => 0) (fun _ _ => 0)
      (fun hk => absurd (by rw [dK, hK0]; rfl) hk))
      hF (BD := fun _ _ => 0) (fun i _ j _ => by split <;> [split <;> rfl; rfl])
    rw [hnil] at hRes
    have hs := hRes.span s (lt_of_le_of_lt hst htR)
    have : {y | ∃ j, AliveBar ([] : List (α × α)) j s ∧ y = E.stripGen 0 Q.barcode.length x v j}
        = ∅ := by
      ext y
      simp only [Set.mem_setOf_eq, Set.mem_empty_iff_false, iff_false]
      rintro ⟨j, ⟨b, hb, -⟩, -⟩
      simp at hb
    rw [this, Submodule.span_empty, bot_sup_eq] at hs
    unfold rankThrough
    have h0 : (E.ZG ρ N 1 s).map (E.BG ρ N 1 t).mkQ = ⊥ := by
      rw [hs, eq_bot_iff]
      rintro _ ⟨y, hy, rfl⟩
      rw [Submodule.mem_bot, Submodule.mkQ_apply, Submodule.Quotient.mk_eq_zero]
      exact hRes.monoB s t hst hy
    rw [h0]
    exact finrank_bot _ _
  · obtain ⟨im, rfl, him⟩ := hdiag out hrun
    have hRes := plane_resolves h C hD' hI hlen he hM hM2 (hdata c c' hc) hF (BD := fun i j => ext.z E.p i j) hz'
    have hlt : ∀ i j, ext.z E.p i j ≠ 0 → i < Q.barcode.length + K.barcode.length ∧
        j < Q.barcode.length + K.barcode.length := by
      intro i j hne
      rw [List.length_append] at r1 r2 r3
      have hj : j < ext.cols.length := by
        by_contra hj
        refine hne ?_
        unfold Mat.z Mat.get
        rw [List.getD_eq_getElem?_getD (l := ext.cols), List.getElem?_eq_none (by omega)]
        simp
      refine ⟨?_, r2 ▸ hj⟩
      by_contra hi
      refine hne ?_
      unfold Mat.z Mat.get
      rw [List_getD_eq_getElem ext.cols _ hj, List.getD_eq_getElem?_getD,
        List.getElem?_eq_none (by have := r3 _ (List.getElem_mem hj); omega)]
      simp
    have hin : ExtLevels rnd E.p E.maxR (Q.barcode ++ K.barcode) ext := by
      refine ⟨h.prime, hne, ?_, ?_, r1, r2, r3, ?_⟩
      · intro b hb
        rcases List.mem_append.1 hb with hb | hb
        · exact ⟨A.third.gens.wf b hb, hQR b hb⟩
        · exact ⟨A.mid.gens.wf b hb, hKR b hb⟩
      · have hends : ∀ b ∈ Q.barcode ++ K.barcode, ∃ i n, i < 2 ∧ ∃ a ∈ E.firstBars i n,
            b.1 = a.1 ∨ b.1 = a.2 := by
          intro b hb
          rcases List.mem_append.1 hb with hb | hb
          · obtain ⟨c, hc, hh⟩ := A.third.birth b hb
            obtain ⟨c', hc', hh'⟩ := A.first.birth c hc
            exact ⟨1, 0, by omega, c', hc', Or.inl (hh.trans hh')⟩
          · obtain ⟨c, hc, hh⟩ := A.mid.birth b hb
            rcases List.mem_append.1 hc with hc | hc
            · exact ⟨0, _, by omega, c, hc, hh⟩
            · exact ⟨0, _, by omega, c, hc, hh⟩
        intro a ha b hb
        obtain ⟨i, n, hi, a', ha', h1⟩ := hends a ha
        obtain ⟨j, m, hj, b', hb', h3⟩ := hends b hb
        exact hround i j hi hj n m a' ha' b' hb' _ h1 _ h3
      · intro i j bi bj hbi hbj hij
        obtain ⟨l1, l2⟩ := hlt i j hij
        rw [hz' i l1 j l2] at hij
        by_cases hjq : Q.barcode.length ≤ j
        swap
        · rw [if_neg hjq] at hij; exact absurd rfl hij
        rw [if_pos hjq] at hij
        rw [List.getElem?_append_right hjq] at hbj
        obtain ⟨B1, B0, hB, rfl, rfl⟩ := hc (by
          intro hk
          rw [dK, List.length_eq_zero_iff] at hk
          rw [hk] at hbj; simp at hbj)
        by_cases hiq : i < Q.barcode.length
        · rw [if_pos hiq] at hij
          rw [List.getElem?_append_left hiq] at hbi
          have hal : AliveBar Q.barcode i bj.2 := by
            by_contra hn
            exact hij (hB.life0 _ bj hbj i hn)
          obtain ⟨b, hb, h4, h5⟩ := hal
          rw [hbi, Option.some.injEq] at hb
          subst hb
          exact ⟨h4, h5⟩
        · rw [if_neg hiq] at hij
          rw [List.getElem?_append_right (by omega)] at hbi
          have hal : AliveBar K.barcode (i - Q.barcode.length) bj.2 := by
            by_contra hn
            exact hij (hB.life1 _ bj hbj _ hn)
          obtain ⟨b, hb, h4, h5⟩ := hal
          rw [hbi, Option.some.injEq] at hb
          subst hb
          exact ⟨h4, h5⟩
    obtain ⟨g2, g3, g4⟩ := C62_levels_partial hin hRes him
    exact Or.inr ⟨im, rfl, g2, g3, g4⟩

end

end Permaviss
