import Verif.Lemmas.StripStep

/-!
# Chains handled by `extension`
-/

namespace Permaviss

open Finset

attribute [-instance] instMulZeroClassOfSemiring

section

variable {α : Type} [LinearOrder α] [Zero α] {rnd : α → α} {E : SSEnv α} {ρ : List ℕ → α}

/-- The Čech differential of a chain. -/
theorem cechDiff_chain (h : SSOK rnd E ρ) {n deg m : ℕ} {D : Mat}
    (hD : E.nerveDiff[n]? = some D) (hn : n + 1 < E.columns.length) (hpos : 0 < E.spx (n + 1))
    (hdeg : deg ≤ E.rows) {C C' : LChains} {f : ℕ → ℕ → ℕ → ZMod E.p}
    (hC : ChainIs E (n + 1) deg m f C) (hr : cechDiff E n deg C = .ok C') :
    ChainIs E n deg m (fun k g => E.cechSum D n deg k (fun l => f l g)) C' := by
  obtain ⟨C'', t1, t2, -, t4, t5⟩ := cechDiff_spec h hD hn hpos hdeg hC.wf
  rw [hr] at t1
  obtain rfl := Except.ok.inj t1
  have hlen : C'.length = E.spx n := by rw [t2.length, widths_length]
  refine ⟨t2, ?_, ?_⟩
  · intro e he g hg
    obtain ⟨k, hk, rfl⟩ := List.getElem_of_mem he
    have := (t4 k (by omega) g).1 (by rw [List_getD_eq_getElem _ _ hk]; exact hg)
    obtain ⟨l, hl, -, hgl⟩ := this
    have hlC : l < C.length := by rw [hC.length]; exact hl
    rw [List_getD_eq_getElem _ _ hlC] at hgl
    exact hC.refs _ (List.getElem_mem hlC) g hgl
  · intro k hk g hg
    funext j
    unfold SSEnv.cechSum
    rw [Finset.sum_apply]
    rcases Nat.lt_or_ge j (E.G n k deg).length with hj | hj
    · rw [t5 k hk g j hj]
      refine Finset.sum_congr rfl fun l hl => ?_
      rw [cechOf_eq h D hn (mem_range.1 hl) _ hj]
      refine Finset.sum_congr rfl fun i _ => ?_
      dsimp only
      rw [← hC.val l (mem_range.1 hl) g hg]
    · rw [Finset.sum_eq_zero fun l _ => cechOf_of_le _ _ hj, LChains.val_of_wf t2 (by
        rw [widths_length]; exact hk) (by rw [widths_getD E hk]; exact hj)]
      simp

theorem mem_gather {β : Type} {l : List β} {is : List ℕ} {x : β} (hx : x ∈ gather l is) : x ∈ l := by
  unfold gather at hx
  obtain ⟨i, -, hi⟩ := List.mem_filterMap.1 hx
  exact List.mem_of_getElem? hi

theorem gatherE_lt {β : Type} {l : List β} {is : List ℕ} {r : List β} (h : gatherE l is = .ok r) :
    ∀ i ∈ is, i < l.length := by
  unfold gatherE at h
  split at h
  · next ha => simpa using ha
  · cases h

/-- The references of the chains lifted by `cech_diff_and_lift`. -/
theorem cechDiffAndLift_refs {n deg : ℕ} {C : LChains} {R : List α} {out : List (List ℤ) × LChains}
    (h : cechDiffAndLift E n deg C R = .ok out) : ∀ e ∈ out.2, ∀ g ∈ e.ref, g < R.length := by
  have hz : ∀ e ∈ LChains.zeros (E.spx n), ∀ g ∈ e.ref, g < R.length := by
    intro e he
    rw [List.eq_of_mem_replicate he]
    simp [LEntry.empty]
  unfold cechDiffAndLift at h
  split at h
  · cases h; exact hz
  rw [bind_ok] at h
  obtain ⟨outs, h1, h⟩ := h
  rw [bind_ok] at h
  obtain ⟨cyc, h2, h⟩ := h
  rw [bind_ok] at h
  obtain ⟨lift, h3, h⟩ := h
  cases h
  obtain ⟨g1, g2⟩ := mapM_ok_spec h1
  have hO : ∀ k o, outs.getD k none = some o → ∀ g ∈ o.2.ref, g < R.length := by
    intro k o hko
    have hk : k < outs.length := by
      by_contra hc
      rw [List.getD_eq_getElem?_getD, List.getElem?_eq_none (by omega)] at hko
      cases hko
    have := g2 k (by omega) hk
    rw [List_getD_eq_getElem _ _ hk] at hko
    rw [hko] at this
    unfold cechDiffAndLiftLocal at this
    rw [bind_ok] at this
    obtain ⟨_, -, this⟩ := this
    dsimp only at this
    have tail : ∀ (prev next k : ℕ), (if prev = next then pure none
        else do
          let e ← cechDiffLocal E C n deg k
          if e.ref.length = 0 then pure none
          else do
            let radii ← gatherE R e.ref
            match ← firstPageLocalLift E n deg e.coord radii k with
            | none => .error .valueError
            | some (gammas, betas) => do
              let P ← E.preIm0 n k (deg + 1)
              if P.ncols = gammas.nrows then
                let nz := (List.range gammas.ncols).filter fun a => npAny (gammas.cols.getD a [])
                pure (some (scatterBetas R.length (next - prev) e.ref betas.cols,
                  ⟨gather e.ref nz, nz.map fun a => negMod E.p (mulVec P (gammas.cols.getD a []))⟩))
              else .error .valueError : Except PyErr (Option (List (List Int) × LEntry))) = .ok (some o) →
        ∀ g ∈ o.2.ref, g < R.length := by
      intro prev next k this
      split at this
      · cases this
      rw [bind_ok] at this
      obtain ⟨e, -, this⟩ := this
      split at this
      · cases this
      rw [bind_ok] at this
      obtain ⟨radii, hrad, this⟩ := this
      rw [bind_ok] at this
      obtain ⟨lo, -, this⟩ := this
      split at this
      · cases this
      rw [bind_ok] at this
      obtain ⟨P, -, this⟩ := this
      split at this
      swap
      · cases this
      cases this
      exact fun g hg => gatherE_lt hrad g (mem_gather hg)
    split at this
    · rw [bind_ok] at this
      obtain ⟨_, -, this⟩ := this
      rw [bind_ok] at this
      obtain ⟨_, -, this⟩ := this
      exact tail _ _ _ this
    · rw [bind_ok] at this
      obtain ⟨_, -, this⟩ := this
      rw [bind_ok] at this
      obtain ⟨_, -, this⟩ := this
      exact tail _ _ _ this
  refine foldlM_ok_inv (fun acc : LChains => ∀ e ∈ acc, ∀ g ∈ e.ref, g < R.length) ?_ h3 hz
  intro acc s acc' _ hs hI
  split at hs
  · next o ho =>
    unfold LChains.addEntry at hs
    split at hs
    · cases hs
    split at hs
    · cases hs; exact hI
    split at hs
    · cases hs
    cases hs
    intro e he
    rcases List.mem_or_eq_of_mem_set he with he | rfl
    · exact hI e he
    · exact hO _ o ho
  · cases hs; exact hI

theorem ChainIs.add {n deg m : ℕ} {f f' : ℕ → ℕ → ℕ → ZMod E.p} {C C' X : LChains}
    (hC : ChainIs E n deg m f C) (hC' : ChainIs E n deg m f' C') (hr : C.add C' = .ok X) :
    ChainIs E n deg m (fun k g => f k g + f' k g) X := by
  obtain ⟨X', h1, h2, h3, h4⟩ := C44_add hC.wf hC'.wf
  rw [hr] at h1
  obtain rfl := Except.ok.inj h1
  have hlen : X.length = E.spx n := by rw [h2.length, widths_length]
  refine ⟨h2, ?_, ?_⟩
  · intro e he g hg
    obtain ⟨k, hk, rfl⟩ := List.getElem_of_mem he
    rcases (h4 k g).1 (by rw [List_getD_eq_getElem _ _ hk]; exact hg) with h5 | h5
    · have hkC : k < C.length := by rw [hC.length]; omega
      rw [List_getD_eq_getElem _ _ hkC] at h5
      exact hC.refs _ (List.getElem_mem hkC) g h5
    · have hkC : k < C'.length := by rw [hC'.length]; omega
      rw [List_getD_eq_getElem _ _ hkC] at h5
      exact hC'.refs _ (List.getElem_mem hkC) g h5
  · intro k hk g hg
    rw [← hC.val k hk g hg, ← hC'.val k hk g hg]
    funext j
    rw [h3, Pi.add_apply]
    push_cast; rfl

theorem ChainIs.minus {n deg m : ℕ} {f : ℕ → ℕ → ℕ → ZMod E.p} {C : LChains}
    (hC : ChainIs E n deg m f C) : ChainIs E n deg m (fun k g => - f k g) (C.minus E.p) := by
  obtain ⟨h1, h2, h3⟩ := C44_minus E.p hC.wf
  refine ⟨h1, ?_, ?_⟩
  · intro e he g hg
    unfold LChains.minus at he
    obtain ⟨e', he', rfl⟩ := List.mem_map.1 he
    exact hC.refs e' he' g hg
  · intro k hk g hg
    rw [← hC.val k hk g hg]
    funext j
    rw [h2, Pi.neg_apply]
    simp

/-- Entries of a `local_chains` in its own right. -/
theorem ChainIs.self {n deg m : ℕ} {C : LChains} (hw : C.WF (E.widths n deg))
    (hr : ∀ e ∈ C, ∀ g ∈ e.ref, g < m) :
    ChainIs E n deg m (fun k g j => (C.val k g j : ZMod E.p)) C :=
  ⟨hw, hr, fun _ _ _ _ => rfl⟩

theorem zipWith_val {β : Type} {ref : List ℕ} {A : List β} (F : ℕ → β → List ℤ) (hl : ref.length = A.length)
    {g : ℕ} (hg : g ∈ ref) (d : β) :
    (LEntry.mk ref (List.zipWith F ref A)).row g = F g (A.getD (ref.idxOf g) d) := by
  have hi : ref.idxOf g < ref.length := List.idxOf_lt_length_of_mem hg
  unfold LEntry.row
  dsimp only
  rw [if_pos hg, List.getD_eq_getElem?_getD, List.getElem?_zipWith, List.getElem?_eq_getElem hi,
    List.getElem?_eq_getElem (show ref.idxOf g < A.length by omega),
    List_getD_eq_getElem A d (show ref.idxOf g < A.length by omega), List.getElem_idxOf hi]
  rfl

/-- Zeroing expressions. -/
theorem ChainIs.zeroRows {n deg m : ℕ} {f : ℕ → ℕ → ℕ → ZMod E.p} {C : LChains} (mask : List Bool)
    (hC : ChainIs E n deg m f C) :
    ChainIs E n deg m (fun k g => if mask.getD g false then f k g else 0) (zeroRows mask C) := by
  have hlen : (Permaviss.zeroRows mask C).length = E.spx n := by
    unfold Permaviss.zeroRows; rw [List.length_map]; exact hC.length
  have hget : ∀ k < E.spx n, (Permaviss.zeroRows mask C).getD k LEntry.empty =
      ⟨(C.getD k LEntry.empty).ref, List.zipWith (fun r (row : List Int) =>
        if mask.getD r false then row else row.map fun _ => 0) (C.getD k LEntry.empty).ref
          (C.getD k LEntry.empty).coord⟩ := by
    intro k hk
    have hkC : k < C.length := by rw [hC.length]; exact hk
    unfold Permaviss.zeroRows
    rw [getD_map_lt hkC, List_getD_eq_getElem C _ hkC]
  refine ⟨LChains.WF.of (by rw [hlen, widths_length]) fun k hk => ?_, ?_, ?_⟩
  · have hw := hC.wf.get hk
    rw [widths_length] at hk
    rw [hget k hk]
    refine ⟨hw.increasing, by simpa using hw.rows.le, ?_⟩
    intro r hr
    dsimp only at hr
    obtain ⟨i, hi, rfl⟩ := List.getElem_of_mem hr
    rw [List.getElem_zipWith]
    have := hw.width _ (List.getElem_mem (show i < (C.getD k LEntry.empty).coord.length by
      rw [List.length_zipWith] at hi; omega))
    split
    · exact this
    · rw [List.length_map]; exact this
  · intro e he g hg
    unfold Permaviss.zeroRows at he
    obtain ⟨e', he', rfl⟩ := List.mem_map.1 he
    exact hC.refs e' he' g hg
  · intro k hk g hg
    rw [← hC.val k hk g hg]
    have hw := hC.wf.get (k := k) (by rw [widths_length]; exact hk)
    funext j
    unfold LChains.val
    rw [hget k hk]
    by_cases hgr : g ∈ (C.getD k LEntry.empty).ref
    · rw [LEntry.val, zipWith_val _ hw.rows hgr []]
      by_cases hm : mask.getD g false = true
      · rw [if_pos hm, if_pos hm]
        unfold LEntry.val LEntry.row
        rw [if_pos hgr]
      · rw [if_neg hm, if_neg hm, Pi.zero_apply]
        rw [List.getD_eq_getElem?_getD, List.getElem?_map]
        cases ((C.getD k LEntry.empty).coord.getD ((C.getD k LEntry.empty).ref.idxOf g) [])[j]? <;> simp
    · rw [LEntry.val_neg (by exact hgr)]
      split
      · dsimp only; rw [LEntry.val_neg hgr]
      · simp

/-- One entry of `subtractBeta`. -/
theorem subtractBeta_get {p : ℕ} : ∀ {C B X : LChains}, subtractBeta p C B = .ok X →
    X.length = C.length ∧ ∀ k < C.length,
      (X.getD k LEntry.empty = B.getD k LEntry.empty ∧ (C.getD k LEntry.empty).ref = []) ∨
      (X.getD k LEntry.empty = C.getD k LEntry.empty ∧ (B.getD k LEntry.empty).ref = []) ∨
      ((C.getD k LEntry.empty).ref = (B.getD k LEntry.empty).ref ∧ X.getD k LEntry.empty =
        ⟨(C.getD k LEntry.empty).ref, List.zipWith (fun r s => (addRow r s).map fun x => x % (p : Int))
          (C.getD k LEntry.empty).coord (B.getD k LEntry.empty).coord⟩)
  | [], B, X, h => by
    cases h
    exact ⟨rfl, fun k hk => absurd hk (by simp)⟩
  | _ :: _, [], X, h => by cases h
  | e :: es, b :: bs, X, h => by
    unfold subtractBeta at h
    dsimp only at h
    have tail : ∀ c : LEntry, (do
        let cs ← subtractBeta p es bs
        pure (c :: cs) : Except PyErr LChains) = .ok X →
        ((c = b ∧ e.ref = []) ∨ (c = e ∧ b.ref = []) ∨ (e.ref = b.ref ∧ c =
          ⟨e.ref, List.zipWith (fun r s => (addRow r s).map fun x => x % (p : Int)) e.coord b.coord⟩)) →
        X.length = (e :: es).length ∧ ∀ k < (e :: es).length,
          (X.getD k LEntry.empty = (b :: bs).getD k LEntry.empty ∧ ((e :: es).getD k LEntry.empty).ref = []) ∨
          (X.getD k LEntry.empty = (e :: es).getD k LEntry.empty ∧ ((b :: bs).getD k LEntry.empty).ref = []) ∨
          (((e :: es).getD k LEntry.empty).ref = ((b :: bs).getD k LEntry.empty).ref ∧ X.getD k LEntry.empty =
            ⟨((e :: es).getD k LEntry.empty).ref, List.zipWith (fun r s => (addRow r s).map fun x => x % (p : Int))
              ((e :: es).getD k LEntry.empty).coord ((b :: bs).getD k LEntry.empty).coord⟩) := by
      intro c h hc
      rw [bind_ok] at h
      obtain ⟨cs, hcs, h⟩ := h
      cases h
      obtain ⟨i1, i2⟩ := subtractBeta_get hcs
      refine ⟨by simp [i1], fun k hk => ?_⟩
      rcases k with _ | k
      · simp only [List.getD_cons_zero]
        exact hc
      · simp only [List.getD_cons_succ]
        exact i2 k (by simpa using hk)
    split at h
    · split at h
      · cases h
      · next hne =>
        exact tail _ h (Or.inr (Or.inr ⟨by simpa using hne, rfl⟩))
    · split at h
      · next h1 h2 =>
        refine tail _ h (Or.inl ⟨rfl, ?_⟩)
        rw [← List.length_eq_zero_iff]
        by_contra h0
        exact h1 ⟨by omega, h2⟩
      · next h1 h2 =>
        exact tail _ h (Or.inr (Or.inl ⟨rfl, List.length_eq_zero_iff.1 (by omega)⟩))

theorem ChainIs.subtractBeta (hp : E.p.Prime) {n deg m : ℕ} {f f' : ℕ → ℕ → ℕ → ZMod E.p} {C C' X : LChains}
    (hC : ChainIs E n deg m f C) (hC' : ChainIs E n deg m f' C') (hr : subtractBeta E.p C C' = .ok X) :
    ChainIs E n deg m (fun k g => f k g + f' k g) X := by
  obtain ⟨h1, h2⟩ := subtractBeta_get hr
  have hlen : X.length = E.spx n := by rw [h1, hC.length]
  have hrefs : ∀ {f : ℕ → ℕ → ℕ → ZMod E.p} {C : LChains}, ChainIs E n deg m f C → ∀ k < E.spx n,
      ∀ g ∈ (C.getD k LEntry.empty).ref, g < m := by
    intro f C hC k hk g hg
    have hkC : k < C.length := by rw [hC.length]; exact hk
    rw [List_getD_eq_getElem _ _ hkC] at hg
    exact hC.refs _ (List.getElem_mem hkC) g hg
  have key : ∀ k < E.spx n, (X.getD k LEntry.empty).WF ((E.widths n deg).getD k 0) ∧
      (∀ g ∈ (X.getD k LEntry.empty).ref, g < m) ∧ ∀ g j, ((X.getD k LEntry.empty).val g j : ZMod E.p) =
        ((C.getD k LEntry.empty).val g j : ZMod E.p) + ((C'.getD k LEntry.empty).val g j : ZMod E.p) := by
    intro k hk
    have hw := hC.wf.get (k := k) (by rw [widths_length]; exact hk)
    have hw' := hC'.wf.get (k := k) (by rw [widths_length]; exact hk)
    rcases h2 k (by rw [hC.length]; exact hk) with ⟨h3, h4⟩ | ⟨h3, h4⟩ | ⟨h3, h4⟩
    · rw [h3]
      exact ⟨hw', hrefs hC' k hk, fun g j => by rw [LEntry.val_neg (e := C.getD k LEntry.empty) (by rw [h4]; simp)]; simp⟩
    · rw [h3]
      exact ⟨hw, hrefs hC k hk, fun g j => by rw [LEntry.val_neg (e := C'.getD k LEntry.empty) (by rw [h4]; simp)]; simp⟩
    · have hll : (C.getD k LEntry.empty).coord.length = (C'.getD k LEntry.empty).coord.length := by
        rw [← hw.rows, ← hw'.rows, h3]
      refine ⟨?_, ?_, ?_⟩
      · rw [h4]
        refine ⟨hw.increasing, ?_, ?_⟩
        · dsimp only
          rw [List.length_zipWith, ← hll, hw.rows, Nat.min_self]
        · intro r hr
          dsimp only at hr
          obtain ⟨i, hi, rfl⟩ := List.getElem_of_mem hr
          rw [List.length_zipWith] at hi
          rw [List.getElem_zipWith, List.length_map, addRow, List.length_zipWith,
            hw.width _ (List.getElem_mem (by omega)), hw'.width _ (List.getElem_mem (by omega)), Nat.min_self]
      · rw [h4]; exact hrefs hC k hk
      · intro g j
        rw [h4]
        by_cases hg : g ∈ (C.getD k LEntry.empty).ref
        swap
        · rw [LEntry.val_neg (by exact hg), LEntry.val_neg hg, LEntry.val_neg (by rw [← h3]; exact hg)]
          simp
        have hg' := hg
        rw [h3] at hg'
        have hi := List.idxOf_lt_length_of_mem hg
        have hiC : (C.getD k LEntry.empty).ref.idxOf g < (C.getD k LEntry.empty).coord.length := by
          rw [← hw.rows]; exact hi
        have hiC' : (C.getD k LEntry.empty).ref.idxOf g < (C'.getD k LEntry.empty).coord.length := by
          rw [← hll]; exact hiC
        unfold LEntry.val LEntry.row
        dsimp only
        rw [if_pos hg, if_pos hg, if_pos hg', ← h3, List_getD_eq_getElem (C.getD k LEntry.empty).coord [] hiC,
          List_getD_eq_getElem (C'.getD k LEntry.empty).coord [] hiC', List.getD_eq_getElem?_getD (i := List.idxOf g _),
          List.getElem?_zipWith, List.getElem?_eq_getElem hiC, List.getElem?_eq_getElem hiC']
        have l1 := hw.width _ (List.getElem_mem hiC)
        have l2 := hw'.width _ (List.getElem_mem hiC')
        set a := (C.getD k LEntry.empty).coord[(C.getD k LEntry.empty).ref.idxOf g]
        set b := (C'.getD k LEntry.empty).coord[(C.getD k LEntry.empty).ref.idxOf g]
        change (((List.map (fun x => x % (E.p : ℤ)) (addRow a b)).getD j 0 : ℤ) : ZMod E.p) = _
        rcases Nat.lt_or_ge j a.length with hj | hj
        · have hjb : j < b.length := by omega
          rw [getD_map_lt (by rw [addRow, List.length_zipWith]; omega), List_getD_eq_getElem a _ hj,
            List_getD_eq_getElem b _ hjb]
          unfold addRow
          rw [List.getElem_zipWith]
          simp
        · rw [getD_eq_zero_of_le _ hj, getD_eq_zero_of_le _ (by omega : b.length ≤ j),
            getD_eq_zero_of_le _ (by rw [List.length_map, addRow, List.length_zipWith]; omega)]
          simp
  refine ⟨LChains.WF.of (by rw [hlen, widths_length]) fun k hk => ?_, ?_, ?_⟩
  · rw [widths_length] at hk; exact (key k hk).1
  · intro e he g hg
    obtain ⟨k, hk, rfl⟩ := List.getElem_of_mem he
    exact (key k (by omega)).2.1 g (by rw [List_getD_eq_getElem _ _ hk]; exact hg)
  · intro k hk g hg
    rw [← hC.val k hk g hg, ← hC'.val k hk g hg]
    funext j
    exact (key k hk).2.2 g j

end

end Permaviss
