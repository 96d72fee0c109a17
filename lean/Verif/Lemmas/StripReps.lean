import Verif.Lemmas.StripTrack
import Verif.Lemmas.Strip
import Verif.Props.Chains

/-!
# Representatives on the first pages
-/

namespace Permaviss

open Finset

attribute [-instance] instMulZeroClassOfSemiring

section

variable {α : Type} [LinearOrder α] [Zero α] {rnd : α → α} {E : SSEnv α} {ρ : List ℕ → α}

/-- The chain `C` consists of `m` expressions; expression `g` is `f k g` on piece `k`. -/
structure ChainIs (E : SSEnv α) (n deg m : ℕ) (f : ℕ → ℕ → ℕ → ZMod E.p) (C : LChains) : Prop where
  wf : C.WF (E.widths n deg)
  refs : ∀ e ∈ C, ∀ g ∈ e.ref, g < m
  val : ∀ k < E.spx n, ∀ g < m, (fun j => (C.val k g j : ZMod E.p)) = f k g

theorem ChainIs.length {n deg m : ℕ} {f : ℕ → ℕ → ℕ → ZMod E.p} {C : LChains}
    (h : ChainIs E n deg m f C) : C.length = E.spx n := by
  rw [h.wf.length, widths_length]

/-- A loop over the pieces which writes the entry of each of them. -/
theorem foldPieces {m : ℕ} (s : ℕ → ℕ × ℕ × ℕ) (P : ℕ → LEntry → Prop)
    {F : LChains → ℕ × ℕ × ℕ → Except PyErr LChains}
    (hstep : ∀ k < m, ∀ acc acc' : LChains, acc.length = m → F acc (s k) = .ok acc' →
      acc.getD k LEntry.empty = LEntry.empty → acc'.length = m ∧ P k (acc'.getD k LEntry.empty) ∧
        ∀ l, l ≠ k → acc'.getD l LEntry.empty = acc.getD l LEntry.empty) {C : LChains}
    (h : ((List.range m).map s).foldlM F (LChains.zeros m) = .ok C) :
    C.length = m ∧ ∀ k < m, P k (C.getD k LEntry.empty) := by
  have key : ∀ j ≤ m, ∀ C : LChains, ((List.range j).map s).foldlM F (LChains.zeros m) = .ok C →
      C.length = m ∧ (∀ k < j, P k (C.getD k LEntry.empty)) ∧
        ∀ k, j ≤ k → C.getD k LEntry.empty = LEntry.empty := by
    intro j
    induction j with
    | zero =>
      intro _ C h
      cases h
      exact ⟨by simp [LChains.zeros], fun k hk => absurd hk (by omega), fun k _ => zeros_getD _ _⟩
    | succ j ih =>
      intro hj C h
      rw [List.range_succ, List.map_append, List.foldlM_append, bind_ok] at h
      obtain ⟨A, hA, h⟩ := h
      obtain ⟨i1, i2, i3⟩ := ih (by omega) A hA
      rw [List.map_singleton, List.foldlM_cons, bind_ok] at h
      obtain ⟨B, hB, h⟩ := h
      cases h
      obtain ⟨q1, q2, q3⟩ := hstep j (by omega) A C i1 hB (i3 j le_rfl)
      refine ⟨q1, fun k hk => ?_, fun k hk => ?_⟩
      · by_cases hkj : k = j
        · subst hkj; exact q2
        · rw [q3 k hkj]; exact i2 k (by omega)
      · rw [q3 k (by omega)]; exact i3 k (by omega)
  obtain ⟨a, b, -⟩ := key m le_rfl C h
  exact ⟨a, b⟩

theorem addEntry_inv {acc acc' : LChains} {k : ℕ} {ref : List ℕ} {coord : List (List ℤ)}
    (h : acc.addEntry k ref coord = .ok acc') (h0 : acc.getD k LEntry.empty = LEntry.empty) :
    ref.length = coord.length ∧ acc'.length = acc.length ∧
      acc'.getD k LEntry.empty = ⟨ref, coord⟩ ∧
      ∀ l, l ≠ k → acc'.getD l LEntry.empty = acc.getD l LEntry.empty := by
  unfold LChains.addEntry at h
  split at h
  · cases h
  next hl =>
  have hl' : ref.length = coord.length := by by_contra hc; exact hl hc
  split at h
  · next hz =>
    cases h
    have e1 : ref = [] := List.length_eq_zero_iff.1 hz
    have e2 : coord = [] := List.length_eq_zero_iff.1 (by omega)
    subst e1; subst e2
    exact ⟨rfl, rfl, h0, fun _ _ => rfl⟩
  split at h
  · cases h
  next hk =>
  cases h
  refine ⟨hl', by simp, ?_, fun l hlk => ?_⟩
  · rw [List.getD_eq_getElem?_getD, List.getElem?_set_self (by omega)]; rfl
  · rw [List.getD_eq_getElem?_getD, List.getElem?_set_ne (fun e => hlk e.symm),
      ← List.getD_eq_getElem?_getD]

/-- The values of an entry with all references. -/
theorem fullEntry_val {p m : ℕ} {rows : List (List ℤ)} (hl : m = rows.length) {g : ℕ} (hg : g < m) :
    (fun j => ((LEntry.val ⟨List.range m, rows⟩ g j : ℤ) : ZMod p)) = zv p (rows.getD g []) := by
  have hm : g ∈ List.range m := List.mem_range.2 hg
  have hidx : (List.range m).idxOf g = g := by
    have := List.Nodup.idxOf_getElem List.nodup_range g (by simpa using hg : g < (List.range m).length)
    rwa [List.getElem_range] at this
  funext j
  unfold LEntry.val
  rw [LEntry.row_eq (e := ⟨List.range m, rows⟩) hm]
  unfold rowOf
  dsimp only
  rw [hidx]; rfl

theorem fullEntry_WF {w m : ℕ} {rows : List (List ℤ)} (hl : m = rows.length)
    (hw : ∀ r ∈ rows, r.length = w) : LEntry.WF w ⟨List.range m, rows⟩ :=
  ⟨List.pairwise_lt_range, by simpa using hl, hw⟩

/-- Combinations of the generators of the pieces, as `compute_two_page_representatives` forms them. -/
theorem classFold_spec (h : SSOK rnd E ρ) {n deg : ℕ} (hn : n < E.columns.length)
    (hpos : 0 < E.spx n) (hdeg : deg < E.rows) {nr m : ℕ} {cols : List (List ℤ)}
    (hcols : ∀ c ∈ cols, c.length = nr) (hm : m = cols.length) {cyc : List ℕ}
    (hcyc : E.cyc n deg = .ok cyc) {C : LChains}
    (hrun : (spans cyc).foldlM (fun (acc : LChains) s =>
      if s.2.1 < s.2.2 then do
        let h0 ← E.hom0 n s.1 deg
        let rows ← localRows h0.coords nr cols s.2.1 s.2.2
        acc.addEntry s.1 (List.range m) rows
      else .ok acc) (LChains.zeros (E.spx n)) = .ok C) :
    ChainIs E n deg m (fun k g => E.fam n deg k (zv E.p (cols.getD g []))) C := by
  obtain ⟨hcy, -, -⟩ := h.firstPage (n := n) (deg := deg) hn hpos hdeg
  rw [hcy] at hcyc
  obtain rfl := Except.ok.inj hcyc
  rw [SSOK.spans_cyc] at hrun
  obtain ⟨r1, r2⟩ := foldPieces _ (fun k e => e.WF (E.G n k deg).length ∧ (∀ g ∈ e.ref, g < m) ∧
      ∀ g < m, (fun j => (e.val g j : ZMod E.p)) = E.fam n deg k (zv E.p (cols.getD g []))) (by
    intro k hk acc acc' hacc hF h0
    obtain ⟨o, pts, v, im, hom, L⟩ := h.liftData hn hk hdeg.le
    have hcl := L.classes_eq
    dsimp only at hF
    rw [classStart_succ, hcl] at hF
    split at hF
    · next hlt =>
      have hd0 : 0 < hom.dim := by omega
      rw [bind_ok] at hF
      obtain ⟨h0', hh, hF⟩ := hF
      rw [L.hom0] at hh
      obtain rfl := Except.ok.inj hh
      rw [bind_ok] at hF
      obtain ⟨rows, hrows, hF⟩ := hF
      unfold localRows at hrows
      split at hrows
      swap
      · cases hrows
      obtain rfl := Except.ok.inj hrows
      obtain ⟨a1, a2, a3, a4⟩ := addEntry_inv hF h0
      have e : hom.liftCols = hom.coords.cols := by unfold Basis.liftCols; rw [if_pos hd0]
      have hnc : hom.coords.ncols = hom.dim := by
        unfold Mat.ncols; rw [← e, L.hom_ok.len]
      have hws : hom.coords.WellShaped := by
        intro c hc
        rw [L.hom_ok.nrows hd0]
        exact L.hom_ok.width c (by rw [e]; exact hc)
      refine ⟨by rw [a2, hacc], ?_, a4⟩
      rw [a3]
      refine ⟨fullEntry_WF (by simp [hm]) ?_, by simp, fun g hg => ?_⟩
      · intro r hr
        obtain ⟨c, -, rfl⟩ := List.mem_map.1 hr
        rw [mulVec_length, L.hom_ok.nrows hd0]
      · rw [fullEntry_val (by simp [hm]) hg, getD_map_lt (by omega), zv_mulVec hws, hnc, fam_eq L.hom0,
          List_getD_eq_getElem _ _ (by omega)]
        refine Finset.sum_congr rfl fun a ha => ?_
        have ha' := mem_range.1 ha
        congr 1
        · unfold zv slice
          rw [List.getD_eq_getElem?_getD, List.getElem?_take, if_pos (by omega), List.getElem?_drop,
            List.getD_eq_getElem?_getD]
    · next hlt =>
      cases hF
      have hd0 : hom.dim = 0 := by omega
      refine ⟨hacc, ?_, fun _ _ => rfl⟩
      rw [h0]
      refine ⟨empty_WF _, by simp [LEntry.empty], fun g _ => ?_⟩
      rw [fam_eq L.hom0, hd0, Finset.sum_range_zero]
      funext j
      rw [LEntry.val_neg (by simp [LEntry.empty])]; simp) hrun
  have hwl := widths_length E n deg
  refine ⟨LChains.WF.of (by rw [hwl, r1]) fun k hk => ?_, ?_, fun k hk g hg => (r2 k hk).2.2 g hg⟩
  · rw [hwl] at hk
    rw [widths_getD E hk]; exact (r2 k hk).1
  · intro e he
    obtain ⟨k, hk, rfl⟩ := List.getElem_of_mem he
    have := (r2 k (by omega)).2.1
    rwa [List_getD_eq_getElem _ _ hk] at this

theorem sums_refs {e e' : LEntry} {M : List (List ℤ)} {n : ℕ} (h : e.sums M n = .ok e') :
    ∀ g ∈ e'.ref, g < M.length := by
  unfold LEntry.sums at h
  split at h
  · cases h; simp [LEntry.empty]
  split at h
  · cases h; simp
  · cases h

theorem LChains.sums_refs {C C' : LChains} {M : List (List ℤ)} {n : ℕ} (h : C.sums M n = .ok C') :
    ∀ e ∈ C', ∀ g ∈ e.ref, g < M.length := by
  obtain ⟨m1, m2⟩ := mapM_ok_spec h
  intro e he
  obtain ⟨k, hk, rfl⟩ := List.getElem_of_mem he
  exact Permaviss.sums_refs (m2 k (by omega) hk)

/-- Combinations of the expressions of a chain. -/
theorem ChainIs.sums {n deg m : ℕ} {f : ℕ → ℕ → ℕ → ZMod E.p} {C C' : LChains}
    (h : ChainIs E n deg m f C) {M : List (List ℤ)} (hr : C.sums M m = .ok C') :
    ChainIs E n deg M.length (fun k i => ∑ g ∈ range m, zv E.p (M.getD i []) g • f k g) C' := by
  obtain ⟨S, s1, s2, s3⟩ := C44_sums h.wf h.refs M
  rw [hr] at s1
  obtain rfl := Except.ok.inj s1
  refine ⟨s2, LChains.sums_refs hr, fun k hk i hi => ?_⟩
  funext j
  rw [s3 k i hi j, Finset.sum_apply]
  push_cast
  refine Finset.sum_congr rfl fun g hg => ?_
  rw [Pi.smul_apply, smul_eq_mul, ← h.val k hk g (mem_range.1 hg)]
  rfl

theorem ChainIs.congr {n deg m : ℕ} {f f' : ℕ → ℕ → ℕ → ZMod E.p} {C : LChains}
    (h : ChainIs E n deg m f C) (he : ∀ k < E.spx n, ∀ g < m, f k g = f' k g) : ChainIs E n deg m f' C :=
  ⟨h.wf, h.refs, fun k hk g hg => by rw [h.val k hk g hg, he k hk g hg]⟩

theorem zv_idCols {p m i : ℕ} (hi : i < m) (g : ℕ) :
    zv p ((identityCols m).getD i []) g = if g = i then 1 else 0 := by
  unfold zv identityCols
  rw [getD_map_lt (by simpa using hi), List.getElem_range]
  by_cases hg : g < m
  · rw [getD_map_lt (by simpa using hg), List.getElem_range]
    split <;> simp
  · rw [List.getD_eq_getElem?_getD, List.getElem?_eq_none (by simp; omega), if_neg (by omega)]
    simp

theorem ChainIs.identity {n deg m : ℕ} {f : ℕ → ℕ → ℕ → ZMod E.p} {C C' : LChains}
    (h : ChainIs E n deg m f C) (hr : C.sums (identityCols m) m = .ok C') : ChainIs E n deg m f C' := by
  have := h.sums hr
  rw [show (identityCols m).length = m by simp [identityCols]] at this
  refine this.congr fun k hk i hi => ?_
  rw [Finset.sum_eq_single i]
  · rw [zv_idCols hi, if_pos rfl, one_smul]
  · intro g _ hg
    rw [zv_idCols hi, if_neg hg, zero_smul]
  · intro hc; exact absurd (mem_range.2 hi) hc

theorem stable_one {n deg m : ℕ} (f : ℕ → ℕ → ℕ → ZMod E.p) :
    StableRep m fun l => ∃ C, l = [C] ∧ ChainIs E n deg m f C := by
  rintro l l' ⟨C, rfl, hC⟩ h
  rw [List.mapM_cons, bind_ok] at h
  obtain ⟨C', h1, h⟩ := h
  rw [bind_ok] at h
  obtain ⟨t, h2, h⟩ := h
  cases h2
  cases h
  exact ⟨C', rfl, hC.identity h1⟩

theorem stable_two {n deg n' deg' m : ℕ} (f f' : ℕ → ℕ → ℕ → ZMod E.p) :
    StableRep m fun l => ∃ C C', l = [C, C'] ∧ ChainIs E n deg m f C ∧ ChainIs E n' deg' m f' C' := by
  rintro l l' ⟨C, D, rfl, hC, hD⟩ h
  rw [List.mapM_cons, bind_ok] at h
  obtain ⟨C', h1, h⟩ := h
  rw [bind_ok] at h
  obtain ⟨t, h2, h⟩ := h
  cases h
  rw [List.mapM_cons, bind_ok] at h2
  obtain ⟨D', h3, h2⟩ := h2
  rw [bind_ok] at h2
  obtain ⟨t', h4, h2⟩ := h2
  cases h4
  cases h2
  exact ⟨C', D', rfl, hC.identity h1, hD.identity h3⟩

/-- The round of one position of a row of page one. -/
theorem pageOneRow_two {N n deg : ℕ} {S S' : SSt α} (hn : n < N) (h : pageOneRow rnd E N S deg = .ok S') :
    ∃ T T', computeTwoPage E T n deg = .ok T' ∧ T.hom = S'.hom ∧
      T'.reps 1 n deg = S'.reps 1 n deg := by
  unfold pageOneRow at h
  rw [bind_ok] at h
  obtain ⟨base, h1, h⟩ := h
  rw [bind_ok] at h
  obtain ⟨diffs, h2, h⟩ := h
  rw [bind_ok] at h
  obtain ⟨out, h3, h⟩ := h
  rw [bind_ok] at h
  obtain ⟨S1, h4, h⟩ := h
  have hs : List.range N = List.range n ++ n :: (List.range (N - n - 1)).map (· + (n + 1)) := by
    obtain ⟨d, rfl⟩ : ∃ d, N = n + 1 + d := ⟨N - n - 1, by omega⟩
    rw [List.range_add, List.range_succ, show n + 1 + d - n - 1 = d by omega, List.append_assoc]
    simp [Nat.add_comm]
  rw [hs, List.foldlM_append, bind_ok] at h
  obtain ⟨T, hT, h⟩ := h
  rw [List.foldlM_cons, bind_ok] at h
  obtain ⟨T', hT', h⟩ := h
  refine ⟨T, T', hT', ?_, ?_⟩
  · have e1 : T.SameHom T' := computeTwoPage_same hT'
    have e2 : T'.SameHom S' := foldlM_ok_inv (fun s => T'.SameHom s)
      (fun s n s' _ hs hI => hI.trans (computeTwoPage_same hs)) h (.refl _)
    exact (e1.trans e2).1.symm
  · refine (foldlM_ok_inv (fun s => s.reps 1 n deg = T'.reps 1 n deg) ?_ h rfl).symm
    intro U x U' hx hU hI
    obtain ⟨y, -, rfl⟩ := List.mem_map.1 hx
    rw [computeTwoPage_reps hU (by rintro ⟨-, hc, -⟩; omega), hI]

end

end Permaviss
