import Verif.Lemmas.ZigZag
import Verif.Props.Pages

/-!
# The first page: numbering of the classes, blocks of `Betas`, entries of the lift
-/

namespace Permaviss

open Finset

attribute [-instance] instMulZeroClassOfSemiring

/-! ## Lists -/

theorem spans_eq (ds : List ℕ) : spans (runningSums 0 ds ++ [0]) =
    (List.range ds.length).map fun k => (k, (ds.take k).sum, (ds.take (k + 1)).sum) := by
  unfold spans
  rw [List.dropLast_concat]
  apply List.ext_getElem?
  intro k
  rw [runningSums_length, List.getElem?_map]
  by_cases hk : k < ds.length
  · have h1 : (List.range ds.length)[k]? = some k := by simp [hk]
    have h2 : (runningSums 0 ds)[k]? = some ((ds.take (k + 1)).sum) := by
      rw [runningSums_get, if_pos hk, zero_add]
    have h3 : (0 :: runningSums 0 ds)[k]? = some ((ds.take k).sum) := by
      cases k with
      | zero => simp
      | succ k => rw [List.getElem?_cons_succ, runningSums_get, if_pos (by omega), zero_add]
    rw [List.getElem?_zip_eq_some (z := (k, (ds.take k).sum, (ds.take (k + 1)).sum)) |>.2
      ⟨h1, List.getElem?_zip_eq_some.2 ⟨h3, h2⟩⟩, h1]
    rfl
  · rw [List.getElem?_eq_none, List.getElem?_eq_none]
    · rfl
    · simp; omega
    · simp; omega

theorem cyc_get (ds : List ℕ) {k : ℕ} (hk : k < ds.length) :
    (runningSums 0 ds ++ [0])[k]? = some ((ds.take (k + 1)).sum) := by
  rw [List.getElem?_append_left (by rw [runningSums_length]; exact hk), runningSums_get, if_pos hk,
    zero_add]

theorem cyc_last (ds : List ℕ) : (runningSums 0 ds ++ [0])[ds.length]? = some 0 := by
  rw [List.getElem?_append_right (by rw [runningSums_length]), runningSums_length]
  simp

theorem atE_some {β : Type} {l : List β} {i : ℕ} {x : β} (h : l[i]? = some x) : atE l i = .ok x := by
  unfold atE; rw [h]

theorem atE_inv {β : Type} {l : List β} {i : ℕ} {x : β} (h : atE l i = .ok x) : l[i]? = some x := by
  unfold atE at h
  split at h
  · next y hy => cases h; exact hy
  · cases h

/-- Entries added to consecutive pieces. -/
theorem foldlM_addEntry {γ : Type} (idx : γ → ℕ) (ent : ℕ → LEntry)
    (hent : ∀ k, (ent k).ref.length = (ent k).coord.length) : ∀ (S : List γ) (i : ℕ),
    S.map idx = List.range' i S.length → ∀ acc : LChains,
    acc = (List.range i).map ent ++ List.replicate S.length LEntry.empty →
    S.foldlM (fun (acc : LChains) s => acc.addEntry (idx s) (ent (idx s)).ref (ent (idx s)).coord) acc =
      .ok ((List.range (i + S.length)).map ent) := by
  intro S
  induction S with
  | nil => intro i _ acc hacc; rw [hacc]; simp [pure, Except.pure]
  | cons s S ih =>
    intro i hS acc hacc
    rw [List.map_cons, List.length_cons, List.range'_succ] at hS
    obtain ⟨hs, hS'⟩ := List.cons.inj hS
    rw [List.foldlM_cons, hs]
    have hnew : acc.addEntry i (ent i).ref (ent i).coord =
        .ok ((List.range (i + 1)).map ent ++ List.replicate S.length LEntry.empty) := by
      unfold LChains.addEntry
      rw [if_neg (by simp [hent i])]
      have hac : acc = (List.range i).map ent ++ LEntry.empty :: List.replicate S.length LEntry.empty := by
        rw [hacc, List.length_cons, List.replicate_succ]
      by_cases h0 : (ent i).ref.length = 0
      · rw [if_pos h0, hac, List.range_succ, List.map_append, List.append_assoc]
        congr 3
        have h1 : (ent i).ref = [] := List.length_eq_zero_iff.1 h0
        have h2 : (ent i).coord = [] := List.length_eq_zero_iff.1 (by rw [← hent i, h0])
        change _ = ent i
        calc LEntry.empty = ⟨[], []⟩ := rfl
          _ = ⟨(ent i).ref, (ent i).coord⟩ := by rw [h1, h2]
      · rw [if_neg h0, if_neg (by rw [hac]; simp), hac]
        congr 1
        rw [List.set_append_right _ _ (by simp), List.range_succ, List.map_append, List.append_assoc]
        simp
    rw [hnew]
    change List.foldlM _ _ S = _
    rw [ih (i + 1) hS' _ rfl]
    congr 3
    rw [List.length_cons]; omega

section

variable {α : Type} [LinearOrder α] [Zero α] {rnd : α → α} {E : SSEnv α} {ρ : List ℕ → α}

/-! ## The numbering of the classes -/

/-- The numbers of classes of the pieces. -/
def SSEnv.dimList (E : SSEnv α) (n deg : ℕ) : List ℕ := (List.range (E.spx n)).map (E.classes n deg)

theorem dimList_length (n deg : ℕ) : (E.dimList n deg).length = E.spx n := by simp [SSEnv.dimList]

theorem dimList_take (n deg : ℕ) {k : ℕ} (hk : k ≤ E.spx n) :
    ((E.dimList n deg).take k).sum = E.classStart n deg k := by
  unfold SSEnv.dimList SSEnv.classStart
  rw [← List.map_take, List.take_range, min_eq_left hk]
  induction k with
  | zero => simp
  | succ k ih => rw [List.range_succ, List.map_append, List.sum_append, ih (by omega),
      Finset.sum_range_succ]; simp

theorem classStart_succ (n deg k : ℕ) :
    E.classStart n deg (k + 1) = E.classStart n deg k + E.classes n deg k :=
  Finset.sum_range_succ _ _

/-- The bars of the classes of a piece. -/
def SSEnv.barsOf (E : SSEnv α) (n deg k : ℕ) : List (α × α) :=
  match E.hom0 n k deg with
  | .ok B => B.barcode
  | .error _ => []

theorem SSOK.firstPage (h : SSOK rnd E ρ) {n deg : ℕ} (hn : n < E.columns.length) (hpos : 0 < E.spx n)
    (hdeg : deg < E.rows) :
    E.cyc n deg = .ok (runningSums 0 (E.dimList n deg) ++ [0]) ∧
    E.pageOne deg n = E.classStart n deg (E.spx n) ∧
    E.firstBars deg n = (List.range (E.spx n)).flatMap (E.barsOf n deg) := by
  obtain ⟨c, hc, hlen, hcol⟩ := h.column n hn
  have hne : c.outs ≠ [] := by
    intro h0; rw [h0] at hlen; simp at hlen; omega
  unfold addOutputFirst at hcol
  rw [if_neg hne, bind_ok] at hcol
  obtain ⟨hs, hhs, hcol⟩ := hcol
  have hcol' := Except.ok.inj hcol
  obtain ⟨hl, hget⟩ := mapM_ok_spec hhs
  rw [List.length_range] at hl
  have e := hget deg (by simpa using hdeg) (by omega)
  rw [List.getElem_range] at e
  set l := hs[deg]'(by omega) with hlset
  have hl' : hs[deg]? = some l := List.getElem?_eq_getElem (by omega)
  obtain ⟨k1, k2⟩ := mapM_ok_spec e
  rw [List.length_range] at k1
  have hhom : ∀ k (hk : k < E.spx n), E.hom0 n k deg = .ok (l[k]'(by omega)) := by
    intro k hk
    have := k2 k (by simpa using hk) (by omega)
    rw [List.getElem_range] at this
    unfold SSEnv.hom0 SSEnv.piece
    rw [atE_some hc]
    exact this
  have hd : l.map Basis.dim = E.dimList n deg := by
    apply List.ext_getElem?
    intro k
    unfold SSEnv.dimList
    rw [List.getElem?_map, List.getElem?_map]
    by_cases hk : k < E.spx n
    · rw [List.getElem?_eq_getElem (by omega), List.getElem?_range hk]
      simp only [Option.map_some, SSEnv.classes, hhom k hk]
    · rw [List.getElem?_eq_none (by omega), List.getElem?_eq_none (by simp; omega)]; rfl
  have hb : l.map Basis.barcode = (List.range (E.spx n)).map (E.barsOf n deg) := by
    apply List.ext_getElem?
    intro k
    rw [List.getElem?_map, List.getElem?_map]
    by_cases hk : k < E.spx n
    · rw [List.getElem?_eq_getElem (by omega), List.getElem?_range hk]
      simp only [Option.map_some, SSEnv.barsOf, hhom k hk]
    · rw [List.getElem?_eq_none (by omega), List.getElem?_eq_none (by simp; omega)]; rfl
  refine ⟨?_, ?_, ?_⟩
  · unfold SSEnv.cyc
    rw [atE_some hc]
    change atE c.cycleDims deg = _
    apply atE_some
    rw [← hcol']
    dsimp only
    rw [List.getElem?_map, hl']
    simp only [Option.map_some, hd]
  · unfold SSEnv.pageOne
    rw [hc]
    dsimp only
    rw [← hcol']
    dsimp only
    rw [List.getD_eq_getElem?_getD, List.getElem?_map, hl']
    simp only [Option.map_some, hd, Option.getD_some]
    rw [← dimList_take n deg le_rfl, List.take_of_length_le (by rw [dimList_length])]
  · unfold SSEnv.firstBars
    rw [hc]
    dsimp only
    rw [← hcol']
    dsimp only
    rw [List.getD_eq_getElem?_getD, List.getElem?_map, hl']
    simp only [Option.map_some, Option.getD_some]
    rw [List.flatMap_def, List.flatMap_def, hb]

theorem SSOK.cyc_at (h : SSOK rnd E ρ) {n deg : ℕ} (hn : n < E.columns.length) (hdeg : deg < E.rows)
    {k : ℕ} (hk : k < E.spx n) : ∃ cyc, E.cyc n deg = .ok cyc ∧
      (if k = 0 then atE cyc (cyc.length - 1) else atE cyc (k - 1)) = .ok (E.classStart n deg k) ∧
      atE cyc k = .ok (E.classStart n deg (k + 1)) := by
  obtain ⟨h1, -, -⟩ := h.firstPage hn (by omega) hdeg
  refine ⟨_, h1, ?_, ?_⟩
  · split
    · next h0 =>
      subst h0
      apply atE_some
      rw [List.length_append, runningSums_length, List.length_singleton, Nat.add_sub_cancel, cyc_last]
      simp [SSEnv.classStart]
    · next h0 =>
      apply atE_some
      rw [cyc_get _ (by rw [dimList_length]; omega), Nat.sub_add_cancel (by omega),
        dimList_take n deg (by omega)]
  · apply atE_some
    rw [cyc_get _ (by rw [dimList_length]; omega), dimList_take n deg (by omega)]

theorem SSOK.spans_cyc (n deg : ℕ) :
    spans (runningSums 0 (E.dimList n deg) ++ [0]) = (List.range (E.spx n)).map fun k =>
      (k, E.classStart n deg k, E.classStart n deg (k + 1)) := by
  rw [spans_eq, dimList_length]
  apply List.map_congr_left
  intro k hk
  have : k < E.spx n := by simpa using hk
  rw [dimList_take n deg (by omega), dimList_take n deg (by omega)]

/-- Blocks of given widths, one after the other. -/
theorem blocks_get {m : ℕ} {f : ℕ → List ℤ} {w : ℕ → ℕ} (hf : ∀ k < m, (f k).length = w k) {k a : ℕ}
    (hk : k < m) (ha : a < w k) :
    ((List.range m).flatMap f).getD (∑ l ∈ range k, w l + a) 0 = (f k).getD a 0 := by
  have := flatMap_get f (List.range m) k k (by simp [hk]) a (by rw [hf k hk]; exact ha)
  have e : (((List.range m).take k).map fun y => (f y).length).sum = ∑ l ∈ range k, w l := by
    rw [List.take_range, min_eq_left hk.le]
    clear this ha
    induction k with
    | zero => simp
    | succ k ih =>
      rw [List.range_succ, List.map_append, List.sum_append, ih (by omega), Finset.sum_range_succ,
        List.map_singleton, List.sum_singleton, hf k (by omega)]
  rw [e] at this
  rw [List.getD_eq_getElem?_getD, this, List.getD_eq_getElem?_getD]

theorem blocks_length {m : ℕ} {f : ℕ → List ℤ} {w : ℕ → ℕ} (hf : ∀ k < m, (f k).length = w k) :
    ((List.range m).flatMap f).length = ∑ l ∈ range m, w l := by
  induction m with
  | zero => simp
  | succ m ih =>
    rw [List.range_succ, List.flatMap_append, List.length_append, ih fun k hk => hf k (by omega),
      Finset.sum_range_succ]
    simp [hf m (by omega)]

end

end Permaviss
