import Verif.Lemmas.Pages
import Verif.Lemmas.Pool
import Verif.Props.Complexes
import Verif.Props.ImageKernel
import Mathlib.Data.Rat.Floor

/-!
# Bookkeeping of the spectral sequence (C49, C50, C51, C52, C53)
-/

namespace Permaviss

open Finset

section

variable {α : Type} [LinearOrder α] [Zero α]

/-! ## C49 -/

theorem runningSums_get (acc : ℕ) (l : List ℕ) (k : ℕ) :
    (runningSums acc l)[k]? = if k < l.length then some (acc + (l.take (k + 1)).sum) else none := by
  induction l generalizing acc k with
  | nil => simp [runningSums]
  | cons d l ih =>
    cases k with
    | zero => simp [runningSums]
    | succ k => rw [runningSums, List.getElem?_cons_succ, ih]; simp [Nat.add_assoc]

theorem runningSums_length (acc : ℕ) (l : List ℕ) : (runningSums acc l).length = l.length := by
  induction l generalizing acc with
  | nil => rfl
  | cons d l ih => simp [runningSums, ih]

theorem homsOfDegree_ok {outs : List (LocalOut α)} {deg : ℕ}
    (h : ∀ o ∈ outs, deg < o.ph.hom.length) :
    ∃ hs, homsOfDegree outs outs.length deg = .ok hs ∧ hs.length = outs.length ∧
      ∀ (k : ℕ) (o : LocalOut α), outs[k]? = some o → hs[k]? = o.ph.hom[deg]? := by
  have key : ∀ k ∈ List.range outs.length, ∃ B, (do
      let o ← atE outs k
      atE o.ph.hom deg) = .ok B := by
    intro k hk
    have hk' : k < outs.length := by simpa using hk
    have := h outs[k] (List.getElem_mem hk')
    refine ⟨outs[k].ph.hom[deg], ?_⟩
    simp [atE, hk', this, bind, Except.bind]
  obtain ⟨hs, hhs⟩ := mapM_ok_of key
  obtain ⟨h1, h2⟩ := mapM_ok_spec hhs
  rw [List.length_range] at h1
  refine ⟨hs, hhs, h1, fun k o ho => ?_⟩
  have hk : k < outs.length := (List.getElem?_eq_some_iff.mp ho).1
  have ho' : outs[k] = o := (List.getElem?_eq_some_iff.mp ho).2
  have hd := h o (ho' ▸ List.getElem_mem hk)
  have e := h2 k (by simpa using hk) (by omega)
  rw [List.getElem_range] at e
  simp only [atE, ho, bind, Except.bind, List.getElem?_eq_getElem hd] at e
  rw [List.getElem?_eq_getElem (show k < hs.length by omega), ← Except.ok.inj e,
    List.getElem?_eq_getElem hd]

theorem flatMap_get {β γ : Type} (f : β → List γ) (l : List β) (k : ℕ) (x : β) (hx : l[k]? = some x)
    (i : ℕ) (hi : i < (f x).length) :
    (l.flatMap f)[((l.take k).map fun y => (f y).length).sum + i]? = (f x)[i]? := by
  induction l generalizing k with
  | nil => simp at hx
  | cons y l ih =>
    cases k with
    | zero =>
      simp only [List.getElem?_cons_zero, Option.some.injEq] at hx
      subst hx
      simp [List.flatMap_cons, List.getElem?_append_left hi]
    | succ k =>
      rw [List.flatMap_cons, List.take_succ_cons, List.map_cons, List.sum_cons,
        List.getElem?_append_right (by omega)]
      rw [← ih k (by simpa using hx)]
      congr 1; omega

/-- The number of local classes of degree `deg` of the first `k` pieces. -/
def classesBefore (outs : List (LocalOut α)) (deg k : ℕ) : ℕ :=
  ((outs.take k).map fun o => ((o.ph.hom[deg]?).map Basis.dim).getD 0).sum

/-- C49: the column stored by `add_output_first`.  In each degree `cycle_dimensions` holds the running
totals of the local dimensions followed by `0`, the page dimension is their sum, and class `i` of piece
`k` has its bar at the position given by these totals. -/
theorem C49_first_page (rows : ℕ) (outs : List (LocalOut α)) (hne : outs ≠ [])
    (h : ∀ o ∈ outs, rows ≤ o.ph.hom.length)
    (hdim : ∀ o ∈ outs, ∀ B ∈ o.ph.hom, B.dim = B.barcode.length) :
    ∃ col, addOutputFirst rows outs.length outs = .ok col ∧ col.outs = outs ∧
      ∀ deg < rows, ∃ cyc bars,
        col.cycleDims[deg]? = some cyc ∧ col.bars[deg]? = some bars ∧
        col.dims[deg]? = some (classesBefore outs deg outs.length) ∧
        cyc.length = outs.length + 1 ∧
        (∀ k < outs.length, cyc[k]? = some (classesBefore outs deg (k + 1))) ∧
        cyc[outs.length]? = some 0 ∧
        bars.length = classesBefore outs deg outs.length ∧
        ∀ (k : ℕ) (o : LocalOut α) (B : Basis α), outs[k]? = some o → o.ph.hom[deg]? = some B →
          ∀ i < B.dim, bars[classesBefore outs deg k + i]? = B.barcode[i]? := by
  have key : ∀ deg ∈ List.range rows, ∃ hs, homsOfDegree outs outs.length deg = .ok hs := by
    intro deg hd
    obtain ⟨hs, h1, _⟩ := homsOfDegree_ok (outs := outs) (deg := deg) fun o ho =>
      lt_of_lt_of_le (by simpa using hd) (h o ho)
    exact ⟨hs, h1⟩
  obtain ⟨hs, hhs⟩ := mapM_ok_of key
  obtain ⟨hlen, hget⟩ := mapM_ok_spec hhs
  rw [List.length_range] at hlen
  refine ⟨{ outs := outs
            cycleDims := hs.map fun l => runningSums 0 (l.map Basis.dim) ++ [0]
            dims := hs.map fun l => (l.map Basis.dim).sum
            bars := hs.map fun l => l.flatMap Basis.barcode }, ?_, rfl, ?_⟩
  · unfold addOutputFirst
    rw [if_neg hne, hhs]
    rfl
  · intro deg hd
    obtain ⟨l, h1, h2, h3⟩ := homsOfDegree_ok (outs := outs) (deg := deg) fun o ho =>
      lt_of_lt_of_le hd (h o ho)
    have e := hget deg (by simpa using hd) (by omega)
    rw [List.getElem_range, h1] at e
    have hl : hs[deg]? = some l := by
      rw [List.getElem?_eq_getElem (show deg < hs.length by omega), ← Except.ok.inj e]
    have hmap : ∀ k, ((l.take k).map Basis.dim).sum = classesBefore outs deg k := by
      intro k
      unfold classesBefore
      congr 1
      apply List.ext_getElem?
      intro i
      rw [List.getElem?_map, List.getElem?_map]
      by_cases hi : i < k
      · rw [List.getElem?_take_of_lt hi, List.getElem?_take_of_lt hi]
        by_cases hio : i < outs.length
        · have ho := List.getElem?_eq_getElem hio
          rw [h3 i _ ho, ho]
          have := lt_of_lt_of_le hd (h outs[i] (List.getElem_mem hio))
          simp [this]
        · rw [List.getElem?_eq_none (by omega), List.getElem?_eq_none (by omega)]; rfl
      · rw [List.getElem?_eq_none (by simp; omega), List.getElem?_eq_none (by simp; omega)]; rfl
    have hbar : ∀ B ∈ l, B.dim = B.barcode.length := by
      intro B hB
      obtain ⟨k, hk, rfl⟩ := List.mem_iff_getElem.mp hB
      have ho := List.getElem?_eq_getElem (show k < outs.length by omega)
      have e := h3 k _ ho
      rw [List.getElem?_eq_getElem hk] at e
      obtain ⟨hh, e⟩ := List.getElem?_eq_some_iff.mp e.symm
      exact hdim outs[k] (List.getElem_mem _) _ (e ▸ List.getElem_mem hh)
    have htot : (l.map Basis.dim).sum = classesBefore outs deg outs.length := by
      rw [← hmap, List.take_of_length_le (by omega)]
    refine ⟨runningSums 0 (l.map Basis.dim) ++ [0], l.flatMap Basis.barcode, by simp [hl],
      by simp [hl], by simp [hl, htot], by simp [runningSums_length, h2], ?_, ?_, ?_, ?_⟩
    · intro k hk
      rw [List.getElem?_append_left (by simp [runningSums_length]; omega), runningSums_get,
        if_pos (by simp; omega), ← List.map_take, hmap]
      simp
    · rw [List.getElem?_append_right (by simp [runningSums_length]; omega)]
      simp [runningSums_length, h2]
    · rw [← htot, List.length_flatMap]
      congr 1
      exact List.map_congr_left fun B hB => (hbar B hB).symm
    · intro k o B ho hB i hi
      have hk := (h3 k o ho).trans hB
      rw [← hmap, ← flatMap_get Basis.barcode l k B hk i (by
        rw [← hbar B (List.mem_of_getElem? hk)]; exact hi)]
      congr 3
      exact List.map_congr_left fun B hB => (hbar B (List.mem_of_mem_take hB))

/-- Two pieces with two and one classes in degree zero, and none and one in degree one. -/
def firstEx : List (LocalOut ℤ) :=
  [⟨⟨2, [], [], []⟩, [], ⟨[barsOnly [(0, 5), (0, 3)], barsOnly []], [], []⟩⟩,
   ⟨⟨3, [], [], []⟩, [], ⟨[barsOnly [(0, 5)], barsOnly [(2, 4)]], [], []⟩⟩]

example : firstEx ≠ [] ∧ (∀ o ∈ firstEx, 2 ≤ o.ph.hom.length) ∧
    ∀ o ∈ firstEx, ∀ B ∈ o.ph.hom, B.dim = B.barcode.length := by
  unfold firstEx; decide

/-! ## C50 -/

/-- C50, schedule: on page `cp` every position is processed at most once, no position outside of the
page is, and those with `n + deg ≤ max_dim` are processed. -/
theorem C50_schedule (rows cp N : ℕ) (hcp : 2 ≤ cp) (hN : cp ≤ N) (n deg : ℕ) :
    let visited := (pageStarts rows cp).flatMap fun s => sweep cp N N s.1 s.2
    visited.count (n, deg) ≤ 1 ∧
      (visited.count (n, deg) = 1 → n < N ∧ deg < rows) ∧
      (n < N → deg < rows → n + deg ≤ rows → visited.count (n, deg) = 1) := by
  intro visited
  have hmem : (n, deg) ∈ visited ↔ n < N ∧ deg + n / cp * (cp - 1) < rows := by
    simp only [visited, List.mem_flatMap]
    constructor
    · rintro ⟨s, hs, hm⟩
      rw [mem_pageStarts] at hs
      rw [mem_sweep_iff hcp hs.1 (lt_of_lt_of_le hs.1 hN)] at hm
      obtain ⟨h1, h2⟩ := hm
      refine ⟨h1, ?_⟩
      have := hs.2
      rw [h2] at this
      exact this
    · rintro ⟨h1, h2⟩
      have h3 : n % cp < cp := Nat.mod_lt _ (by omega)
      exact ⟨(n % cp, deg + n / cp * (cp - 1)), mem_pageStarts.mpr ⟨h3, h2⟩,
        (mem_sweep_iff (s := (n % cp, deg + n / cp * (cp - 1))) hcp h3 (lt_of_lt_of_le h3 hN)).mpr
          ⟨h1, rfl⟩⟩
  have hnd : visited.Nodup := by
    simp only [visited]
    rw [List.nodup_flatMap]
    refine ⟨fun s hs => sweep_nodup hcp (lt_of_lt_of_le (mem_pageStarts.mp hs).1 hN), ?_⟩
    refine List.Pairwise.imp_of_mem ?_ (pageStarts_nodup rows cp)
    rintro s s' hs hs' hne ⟨a, b⟩ hx hy
    rw [mem_pageStarts] at hs hs'
    rw [mem_sweep_iff hcp hs.1 (lt_of_lt_of_le hs.1 hN)] at hx
    rw [mem_sweep_iff hcp hs'.1 (lt_of_lt_of_le hs'.1 hN)] at hy
    exact hne (hx.2.trans hy.2.symm)
  refine ⟨List.nodup_iff_count_le_one.mp hnd _, ?_, ?_⟩
  · intro h
    have := List.count_pos_iff.mp (by omega : 0 < visited.count (n, deg))
    rw [hmem] at this
    exact ⟨this.1, by omega⟩
  · intro h1 h2 h3
    have : (n, deg) ∈ visited := by
      rw [hmem]
      refine ⟨h1, ?_⟩
      by_cases h0 : n / cp = 0
      · rw [h0]; simpa using h2
      · have e1 : n / cp * cp ≤ n := Nat.div_mul_le_self n cp
        have e2 : n / cp * cp = n / cp * (cp - 1) + n / cp := by
          obtain ⟨c, rfl⟩ : ∃ c, cp = c + 1 := ⟨cp - 1, by omega⟩
          simp only [Nat.add_sub_cancel]; ring
        generalize n / cp = q at *
        generalize q * (cp - 1) = y at *
        omega
    exact List.count_eq_one_of_mem hnd this

/-- The computation that fills position `(n, deg)` of page `cp + 1` out of the entries of page `cp`: it is
entry `i` of the sequence starting at `s`, and `out` is the homology of that sequence. -/
structure FilledBy (rnd : α → α) (E : SSEnv α) (N cp : ℕ) (S S' : SSt α) (n deg : ℕ) (s : ℕ × ℕ)
    (i : ℕ) (out : MPH α) : Prop where
  start : s = (n % cp, deg + n / cp * (cp - 1))
  index : i = n / cp
  run : ∃ S₁ diffs, (∀ b c, S₁.hom (cp - 1) b c = S.hom (cp - 1) b c) ∧
    (sweep cp N N s.1 s.2).tail.mapM (fun x => highDifferential rnd E S₁ (x.1 - cp) x.2 cp) =
      .ok diffs ∧
    modulePersistenceHomology rnd E.p (⟨0, []⟩ :: diffs)
      ((sweep cp N N s.1 s.2).map fun x => (S.hom (cp - 1) x.1 x.2).basis) = .ok out
  hom : ∃ h, out.hom.getD i none = some h ∧ (S'.hom cp n deg).basis = h
  im : S'.im cp n deg = out.im.getD i none
  preIm : S'.preIm cp n deg = out.preIm.getD i none

theorem pageHigher_frame {rnd : α → α} {E : SSEnv α} {N cp : ℕ} (hcp : 2 ≤ cp) (hN : cp ≤ N)
    {l : List (ℕ × ℕ)} (hl : ∀ s ∈ l, s.1 < cp) {S S' : SSt α}
    (h : l.foldlM (pageSequence rnd E N cp) S = .ok S') (a b c : ℕ)
    (hn : a = cp → (b, c) ∉ l.flatMap fun s => sweep cp N N s.1 s.2) :
    S'.hom a b c = S.hom a b c ∧ S'.im a b c = S.im a b c ∧ S'.preIm a b c = S.preIm a b c := by
  refine foldlM_ok_inv (fun T => T.hom a b c = S.hom a b c ∧ T.im a b c = S.im a b c ∧
    T.preIm a b c = S.preIm a b c) ?_ h ⟨rfl, rfl, rfl⟩
  intro T s T' hs hT ⟨h1, h2, h3⟩
  obtain ⟨_, _, _, _, hw⟩ := pageSequence_written hcp (lt_of_lt_of_le (hl s hs) hN) hT
  obtain ⟨h4, h5, h6⟩ := hw.old a b c (by
    rintro ⟨rfl, hm⟩
    exact hn rfl (List.mem_flatMap.mpr ⟨s, hs, hm⟩))
  exact ⟨h4.trans h1, h5.trans h2, h6.trans h3⟩

/-- C50, effect: after page `cp` each processed position holds the result of exactly one computation,
made from the entries of the previous page; every other entry, of this page or of another one, is
unchanged. -/
theorem C50_page (rnd : α → α) (E : SSEnv α) (N cp : ℕ) (hcp : 2 ≤ cp) (hN : cp ≤ N) (S S' : SSt α)
    (h : pageHigher rnd E N S cp = .ok S') (n deg : ℕ) (hn : n < N) :
    (n + deg ≤ E.rows → deg < E.rows → ∃ s i out, FilledBy rnd E N cp S S' n deg s i out) ∧
    (E.rows ≤ deg → S'.hom cp n deg = S.hom cp n deg) ∧
    ∀ a b c, a ≠ cp → S'.hom a b c = S.hom a b c ∧ S'.im a b c = S.im a b c ∧
      S'.preIm a b c = S.preIm a b c := by
  have hl : ∀ s ∈ pageStarts E.rows cp, s.1 < cp := fun s hs => (mem_pageStarts.mp hs).1
  refine ⟨?_, ?_, ?_⟩
  · intro h1 h2
    have hc := (C50_schedule E.rows cp N hcp hN n deg).2.2 hn h2 h1
    have hm := List.count_pos_iff.mp (by omega : 0 < List.count (n, deg)
      ((pageStarts E.rows cp).flatMap fun s => sweep cp N N s.1 s.2))
    obtain ⟨s, hs, hms⟩ := List.mem_flatMap.mp hm
    obtain ⟨j, hj⟩ := List.mem_iff_getElem?.mp hs
    unfold pageHigher at h
    obtain ⟨S1, S2, hb, hst, ha⟩ := foldlM_ok_split h hj
    have hsl := hl s hs
    have hsN := lt_of_lt_of_le hsl hN
    have hse := ((mem_sweep_iff hcp hsl hsN).mp hms).2
    obtain ⟨diffs, out, hd, ho, hw⟩ := pageSequence_written hcp hsN hst
    have hS1 : ∀ b c, S1.hom (cp - 1) b c = S.hom (cp - 1) b c := fun b c =>
      (pageHigher_frame hcp hN (fun s hs => hl s (List.mem_of_mem_take hs)) hb (cp - 1) b c
        (fun h => by omega)).1
    have hget : (sweep cp N N s.1 s.2)[n / cp]? = some (n, deg) := by
      rw [sweep_get hcp N s.1 s.2 (n / cp) hsN (by omega), hse]
      simp only [Nat.mod_add_div' n cp, hn, true_and, Nat.le_add_left, if_true,
        Nat.add_sub_cancel]
    obtain ⟨hh, h3, h4, h5, h6⟩ := hw.new _ _ hget
    have hafter := pageHigher_frame hcp hN (fun s hs => hl s (List.mem_of_mem_drop hs)) ha cp n deg
      (fun _ hmem => by
        obtain ⟨s', hs', hm'⟩ := List.mem_flatMap.mp hmem
        have hsl' := hl s' (List.mem_of_mem_drop hs')
        have := ((mem_sweep_iff hcp hsl' (lt_of_lt_of_le hsl' hN)).mp hm').2
        have hss : s' = s := this.trans hse.symm
        subst hss
        have hnd := pageStarts_nodup E.rows cp
        obtain ⟨k, hk⟩ := List.mem_iff_getElem?.mp hs'
        rw [List.getElem?_drop] at hk
        have := (List.getElem?_inj (List.getElem?_eq_some_iff.mp hj).1 hnd).mp (hj.trans hk.symm)
        omega)
    refine ⟨s, n / cp, out, hse, rfl, ⟨S1, diffs, hS1, hd, ?_⟩, ⟨hh, h3, ?_⟩, ?_, ?_⟩
    · rw [← ho]
      congr 1
      exact List.map_congr_left fun x _ => by rw [hS1]
    · rw [hafter.1, h4]
    · rw [hafter.2.1, h5]
    · rw [hafter.2.2, h6]
  · intro hd
    refine (pageHigher_frame hcp hN hl h cp n deg fun _ hm => ?_).1
    have hc := C50_schedule E.rows cp N hcp hN n deg
    have := List.count_pos_iff.mpr hm
    have := hc.2.1 (by have := hc.1; omega)
    omega
  · intro a b c ha
    exact pageHigher_frame hcp hN hl h a b c fun h => absurd h ha


/-! ## C52 -/

/-- C52, results: when every task succeeds the result of the parallel map is the list of the results of
the tasks, in the order of the tasks, whatever the chunk size and the order of completion. -/
theorem C52_parallel_map {γ β : Type} (f : γ → Except PyErr β) (k : ℕ) (hk : 0 < k) (xs : List γ)
    (ys : List β) (h : xs.mapM f = .ok ys) (order : List ℕ)
    (ho : order.Perm (List.range (chunksOf k xs.length xs).length)) :
    poolMap f k xs order = .ok (ys.map some) := by
  have hmem : ∀ i, i ∈ order ↔ i * k < xs.length := by
    intro i
    rw [ho.mem_iff, List.mem_range]
    have := chunksOf_get hk xs.length xs i (le_refl _)
    constructor
    · intro hi
      rw [List.getElem?_eq_getElem hi] at this
      by_contra hc
      rw [if_neg hc] at this
      cases this
    · intro hi
      rw [if_pos hi] at this
      exact (List.getElem?_eq_some_iff.mp this).1
  obtain ⟨h1, h2, h3⟩ := foldl_set_ok hk h order (fun i hi => (hmem i).mp hi)
    ⟨List.replicate xs.length none, none⟩ (by simp) rfl
  have hl := (mapM_ok_spec h).1
  unfold poolMap
  simp only [h1]
  congr 1
  apply List.ext_getElem?
  intro j
  by_cases hj : j < xs.length
  · rw [h3 j hj, if_pos ((hmem _).mpr (lt_of_le_of_lt (Nat.div_mul_le_self j k) hj)), List.getElem?_map]
  · rw [List.getElem?_eq_none (by omega), List.getElem?_eq_none (by simp; omega)]

/-- C52, failures: the parallel map raises if and only if some task does, and what it raises is the
exception of one of the tasks. -/
theorem C52_parallel_failure {γ β : Type} (f : γ → Except PyErr β) (k : ℕ) (hk : 0 < k) (xs : List γ)
    (order : List ℕ) (ho : order.Perm (List.range (chunksOf k xs.length xs).length)) :
    ((∃ e, poolMap f k xs order = .error e) ↔ ∃ x ∈ xs, ∃ e, f x = .error e) ∧
      ∀ e, poolMap f k xs order = .error e → ∃ x ∈ xs, f x = .error e := by
  have hcase : ∀ e, poolMap f k xs order = .error e → ∃ x ∈ xs, f x = .error e := by
    intro e he
    unfold poolMap at he
    simp only at he
    split at he
    · rename_i e' hf
      cases he
      rw [foldl_set_failed (fun i => runChunk f ((chunksOf k xs.length xs).getD i []))] at hf
      simp only [Option.none_or] at hf
      have hm := List.mem_of_mem_head? (Option.mem_def.mpr hf)
      obtain ⟨i, hi, hi'⟩ := List.mem_filterMap.mp hm
      split at hi'
      · cases hi'
      rename_i e2 he2
      cases hi'
      obtain ⟨x, hx, hxe⟩ := mapM_error_spec he2
      refine ⟨x, ?_, hxe⟩
      rw [List.getD_eq_getElem?_getD, chunksOf_get hk _ _ _ (le_refl _)] at hx
      split at hx
      · exact List.mem_of_mem_drop (List.mem_of_mem_take hx)
      · simp at hx
    · cases he
  refine ⟨⟨?_, ?_⟩, hcase⟩
  · rintro ⟨e, he⟩
    obtain ⟨x, hx, hxe⟩ := hcase e he
    exact ⟨x, hx, e, hxe⟩
  · rintro ⟨x, hx, e, hxe⟩
    obtain ⟨j, hj, rfl⟩ := List.mem_iff_getElem.mp hx
    have hjk : j / k * k < xs.length := lt_of_le_of_lt (Nat.div_mul_le_self j k) hj
    have hch := chunksOf_get hk xs.length xs (j / k) (le_refl _)
    rw [if_pos hjk] at hch
    have hio : j / k ∈ order := by
      rw [ho.mem_iff, List.mem_range]; exact (List.getElem?_eq_some_iff.mp hch).1
    have herr : ∃ e', runChunk f ((chunksOf k xs.length xs).getD (j / k) []) = .error e' := by
      rw [List.getD_eq_getElem?_getD, hch]
      simp only [Option.getD_some, runChunk]
      cases hr : ((xs.drop (j / k * k)).take k).mapM f with
      | error e' => exact ⟨e', rfl⟩
      | ok vs =>
        exfalso
        obtain ⟨h1, h2⟩ := mapM_ok_spec hr
        have hlt : j - j / k * k < k := by
          have := Nat.lt_div_mul_add (a := j) hk; omega
        have hle : j / k * k ≤ j := Nat.div_mul_le_self j k
        have hl : j - j / k * k < ((xs.drop (j / k * k)).take k).length := by simp; omega
        have e1 := h2 _ hl (by omega)
        rw [List.getElem_take, List.getElem_drop] at e1
        simp only [Nat.add_sub_cancel' hle] at e1
        rw [hxe] at e1; cases e1
    obtain ⟨e', he'⟩ := herr
    unfold poolMap
    simp only
    rw [foldl_set_failed (fun i => runChunk f ((chunksOf k xs.length xs).getD i []))]
    simp only [Option.none_or]
    cases hh : (order.filterMap fun i => match runChunk f ((chunksOf k xs.length xs).getD i []) with
        | .ok _ => none
        | .error e => some e).head? with
    | some e2 => exact ⟨e2, rfl⟩
    | none =>
      exfalso
      rw [List.head?_eq_none_iff, List.filterMap_eq_nil_iff] at hh
      have := hh _ hio
      rw [he'] at this
      cases this

/-- Five tasks in chunks of two, the chunks completing in the order 2, 0, 1; and a failing task. -/
example : poolMap (fun n : ℕ => (.ok (n * n) : Except PyErr ℕ)) 2 [1, 2, 3, 4, 5] [2, 0, 1] =
    .ok [some 1, some 4, some 9, some 16, some 25] := by decide
example : poolMap (fun n : ℕ => if n = 3 then (.error .valueError : Except PyErr ℕ) else .ok n) 2
    [1, 2, 3, 4, 5] [2, 1, 0] = .error .valueError := by decide

end

section

variable {K : Type} [Field K] [LinearOrder K] [FloorRing K]

/-! ## C51 -/

/-- C51: let `no_pages` be the number of pages of the spectral sequence created by `create_MV_ss`.  On any
page `r ≥ no_pages` the differential that leaves a position `(n, deg)` used in the result goes to column
`n - r < 0`, and the one that arrives comes from a negative degree or from a column beyond the last
one.  Also a first page is always computed before. -/
theorem C51_limit_page (pdist : List (List K) → List (List K)) (argsort : List K → List Nat)
    (rnd : K → K) (maxR : K) (maxDim maxDiv : ℕ) (overlap : K) (dim : ℕ) (cloud : List (List K)) (p : ℕ)
    (E : SSEnv K) (h : createEnv pdist argsort rnd maxR maxDim maxDiv overlap dim cloud p = .ok E)
    (n deg r : ℕ) (hn : n < E.spxNumber.length - 1) (hd : n + deg < maxDim) (hr : E.noPages ≤ r) :
    (n : ℤ) - r < 0 ∧ ((deg : ℤ) - r + 1 < 0 ∨ E.spxNumber.length - 1 ≤ n + r) := by
  unfold createEnv at h
  rw [bind_ok] at h
  obtain ⟨cover, _, h⟩ := h
  unfold envOf at h
  rw [bind_ok] at h
  obtain ⟨D, _, h⟩ := h
  simp only [] at h
  rw [bind_ok] at h
  obtain ⟨columns, _, h⟩ := h
  cases h
  simp only [List.length_cons, List.length_map, Nat.add_sub_cancel] at *
  omega

/-! ## C53 -/

theorem filterMap_id_of_some {β : Type} {l : List (Option β)} (h : ∀ x ∈ l, x ≠ none) :
    l = (l.filterMap id).map some := by
  induction l with
  | nil => rfl
  | cons x l ih =>
    cases x with
    | none => exact absurd rfl (h none (by simp))
    | some b =>
      have := ih fun x hx => h x (List.mem_cons_of_mem _ hx)
      rw [List.filterMap_cons_some (f := id) (b := b) rfl, List.map_cons, ← this]

/-- C53, part: when every diagonal of the limit page is nonzero, `persistent_homology` has one entry for
each degree, in order.  Missing: it fails for a zero diagonal (`C53_violated`). -/
theorem C53_index_partial {α : Type} [LinearOrder α] [Zero α] (rnd : α → α) (E : SSEnv α) (S : SSt α)
    (noColumns : ℕ) (L : List (Basis α)) (h : persistentList rnd E S noColumns = .ok L)
    (hnz : ∀ deg, 1 ≤ deg → deg < E.rows →
      ∃ n < min (deg + 1) noColumns, S.pageDim E E.noPages (deg - n) n ≠ 0) :
    L.length = E.rows ∧ L[0]? = some (S.hom (E.noPages - 1) 0 0).basis ∧
      ∀ deg, 1 ≤ deg → deg < E.rows →
        ∃ B, diagonal rnd E S noColumns deg = .ok (some B) ∧ L[deg]? = some B := by
  unfold persistentList at h
  split at h
  · cases h
  rename_i h0
  rw [bind_ok] at h
  obtain ⟨rest, h1, h⟩ := h
  cases h
  obtain ⟨h2, h3⟩ := mapM_ok_spec h1
  simp only [List.length_map, List.length_range] at h2
  have hsome : ∀ i (hi : i < rest.length), ∃ B, rest[i] = some B ∧
      diagonal rnd E S noColumns (i + 1) = .ok (some B) := by
    intro i hi
    have e := h3 i (by simp; omega) hi
    simp only [List.getElem_map, List.getElem_range] at e
    cases hr : rest[i] with
    | some B => exact ⟨B, rfl, by rw [e, hr]⟩
    | none =>
      exfalso
      rw [hr] at e
      obtain ⟨n, hn, hne⟩ := hnz (i + 1) (by omega) (by omega)
      unfold diagonal at e
      simp only [] at e
      split at e
      · rename_i hs
        have := (List.sum_eq_zero_iff_forall_eq_nat.mp hs) (S.pageDim E E.noPages (i + 1 - n) n)
          (List.mem_map.mpr ⟨n, by simpa using hn, rfl⟩)
        exact hne this
      · rw [bind_ok] at e
        obtain ⟨_, _, e⟩ := e
        rw [bind_ok] at e
        obtain ⟨_, _, e⟩ := e
        cases e
  have hmap : rest = (rest.filterMap id).map some := filterMap_id_of_some fun x hx => by
    obtain ⟨i, hi, rfl⟩ := List.mem_iff_getElem.mp hx
    obtain ⟨B, hB, _⟩ := hsome i hi
    rw [hB]; simp
  have hlen : (rest.filterMap id).length = rest.length := by
    conv_rhs => rw [hmap]
    simp
  refine ⟨by simp only [List.length_cons, hlen, h2]; omega, rfl, ?_⟩
  intro deg hd1 hd2
  obtain ⟨i, rfl⟩ : ∃ i, deg = i + 1 := ⟨deg - 1, by omega⟩
  obtain ⟨B, hB, hBd⟩ := hsome i (by omega)
  refine ⟨B, hBd, ?_⟩
  rw [List.getElem?_cons_succ]
  have : rest[i]? = some (some B) := by rw [List.getElem?_eq_getElem (by omega), hB]
  rw [hmap, List.getElem?_map] at this
  cases hx : (rest.filterMap id)[i]? with
  | none => rw [hx] at this; cases this
  | some B' => rw [hx] at this; simpa using this

end

/-! ### A concrete spectral sequence

The six points `eᵢ ± 7 fᵢ` of a six dimensional space, with their Euclidean distances: `14` between the
two points with the same `i` and `10` otherwise.  For `10 ≤ r < 14` the Vietoris-Rips complex is the
boundary of the octahedron. -/

def octCloud : List (List ℚ) :=
  [[1, 0, 0, 7, 0, 0], [1, 0, 0, -7, 0, 0], [0, 1, 0, 0, 7, 0], [0, 1, 0, 0, -7, 0],
   [0, 0, 1, 0, 0, 7], [0, 0, 1, 0, 0, -7]]

def octDist (c : List (List ℚ)) : List (List ℚ) :=
  c.map fun a => c.map fun b => if a = b then 0 else
    if (List.zipWith (fun x y => (x - y) * (x - y)) a b).sum = 100 then 10 else 14

/-- The distances are the Euclidean ones. -/
example : ∀ i < 6, ∀ j < 6, ((octDist octCloud).getD i []).getD j 0 ^ 2 =
    (List.zipWith (fun x y => (x - y) * (x - y)) (octCloud.getD i []) (octCloud.getD j [])).sum := by
  decide +kernel

def octRun : Except PyErr (MVOut ℚ) := createMVss octDist stableArgsort id 12 3 1 13 6 octCloud 5

/-- C51 is not vacuous: a spectral sequence with five pages. -/
example : ∃ E, createEnv octDist stableArgsort id 12 3 1 13 6 octCloud 5 = .ok E ∧ E.noPages = 5 ∧
    0 < E.spxNumber.length - 1 := by
  have h : ((createEnv octDist stableArgsort id 12 3 1 13 6 octCloud 5).map fun E =>
      (E.noPages, E.spxNumber.length)) = .ok (5, 65) := by decide +kernel
  cases hE : createEnv octDist stableArgsort id 12 3 1 13 6 octCloud 5 with
  | error e => rw [hE] at h; cases h
  | ok E =>
    rw [hE] at h
    simp only [Except.map, Except.ok.injEq, Prod.mk.injEq] at h
    exact ⟨E, rfl, h.1, by omega⟩

/-! The corners of a rectangle, covered by four squares, with the Euclidean distances. -/

def rectCloud : List (List ℚ) := [[0, 0], [3, 0], [3, 4], [0, 4]]

def rectDist (c : List (List ℚ)) : List (List ℚ) :=
  c.map fun a => c.map fun b =>
    if a.getD 0 0 = b.getD 0 0 then (if a.getD 1 0 = b.getD 1 0 then 0 else 4)
    else if a.getD 1 0 = b.getD 1 0 then 3 else 5

def rectRun : Except PyErr (MVOut ℚ) := createMVss rectDist stableArgsort id 6 2 2 7 2 rectCloud 5

/-- C53, C50 and C49 are not vacuous: a run with two pages after the first one, whose diagonals are not
zero; `persistent_homology` has the two entries expected. -/
example : (rectRun.map fun o => ([o.env.noPages, o.env.rows] ::
      (List.range 2).map fun deg => (List.range (deg + 1)).map fun n =>
        o.pages.pageDim o.env o.env.noPages (deg - n) n)) =
    .ok [[4, 2], [4], [1, 0]] := by decide +kernel
example : (rectRun.map fun o => o.persistentHomology.map Basis.barcode) =
    .ok [[(0, 6), (0, 4), (0, 3), (0, 3)], [(4, 5)]] := by decide +kernel

/-- **C53 fails**: with `max_dim = 3` and overlap `13 > max_r = 12` the list `persistent_homology` has only
two entries, and the entry of index `1` is the bar `[10, 12)` of the two dimensional class.  There is no
one dimensional class. -/
theorem C53_violated : ∃ out B₁, octRun = .ok out ∧ out.persistentHomology.length = 2 ∧
    out.persistentHomology[1]? = some B₁ ∧ B₁.barcode = [(10, 12)] ∧
    ∃ direct, localPersistentHomology octDist stableArgsort id octCloud 12 3 5 = .ok direct ∧
      (direct.ph.hom.map Basis.barcode).take 3 =
        [[(0, 12), (0, 10), (0, 10), (0, 10), (0, 10), (0, 10)], [], [(10, 12)]] := by
  have h : (octRun.map fun o => o.persistentHomology.map Basis.barcode) =
      .ok [[(0, 12), (0, 10), (0, 10), (0, 10), (0, 10), (0, 10)], [(10, 12)]] := by decide +kernel
  have h' : ((localPersistentHomology octDist stableArgsort id octCloud 12 3 5).map fun o =>
      (o.ph.hom.map Basis.barcode).take 3) =
      .ok [[(0, 12), (0, 10), (0, 10), (0, 10), (0, 10), (0, 10)], [], [(10, 12)]] := by decide +kernel
  cases hd : localPersistentHomology octDist stableArgsort id octCloud 12 3 5 with
  | error e => rw [hd] at h'; cases h'
  | ok direct =>
  rw [hd] at h'
  cases hE : octRun with
  | error e => rw [hE] at h; cases h
  | ok out =>
    rw [hE] at h
    simp only [Except.map, Except.ok.injEq] at h h'
    have hl : out.persistentHomology.length = 2 := by
      have := congrArg List.length h
      simpa using this
    have h1 : (out.persistentHomology.map Basis.barcode)[1]? = some [(10, 12)] := by rw [h]; rfl
    rw [List.getElem?_map] at h1
    cases hB : out.persistentHomology[1]? with
    | none => rw [hB] at h1; cases h1
    | some B =>
      rw [hB] at h1
      exact ⟨out, B, rfl, hl, hB, by simpa using h1, direct, rfl, h'⟩

end Permaviss
