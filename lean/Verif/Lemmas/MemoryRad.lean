import Verif.Lemmas.Memory

/-!
# `gauss_col_rad` in memory
-/

namespace Permaviss

variable {α : Type} [LinearOrder α]

theorem radScanMem_eq (p : ℕ) (m : Memory) (rads : List α) (done : List (α × (List Int × List Int)))
    (hr : ∀ (k : ℕ) x, done[k]? = some x → rads[k]? = some x.1) (mid todo : List (List Int × List Int)) (rj : α)
    (pivot : ℕ) (d2 : List (α × (List Int × List Int))) :
    ∀ d1, done = d1 ++ d2 → ∀ (rt : List Int × List Int) (bR bT : Buf),
      Holds bR bT (done.map Prod.snd ++ mid ++ rt :: todo) →
    ∃ bR' bT', radScanMem p ⟨m.length, false⟩ ⟨m.length + 1, false⟩ rads (done.map Prod.snd ++ mid).length rj pivot
        (List.range' d1.length d2.length) (m ++ [bR, bT]) =
        ((radScan p rj pivot d2 rt).map fun _ => (), m ++ [bR', bT']) ∧
      bR'.ncols = bR.ncols ∧ bT'.ncols = bT.ncols ∧
      ∀ rt', radScan p rj pivot d2 rt = .ok rt' → Holds bR' bT' (done.map Prod.snd ++ mid ++ rt' :: todo) := by
  induction d2 with
  | nil => exact fun d1 _ rt bR bT h => ⟨bR, bT, rfl, rfl, rfl, fun rt' h' => by cases h'; exact h⟩
  | cons k ks ih =>
    intro d1 hd rt bR bT h
    rw [List.length_cons, List.range'_succ]
    unfold radScanMem radScan
    have hk : done[d1.length]? = some k := by rw [hd]; simp
    have hk' : d1.length < done.length := by rw [hd]; simp
    rw [hr _ _ hk, Memory.at_zero]
    dsimp only
    set L := done.map Prod.snd ++ mid with hL
    have hlen : L.length < (L ++ rt :: todo).length := by simp
    have hlen' : d1.length < (L ++ rt :: todo).length := by simp [hL]; omega
    have hget : (L ++ rt :: todo).getD d1.length ([], []) = k.2 := by
      rw [List.getD_append _ _ _ _ (by simp [hL]; omega), hL, List.getD_append _ _ _ _ (by simpa using hk')]
      rw [List.getD_eq_getElem?_getD, List.getElem?_map, hk]; rfl
    have hih := ih (d1 ++ [k]) (by rw [hd]; simp)
    have hdl : (d1 ++ [k]).length = d1.length + 1 := by simp
    rw [hdl] at hih
    rw [h.rowR hlen', hget]
    by_cases hc : k.1 ≤ rj ∧ indexPivot k.2.1 = some pivot
    · rw [if_pos hc, if_pos hc]
      obtain ⟨cR, cT, c1, c2, c3, c4⟩ := cancelMem_eq p m h (pivot := pivot) hlen hlen'
      rw [getD_mid, hget] at c1 c4
      rw [c1]
      cases hcp : cancelPivot p pivot k.2 rt with
      | error e => exact ⟨cR, cT, rfl, c2, c3, fun rt' h' => by cases h'⟩
      | ok rt1 =>
        have h1 := c4 rt1 hcp
        rw [set_mid] at h1
        have hlen1 : L.length < (L ++ rt1 :: todo).length := by simp
        simp only [thenDo, Except.map, bind, Except.bind]
        rw [Memory.at_zero, h1.rowR hlen1, getD_mid]
        by_cases ha : npAny rt1.1 = true
        · rw [if_pos ha, if_pos ha]
          exact ⟨cR, cT, rfl, c2, c3, fun rt' h' => by cases h'; exact h1⟩
        · rw [if_neg ha, if_neg ha]
          obtain ⟨dR, dT, e1, e2, e3, e4⟩ := hih rt1 cR cT h1
          exact ⟨dR, dT, e1, e2.trans c2, e3.trans c3, e4⟩
    · rw [if_neg hc, if_neg hc]
      exact hih rt bR bT h

theorem radLoopMem_eq (p : ℕ) (m : Memory) (rads : List α) (done : List (α × (List Int × List Int)))
    (hr : ∀ (k : ℕ) x, done[k]? = some x → rads[k]? = some x.1) (mid todo : List (List Int × List Int)) (rj : α)
    (fuel : ℕ) :
    ∀ (rt : List Int × List Int) (bR bT : Buf), Holds bR bT (done.map Prod.snd ++ mid ++ rt :: todo) →
    ∃ bR' bT', radLoopMem p ⟨m.length, false⟩ ⟨m.length + 1, false⟩ rads done.length
        (done.map Prod.snd ++ mid).length rj fuel (m ++ [bR, bT]) =
        ((radLoop p rj done fuel rt).map fun _ => (), m ++ [bR', bT']) ∧
      bR'.ncols = bR.ncols ∧ bT'.ncols = bT.ncols ∧
      ∀ rt', radLoop p rj done fuel rt = .ok rt' → Holds bR' bT' (done.map Prod.snd ++ mid ++ rt' :: todo) := by
  induction fuel with
  | zero => exact fun rt bR bT h => ⟨bR, bT, rfl, rfl, rfl, fun rt' h' => by cases h'⟩
  | succ fuel ih =>
    intro rt bR bT h
    unfold radLoopMem radLoop
    have hlen : ∀ x, (done.map Prod.snd ++ mid).length < (done.map Prod.snd ++ mid ++ x :: todo).length := by simp
    rw [Memory.at_zero, h.rowR (hlen rt), getD_mid]
    cases hpv : indexPivot rt.1 with
    | none => exact ⟨bR, bT, rfl, rfl, rfl, fun rt' h' => by cases h'; exact h⟩
    | some pivot =>
      dsimp only
      obtain ⟨cR, cT, c1, c2, c3, c4⟩ := radScanMem_eq p m rads done hr mid todo rj pivot done [] rfl rt bR bT h
      rw [List.length_nil, ← List.range_eq_range'] at c1
      rw [c1]
      cases hs : radScan p rj pivot done rt with
      | error e => exact ⟨cR, cT, rfl, c2, c3, fun rt' h' => by cases h'⟩
      | ok rt1 =>
        have h1 := c4 rt1 hs
        simp only [thenDo, Except.map, bind, Except.bind]
        rw [Memory.at_zero, h1.rowR (hlen rt1), getD_mid]
        by_cases ha : indexPivot rt1.1 = some pivot
        · rw [if_pos ha, if_pos ha]
          exact ⟨cR, cT, rfl, c2, c3, fun rt' h' => by cases h'⟩
        · rw [if_neg ha, if_neg ha]
          obtain ⟨dR, dT, e1, e2, e3, e4⟩ := ih rt1 cR cT h1
          exact ⟨dR, dT, e1, e2.trans c2, e3.trans c3, e4⟩

theorem radColsMem_eq (p : ℕ) (m : Memory) (rads : List α) (done : List (α × (List Int × List Int)))
    (hr : ∀ (k : ℕ) x, done[k]? = some x → rads[k]? = some x.1) (todo : List (α × (List Int × List Int))) :
    ∀ (mid : List (List Int × List Int)) (bR bT : Buf),
      (∀ (k : ℕ) x, todo[k]? = some x → rads[(done.map Prod.snd ++ mid).length + k]? = some x.1) →
      Holds bR bT (done.map Prod.snd ++ mid ++ todo.map Prod.snd) →
    ∃ bR' bT', radColsMem p ⟨m.length, false⟩ ⟨m.length + 1, false⟩ rads done.length
        (List.range' (done.map Prod.snd ++ mid).length todo.length) (m ++ [bR, bT]) =
        ((todo.mapM fun c => radLoop p c.1 done (c.2.1.length + 1) c.2).map fun _ => (), m ++ [bR', bT']) ∧
      bR'.ncols = bR.ncols ∧ bT'.ncols = bT.ncols ∧
      ∀ out, (todo.mapM fun c => radLoop p c.1 done (c.2.1.length + 1) c.2) = .ok out →
        Holds bR' bT' (done.map Prod.snd ++ mid ++ out) := by
  induction todo with
  | nil => exact fun mid bR bT _ h => ⟨bR, bT, rfl, rfl, rfl, fun out h' => by cases h'; exact h⟩
  | cons c todo ih =>
    intro mid bR bT ht h
    rw [List.length_cons, List.range'_succ]
    unfold radColsMem
    have hc : rads[(done.map Prod.snd ++ mid).length]? = some c.1 := ht 0 c rfl
    rw [hc, Memory.at_zero]
    dsimp only
    rw [List.map_cons] at h
    have hlen : (done.map Prod.snd ++ mid).length <
        (done.map Prod.snd ++ mid ++ c.2 :: todo.map Prod.snd).length := by simp
    have hn : bR.ncols = c.2.1.length := by
      rw [← Buf.length_row bR (done.map Prod.snd ++ mid).length, h.rowR hlen, getD_mid]
    obtain ⟨cR, cT, c1, c2, c3, c4⟩ := radLoopMem_eq p m rads done hr mid (todo.map Prod.snd) c.1 (bR.ncols + 1) c.2
      bR bT h
    rw [c1, hn, List.mapM_cons]
    rw [hn] at c4 c2
    cases hl : radLoop p c.1 done (c.2.1.length + 1) c.2 with
    | error e => exact ⟨cR, cT, rfl, c2, c3, fun rt' h' => by cases h'⟩
    | ok rt1 =>
      have h1 := c4 rt1 hl
      obtain ⟨dR, dT, e1, e2, e3, e4⟩ := ih (mid ++ [rt1]) cR cT (by
        intro k x hk
        have := ht (k + 1) x (by simpa using hk)
        rw [← this]
        congr 1
        simp only [List.length_append, List.length_map, List.length_cons, List.length_nil]; omega)
        (by simpa using h1)
      rw [← List.append_assoc, List.length_append, List.length_singleton] at e1
      refine ⟨dR, dT, ?_, e2.trans c2, e3.trans c3, ?_⟩
      · simp only [thenDo, Except.map, bind, Except.bind]
        rw [e1]
        cases (todo.mapM fun c => radLoop p c.1 done (c.2.1.length + 1) c.2) <;> rfl
      · intro out ho
        cases hm : (todo.mapM fun c => radLoop p c.1 done (c.2.1.length + 1) c.2) with
        | error e => simp only [bind, Except.bind, hm] at ho; cases ho
        | ok ys =>
          simp only [bind, Except.bind, hm] at ho
          cases ho
          simpa using e4 ys hm

theorem modBuf_tr_rows (p : ℕ) (b : Buf) :
    (modBuf p b).tr.rows = b.tr.rows.map fun c => c.map fun x => x % (p : Int) := by
  unfold modBuf Buf.tr Buf.rows Buf.row
  simp only [List.map_map]
  refine List.map_congr_left fun i _ => ?_
  simp only [Function.comp_apply, List.map_map]
  rfl

/-- **`gauss_col_rad` in memory.** -/
theorem gaussColRadMem_eq (p : ℕ) (a : Ref) (rads : List α) (start : ℕ) (m : Memory)
    (hlen : rads.length = (m.mat a).ncols) :
    ∃ bA bR bT : Buf, gaussColRadMem p a rads start m = ((gaussColRad p (m.mat a) rads start).map fun _ =>
        ((⟨m.length + 1, true⟩, ⟨m.length + 2, true⟩) : Ref × Ref), m ++ [bA, bR, bT]) ∧
      ∀ R T, gaussColRad p (m.mat a) rads start = .ok (R, T) →
        (⟨bR.ncols, bR.rows⟩ : Mat) = R ∧ (⟨bT.ncols, bT.rows⟩ : Mat) = T := by
  unfold gaussColRadMem gaussColRad
  dsimp only [Memory.copy, Memory.alloc]
  set N := (m.at_ a).ncols with hN
  have hcols : (m.mat a).cols = (m.at_ a).tr.rows := rfl
  have hncols : (m.mat a).cols.length = N := by rw [hcols, Buf.length_rows]; rfl
  have hrl : rads.length = N := hlen.trans hncols
  set all := radAll p (m.mat a) rads with hall
  have hal : all.length = N := by
    rw [hall]; unfold radAll; simp [identityCols, hncols, hrl]
  have hall2 : all.map Prod.snd =
      ((m.mat a).cols.map fun c => c.map fun x => x % (p : Int)).zip (identityCols (m.mat a).cols.length) := by
    rw [hall]; unfold radAll
    exact List.map_snd_zip (by simp [identityCols, hncols, hrl])
  have hrads : ∀ (k : ℕ) x, all[k]? = some x → rads[k]? = some x.1 := by
    intro k x hk
    rw [hall] at hk
    unfold radAll at hk
    exact (List.getElem?_zip_eq_some.1 hk).1
  have e0 : (m ++ [modBuf p (m.at_ a)]).at_ (Ref.T ⟨m.length, false⟩) = (modBuf p (m.at_ a)).tr := by
    rw [Memory.at_T]
    exact congrArg Buf.tr (Memory.at_zero m (modBuf p (m.at_ a)) [])
  have hh : Holds (modBuf p (m.at_ a)).tr (identityBuf N) (all.map Prod.snd) := by
    refine ⟨?_, ?_⟩
    · rw [hall2, List.map_fst_zip (by simp [identityCols]), modBuf_tr_rows, hcols]
    · rw [hall2, List.map_snd_zip (by simp [identityCols]), identityBuf_rows, hncols]
  have hsplit : (all.take start).map Prod.snd ++ [] ++ (all.drop start).map Prod.snd = all.map Prod.snd := by
    rw [List.append_nil, ← List.map_append, List.take_append_drop]
  have hd : ∀ (k : ℕ) x, (all.take start)[k]? = some x → rads[k]? = some x.1 := by
    intro k x hk
    refine hrads k x ?_
    rw [List.getElem?_take] at hk
    split at hk
    · exact hk
    · cases hk
  have e1 : m ++ [modBuf p (m.at_ a)] ++ [(modBuf p (m.at_ a)).tr] ++ [identityBuf N] =
      (m ++ [modBuf p (m.at_ a)]) ++ [(modBuf p (m.at_ a)).tr, identityBuf N] := by simp
  have e2 : (m ++ [modBuf p (m.at_ a)] ++ [(modBuf p (m.at_ a)).tr]).length =
      (m ++ [modBuf p (m.at_ a)]).length + 1 := by simp
  rw [e0, e1, e2]
  have key : ∃ bR bT : Buf, radColsMem p ⟨(m ++ [modBuf p (m.at_ a)]).length, false⟩
        ⟨(m ++ [modBuf p (m.at_ a)]).length + 1, false⟩ rads start ((List.range N).drop start)
        ((m ++ [modBuf p (m.at_ a)]) ++ [(modBuf p (m.at_ a)).tr, identityBuf N]) =
        (((all.drop start).mapM fun c => radLoop p c.1 (all.take start) (c.2.1.length + 1) c.2).map fun _ => (),
          (m ++ [modBuf p (m.at_ a)]) ++ [bR, bT]) ∧
      bR.ncols = (modBuf p (m.at_ a)).tr.ncols ∧ bT.ncols = (identityBuf N).ncols ∧
      ∀ out, ((all.drop start).mapM fun c => radLoop p c.1 (all.take start) (c.2.1.length + 1) c.2) = .ok out →
        Holds bR bT ((all.take start).map Prod.snd ++ [] ++ out) := by
    rcases Nat.lt_or_ge start N with hs | hs
    · obtain ⟨bR, bT, c1, c2, c3, c4⟩ := radColsMem_eq p (m ++ [modBuf p (m.at_ a)]) rads (all.take start) hd
        (all.drop start) [] _ _ (by
          intro k x hk
          rw [List.getElem?_drop] at hk
          have : ((all.take start).map Prod.snd ++ []).length = start := by simp [hal]; omega
          rw [this]
          exact hrads _ _ hk) (hsplit ▸ hh)
      have hl : ((all.take start).map Prod.snd ++ []).length = start := by simp [hal]; omega
      have hl' : (all.take start).length = start := by simp [hal]; omega
      have hl2 : (all.drop start).length = N - start := by rw [List.length_drop, hal]
      rw [hl, hl', hl2] at c1
      have hrange : (List.range N).drop start = List.range' start (N - start) := by
        rw [List.range_eq_range', List.drop_range']
        simp
      rw [hrange]
      exact ⟨bR, bT, c1, c2, c3, c4⟩
    · have h1 : all.drop start = [] := List.drop_eq_nil_of_le (by omega)
      have h2 : (List.range N).drop start = [] := List.drop_eq_nil_of_le (by simpa using hs)
      rw [h1, h2]
      refine ⟨_, _, rfl, rfl, rfl, fun out ho => ?_⟩
      cases ho
      rw [h1] at hsplit
      rw [List.map_nil] at hsplit
      rw [List.reverse_nil, hsplit]
      exact hh
  obtain ⟨bR, bT, c1, c2, c3, c4⟩ := key
  rw [c1]
  refine ⟨modBuf p (m.at_ a), bR, bT, ?_, ?_⟩
  · cases (all.drop start).mapM fun c => radLoop p c.1 (all.take start) (c.2.1.length + 1) c.2 with
    | error e => simp [thenDo, Except.map, bind, Except.bind]
    | ok out => simp [thenDo, Except.map, bind, Except.bind, pure, Except.pure, Ref.T]
  · intro R T hRT
    cases hm : (all.drop start).mapM fun c => radLoop p c.1 (all.take start) (c.2.1.length + 1) c.2 with
    | error e => rw [hm] at hRT; cases hRT
    | ok out =>
      rw [hm] at hRT
      cases hRT
      have hH := c4 out hm
      rw [List.append_nil] at hH
      rw [hH.R, hH.T, c2, c3]
      exact ⟨rfl, by rw [hncols]; rfl⟩

end Permaviss
