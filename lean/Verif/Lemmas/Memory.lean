import Verif.Model.InPlace
import Mathlib.Data.List.GetD
import Mathlib.Data.List.Induction

/-!
# Arrays in memory: reading and writing
-/

namespace Permaviss

namespace Buf

theorem length_row (b : Buf) (i : ℕ) : (b.row i).length = b.ncols := by simp [row]

theorem length_rows (b : Buf) : b.rows.length = b.nrows := by simp [rows]

theorem row_eq (b : Buf) {i : ℕ} (h : i < b.rows.length) : b.row i = b.rows.getD i [] := by
  rw [length_rows] at h
  simp [rows, List.getD_eq_getElem?_getD, List.getElem?_map, List.getElem?_range h]

theorem row_setRow (b : Buf) (i k : ℕ) {v : List Int} (hv : v.length = b.ncols) :
    (b.setRow i v).row k = if k = i then v else b.row k := by
  unfold row setRow
  dsimp only
  by_cases hk : k = i
  · subst hk
    rw [if_pos rfl]
    simp only [if_true]
    apply List.ext_getElem
    · simp [hv]
    · intro j h3 h4
      simp [List.getD_eq_getElem?_getD, List.getElem?_eq_getElem h4]
  · rw [if_neg hk]
    simp only [hk, if_false]

theorem rows_setRow (b : Buf) (i : ℕ) {v : List Int} (hv : v.length = b.ncols) :
    (b.setRow i v).rows = b.rows.set i v := by
  have e : (b.setRow i v).rows = (List.range b.nrows).map fun k => if k = i then v else b.row k := by
    unfold rows
    exact List.map_congr_left fun k _ => row_setRow b i k hv
  rw [e]
  apply List.ext_getElem
  · simp [rows]
  · intro k h1 h2
    rw [List.getElem_set]
    simp only [rows, List.getElem_map, List.getElem_range]
    by_cases hk : k = i
    · rw [if_pos hk, if_pos hk.symm]
    · rw [if_neg hk, if_neg (Ne.symm hk)]

theorem ncols_setRow (b : Buf) (i : ℕ) (v : List Int) : (b.setRow i v).ncols = b.ncols := rfl

theorem tr_tr (b : Buf) : b.tr.tr = b := rfl

end Buf

namespace Memory

theorem at_append {m : Memory} {r : Ref} (h : r.addr < m.length) (new : List Buf) :
    at_ (m ++ new) r = at_ m r := by
  unfold at_
  rw [List.getD_eq_getElem?_getD, List.getElem?_append_left h, ← List.getD_eq_getElem?_getD]

theorem mat_append {m : Memory} {r : Ref} (h : r.addr < m.length) (new : List Buf) :
    mat (m ++ new) r = mat m r := by
  unfold mat; rw [at_append h]

theorem unchanged_append (m new : Memory) : Unchanged m (m ++ new) := fun _ h => at_append h new

theorem at_T (m : Memory) (r : Ref) : at_ m r.T = (at_ m r).tr := by
  unfold at_ Ref.T
  cases r.flip <;> rfl

theorem at_zero (m : Memory) (b : Buf) (l : List Buf) : at_ (m ++ b :: l) ⟨m.length, false⟩ = b := by
  unfold at_
  simp [List.getD_eq_getElem?_getD]

theorem at_one (m : Memory) (a b : Buf) (l : List Buf) : at_ (m ++ a :: b :: l) ⟨m.length + 1, false⟩ = b := by
  unfold at_
  simp [List.getD_eq_getElem?_getD]

theorem setRow_zero (m : Memory) (b : Buf) (l : List Buf) (i : ℕ) (v : List Int) :
    setRow (m ++ b :: l) ⟨m.length, false⟩ i v = m ++ b.setRow i v :: l := by
  unfold setRow
  rw [at_zero]
  simp

theorem setRow_one (m : Memory) (a b : Buf) (l : List Buf) (i : ℕ) (v : List Int) :
    setRow (m ++ a :: b :: l) ⟨m.length + 1, false⟩ i v = m ++ a :: b.setRow i v :: l := by
  unfold setRow
  rw [at_one]
  simp

end Memory

theorem length_addArraysModC {a b : List Int} {n : ℕ} (ha : a.length = n) (hb : b.length = n) (p : ℕ) :
    (addArraysModC a b p).length = n := by
  unfold addArraysModC; simp [ha, hb]

theorem len_scale (q : Int) (v : List Int) : (scale q v).length = v.length := by simp [scale]

/-- Two new arrays hold the rows of a list of pairs. -/
structure Holds (bR bT : Buf) (rts : List (List Int × List Int)) : Prop where
  R : bR.rows = rts.map Prod.fst
  T : bT.rows = rts.map Prod.snd

namespace Holds

variable {bR bT : Buf} {rts : List (List Int × List Int)}

theorem rowR (h : Holds bR bT rts) {i : ℕ} (hi : i < rts.length) : bR.row i = (rts.getD i ([], [])).1 := by
  rw [Buf.row_eq _ (by rw [h.R, List.length_map]; exact hi), h.R]
  simp [List.getD_eq_getElem?_getD, List.getElem?_eq_getElem hi]

theorem rowT (h : Holds bR bT rts) {i : ℕ} (hi : i < rts.length) : bT.row i = (rts.getD i ([], [])).2 := by
  rw [Buf.row_eq _ (by rw [h.T, List.length_map]; exact hi), h.T]
  simp [List.getD_eq_getElem?_getD, List.getElem?_eq_getElem hi]

theorem set (h : Holds bR bT rts) (i : ℕ) {u v : List Int} (hu : u.length = bR.ncols) (hv : v.length = bT.ncols) :
    Holds (bR.setRow i u) (bT.setRow i v) (rts.set i (u, v)) := by
  refine ⟨?_, ?_⟩
  · rw [Buf.rows_setRow _ _ hu, h.R, List.map_set]
  · rw [Buf.rows_setRow _ _ hv, h.T, List.map_set]

end Holds

/-- One column operation in memory. -/
theorem cancelMem_eq (p : ℕ) (m : Memory) {bR bT : Buf} {rts : List (List Int × List Int)} (h : Holds bR bT rts)
    {j k pivot : ℕ} (hj : j < rts.length) (hk : k < rts.length) :
    ∃ bR' bT', cancelMem p ⟨m.length, false⟩ ⟨m.length + 1, false⟩ j k pivot (m ++ [bR, bT]) =
        ((cancelPivot p pivot (rts.getD k ([], [])) (rts.getD j ([], []))).map fun _ => (), m ++ [bR', bT']) ∧
      bR'.ncols = bR.ncols ∧ bT'.ncols = bT.ncols ∧
      ∀ rt, cancelPivot p pivot (rts.getD k ([], [])) (rts.getD j ([], [])) = .ok rt →
        Holds bR' bT' (rts.set j rt) := by
  unfold cancelMem cancelPivot
  rw [Memory.at_zero, h.rowR hj, h.rowR hk]
  cases hi : invModP ((rts.getD k ([], [])).1.getD pivot 0) p with
  | error e => exact ⟨bR, bT, rfl, rfl, rfl, fun rt hrt => by cases hrt⟩
  | ok inv =>
    dsimp only
    rw [Memory.setRow_zero, Memory.at_one, Memory.setRow_one, h.rowT hj, h.rowT hk]
    refine ⟨_, _, rfl, rfl, rfl, fun rt hrt => ?_⟩
    cases hrt
    refine h.set j ?_ ?_
    · refine length_addArraysModC ?_ ?_ _
      · rw [← h.rowR hj, Buf.length_row]
      · rw [len_scale, ← h.rowR hk, Buf.length_row]
    · refine length_addArraysModC ?_ ?_ _
      · rw [← h.rowT hj, Buf.length_row]
      · rw [len_scale, ← h.rowT hk, Buf.length_row]

theorem find_congr {X : Type*} {f g : X → Bool} {l : List X} (h : ∀ x ∈ l, f x = g x) : l.find? f = l.find? g := by
  induction l with
  | nil => rfl
  | cons a l ih =>
    rw [List.find?_cons, List.find?_cons, h a (by simp), ih fun x hx => h x (by simp [hx])]

/-- `for k in range(j): … break`. -/
theorem find_range {X : Type*} (f : X → Bool) (d : X) (l : List X) :
    match l.find? f with
    | none => (List.range l.length).find? (fun k => f (l.getD k d)) = none
    | some x => ∃ k < l.length, l.getD k d = x ∧ (List.range l.length).find? (fun k => f (l.getD k d)) = some k := by
  induction l using List.reverseRecOn with
  | nil => simp
  | append_singleton l x ih =>
    have hcongr : (List.range l.length).find? (fun k => f ((l ++ [x]).getD k d)) =
        (List.range l.length).find? (fun k => f (l.getD k d)) := by
      apply find_congr
      intro k hk
      rw [List.mem_range] at hk
      rw [List.getD_append _ _ _ _ hk]
    rw [List.find?_append, List.length_append, List.length_singleton, List.range_succ, List.find?_append, hcongr]
    have hx : (l ++ [x]).getD l.length d = x := by simp [List.getD_eq_getElem?_getD]
    cases h : l.find? f with
    | some y =>
      rw [h] at ih
      obtain ⟨k, hk, e1, e2⟩ := ih
      refine ⟨k, by omega, by rw [List.getD_append _ _ _ _ hk, e1], ?_⟩
      rw [e2]; rfl
    | none =>
      rw [h] at ih
      dsimp only at ih
      rw [ih]
      cases hf : f x with
      | true =>
        simp only [List.find?_cons, hf, Option.none_or]
        exact ⟨l.length, by omega, hx, by rw [hx, hf]⟩
      | false =>
        simp [List.find?_cons, hf, hx]

theorem set_mid {X : Type*} (a : List X) (x y : X) (b : List X) : (a ++ x :: b).set a.length y = a ++ y :: b := by
  simp

theorem getD_mid {X : Type*} (a : List X) (x d : X) (b : List X) : (a ++ x :: b).getD a.length d = x := by
  simp [List.getD_eq_getElem?_getD]

/-- The `while` loop of `gauss_col` in memory. -/
theorem reduceMem_eq (p : ℕ) (m : Memory) (done todo : List (List Int × List Int)) (fuel : ℕ) :
    ∀ (rt : List Int × List Int) (bR bT : Buf), Holds bR bT (done ++ rt :: todo) →
    ∃ bR' bT', reduceMem p ⟨m.length, false⟩ ⟨m.length + 1, false⟩ done.length fuel (m ++ [bR, bT]) =
        ((reduceCol p done fuel rt).map fun _ => (), m ++ [bR', bT']) ∧
      bR'.ncols = bR.ncols ∧ bT'.ncols = bT.ncols ∧
      ∀ rt', reduceCol p done fuel rt = .ok rt' → Holds bR' bT' (done ++ rt' :: todo) := by
  induction fuel with
  | zero => exact fun rt bR bT h => ⟨bR, bT, rfl, rfl, rfl, fun rt' h' => by cases h'⟩
  | succ fuel ih =>
    intro rt bR bT h
    have hlen : done.length < (done ++ rt :: todo).length := by simp
    have hrow : bR.row done.length = rt.1 := by rw [h.rowR hlen, getD_mid]
    unfold reduceMem reduceCol
    rw [Memory.at_zero, hrow]
    cases hpv : indexPivot rt.1 with
    | none => exact ⟨bR, bT, rfl, rfl, rfl, fun rt' h' => by cases h'; exact h⟩
    | some pivot =>
      dsimp only
      have hc : (List.range done.length).find? (fun k => indexPivot (bR.row k) == some pivot) =
          (List.range done.length).find? (fun k => indexPivot (done.getD k ([], [])).1 == some pivot) := by
        apply find_congr
        intro k hk
        rw [List.mem_range] at hk
        rw [h.rowR (by simp; omega), List.getD_append _ _ _ _ hk]
      rw [hc]
      have hf := find_range (fun k : List Int × List Int => indexPivot k.1 == some pivot) ([], []) done
      cases hd : done.find? (fun k => indexPivot k.1 == some pivot) with
      | none =>
        rw [hd] at hf
        dsimp only at hf
        rw [hf]
        exact ⟨bR, bT, rfl, rfl, rfl, fun rt' h' => by cases h'; exact h⟩
      | some rtk =>
        rw [hd] at hf
        obtain ⟨k, hk, e1, e2⟩ := hf
        rw [e2]
        dsimp only
        obtain ⟨cR, cT, c1, c2, c3, c4⟩ := cancelMem_eq p m h (pivot := pivot) hlen
          (show k < _ by rw [List.length_append]; omega)
        rw [getD_mid, List.getD_append _ _ _ _ hk, e1] at c1 c4
        rw [c1]
        cases hcp : cancelPivot p pivot rtk rt with
        | error e => exact ⟨cR, cT, rfl, c2, c3, fun rt' h' => by cases h'⟩
        | ok rt1 =>
          have h1 := c4 rt1 hcp
          rw [set_mid] at h1
          obtain ⟨dR, dT, d1, d2, d3, d4⟩ := ih rt1 cR cT h1
          exact ⟨dR, dT, d1, d2.trans c2, d3.trans c3, d4⟩

/-- The loop of `gauss_col` in memory. -/
theorem gaussLoopMem_eq (p : ℕ) (m : Memory) (todo : List (List Int × List Int)) :
    ∀ (done : List (List Int × List Int)) (bR bT : Buf), Holds bR bT (done ++ todo) →
    ∃ bR' bT', gaussLoopMem p ⟨m.length, false⟩ ⟨m.length + 1, false⟩ (List.range' done.length todo.length)
        (m ++ [bR, bT]) = ((gaussLoop p done todo).map fun _ => (), m ++ [bR', bT']) ∧
      bR'.ncols = bR.ncols ∧ bT'.ncols = bT.ncols ∧
      ∀ rts, gaussLoop p done todo = .ok rts → Holds bR' bT' rts := by
  induction todo with
  | nil =>
    intro done bR bT h
    exact ⟨bR, bT, rfl, rfl, rfl, fun rts hr => by cases hr; simpa using h⟩
  | cons rt todo ih =>
    intro done bR bT h
    rw [List.length_cons, List.range'_succ]
    unfold gaussLoopMem gaussLoop
    rw [Memory.at_zero]
    have hlen : done.length < (done ++ rt :: todo).length := by simp
    have hn : bR.ncols = rt.1.length := by rw [← Buf.length_row bR done.length, h.rowR hlen, getD_mid]
    obtain ⟨cR, cT, c1, c2, c3, c4⟩ := reduceMem_eq p m done todo (bR.ncols + 1) rt bR bT h
    rw [c1, hn]
    rw [hn] at c4
    cases hr : reduceCol p done (rt.1.length + 1) rt with
    | error e => exact ⟨cR, cT, rfl, c2.trans hn, c3, fun rt' h' => by cases h'⟩
    | ok rt1 =>
      have h1 := c4 rt1 hr
      obtain ⟨dR, dT, d1, d2, d3, d4⟩ := ih (done ++ [rt1]) cR cT (by simpa using h1)
      rw [List.length_append, List.length_singleton] at d1
      refine ⟨dR, dT, d1, (d2.trans c2).trans hn, d3.trans c3, d4⟩

theorem identityBuf_rows (N : ℕ) : (identityBuf N).rows = identityCols N := by
  unfold identityBuf Buf.rows Buf.row identityCols
  apply List.map_congr_left
  intro i _
  apply List.map_congr_left
  intro j _
  dsimp only
  by_cases h : i = j
  · subst h; rfl
  · rw [if_neg h, if_neg (Ne.symm h)]

/-- **`gauss_col` in memory.** The result is that of `gaussCol`, in two new arrays, and nothing else has changed. -/
theorem gaussColMem_eq (p : ℕ) (a : Ref) (m : Memory) :
    ∃ bR bT : Buf, gaussColMem p a m = ((gaussCol p (m.mat a)).map fun _ =>
        if (m.at_ a).nrows = 0 then ((⟨m.length, false⟩, ⟨m.length + 1, false⟩) : Ref × Ref)
        else (⟨m.length, true⟩, ⟨m.length + 1, true⟩), m ++ [bR, bT]) ∧
      ∀ R T, gaussCol p (m.mat a) = .ok (R, T) →
        (if (m.at_ a).nrows = 0 then (⟨bR.nrows, bR.tr.rows⟩ : Mat) else ⟨bR.ncols, bR.rows⟩) = R ∧
        (if (m.at_ a).nrows = 0 then (⟨bT.nrows, bT.tr.rows⟩ : Mat) else ⟨bT.ncols, bT.rows⟩) = T := by
  unfold gaussColMem gaussCol
  by_cases h0 : (m.at_ a).nrows = 0
  · have h0' : (m.mat a).nrows = 0 := h0
    rw [if_pos h0, if_pos h0']
    refine ⟨⟨0, 0, fun _ _ => 0⟩, ⟨0, 0, fun _ _ => 0⟩, ?_, ?_⟩
    · simp [Memory.alloc, Except.map, h0]
    · intro R T h
      cases h
      simp [h0, Buf.rows, Buf.tr]
  · have h0' : ¬ (m.mat a).nrows = 0 := h0
    rw [if_neg h0, if_neg h0']
    dsimp only [Memory.copy, Memory.alloc]
    have hcols : (m.mat a).cols = (m.at_ a).tr.rows := rfl
    have hncols : (m.mat a).cols.length = (m.at_ a).ncols := by rw [hcols, Buf.length_rows]; rfl
    have hz1 : ((m.mat a).cols.zip (identityCols (m.mat a).cols.length)).map Prod.fst = (m.mat a).cols :=
      List.map_fst_zip (by simp [identityCols])
    have hz2 : ((m.mat a).cols.zip (identityCols (m.mat a).cols.length)).map Prod.snd =
        identityCols (m.mat a).cols.length := List.map_snd_zip (by simp [identityCols])
    have hh : Holds (m.at_ a.T) (identityBuf (m.at_ a).ncols)
        ([] ++ (m.mat a).cols.zip (identityCols (m.mat a).cols.length)) := by
      refine ⟨?_, ?_⟩
      · rw [List.nil_append, hz1, Memory.at_T, hcols]
      · rw [List.nil_append, hz2, identityBuf_rows, hncols]
    obtain ⟨bR, bT, c1, c2, c3, c4⟩ := gaussLoopMem_eq p m _ [] _ _ hh
    have hl : ((m.mat a).cols.zip (identityCols (m.mat a).cols.length)).length = (m.at_ a).ncols := by
      simp [identityCols, hncols]
    rw [List.length_nil, hl, ← List.range_eq_range'] at c1
    have e1 : m ++ [m.at_ a.T] ++ [identityBuf (m.at_ a).ncols] = m ++ [m.at_ a.T, identityBuf (m.at_ a).ncols] := by
      simp
    have e2 : (m ++ [m.at_ a.T]).length = m.length + 1 := by simp
    rw [e1, e2, c1]
    refine ⟨bR, bT, ?_, ?_⟩
    · cases gaussLoop p [] ((m.mat a).cols.zip (identityCols (m.mat a).cols.length)) with
      | error e => rfl
      | ok rts => simp [thenDo, Except.map, Ref.T, h0, bind, Except.bind, pure, Except.pure]
    · intro R T hRT
      cases hg : gaussLoop p [] ((m.mat a).cols.zip (identityCols (m.mat a).cols.length)) with
      | error e => rw [hg] at hRT; cases hRT
      | ok rts =>
        rw [hg] at hRT
        cases hRT
        have hH := c4 rts hg
        rw [if_neg h0, if_neg h0, hH.R, hH.T, c2, c3, Memory.at_T]
        exact ⟨rfl, by rw [hncols]; rfl⟩

end Permaviss
