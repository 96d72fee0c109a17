import Verif.Lemmas.MemoryRad

/-!
# `persistent_homology` and `update_broken` in memory
-/

namespace Permaviss

namespace Memory

theorem length_setRow (m : Memory) (r : Ref) (i : ℕ) (v : List Int) : (m.setRow r i v).length = m.length := by
  unfold setRow; simp

theorem at_setRow_self {m : Memory} {r : Ref} (h : r.addr < m.length) (i : ℕ) (v : List Int) :
    (m.setRow r i v).at_ r = (m.at_ r).setRow i v := by
  have e : ∀ b d : Buf, (List.set m r.addr b).getD r.addr d = b := by
    intro b d; rw [List.getD_eq_getElem?_getD, List.getElem?_set_self h]; rfl
  conv_lhs => unfold at_ setRow
  rw [e]
  cases r.flip <;> simp [Buf.tr_tr]

theorem at_setRow_ne {m : Memory} {r s : Ref} (h : s.addr ≠ r.addr) (i : ℕ) (v : List Int) :
    (m.setRow r i v).at_ s = m.at_ s := by
  have e : ∀ b d : Buf, (List.set m r.addr b).getD s.addr d = m.getD s.addr d := by
    intro b d; rw [List.getD_eq_getElem?_getD, List.getElem?_set_ne h.symm, ← List.getD_eq_getElem?_getD]
  conv_lhs => unfold at_ setRow
  rw [e]
  rfl

/-- Rows set to zero one after the other. -/
def zeroRows (m : Memory) (r : Ref) (is : List ℕ) : Memory :=
  is.foldl (fun m i => m.setRow r i (List.replicate (m.at_ r).ncols 0)) m

theorem zeroRows_spec (r : Ref) (is : List ℕ) : ∀ m : Memory, r.addr < m.length →
    (m.zeroRows r is).length = m.length ∧
    (m.zeroRows r is).at_ r = { m.at_ r with entry := fun i j => if i ∈ is then 0 else (m.at_ r).entry i j } ∧
    ∀ s : Ref, s.addr ≠ r.addr → (m.zeroRows r is).at_ s = m.at_ s := by
  induction is with
  | nil => exact fun m _ => ⟨rfl, by simp [zeroRows], fun _ _ => rfl⟩
  | cons i is ih =>
    intro m h
    have hz : m.zeroRows r (i :: is) =
        (m.setRow r i (List.replicate (m.at_ r).ncols 0)).zeroRows r is := rfl
    obtain ⟨a1, a2, a3⟩ := ih (m.setRow r i (List.replicate (m.at_ r).ncols 0)) (by rw [length_setRow]; exact h)
    rw [hz]
    refine ⟨a1.trans (length_setRow _ _ _ _), ?_, fun s hs => (a3 s hs).trans (at_setRow_ne hs _ _)⟩
    rw [a2, at_setRow_self h]
    unfold Buf.setRow
    dsimp only
    congr 1
    funext x y
    have h0 : (List.replicate (m.at_ r).ncols (0 : Int)).getD y 0 = 0 := by
      rw [List.getD_eq_getElem?_getD, List.getElem?_replicate]; split <;> rfl
    simp only [h0, List.mem_cons]
    by_cases hx : x = i
    · simp [hx]
    · simp [hx]

end Memory

theorem ext_append {m m' : Memory} (hl : m'.length = m.length + 1) {r : ℕ} (hr : r = m.length)
    (h : ∀ s : Ref, s.addr ≠ r → m'.at_ s = Memory.at_ (m ++ [(⟨0, 0, fun _ _ => 0⟩ : Buf)]) s) : ∃ b, m' = m ++ [b] := by
  refine ⟨m'.getD m.length ⟨0, 0, fun _ _ => 0⟩, ?_⟩
  apply List.ext_getElem
  · simp [hl]
  · intro i h1 h2
    rcases Nat.lt_or_ge i m.length with hi | hi
    · rw [List.getElem_append_left hi]
      have := h ⟨i, false⟩ (by show i ≠ r; omega)
      unfold Memory.at_ at this
      simp only [List.getD_eq_getElem?_getD, List.getElem?_append_left hi, List.getElem?_eq_getElem hi,
        List.getElem?_eq_getElem h1] at this
      simpa using this
    · have : i = m.length := by omega
      subst this
      simp [List.getD_eq_getElem?_getD, List.getElem?_eq_getElem h1]

section

variable {α : Type} [LinearOrder α] [Zero α]

theorem clearMem_eq (d : Ref) (pivots : List ℕ) (m : Memory) :
    ∃ b, clearMem d pivots m = (⟨m.length, false⟩, m ++ [b]) ∧
      (m ++ [b]).mat ⟨m.length, false⟩ = clearCols (m.mat d) pivots := by
  unfold clearMem Memory.copy Memory.alloc
  dsimp only
  set r : Ref := ⟨m.length, false⟩ with hr
  have hz : (pivots.foldl (fun m j => m.setRow r.T j (List.replicate (m.at_ r).nrows 0)) (m ++ [m.at_ d])) =
      Memory.zeroRows (m ++ [m.at_ d]) r.T pivots := by
    unfold Memory.zeroRows
    congr 1
  rw [hz]
  obtain ⟨h1, h2, h3⟩ := Memory.zeroRows_spec r.T pivots (m ++ [m.at_ d]) (by simp [hr, Ref.T])
  obtain ⟨b, hb⟩ := ext_append (m := m) (m' := Memory.zeroRows (m ++ [m.at_ d]) r.T pivots)
    (by rw [h1]; simp) (r := m.length) rfl (by
      intro s hs
      rw [h3 s hs]
      rcases Nat.lt_or_ge s.addr m.length with h | h
      · rw [Memory.at_append h, Memory.at_append h]
      · unfold Memory.at_
        have e : ∀ x d : Buf, (m ++ [x]).getD s.addr d = d := by
          intro x d
          rw [List.getD_eq_getElem?_getD, List.getElem?_eq_none (by simp; omega)]; rfl
        rw [e, e])
  refine ⟨b, by rw [hb], ?_⟩
  rw [← hb]
  have h4 : (Memory.zeroRows (m ++ [m.at_ d]) r.T pivots).at_ r =
      { m.at_ d with entry := fun i j => if j ∈ pivots then 0 else (m.at_ d).entry i j } := by
    have e := congrArg Buf.tr h2
    rw [← Memory.at_T] at e
    have hTT : r.T.T = r := rfl
    rw [hTT] at e
    rw [e, Memory.at_T, hr, Memory.at_zero]
    rfl
  unfold Memory.mat clearCols
  rw [h4]
  have hn : (Mat.mk (m.at_ d).nrows (m.at_ d).tr.rows).ncols = (m.at_ d).ncols := Buf.length_rows _
  rw [hn]
  congr 1
  unfold Buf.rows
  refine List.map_congr_left fun j hj => ?_
  have hj' : j < (m.at_ d).ncols := List.mem_range.1 hj
  by_cases hp : j ∈ pivots
  · rw [if_pos hp]
    simp [Buf.row, Buf.tr, hp]
  · rw [if_neg hp]
    have := Buf.row_eq (m.at_ d).tr (i := j) (by rw [Buf.length_rows]; exact hj')
    unfold Buf.rows at this
    rw [← this]
    simp [Buf.row, Buf.tr, hp]

/-- `gauss_col` in memory, when it returns. -/
theorem gaussColMem_ok {p : ℕ} {a : Ref} {m : Memory} {R T : Mat} (h : gaussCol p (m.mat a) = .ok (R, T)) :
    ∃ (r t : Ref) (bR bT : Buf), gaussColMem p a m = (.ok (r, t), m ++ [bR, bT]) ∧ r.addr = m.length ∧
      t.addr = m.length + 1 ∧ (m ++ [bR, bT]).mat r = R ∧ (m ++ [bR, bT]).mat t = T := by
  obtain ⟨bR, bT, e, hc⟩ := gaussColMem_eq p a m
  obtain ⟨c1, c2⟩ := hc R T h
  rw [h] at e
  by_cases h0 : (m.at_ a).nrows = 0
  · rw [if_pos h0] at c1 c2
    simp only [Except.map, if_pos h0] at e
    refine ⟨_, _, bR, bT, e, rfl, rfl, ?_, ?_⟩
    · unfold Memory.mat; rw [Memory.at_zero]; exact c1
    · unfold Memory.mat; rw [Memory.at_one]; exact c2
  · rw [if_neg h0] at c1 c2
    simp only [Except.map, if_neg h0] at e
    refine ⟨_, _, bR, bT, e, rfl, rfl, ?_, ?_⟩
    · have : (m ++ [bR, bT]).at_ ⟨m.length, true⟩ = bR.tr :=
        (Memory.at_T _ ⟨m.length, false⟩).trans (congrArg Buf.tr (Memory.at_zero m bR [bT]))
      unfold Memory.mat; rw [this]; exact c1
    · have : (m ++ [bR, bT]).at_ ⟨m.length + 1, true⟩ = bT.tr :=
        (Memory.at_T _ ⟨m.length + 1, false⟩).trans (congrArg Buf.tr (Memory.at_one m bR bT []))
      unfold Memory.mat; rw [this]; exact c2

/-- `gauss_col` in memory, when it raises. -/
theorem gaussColMem_err {p : ℕ} {a : Ref} {m : Memory} {e : PyErr} (h : gaussCol p (m.mat a) = .error e) :
    ∃ new, gaussColMem p a m = (.error e, m ++ new) := by
  obtain ⟨bR, bT, he, -⟩ := gaussColMem_eq p a m
  rw [h] at he
  exact ⟨_, he⟩

theorem phStepMem_eq (p : ℕ) (maxRad : α) (d : Ref) (Rp Rd : List α) (pivots : List ℕ) (m : Memory) :
    ∃ new, phStepMem p maxRad d Rp Rd pivots m = (phStep p maxRad (m.mat d) Rp Rd pivots, m ++ new) := by
  unfold phStepMem phStep
  obtain ⟨b, hb, hm⟩ := clearMem_eq d pivots m
  have hn : (m.mat d).ncols = (m.at_ d).ncols := Buf.length_rows _
  have hr : (m.mat d).nrows = (m.at_ d).nrows := rfl
  rw [hb]
  dsimp only
  rw [hn, hr, ← hm]
  cases hg : gaussCol p ((m ++ [b]).mat ⟨m.length, false⟩) with
  | error e =>
    obtain ⟨new, he⟩ := gaussColMem_err hg
    rw [he]
    exact ⟨[b] ++ new, by simp [thenDo]⟩
  | ok RT =>
    obtain ⟨R, T⟩ := RT
    obtain ⟨r, t, bR, bT, he, -, -, h1, h2⟩ := gaussColMem_ok hg
    rw [he]
    refine ⟨[b] ++ [bR, bT], ?_⟩
    simp only [thenDo, h1, h2]
    split <;> simp

theorem phLoopMem_eq (p : ℕ) (maxRad : α) (ds : List Ref) :
    ∀ (Rp : List α) (Rs : List (List α)) (m : Memory), (∀ d ∈ ds, d.addr < m.length) →
    ∃ new, phLoopMem p maxRad ds Rp Rs m = (phLoop p maxRad (ds.map m.mat) Rp Rs, m ++ new) := by
  induction ds with
  | nil => exact fun Rp Rs m _ => ⟨[], by simp [phLoopMem, phLoop]⟩
  | cons d ds ih =>
    intro Rp Rs m hd
    unfold phLoopMem
    rw [List.map_cons]
    unfold phLoop
    obtain ⟨n1, h1⟩ := ih (Rs.getD 0 []) Rs.tail m fun x hx => hd x (by simp [hx])
    rw [h1]
    cases hl : phLoop p maxRad (ds.map m.mat) (Rs.getD 0 []) Rs.tail with
    | error e => exact ⟨n1, rfl⟩
    | ok x =>
      obtain ⟨n2, h2⟩ := phStepMem_eq p maxRad d Rp (Rs.getD 0 []) x.1 (m ++ n1)
      rw [Memory.mat_append (hd d (by simp))] at h2
      simp only [thenDo]
      rw [h2]
      refine ⟨n1 ++ n2, ?_⟩
      cases phStep p maxRad (m.mat d) Rp (Rs.getD 0 []) x.1 <;> simp

/-- **`persistent_homology` in memory.** -/
theorem persistentHomologyMem_eq (rnd : α → α) (p D0 : ℕ) (ds : List Ref) (R : List (List α)) (maxRad : α)
    (m : Memory) (hd : ∀ d ∈ ds, d.addr < m.length) :
    ∃ new, persistentHomologyMem rnd p D0 ds R maxRad m =
      (persistentHomology rnd p D0 (ds.map m.mat) R maxRad, m ++ new) := by
  unfold persistentHomologyMem persistentHomology
  by_cases h0 : ds = []
  · subst h0
    exact ⟨[], by simp⟩
  · rw [if_neg h0, if_neg (by simpa using h0)]
    obtain ⟨n1, h1⟩ := phLoopMem_eq p maxRad ds (R.getD 0 []) R.tail m hd
    rw [h1]
    refine ⟨n1, ?_⟩
    cases phLoop p maxRad (ds.map m.mat) (R.getD 0 []) R.tail with
    | error e => rfl
    | ok x =>
      simp only [thenDo, bind, Except.bind, pure, Except.pure]
      cases storeHom rnd D0 D0 (phZero maxRad D0 x.1 x.2.1) with
      | error e => rfl
      | ok _ =>
        dsimp only
        cases storeHoms rnd maxRad x.2.2 R.tail with
        | error e => rfl
        | ok _ =>
          dsimp only
          cases storeIms rnd maxRad x.2.2 D0 D0 R.tail with
          | error e => rfl
          | ok _ =>
            dsimp only
            cases Basis.init ([] : List (α × α)) true none ⟨1, []⟩ false false none <;> rfl

end

/-- **`update_broken` in memory.** -/
theorem updateBrokenMem_eq {α : Type} [LinearOrder α] (p : ℕ) (B : Basis α) (a : Ref) (rad : α) (m : Memory)
    (ha : a.addr < m.length) (hn : (m.at_ a).nrows = B.barcode.length) :
    (updateBrokenMem p B a rad m).1.map (fun r => (updateBrokenMem p B a rad m).2.mat r) =
      B.updateBroken p (m.mat a) rad ∧
    (∀ r : Ref, r.addr < m.length → r.addr ≠ a.addr → (updateBrokenMem p B a rad m).2.at_ r = m.at_ r) ∧
    ∀ dying, B.death rad = .ok dying → B.brokenDiff.isSome →
      (updateBrokenMem p B a rad m).2.at_ a =
        { m.at_ a with entry := fun i j => if i ∈ dying then 0 else (m.at_ a).entry i j } := by
  unfold updateBrokenMem Basis.updateBroken
  cases hd : B.death rad with
  | error e => exact ⟨rfl, fun _ _ _ => rfl, fun _ h => by cases h⟩
  | ok dying =>
    dsimp only
    by_cases h0 : dying = []
    · rw [if_pos h0, if_pos h0]
      refine ⟨rfl, fun _ _ _ => rfl, ?_⟩
      intro dy h _
      cases h
      simp [h0]
    · rw [if_neg h0, if_neg h0]
      cases hB : B.brokenDiff with
      | none => exact ⟨rfl, fun _ _ _ => rfl, fun _ _ h => by cases h⟩
      | some BD =>
        dsimp only [Memory.alloc]
        have hz : (dying.foldl (fun m i => m.setRow a i (List.replicate (m.at_ a).ncols 0)) m) =
            m.zeroRows a dying := rfl
        rw [hz]
        obtain ⟨z1, z2, z3⟩ := Memory.zeroRows_spec a dying m ha
        refine ⟨?_, ?_, ?_⟩
        · simp only [Except.map]
          congr 1
          unfold Memory.mat
          rw [Memory.at_zero, z2]
          congr 1
          unfold Buf.rows
          rw [List.map_map]
          refine List.map_congr_left fun j _ => ?_
          simp only [Function.comp_apply]
          unfold updateBrokenCol Buf.row
          simp only [Buf.tr, List.length_map, List.length_range]
          refine List.map_congr_left fun i hi => ?_
          have hg : ∀ k, k < (m.at_ a).nrows →
              ((List.range (m.at_ a).nrows).map fun i => (m.at_ a).entry i j).getD k 0 = (m.at_ a).entry k j := by
            intro k hk
            simp [List.getD_eq_getElem?_getD, List.getElem?_range hk]
          rw [hg i (List.mem_range.1 hi)]
          congr 2
          refine congrArg List.sum (List.map_congr_left fun k hk => ?_)
          rw [hg k]
          unfold Basis.death at hd
          split at hd
          · cases hd
          · cases hd
            rw [hn]
            unfold barIndices at hk
            exact List.mem_range.1 (List.mem_filter.1 hk).1
        · intro r hr hne
          rw [Memory.at_append (by rw [z1]; exact hr), z3 r hne]
        · intro dy h _
          cases h
          rw [Memory.at_append (by rw [z1]; exact ha), z2]

end Permaviss
