import Verif.Model.ExtStore
import Verif.Lemmas.ThinExt

/-!
# The loop of `extension` with the list it writes to
-/

namespace Permaviss

variable {α : Type} [LinearOrder α] {rnd : α → α} {E : SSEnv α} {S : SSt α}

theorem extLoop_eq (deaths : List α) (m idx n deg : ℕ) (reps : List LChains) :
    extLoop rnd E S deaths (m + 1) idx n deg reps = (extBetas rnd E S deaths idx n deg reps >>= fun betas =>
      extReduce rnd E S deaths idx n deg betas reps >>= fun reps =>
        extLoop rnd E S deaths m (idx + 1) (n - 1) (deg + 1) reps >>= fun rest => pure (betas :: rest)) := by
  rw [extLoop]
  generalize extLoop rnd E S deaths m = f
  unfold extBetas extReduce
  simp only [bind_assoc, pure_bind]
  refine bind_congr fun C0 => bind_congr fun o => bind_congr fun bg => ?_
  generalize (bg.map Prod.fst).getD (⟨0, []⟩ : Mat) = betas
  have key : ∀ reps : List LChains, (do
        let C1 ← atE reps idx
        let C ← ((List.range (E.noPages - 1)).map fun i => E.noPages - i).foldlM (extRound rnd E S n deg deaths) C1
        let out ← firstPageLift E n deg C deaths
        if anyRows out.1 = true then .error .runtimeError
        else if 0 < n then do
          let I ← cechDiff E (n - 1) (deg + 1) (out.2.minus E.p)
          let Cn ← atE reps (idx + 1)
          let Cn' ← Cn.add I
          let rest ← f (idx + 1) (n - 1) (deg + 1) (reps.set (idx + 1) Cn')
          pure (betas :: rest)
        else do
          let rest ← f (idx + 1) (n - 1) (deg + 1) reps
          pure (betas :: rest) : Except PyErr (List Mat)) = ((do
        let C1 ← atE reps idx
        let C ← ((List.range (E.noPages - 1)).map fun i => E.noPages - i).foldlM (extRound rnd E S n deg deaths) C1
        let out ← firstPageLift E n deg C deaths
        if anyRows out.1 = true then .error .runtimeError
        else if 0 < n then do
          let I ← cechDiff E (n - 1) (deg + 1) (out.2.minus E.p)
          let Cn ← atE reps (idx + 1)
          let Cn' ← Cn.add I
          pure (reps.set (idx + 1) Cn')
        else pure reps : Except PyErr (List LChains)) >>= fun reps =>
          f (idx + 1) (n - 1) (deg + 1) reps >>= fun rest => pure (betas :: rest)) := by
    intro reps
    simp only [bind_assoc]
    refine bind_congr fun C1 => bind_congr fun C => bind_congr fun o' => ?_
    split_ifs
    · rfl
    · simp only [bind_assoc, pure_bind]
    · simp only [pure_bind]
  by_cases hb : anyRows betas.cols = true
  · rw [if_pos hb, if_pos hb, bind_assoc]
    exact bind_congr fun reps1 => key reps1
  · rw [if_neg hb, if_neg hb]
    exact key reps

theorem extLoopStore_fst (deaths : List α) (m : ℕ) : ∀ (idx n deg : ℕ) (reps : List LChains) (store : List Mat),
    (extLoopStore rnd E S deaths m idx n deg reps store).1 =
      (extLoop rnd E S deaths m idx n deg reps).map fun _ => () := by
  induction m with
  | zero => intros; rfl
  | succ m ih =>
    intro idx n deg reps store
    rw [extLoop_eq, extLoopStore]
    cases extBetas rnd E S deaths idx n deg reps with
    | error e => rfl
    | ok betas =>
    rw [ok_bind]
    dsimp only
    cases extReduce rnd E S deaths idx n deg betas reps with
    | error e => rfl
    | ok reps1 =>
    rw [ok_bind]
    dsimp only
    rw [ih]
    cases extLoop rnd E S deaths m (idx + 1) (n - 1) (deg + 1) reps1 <;> rfl

theorem extLoopStore_length (deaths : List α) (m : ℕ) : ∀ (idx n deg : ℕ) (reps : List LChains) (store : List Mat),
    (extLoopStore rnd E S deaths m idx n deg reps store).2.length = store.length := by
  induction m with
  | zero => intros; rfl
  | succ m ih =>
    intro idx n deg reps store
    rw [extLoopStore]
    cases extBetas rnd E S deaths idx n deg reps with
    | error e => rfl
    | ok betas =>
    dsimp only
    cases extReduce rnd E S deaths idx n deg betas reps with
    | error e => exact List.length_set
    | ok reps1 => exact (ih _ _ _ _ _).trans List.length_set

theorem extLoop_length (deaths : List α) (m : ℕ) : ∀ {idx n deg : ℕ} {reps : List LChains} {out : List Mat},
    extLoop rnd E S deaths m idx n deg reps = .ok out → out.length = m := by
  induction m with
  | zero => intro idx n deg reps out h; rw [← Except.ok.inj h]; rfl
  | succ m ih =>
    intro idx n deg reps out h
    rw [extLoop_eq, bind_ok] at h
    obtain ⟨betas, -, h⟩ := h
    rw [bind_ok] at h
    obtain ⟨reps1, -, h⟩ := h
    rw [bind_ok] at h
    obtain ⟨rest, h3, h⟩ := h
    rw [← Except.ok.inj h, List.length_cons, ih h3]

theorem extLoopStore_snd (deaths : List α) (m : ℕ) : ∀ {idx n deg : ℕ} {reps : List LChains} {out : List Mat}
    (a b c : List Mat), a.length = idx → b.length = m → extLoop rnd E S deaths m idx n deg reps = .ok out →
    (extLoopStore rnd E S deaths m idx n deg reps (a ++ b ++ c)).2 = a ++ out ++ c := by
  induction m with
  | zero =>
    intro idx n deg reps out a b c _ hb h
    rw [← Except.ok.inj h, List.eq_nil_of_length_eq_zero hb]
    rfl
  | succ m ih =>
    intro idx n deg reps out a b c ha hb h
    rw [extLoop_eq, bind_ok] at h
    obtain ⟨betas, h1, h⟩ := h
    rw [bind_ok] at h
    obtain ⟨reps1, h2, h⟩ := h
    rw [bind_ok] at h
    obtain ⟨rest, h3, h⟩ := h
    rw [← Except.ok.inj h, extLoopStore, h1]
    dsimp only
    rw [h2]
    dsimp only
    cases b with
    | nil => cases hb
    | cons x b =>
      have e : (a ++ x :: b ++ c).set idx betas = (a ++ [betas]) ++ b ++ c := by
        rw [← ha]
        simp
      rw [e, ih (a ++ [betas]) b c (by rw [List.length_append, ha]; rfl) (Nat.succ.inj hb) h3]
      simp

/-- The list that `extension` leaves, when it returns. -/
theorem extensionStore_ok {n deg : ℕ} {exts : List Mat} (h : extension rnd E S n deg = .ok exts) (store : List Mat) :
    exts.length = (extZeros E S n deg).length ∧
    extensionStore rnd E S n deg store = (.ok (), (exts ++ (store ++ extZeros E S n deg).drop exts.length)) ∨
    exts = extZeros E S n deg ∧ extensionStore rnd E S n deg store = (.ok (), store ++ exts) := by
  unfold extension at h
  unfold extensionStore
  dsimp only at h ⊢
  split at h
  · cases h
  next hf =>
  rw [if_neg hf]
  split at h
  · next hm =>
    refine Or.inr ?_
    have e : exts = extZeros E S n deg := by
      rw [← Except.ok.inj h, extZeros, List.length_map]
    rw [if_pos hm, e]
    exact ⟨rfl, rfl⟩
  · next hm =>
    rw [if_neg hm]
    have hl := extLoop_length _ _ h
    have hz : (extZeros E S n deg).length = (S.reps (E.noPages - 1) n deg).length := by
      rw [extZeros, List.length_map, List.length_range]
    refine Or.inl ⟨hl.trans hz.symm, Prod.ext ?_ ?_⟩
    · rw [extLoopStore_fst, h]
      rfl
    · have hs := extLoopStore_snd (rnd := rnd) (E := E) (S := S) _ _ []
        ((store ++ extZeros E S n deg).take exts.length) ((store ++ extZeros E S n deg).drop exts.length) rfl (by
          rw [List.length_take, List.length_append, hz, hl]; omega) h
      rw [List.nil_append, List.nil_append, List.take_append_drop] at hs
      exact hs

theorem extensionStore_fst (n deg : ℕ) (store : List Mat) :
    (extensionStore rnd E S n deg store).1 = (extension rnd E S n deg).map fun _ => () := by
  unfold extension extensionStore
  dsimp only
  split
  · rfl
  · split
    · rfl
    · exact extLoopStore_fst _ _ _ _ _ _ _

end Permaviss
