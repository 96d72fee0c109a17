import Verif.Lemmas.ExtStore
import Verif.Props.Shared

/-!
# C97: calling `extension` again

`extension` is what a first call of the method stores in `extensions[start_n_dim][start_deg]`; `extensionStore` is the
method with the list that it finds there, and `extensionCalls` the list after several calls.
-/

namespace Permaviss

/-- All entries are zero. -/
def AllZero (M : Mat) : Prop := ∀ c ∈ M.cols, ∀ x ∈ c, x = 0

section

variable {α : Type} [LinearOrder α] (rnd : α → α) (E : SSEnv α) (S : SSt α)

theorem extZeros_zero (n deg : ℕ) : ∀ M ∈ extZeros E S n deg, AllZero M := by
  intro M hM c hc x hx
  obtain ⟨i, -, rfl⟩ := List.mem_map.1 hM
  rw [List.eq_of_mem_replicate hc] at hx
  exact List.eq_of_mem_replicate hx

/-- **C97**: the first call stores the matrices of the extensions. -/
theorem C97_first_call {n deg : ℕ} {exts : List Mat} (h : extension rnd E S n deg = .ok exts) :
    extensionStore rnd E S n deg [] = (.ok (), exts) := by
  rcases extensionStore_ok h [] with ⟨h1, h2⟩ | ⟨-, h2⟩
  · rw [h2, List.nil_append, h1, List.drop_length, List.append_nil]
  · exact h2

/-- **C97**: whether a call raises does not depend on what earlier calls have stored. -/
theorem C97_raises (n deg : ℕ) (store : List Mat) :
    (extensionStore rnd E S n deg store).1 = (extension rnd E S n deg).map fun _ => () :=
  extensionStore_fst n deg store

/-- **C97, part.** A further call does not change the matrices that are stored, but it appends as many zero matrices.
Missing: that the list stays as it is, see `C97_violated_list_grows`. -/
theorem C97_next_call_partial {n deg : ℕ} {exts : List Mat} (h : extension rnd E S n deg = .ok exts)
    (junk : List Mat) : ∃ Z : List Mat, Z.length = exts.length ∧ (∀ M ∈ Z, AllZero M) ∧
      extensionStore rnd E S n deg (exts ++ junk) = (.ok (), exts ++ junk ++ Z) := by
  rcases extensionStore_ok h (exts ++ junk) with ⟨h1, h2⟩ | ⟨h1, h2⟩
  · refine ⟨_, h1.symm, extZeros_zero E S n deg, ?_⟩
    rw [h2, List.append_assoc exts, List.drop_left]
  · exact ⟨exts, rfl, h1 ▸ extZeros_zero E S n deg, h2⟩

/-- **C97, part.** After any number of calls the list begins with the matrices of the extensions, and the rest is
zero.  Missing: that there is no rest. -/
theorem C97_calls_partial {n deg : ℕ} {exts : List Mat} (h : extension rnd E S n deg = .ok exts) (k : ℕ) :
    ∃ Z : List Mat, Z.length = k * exts.length ∧ (∀ M ∈ Z, AllZero M) ∧
      extensionCalls rnd E S n deg (k + 1) = exts ++ Z := by
  induction k with
  | zero =>
    refine ⟨[], by simp, by simp, ?_⟩
    rw [extensionCalls, extensionCalls, C97_first_call rnd E S h, List.append_nil]
  | succ k ih =>
    obtain ⟨Z, h1, h2, h3⟩ := ih
    obtain ⟨Z', h1', h2', h3'⟩ := C97_next_call_partial rnd E S h Z
    refine ⟨Z ++ Z', by rw [List.length_append, h1, h1', Nat.succ_mul], ?_, ?_⟩
    · intro M hM
      rcases List.mem_append.1 hM with hM | hM
      · exact h2 M hM
      · exact h2' M hM
    · rw [extensionCalls, h3, h3', List.append_assoc]

end

/-- **C97 is violated.** On the result of `create_MV_ss` for the ladder, which has called `extension` once, a further
call of the method changes the list of extension matrices: it had two entries, and now has four. -/
theorem C97_violated_list_grows : ∃ (out : MVOut ℚ) (exts : List Mat), ladderRun = .ok out ∧
    extension id out.env out.pages 1 0 = .ok exts ∧ exts.length = 2 ∧
    (extensionStore id out.env out.pages 1 0 exts).1 = .ok () ∧
    (extensionStore id out.env out.pages 1 0 exts).2.length = 4 := by
  have h : (ladderRun.map fun o => (extension id o.env o.pages 1 0).map List.length) = .ok (.ok 2) := by
    decide +kernel
  cases hl : ladderRun with
  | error e => rw [hl] at h; cases h
  | ok out =>
    rw [hl] at h
    cases hx : extension id out.env out.pages 1 0 with
    | error e => have h' := Except.ok.inj h; beta_reduce at h'; rw [hx] at h'; cases h'
    | ok exts =>
      have h' := Except.ok.inj h
      beta_reduce at h'
      rw [hx] at h'
      have h2 : exts.length = 2 := Except.ok.inj h'
      obtain ⟨Z, z1, -, z3⟩ := C97_next_call_partial id out.env out.pages hx []
      rw [List.append_nil] at z3
      refine ⟨out, exts, rfl, hx, h2, by rw [z3], ?_⟩
      rw [z3, List.length_append, z1, h2]

/-- The hypotheses are met on the ladder, with a matrix that is not zero. -/
example : ∃ (out : MVOut ℚ) (exts : List Mat), ladderRun = .ok out ∧
    extension id out.env out.pages 1 0 = .ok exts ∧ ¬ ∀ M ∈ exts, AllZero M := by
  have h : (ladderRun.map fun o => (extension id o.env o.pages 1 0).map fun l =>
      l.all fun M => M.cols.all fun c => c.all fun x => x == 0) = .ok (.ok false) := by
    decide +kernel
  cases hl : ladderRun with
  | error e => rw [hl] at h; cases h
  | ok out =>
    rw [hl] at h
    cases hx : extension id out.env out.pages 1 0 with
    | error e => have h' := Except.ok.inj h; beta_reduce at h'; rw [hx] at h'; cases h'
    | ok exts =>
      refine ⟨out, exts, rfl, hx, fun hz => ?_⟩
      have h' := Except.ok.inj h
      beta_reduce at h'
      rw [hx] at h'
      have h2 := Except.ok.inj h'
      rw [Bool.eq_false_iff] at h2
      refine h2 (List.all_eq_true.2 fun M hM => List.all_eq_true.2 fun c hc => List.all_eq_true.2 fun x hx => ?_)
      rw [hz M hM c hc x hx]
      rfl

end Permaviss
