import Verif.Model.ModuleHomologyMem
import Verif.Lemmas.ImageKernelMem

/-!
# `module_persistence_homology` in memory
-/

namespace Permaviss

variable {α : Type} [LinearOrder α] [Zero α]

theorem quotientMem_sim (rnd : α → α) (p : ℕ) {M N amb : Basis α} (same : Bool) {m0 m : Memory} (hm : m0.Keeps m)
    (hM : M.coords.WellShaped) (hN : N.dim = 0 ∨ N.coords.WellShaped) (ha : amb.barcode.length = amb.dim) :
    Sim m0 (quotientMem rnd p M N amb same m) (quotient rnd p M N amb same) fun a _ b => a = b := by
  unfold quotientMem quotient
  split_ifs with h1 h2 h3 h4
  · exact Sim.pure hm rfl
  · exact Sim.throw hm
  · exact Sim.throw hm
  · refine (Sim.value hm _).bind fun NM _ _ _ hR => ?_
    obtain ⟨rfl, rfl, -⟩ := hR
    exact Sim.throw hm
  · refine (Sim.value hm _).bind fun NM _ _ _ hR => ?_
    obtain ⟨rfl, rfl, i1⟩ := hR
    obtain ⟨-, b2, -, -⟩ := init_facts (p := 2) i1
    · rw [not_not] at h4
      have hws : Mat.WellShaped ⟨M.coords.nrows, N.coords.cols ++ M.coords.cols⟩ := by
        intro c hc
        rcases List.mem_append.1 hc with hc | hc
        · exact (hN.resolve_left h1 c hc).trans h4
        · exact hM c hc
      dsimp only [Memory.alloc]
      have S := imageKernelMem_sim rnd p NM amb (F := ⟨m.length, false⟩) N.dim
        (m := m ++ [Buf.ofMat ⟨M.coords.nrows, N.coords.cols ++ M.coords.cols⟩]) (by simp) b2.symm ha
      rw [Memory.mat_ofMat hws] at S
      refine (S.mono (hm.trans (Memory.keeps_append _ _))).bind fun a m' b hm' hR => ?_
      obtain ⟨rfl, -⟩ := hR
      exact Sim.pure hm' rfl

/-- The bases of images that the loop stores have rectangular coordinates, or dimension zero. -/
def MPH.Shaped (st : MPH α) : Prop :=
  ∀ (k : ℕ) (imd : Basis α), st.im[k]? = some (some imd) → imd.dim = 0 ∨ imd.coords.WellShaped

theorem shaped_set {l : List (Option (Basis α))} {B : Basis α} (j : ℕ)
    (hl : ∀ (k : ℕ) (imd : Basis α), l[k]? = some (some imd) → imd.dim = 0 ∨ imd.coords.WellShaped)
    (hB : B.dim = 0 ∨ B.coords.WellShaped) (k : ℕ) (imd : Basis α) (h : (l.set j (some B))[k]? = some (some imd)) :
    imd.dim = 0 ∨ imd.coords.WellShaped := by
  rw [List.getElem?_set] at h
  split_ifs at h with h1 h2
  · cases h; exact hB
  · exact hl k imd h

theorem mphStepMem_sim (rnd : α → α) (p : ℕ) {D : List Ref} {Base : List (Basis α)} {m0 m : Memory} (hm : m0.Keeps m)
    (hD : ∀ F ∈ D, F.addr < m0.length) (hB : ∀ B ∈ Base, B.barcode.length = B.dim) {st : MPH α} (hs : st.Shaped)
    (d : ℕ) :
    Sim m0 (mphStepMem rnd p D Base st d m) (mphStep rnd p (D.map m0.mat) Base st d) fun a _ b => a = b ∧ b.Shaped := by
  unfold mphStepMem mphStep
  cases h1 : Base[d]? with
  | none => exact Sim.throw hm
  | some Bd =>
  cases h2 : Base[d - 1]? with
  | none => exact Sim.throw hm
  | some Bd1 =>
  dsimp only
  split_ifs with h3 h4
  · exact Sim.pure hm ⟨rfl, shaped_set _ hs (Or.inl rfl)⟩
  · exact Sim.pure hm ⟨rfl, shaped_set _ hs (Or.inl h4)⟩
  · rw [List.getElem?_map]
    cases h5 : D[d]? with
    | none => exact Sim.throw hm
    | some F =>
      dsimp only [Option.map_some]
      have hF := hD F (List.mem_of_getElem? h5)
      have S := imageKernelMem_sim rnd p Bd Bd1 (F := F) 0 (hF.trans_le hm.2) (hB _ (List.mem_of_getElem? h1))
        (hB _ (List.mem_of_getElem? h2))
      rw [Memory.mat_congr (hm.1 F hF)] at S
      refine (S.mono hm).bind fun out m' b hm' hR => ?_
      obtain ⟨rfl, sh⟩ := hR
      cases h6 : out.ker with
      | none => exact Sim.throw hm'
      | some ker =>
      cases h7 : st.im[d]? with
      | none => exact Sim.throw hm'
      | some x =>
      cases x with
      | none => exact Sim.throw hm'
      | some imd =>
        dsimp only
        refine (quotientMem_sim rnd p true hm' (sh.2 ker h6) (hs d imd h7) (hB _ (List.mem_of_getElem? h1))).bind
          fun a m'' b hm'' hR => ?_
        subst hR
        exact Sim.pure hm'' ⟨rfl, shaped_set _ hs (Or.inr sh.1)⟩

theorem mphZeroMem_sim (rnd : α → α) (p : ℕ) {Base : List (Basis α)} {m0 m : Memory} (hm : m0.Keeps m)
    (hB : ∀ B ∈ Base, B.barcode.length = B.dim) {st : MPH α} (hs : st.Shaped) :
    Sim m0 (mphZeroMem rnd p Base st m) (mphZero rnd p Base st) fun a _ b => a = b := by
  unfold mphZeroMem mphZero
  cases h1 : Base[0]? with
  | none => exact Sim.throw hm
  | some B0 =>
  cases h2 : st.im[0]? with
  | none => exact Sim.throw hm
  | some x =>
  cases x with
  | none => exact Sim.throw hm
  | some im0 =>
  dsimp only
  split_ifs with h3
  · exact Sim.pure hm rfl
  · refine (Sim.value hm _).bind fun ker0 _ _ _ hR => ?_
    obtain ⟨rfl, rfl, i1⟩ := hR
    refine (Sim.value hm _).bind fun x _ _ _ hR => ?_
    obtain ⟨rfl, rfl, i2⟩ := hR
    obtain ⟨ker, order⟩ := x
    have hid : Mat.WellShaped ⟨B0.dim, identityCols B0.dim⟩ := by
      intro c hc
      unfold identityCols at hc
      obtain ⟨i, -, rfl⟩ := List.mem_map.1 hc
      simp
    refine (quotientMem_sim rnd p true hm (sort_shaped i2 (init_shaped i1 hid)) (hs 0 im0 h2)
      (hB _ (List.mem_of_getElem? h1))).bind fun a m' b hm' hR => ?_
    subst hR
    exact Sim.pure hm' rfl

/-- **`module_persistence_homology` in memory.** -/
theorem modulePersistenceHomologyMem_sim (rnd : α → α) (p : ℕ) {D : List Ref} {Base : List (Basis α)} {m : Memory}
    (hD : ∀ F ∈ D, F.addr < m.length) (hB : ∀ B ∈ Base, B.barcode.length = B.dim) :
    Sim m (modulePersistenceHomologyMem rnd p D Base m) (modulePersistenceHomology rnd p (D.map m.mat) Base)
      fun a _ b => a = b := by
  have hu : m.Keeps m := ⟨fun _ _ => rfl, le_rfl⟩
  unfold modulePersistenceHomologyMem modulePersistenceHomology
  cases h1 : Base[Base.length - 1]? with
  | none => exact Sim.throw hu
  | some top =>
    dsimp only
    refine (foldMem_sim (m1 := m) (R := fun a _ b => a = b ∧ b.Shaped) (f := mphStepMem rnd p D Base)
      (g := mphStep rnd p (D.map m.mat) Base) _ (fun s m' t c _ hm' hR => ?_) _ m _ hu ⟨rfl, ?_⟩).bind
        fun a m' b hm' hR => ?_
    · obtain ⟨rfl, hs⟩ := hR
      exact mphStepMem_sim rnd p hm' hD hB hs c
    · refine shaped_set _ (fun k imd h => ?_) (Or.inl rfl)
      rw [List.getElem?_replicate] at h
      split_ifs at h
      cases h
    · obtain ⟨rfl, hs⟩ := hR
      exact mphZeroMem_sim rnd p hm' hB hs

end Permaviss
