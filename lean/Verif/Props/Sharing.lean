import Verif.Lemmas.ChainsMem

/-!
# C95: chains do not share memory
-/

namespace Permaviss

variable {m : Memory}

/-- **C95.** `local_chains(ref, coord)` copies: no array that existed before is changed, and if there is one array
for each list of references, with one row for each reference, the new object stands for these chains in arrays of
its own, different from all others and from each other.  Otherwise it raises `ValueError`. -/
theorem C95_constructor (refs : List (List Nat)) (arrs : List Ref) (h : ∀ a ∈ arrs, a.addr < m.length) :
    m.Unchanged (newChainsMem refs arrs m).2 ∧
    (if refs.length = arrs.length ∧ ∀ e ∈ refs.zip arrs, e.1.length = (m.at_ e.2).nrows then
      ∃ C : MChains, (newChainsMem refs arrs m).1 = .ok C ∧ C.New m (newChainsMem refs arrs m).2 ∧
        C.read (newChainsMem refs arrs m).2 = (refs.zip arrs).map fun e => ⟨e.1, (m.at_ e.2).rows⟩
    else (newChainsMem refs arrs m).1 = .error .valueError) := by
  unfold newChainsMem
  by_cases hl : refs.length = arrs.length
  · rw [if_neg (not_not.mpr hl)]
    obtain ⟨new, h1, h2, h3⟩ := newChainsLoop_spec (refs.zip arrs) m fun e he => h _ (List.of_mem_zip he).2
    rw [h1]
    refine ⟨Memory.unchanged_append m new, ?_⟩
    split
    · rename_i hc
      obtain ⟨C, c1, c2, -, c4⟩ := h2 hc.2
      exact ⟨C, c1, c2, c4⟩
    · rename_i hc
      exact h3 fun h => hc ⟨hl, h⟩
  · rw [if_pos hl, if_neg fun h => hl h.1]
    exact ⟨fun _ _ => rfl, rfl⟩

/-- **C95.** `A + B` changes no array, and the sum is held in new arrays. -/
theorem C95_add (A B : MChains) (hA : A.OK m) (hB : B.OK m) (hw : A.SameWidth m B) :
    m.Unchanged (addChainsMem A B m).2 ∧
    match LChains.add (A.read m) (B.read m) with
    | .error _ => ∃ e, (addChainsMem A B m).1 = .error e
    | .ok D => ∃ C : MChains, (addChainsMem A B m).1 = .ok C ∧ C.New m (addChainsMem A B m).2 ∧
        C.OK (addChainsMem A B m).2 ∧ C.read (addChainsMem A B m).2 = D := by
  obtain ⟨⟨new, h1⟩, h2⟩ := (addLoopMem_spec A B m hA hB hw).makes
  refine ⟨?_, h2⟩
  unfold addChainsMem
  rw [h1]
  exact Memory.unchanged_append m new

/-- **C95.** `local_chains.sums(C, M)` changes no array, and the sums are held in new arrays. -/
theorem C95_sums (C : MChains) (M : List (List Int)) (nexp : ℕ) (hC : C.OK m) :
    m.Unchanged (sumsChainsMem C M nexp m).2 ∧
    match LChains.sums (C.read m) M nexp with
    | .error _ => ∃ e, (sumsChainsMem C M nexp m).1 = .error e
    | .ok D => ∃ S : MChains, (sumsChainsMem C M nexp m).1 = .ok S ∧ S.New m (sumsChainsMem C M nexp m).2 ∧
        S.OK (sumsChainsMem C M nexp m).2 ∧ S.read (sumsChainsMem C M nexp m).2 = D := by
  obtain ⟨⟨new, h1⟩, h2⟩ := (sumsLoopMem_spec M nexp C m hC).makes
  refine ⟨?_, h2⟩
  unfold sumsChainsMem
  rw [h1]
  exact Memory.unchanged_append m new

/-- **C95.** `C.minus()` changes no array, so no other object that shares arrays with `C`, and afterwards the object
stands for the negative chains. -/
theorem C95_minus (p : ℕ) (C : MChains) (hC : C.OK m) :
    m.Unchanged (minusMem p C m).2 ∧
      (minusMem p C m).1.read (minusMem p C m).2 = LChains.minus p (C.read m) := by
  obtain ⟨⟨new, h1⟩, h2⟩ := minusMem_spec p C m hC
  refine ⟨?_, h2⟩
  rw [h1]
  exact Memory.unchanged_append m new

/-- **C95.** `local_chains.copy_seq(seq)` returns chains with the same contents in new arrays. -/
theorem C95_copy_seq (seq : List MChains) (h : ∀ C ∈ seq, MChains.OK m C) :
    m.Unchanged (copySeqMem seq m).2 ∧ ∃ Ds : List MChains, (copySeqMem seq m).1 = .ok Ds ∧
      MChains.New m (copySeqMem seq m).2 Ds.flatten ∧
      Ds.map (MChains.read (copySeqMem seq m).2) = seq.map (MChains.read m) := by
  obtain ⟨new, h1, Ds, h2, h3, -, h5⟩ := copySeqMem_spec seq m h
  rw [h1]
  exact ⟨Memory.unchanged_append m new, Ds, h2, h3, h5⟩

/-- **C95.** Whatever is written later to the arrays of a new object, the arrays that existed before it keep their
contents, and so do all chains that were stored before it. -/
theorem C95_later_writes {m' : Memory} (hm : m.Unchanged m') {C : MChains} (hC : C.New m m')
    (ws : List (MEntry × ℕ × List Int)) (hw : ∀ w ∈ ws, w.1 ∈ C) :
    m.Unchanged (ws.foldl (fun m w => m.setRow w.1.coord w.2.1 w.2.2) m') ∧
      ∀ D : MChains, D.OK m →
        D.read (ws.foldl (fun m w => m.setRow w.1.coord w.2.1 w.2.2) m') = D.read m := by
  have key : ∀ (ws : List (MEntry × ℕ × List Int)) (m' : Memory), m.Unchanged m' →
      (∀ w ∈ ws, m.length ≤ w.1.coord.addr) →
      m.Unchanged (ws.foldl (fun m w => m.setRow w.1.coord w.2.1 w.2.2) m') := by
    intro ws
    induction ws with
    | nil => intro m' h _; exact h
    | cons w ws ih =>
      intro m' h hlo
      refine ih _ (fun r hr => ?_) fun w hw => hlo w (by simp [hw])
      rw [Memory.at_setRow_of_ne]
      · exact h r hr
      · have := hlo w (by simp); omega
  have h1 := key ws m' hm fun w h => hC.lo _ (hw w h)
  exact ⟨h1, fun D hD => List.map_congr_left fun e he => by rw [h1 _ (hD e he).1]⟩

/-- **C95.** The method `extension` works on a copy of the stored representatives: when it sets rows to zero, the
stored representatives keep their contents, and the copy is that of `zeroRows`. -/
theorem C95_extension (mask : List Bool) (seq : List MChains) (h : ∀ C ∈ seq, MChains.OK m C) :
    m.Unchanged (extensionCopyMem mask seq m).2 ∧
    seq.map (MChains.read (extensionCopyMem mask seq m).2) = seq.map (MChains.read m) ∧
    ∃ Ds : List MChains, (extensionCopyMem mask seq m).1 = .ok Ds ∧
      Ds.map (MChains.read (extensionCopyMem mask seq m).2) =
        (seq.map (MChains.read m)).map (zeroRows mask) := by
  obtain ⟨new, h1, Ds, h2, h3, h4, h5⟩ := copySeqMem_spec seq m h
  have hrun : extensionCopyMem mask seq m = (.ok Ds, zeroSeqMem mask Ds (m ++ new)) := by
    simp [extensionCopyMem, thenDo, h1, h2]
  obtain ⟨z1, z2, z3, z4⟩ := zeroFold_spec mask Ds.flatten (m ++ new) h4 h3.ne
  rw [hrun]
  have hun : m.Unchanged (zeroSeqMem mask Ds (m ++ new)) := fun r hr => by
    unfold zeroSeqMem
    rw [z2 r fun e he => by have := h3.lo e he; omega]
    exact Memory.at_append hr new
  refine ⟨hun, ?_, Ds, rfl, ?_⟩
  · exact List.map_congr_left fun C hC => List.map_congr_left fun e he => by
      rw [hun _ (h C hC e he).1]
  · rw [← h5, List.map_map]
    refine List.map_congr_left fun D hD => ?_
    simp only [MChains.read, zeroRows, Function.comp_apply, List.map_map]
    refine List.map_congr_left fun e he => ?_
    simp only [Function.comp_apply, zeroSeqMem]
    rw [z4 e (List.mem_flatten.mpr ⟨D, hD, he⟩)]

/-- `add_entry` stores the array of the caller, not a copy: it changes no array, and the object stands for the
chains given. -/
theorem C95_add_entry (C : MChains) (index : ℕ) (ref : List Nat) (a : Ref)
    (hr : ref.length = (m.at_ a).nrows) (hi : index < C.length) :
    addEntryMem C index ref (some a) m = (.ok (C.set index ⟨ref, a⟩), m) ∧
      MChains.read m (C.set index ⟨ref, a⟩) = (C.read m).set index ⟨ref, (m.at_ a).rows⟩ := by
  refine ⟨by simp [addEntryMem, hr, hi], ?_⟩
  simp [MChains.read, List.map_set]

/-- An array with two rows. -/
def exTwo : Buf := Buf.ofRows 2 [[1, 2], [3, 4]]

/-- **C95, the exception.** An object made with `add_entry` does share memory: a later write to the array that was
passed changes the chains. -/
theorem C95_add_entry_shares : ∃ (m : Memory) (C D : MChains) (a : Ref), C.OK m ∧ a.addr < m.length ∧
    addEntryMem C 0 [0, 1] (some a) m = (.ok D, m) ∧ D.read (m.setRow a 0 [0, 0]) ≠ D.read m := by
  refine ⟨[Buf.ofRows 0 [], exTwo], [⟨[], ⟨0, false⟩⟩], [⟨[0, 1], ⟨1, false⟩⟩], ⟨1, false⟩, ?_, by decide, ?_, ?_⟩
  · intro e he; simp at he; subst he; decide
  · simp [addEntryMem, Memory.at_, exTwo, Buf.ofRows]
  · decide +kernel

/-- Two objects that share an array, as after two calls of `add_entry` with one array, meet the hypotheses. -/
example : ∃ (m : Memory) (C : MChains), C.OK m ∧ MChains.SameWidth m C C ∧
    C.read m = [⟨[0, 1], [[1, 2], [3, 4]]⟩] ∧
    (∃ D, (addChainsMem C C m).1 = .ok D ∧ D.read (addChainsMem C C m).2 = [⟨[0, 1], [[2, 4], [6, 8]]⟩]) ∧
    (∃ D, (extensionCopyMem [true, false] [C] m).1 = .ok [D] ∧
      D.read (extensionCopyMem [true, false] [C] m).2 = [⟨[0, 1], [[1, 2], [0, 0]]⟩] ∧
      C.read (extensionCopyMem [true, false] [C] m).2 = C.read m) := by
  refine ⟨[exTwo], [⟨[0, 1], ⟨0, false⟩⟩], ?_, ?_, by decide +kernel,
    ⟨[⟨[0, 1], ⟨2, false⟩⟩], by decide +kernel, by decide +kernel⟩,
    ⟨[⟨[0, 1], ⟨1, false⟩⟩], by decide +kernel, by decide +kernel, by decide +kernel⟩⟩
  · intro e he; simp at he; subst he; decide
  · intro e he _ _; simp at he; subst he; rfl

end Permaviss
