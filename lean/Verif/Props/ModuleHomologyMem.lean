import Verif.Lemmas.ModuleHomologyMem
import Verif.Props.ModuleHomology

/-!
# C99: `module_persistence_homology` changes none of the arrays of the caller
-/

namespace Permaviss

variable {α : Type} [LinearOrder α] [Zero α]

/-- **C99.** `module_persistence_homology(D, Base, p)` on a list of arrays, which may share memory.  In all cases, also
if the function raises, the arrays that existed before the call are unchanged, and the result, or the exception, is the
one of the function on the matrices that the arrays hold. -/
theorem C99_module_persistence_homology (rnd : α → α) (p : ℕ) (D : List Ref) (Base : List (Basis α)) (m : Memory)
    (hD : ∀ F ∈ D, F.addr < m.length) (hB : ∀ B ∈ Base, B.barcode.length = B.dim) :
    m.Unchanged (modulePersistenceHomologyMem rnd p D Base m).2 ∧
    (modulePersistenceHomologyMem rnd p D Base m).1 = modulePersistenceHomology rnd p (D.map m.mat) Base :=
  ⟨(modulePersistenceHomologyMem_sim rnd p hD hB).keep.1, (modulePersistenceHomologyMem_sim rnd p hD hB).value_eq⟩

/-- **C99, `quotient`.** The same for the quotient of two bases with rectangular coordinates. -/
theorem C99_quotient (rnd : α → α) (p : ℕ) (M N amb : Basis α) (same : Bool) (m : Memory)
    (hM : M.coords.WellShaped) (hN : N.coords.WellShaped) (ha : amb.barcode.length = amb.dim) :
    m.Unchanged (quotientMem rnd p M N amb same m).2 ∧
    (quotientMem rnd p M N amb same m).1 = quotient rnd p M N amb same :=
  ⟨(quotientMem_sim rnd p same ⟨fun _ _ => rfl, le_rfl⟩ hM (Or.inr hN) ha).keep.1,
    (quotientMem_sim rnd p same ⟨fun _ _ => rfl, le_rfl⟩ hM (Or.inr hN) ha).value_eq⟩

/-- **C99, several calls.** Calls one after the other, with any lists of the same arrays, bases and moduli: each gives
what it gives on the memory before the first one. -/
theorem C99_calls (rnd : α → α) (m : Memory) (calls : List (ℕ × List Ref × List (Basis α)))
    (hD : ∀ c ∈ calls, ∀ F ∈ c.2.1, F.addr < m.length) (hB : ∀ c ∈ calls, ∀ B ∈ c.2.2, B.barcode.length = B.dim)
    (c : ℕ × List Ref × List (Basis α)) (hcD : ∀ F ∈ c.2.1, F.addr < m.length)
    (hcB : ∀ B ∈ c.2.2, B.barcode.length = B.dim) :
    (modulePersistenceHomologyMem rnd c.1 c.2.1 c.2.2
      (calls.foldl (fun m c => (modulePersistenceHomologyMem rnd c.1 c.2.1 c.2.2 m).2) m)).1 =
    (modulePersistenceHomologyMem rnd c.1 c.2.1 c.2.2 m).1 := by
  have key : ∀ (calls : List (ℕ × List Ref × List (Basis α))) (m' : Memory), m.Keeps m' →
      (∀ c ∈ calls, ∀ F ∈ c.2.1, F.addr < m.length) → (∀ c ∈ calls, ∀ B ∈ c.2.2, B.barcode.length = B.dim) →
      m.Keeps (calls.foldl (fun m c => (modulePersistenceHomologyMem rnd c.1 c.2.1 c.2.2 m).2) m') := by
    intro calls
    induction calls with
    | nil => exact fun m' h _ _ => h
    | cons c l ih =>
      intro m' h h1 h2
      rw [List.foldl_cons]
      refine ih _ (h.trans ?_) (fun d hd => h1 d (List.mem_cons_of_mem _ hd))
        (fun d hd => h2 d (List.mem_cons_of_mem _ hd))
      exact (modulePersistenceHomologyMem_sim rnd c.1
        (fun F hF => (h1 c List.mem_cons_self F hF).trans_le h.2) (h2 c List.mem_cons_self)).keep
  obtain ⟨k1, k2⟩ := key calls m ⟨fun _ _ => rfl, le_rfl⟩ hD hB
  rw [(C99_module_persistence_homology rnd c.1 c.2.1 c.2.2 _ (fun F hF => (hcD F hF).trans_le k2) hcB).2,
    (C99_module_persistence_homology rnd c.1 c.2.1 c.2.2 m hcD hcB).2]
  congr 1
  exact List.map_congr_left fun F hF => Memory.mat_congr (k1 F (hcD F hF))

/-- The arrays of the complex `cxD` of C36. -/
def cxMem : Memory := cxD.map Buf.ofMat

/-- The hypotheses of `C99_module_persistence_homology` hold for this complex, and the call returns. -/
example : (∀ F ∈ [(⟨0, false⟩ : Ref), ⟨1, false⟩, ⟨2, false⟩], F.addr < cxMem.length) ∧
    (∀ B ∈ cxBase, B.barcode.length = B.dim) ∧
    [(⟨0, false⟩ : Ref), ⟨1, false⟩, ⟨2, false⟩].map cxMem.mat = cxD ∧
    (modulePersistenceHomologyMem id 5 [⟨0, false⟩, ⟨1, false⟩, ⟨2, false⟩] cxBase cxMem).1.isOk := by decide +kernel

/-- Two calls on these arrays, the second one modulo 7. -/
example : (modulePersistenceHomologyMem id 7 [⟨0, false⟩, ⟨1, false⟩, ⟨2, false⟩] cxBase
      (modulePersistenceHomologyMem id 5 [⟨0, false⟩, ⟨1, false⟩, ⟨2, false⟩] cxBase cxMem).2).1 =
    (modulePersistenceHomologyMem id 7 [⟨0, false⟩, ⟨1, false⟩, ⟨2, false⟩] cxBase cxMem).1 :=
  C99_calls id cxMem [(5, [⟨0, false⟩, ⟨1, false⟩, ⟨2, false⟩], cxBase)] (by decide) (by decide)
    (7, [⟨0, false⟩, ⟨1, false⟩, ⟨2, false⟩], cxBase) (by decide) (by decide)

/-- A basis of a module and of a submodule, for `C99_quotient`: the quotient of two bars by the second of them. -/
example : (⟨2, [[1, 0], [0, 1]]⟩ : Mat).WellShaped ∧ (⟨2, [[0, 1]]⟩ : Mat).WellShaped ∧
    (quotientMem id 5 { barsOnly [((0 : ℤ), (5 : ℤ)), (0, 4)] with coords := ⟨2, [[1, 0], [0, 1]]⟩ }
      { barsOnly [((2 : ℤ), (4 : ℤ))] with coords := ⟨2, [[0, 1]]⟩ } (barsOnly [(0, 5), (0, 4)]) true []).1.toOption.map
        Basis.barcode = some [(0, 5), (0, 2)] := by
  refine ⟨by unfold Mat.WellShaped; decide, by unfold Mat.WellShaped; decide, by decide +kernel⟩

end Permaviss
