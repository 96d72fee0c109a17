import Verif.Lemmas.Chains

/-!
# Local chains (C44)
-/

namespace Permaviss

/-- C44, sum: chains in standard format are added reference by reference, the result is in standard
format and mentions exactly the references of the two. -/
theorem C44_add {ws : List Nat} {A B : LChains} (hA : A.WF ws) (hB : B.WF ws) :
    ∃ C, A.add B = .ok C ∧ C.WF ws ∧ (∀ k g j, C.val k g j = A.val k g j + B.val k g j) ∧
      ∀ k g, g ∈ (C.getD k LEntry.empty).ref ↔
        g ∈ (A.getD k LEntry.empty).ref ∨ g ∈ (B.getD k LEntry.empty).ref := by
  induction hA generalizing B with
  | nil =>
    cases hB
    exact ⟨[], rfl, List.Forall₂.nil, by simp [LChains.val, LEntry.val, LEntry.row, LEntry.empty],
      by simp [LEntry.empty]⟩
  | @cons w a ws as ha _ ih =>
    cases hB with
    | @cons _ b _ bs hb hbs =>
      obtain ⟨c, hc, hcw, hcr, hcv⟩ := LEntry.add_spec ha hb
      obtain ⟨cs, hcs, hcsw, hcsv, hcsr⟩ := ih hbs
      refine ⟨c :: cs, ?_, List.Forall₂.cons hcw hcsw, ?_, ?_⟩
      · rw [LChains.add, hc]
        change (do let cs ← LChains.add as bs; pure (c :: cs)) = _
        rw [hcs]; rfl
      · intro k g j
        cases k with
        | zero => exact hcv g j
        | succ k => exact hcsv k g j
      · intro k g
        cases k with
        | zero =>
          change g ∈ c.ref ↔ g ∈ a.ref ∨ g ∈ b.ref
          rw [hcr, mem_npUnique, List.mem_append]
        | succ k => exact hcsr k g

/-- C44, linear combinations: row `i` of `M` gives expression `i` of the result, with the
coefficients of that row. -/
theorem C44_sums {ws : List Nat} {C : LChains} (hC : C.WF ws) {nexp : Nat}
    (hlt : ∀ e ∈ C, ∀ g ∈ e.ref, g < nexp) (M : List (List Int)) :
    ∃ S, C.sums M nexp = .ok S ∧ S.WF ws ∧
      ∀ k, ∀ i < M.length, ∀ j,
        S.val k i j = ∑ g ∈ Finset.range nexp, (M.getD i []).getD g 0 * C.val k g j := by
  unfold LChains.sums
  induction hC with
  | nil =>
    refine ⟨[], rfl, List.Forall₂.nil, fun k i _ j => ?_⟩
    simp [LChains.val, LEntry.val, LEntry.row, LEntry.empty]
  | @cons w e ws C he _ ih =>
    obtain ⟨s, hs, hsw, hsv⟩ := LEntry.sums_spec he (hlt e (by simp)) M
    obtain ⟨S, hS, hSw, hSv⟩ := ih (fun e he => hlt e (List.mem_cons_of_mem _ he))
    refine ⟨s :: S, ?_, List.Forall₂.cons hsw hSw, ?_⟩
    · rw [List.mapM_cons, hs]
      change (do let S ← List.mapM (fun e : LEntry => e.sums M nexp) C; pure (s :: S)) = _
      rw [hS]; rfl
    · intro k i hi j
      cases k with
      | zero => exact hsv i hi j
      | succ k => exact hSv k i hi j

/-- C44, `minus`: coordinates are negated mod `p`, references and shapes stay. -/
theorem C44_minus (p : Nat) {ws : List Nat} {C : LChains} (hC : C.WF ws) :
    (C.minus p).WF ws ∧ (∀ k g j, (C.minus p).val k g j = (-(C.val k g j)) % (p : Int)) ∧
      (C.minus p).map LEntry.ref = C.map LEntry.ref := by
  refine ⟨?_, ?_, ?_⟩
  · induction hC with
    | nil => exact List.Forall₂.nil
    | cons he _ ih =>
      refine List.Forall₂.cons ⟨he.increasing, ?_, ?_⟩ ih
      · simpa using he.rows
      · intro r hr
        obtain ⟨r', hr', rfl⟩ := List.mem_map.1 hr
        simpa [negMod] using he.width r' hr'
  · clear hC
    intro k g j
    induction C generalizing k with
    | nil => simp [LChains.minus, LChains.val, LEntry.val, LEntry.row, LEntry.empty]
    | cons e C ih =>
      cases k with
      | succ k => exact ih k
      | zero =>
        change (⟨e.ref, e.coord.map (negMod p)⟩ : LEntry).val g j = (-(e.val g j)) % (p : Int)
        by_cases hg : g ∈ e.ref
        · rw [LEntry.val, LEntry.row_eq (e := ⟨e.ref, e.coord.map (negMod p)⟩) hg, LEntry.val,
            LEntry.row_eq hg]
          unfold rowOf
          rw [← negMod_getD]
          congr 1
          rcases lt_or_ge (e.ref.idxOf g) e.coord.length with h | h
          · rw [List_getD_eq_getElem _ _ (by simpa using h), List_getD_eq_getElem _ _ h]; simp
          · rw [List.getD_eq_getElem?_getD, List.getElem?_eq_none (by simpa using h),
              List.getD_eq_getElem?_getD, List.getElem?_eq_none h]; rfl
        · rw [LEntry.val_neg hg, LEntry.val_neg (e := ⟨e.ref, e.coord.map (negMod p)⟩) hg]; simp
  · simp [LChains.minus]

/-- Two chains on two pieces meet the hypotheses; their references overlap. -/
def chA : LChains := [⟨[0, 2], [[1, 2, 0], [3, 0, 1]]⟩, ⟨[], []⟩]
/-- The second chain of the example. -/
def chB : LChains := [⟨[1, 2], [[0, 1, 0], [4, 4, 4]]⟩, ⟨[0], [[1]]⟩]

example : chA.WF [3, 1] ∧ chB.WF [3, 1] := by
  constructor
  · exact .cons ⟨by decide, by decide, by decide⟩ (.cons ⟨by decide, by decide, by decide⟩ .nil)
  · exact .cons ⟨by decide, by decide, by decide⟩ (.cons ⟨by decide, by decide, by decide⟩ .nil)

example : chA.add chB =
    .ok [⟨[0, 1, 2], [[1, 2, 0], [0, 1, 0], [7, 4, 5]]⟩, ⟨[0], [[1]]⟩] := by decide

example : chA.sums [[1, 0, 2]] 3 = .ok [⟨[0], [[7, 2, 2]]⟩, ⟨[], []⟩] := by decide

/-- The order of the references matters: with references that are not increasing the rows are added
to the wrong expressions, which is why the property is stated for increasing references. -/
theorem C44_add_needs_increasing :
    (LEntry.mk [1, 0] [[5], [7]]).add (LEntry.mk [0] [[0]]) = .ok ⟨[0, 1], [[5], [7]]⟩ ∧
      (LEntry.mk [1, 0] [[5], [7]]).val 1 0 = 5 := by decide

end Permaviss
