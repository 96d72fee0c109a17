import Verif.Spec.Sharing
import Verif.Lemmas.Memory

/-! `local_chains` in memory. -/

namespace Permaviss

theorem Buf.rows_ofRows {nc : ℕ} {rows : List (List Int)} (h : ∀ r ∈ rows, r.length = nc) :
    (Buf.ofRows nc rows).rows = rows := by
  apply List.ext_getElem
  · simp [Buf.rows, Buf.ofRows]
  intro i h1 h2
  simp only [Buf.rows, Buf.ofRows, Buf.row, List.getElem_map, List.getElem_range]
  have hl := h _ (List.getElem_mem h2)
  apply List.ext_getElem
  · simp [hl]
  intro j h3 h4
  simp [List.getD_eq_getElem?_getD, h2, h4]

theorem Buf.length_of_mem_rows {b : Buf} {r : List Int} (h : r ∈ b.rows) : r.length = b.ncols := by
  simp only [Buf.rows, List.mem_map] at h
  obtain ⟨i, -, rfl⟩ := h
  exact Buf.length_row b i

theorem length_scatterRows (aref cs : List ℕ) (rows acoord : List (List Int)) :
    (scatterRows aref cs rows acoord).length = rows.length := by
  induction cs generalizing rows acoord with
  | nil => simp [scatterRows]
  | cons c cs ih =>
    cases rows with
    | nil => simp [scatterRows]
    | cons row rows =>
      unfold scatterRows
      split
      · cases acoord <;> simp [ih]
      · simp [ih]

theorem width_scatterRows {nc : ℕ} (aref cs : List ℕ) (rows acoord : List (List Int))
    (h1 : ∀ r ∈ rows, r.length = nc) (h2 : ∀ r ∈ acoord, r.length = nc) :
    ∀ r ∈ scatterRows aref cs rows acoord, r.length = nc := by
  induction cs generalizing rows acoord with
  | nil => simpa [scatterRows] using h1
  | cons c cs ih =>
    cases rows with
    | nil => simp [scatterRows]
    | cons row rows =>
      have hr := h1 row (by simp)
      have hrs : ∀ r ∈ rows, r.length = nc := fun r h => h1 r (by simp [h])
      unfold scatterRows
      split
      · cases acoord with
        | nil =>
          intro r hm
          rcases List.mem_cons.mp hm with rfl | hm
          · exact hr
          · exact ih rows [] hrs (by simp) r hm
        | cons a as =>
          intro r hm
          rcases List.mem_cons.mp hm with rfl | hm
          · simp [addRow, hr, h2 a (by simp)]
          · exact ih rows as hrs (fun r h => h2 r (by simp [h])) r hm
      · intro r hm
        rcases List.mem_cons.mp hm with rfl | hm
        · exact hr
        · exact ih rows acoord hrs h2 r hm

theorem length_combine {n : ℕ} (cs : List Int) (rows : List (List Int)) (h : ∀ r ∈ rows, r.length = n) :
    (combine n cs rows).length = n := by
  unfold combine
  have key : ∀ (l : List (List Int)) (a : List Int), a.length = n → (∀ r ∈ l, r.length = n) →
      (l.foldl addRow a).length = n := by
    intro l
    induction l with
    | nil => intro a ha _; exact ha
    | cons x l ih =>
      intro a ha hl
      exact ih _ (by simp [addRow, ha, hl x (by simp)]) fun r h => hl r (by simp [h])
  refine key _ _ (by simp) ?_
  intro r hr
  obtain ⟨i, hi, rfl⟩ := List.getElem_of_mem hr
  rw [List.getElem_zipWith, len_scale]
  exact h _ (List.getElem_mem _)

/-- The value of an entry that is about to be stored. -/
def entryVal (m : Memory) (e : List Nat × Ref) : LEntry := ⟨e.1, (m.at_ e.2).rows⟩

theorem Memory.at_append_le {m m' new : Memory} {r : Ref} (h : r.addr < m.length) (e : m' = m ++ new) :
    m'.at_ r = m.at_ r := by subst e; exact Memory.at_append h new

theorem entryVal_append {m : Memory} (new : List Buf) {es : List (List Nat × Ref)}
    (h : ∀ e ∈ es, e.2.addr < m.length) : es.map (entryVal (m ++ new)) = es.map (entryVal m) :=
  List.map_congr_left fun e he => by simp only [entryVal, Memory.at_append (h e he)]

theorem MChains.read_append {m : Memory} (new : List Buf) {C : MChains}
    (h : ∀ e ∈ C, e.coord.addr < m.length) : C.read (m ++ new) = C.read m :=
  List.map_congr_left fun e he => by simp only [Memory.at_append (h e he)]

theorem newChainsLoop_spec (es : List (List Nat × Ref)) : ∀ m : Memory, (∀ e ∈ es, e.2.addr < m.length) →
    ∃ new, (newChainsLoop es m).2 = m ++ new ∧
      ((∀ e ∈ es, e.1.length = (m.at_ e.2).nrows) → ∃ C : MChains, (newChainsLoop es m).1 = .ok C ∧
        C.New m (m ++ new) ∧ C.OK (m ++ new) ∧ C.read (m ++ new) = es.map (entryVal m)) ∧
      ((¬ ∀ e ∈ es, e.1.length = (m.at_ e.2).nrows) → (newChainsLoop es m).1 = .error .valueError) := by
  induction es with
  | nil =>
    intro m _
    refine ⟨[], by simp [newChainsLoop], fun _ => ⟨[], rfl, ⟨by simp, by simp, by simp⟩, ?_, rfl⟩, fun h => ?_⟩
    · intro e he; simp at he
    · exact absurd (by simp) h
  | cons x es ih =>
    obtain ⟨ref, a⟩ := x
    intro m hm
    have ha : a.addr < m.length := hm (ref, a) (by simp)
    by_cases hlen : ref.length = (m.at_ a).nrows
    swap
    · refine ⟨[], by simp [newChainsLoop, hlen], fun h => absurd (h (ref, a) (by simp)) hlen, fun _ => ?_⟩
      simp [newChainsLoop, hlen]
    have hm1 : ∀ e ∈ es, e.2.addr < m.length := fun e he => hm e (by simp [he])
    obtain ⟨new, h1, h2, h3⟩ := ih (m ++ [m.at_ a]) fun e he => by
      have := hm1 e he; simp; omega
    have hat : ∀ e ∈ es, (m ++ [m.at_ a]).at_ e.2 = m.at_ e.2 := fun e he => Memory.at_append (hm1 e he) _
    have hiff : (∀ e ∈ (ref, a) :: es, e.1.length = (m.at_ e.2).nrows) ↔
        ∀ e ∈ es, e.1.length = ((m ++ [m.at_ a]).at_ e.2).nrows := by
      simp only [List.mem_cons, forall_eq_or_imp, hlen, true_and]
      exact forall₂_congr fun e he => by rw [hat e he]
    have hun : newChainsLoop ((ref, a) :: es) m =
        thenDo (newChainsLoop es (m ++ [m.at_ a])) fun C m' => (.ok (⟨ref, ⟨m.length, false⟩⟩ :: C), m') := by
      simp [newChainsLoop, hlen, Memory.copy, Memory.alloc]
    refine ⟨m.at_ a :: new, ?_, fun h => ?_, fun h => ?_⟩
    · rw [hun]
      unfold thenDo
      split <;> simp [h1]
    · obtain ⟨C, c1, c2, c3, c4⟩ := h2 (hiff.mp h)
      have hmem : m ++ [m.at_ a] ++ new = m ++ m.at_ a :: new := by simp
      rw [hmem] at c2 c3 c4
      refine ⟨⟨ref, ⟨m.length, false⟩⟩ :: C, ?_, ⟨?_, ?_, ?_⟩, ?_, ?_⟩
      · rw [hun]; simp [thenDo, c1]
      · intro e he
        rcases List.mem_cons.mp he with rfl | he
        · exact le_rfl
        · have := c2.lo e he; simp at this; omega
      · intro e he
        rcases List.mem_cons.mp he with rfl | he
        · simp
        · exact c2.hi e he
      · refine List.pairwise_cons.mpr ⟨fun e he => ?_, c2.ne⟩
        have := c2.lo e he
        simp at this ⊢
        omega
      · intro e he
        rcases List.mem_cons.mp he with rfl | he
        · refine ⟨by simp, ?_⟩
          simp only [Memory.at_zero]; exact hlen.symm
        · exact c3 e he
      · simp only [MChains.read, List.map_cons, Memory.at_zero, List.cons.injEq] at c4 ⊢
        refine ⟨rfl, ?_⟩
        rw [c4]
        exact entryVal_append _ hm1
    · rw [hun]
      simp [thenDo, h3 (fun h' => h (hiff.mpr h'))]

theorem newChainsMem_zip (es : List (List Nat × Ref)) (m : Memory) :
    newChainsMem (es.map Prod.fst) (es.map Prod.snd) m = newChainsLoop es m := by
  simp [newChainsMem]
  congr 1
  induction es with
  | nil => rfl
  | cons e es ih => simp [ih]

/-- What a loop that prepares the entries of a new object has to do. -/
def Prepares (m : Memory) (x : Except PyErr (List (List Nat × Ref)) × Memory) (val : Except PyErr LChains) : Prop :=
  ∃ new, x.2 = m ++ new ∧
    match x.1 with
    | .error _ => ∃ e, val = .error e
    | .ok es => (∀ e ∈ es, e.2.addr < (m ++ new).length) ∧
        ((∀ e ∈ es, e.1.length = ((m ++ new).at_ e.2).nrows) → val = .ok (es.map (entryVal (m ++ new)))) ∧
        ((¬ ∀ e ∈ es, e.1.length = ((m ++ new).at_ e.2).nrows) → ∃ e, val = .error e)

/-- The object that a constructor makes. -/
def Makes (m : Memory) (x : Except PyErr MChains × Memory) (val : Except PyErr LChains) : Prop :=
  (∃ new, x.2 = m ++ new) ∧
    match val with
    | .error _ => ∃ e, x.1 = .error e
    | .ok D => ∃ C : MChains, x.1 = .ok C ∧ C.New m x.2 ∧ C.OK x.2 ∧ C.read x.2 = D

theorem Prepares.makes {m : Memory} {x : Except PyErr (List (List Nat × Ref)) × Memory} {val : Except PyErr LChains}
    (h : Prepares m x val) :
    Makes m (thenDo x fun es m => newChainsMem (es.map Prod.fst) (es.map Prod.snd) m) val := by
  obtain ⟨new, h1, h2⟩ := h
  obtain ⟨x1, x2⟩ := x
  simp only at h1
  subst h1
  cases x1 with
  | error e =>
    obtain ⟨e', he'⟩ := h2
    subst he'
    exact ⟨⟨new, rfl⟩, e, rfl⟩
  | ok es =>
    obtain ⟨h3, h4, h5⟩ := h2
    simp only [thenDo, newChainsMem_zip]
    obtain ⟨new', c1, c2, c3⟩ := newChainsLoop_spec es (m ++ new) h3
    refine ⟨⟨new ++ new', by rw [c1, List.append_assoc]⟩, ?_⟩
    by_cases hl : ∀ e ∈ es, e.1.length = ((m ++ new).at_ e.2).nrows
    · rw [h4 hl]
      obtain ⟨C, d1, d2, d3, d4⟩ := c2 hl
      rw [c1]
      refine ⟨C, d1, ⟨fun e he => ?_, d2.hi, d2.ne⟩, d3, d4⟩
      have := d2.lo e he
      simp at this; omega
    · obtain ⟨e', he'⟩ := h5 hl
      subst he'
      exact ⟨_, c3 hl⟩

/-- A further entry in front. -/
theorem Prepares.cons {m : Memory} {b : List Buf} {x : Except PyErr (List (List Nat × Ref)) × Memory}
    {val : Except PyErr LChains} (h : Prepares (m ++ b) x val) (ref : List Nat) (c : Ref)
    (hc : c.addr < (m ++ b).length) (v : Except PyErr LEntry)
    (hv : v = LEntry.mk? ref ((m ++ b).at_ c).rows) :
    Prepares m (thenDo x fun cs m => (.ok ((ref, c) :: cs), m))
      (do let a ← v; let as ← val; pure (a :: as)) := by
  obtain ⟨new, h1, h2⟩ := h
  obtain ⟨x1, x2⟩ := x
  simp only at h1
  subst h1
  have hat : (m ++ b ++ new).at_ c = (m ++ b).at_ c := Memory.at_append hc new
  have hlen : ((m ++ b).at_ c).rows.length = ((m ++ b).at_ c).nrows := Buf.length_rows _
  refine ⟨b ++ new, ?_, ?_⟩
  · unfold thenDo; split <;> simp
  rw [← List.append_assoc]
  cases x1 with
  | error e =>
    obtain ⟨e', he'⟩ := h2
    subst he'
    simp only [thenDo]
    cases v with
    | error e => exact ⟨_, rfl⟩
    | ok a => exact ⟨_, rfl⟩
  | ok es =>
    obtain ⟨h3, h4, h5⟩ := h2
    simp only [thenDo]
    refine ⟨?_, fun h => ?_, fun h => ?_⟩
    · intro e he
      rcases List.mem_cons.mp he with rfl | he
      · simp at hc ⊢; omega
      · exact h3 e he
    · have e1 := h _ (List.mem_cons_self ..)
      simp only [hat] at e1
      rw [h4 fun e he => h e (List.mem_cons_of_mem _ he), hv]
      rw [List.append_assoc] at hat
      simp [LEntry.mk?, e1, hlen, bind, Except.bind, pure, Except.pure, entryVal, hat]
    · by_cases e1 : ref.length = ((m ++ b).at_ c).nrows
      · have : ¬ ∀ e ∈ es, e.1.length = ((m ++ b ++ new).at_ e.2).nrows := by
          intro h'
          apply h
          intro e he
          rcases List.mem_cons.mp he with rfl | he
          · simp only [hat]; exact e1
          · exact h' e he
        obtain ⟨e', he'⟩ := h5 this
        rw [he', hv]
        simp [LEntry.mk?, e1, hlen, bind, Except.bind]
      · rw [hv]
        simp [LEntry.mk?, e1, hlen, bind, Except.bind]

theorem addLoopMem_spec (A : MChains) : ∀ (B : MChains) (m : Memory), A.OK m → B.OK m → MChains.SameWidth m A B →
    Prepares m (addLoopMem A B m) (LChains.add (A.read m) (B.read m)) := by
  induction A with
  | nil => intro B m _ _ _; exact ⟨[], by simp [addLoopMem], by simp, fun _ => rfl, fun h => absurd (by simp) h⟩
  | cons a as ih =>
    intro B m hA hB hw
    cases B with
    | nil => exact ⟨[], by simp [addLoopMem], _, rfl⟩
    | cons b bs =>
      have ha := hA a (by simp)
      have hb := hB b (by simp)
      have hAs : MChains.OK m as := fun e he => hA e (by simp [he])
      have hBs : MChains.OK m bs := fun e he => hB e (by simp [he])
      have hws : MChains.SameWidth m as bs := fun e he => hw e (by simp [he])
      have hwab : a.ref ≠ [] → b.ref ≠ [] → _ := hw (a, b) (by simp)
      have hA' : ∀ new : List Buf, MChains.OK (m ++ new) as := fun new e he =>
        ⟨by have := (hAs e he).1; simp; omega, by rw [Memory.at_append (hAs e he).1]; exact (hAs e he).2⟩
      have hB' : ∀ new : List Buf, MChains.OK (m ++ new) bs := fun new e he =>
        ⟨by have := (hBs e he).1; simp; omega, by rw [Memory.at_append (hBs e he).1]; exact (hBs e he).2⟩
      have hw' : ∀ new : List Buf, MChains.SameWidth (m ++ new) as bs := fun new e he h1 h2 => by
        have := List.of_mem_zip he
        rw [Memory.at_append (hAs _ this.1).1, Memory.at_append (hBs _ this.2).1]
        exact hws e he h1 h2
      have rA : ∀ new : List Buf, MChains.read (m ++ new) as = MChains.read m as := fun new =>
        MChains.read_append new fun e he => (hAs e he).1
      have rB : ∀ new : List Buf, MChains.read (m ++ new) bs = MChains.read m bs := fun new =>
        MChains.read_append new fun e he => (hBs e he).1
      have step : ∀ new : List Buf, Prepares (m ++ new) (addLoopMem as bs (m ++ new))
          (LChains.add (MChains.read m as) (MChains.read m bs)) := fun new => by
        have := ih bs (m ++ new) (hA' new) (hB' new) (hw' new)
        rwa [rA, rB] at this
      have step0 : Prepares (m ++ []) (addLoopMem as bs m)
          (LChains.add (MChains.read m as) (MChains.read m bs)) := by
        have := step []
        simpa using this
      change Prepares m _ (do
        let c ← LEntry.add ⟨a.ref, (m.at_ a.coord).rows⟩ ⟨b.ref, (m.at_ b.coord).rows⟩
        let cs ← LChains.add (MChains.read m as) (MChains.read m bs)
        pure (c :: cs))
      unfold addLoopMem LEntry.add
      simp only
      by_cases h1 : 0 < min a.ref.length b.ref.length
      · rw [if_pos h1, if_pos h1]
        have hpos : 0 < a.ref.length ∧ 0 < b.ref.length := by omega
        have hwid := hwab (List.length_pos_iff.mp hpos.1) (List.length_pos_iff.mp hpos.2)
        simp only at hwid
        have hhead : ((m.at_ a.coord).rows.headD []).length = (m.at_ a.coord).ncols := by
          have hl : 0 < (m.at_ a.coord).rows.length := by rw [Buf.length_rows, ha.2]; exact hpos.1
          cases hr : (m.at_ a.coord).rows with
          | nil => simp [hr] at hl
          | cons r rs =>
            simp only [List.headD_cons]
            exact Buf.length_of_mem_rows (b := m.at_ a.coord) (by rw [hr]; simp)
        rw [hhead]
        split
        · refine Prepares.cons (step _) _ _ (by simp [Memory.alloc]) _ ?_
          have hrows : ∀ r ∈ scatterRows b.ref (npUnique (a.ref ++ b.ref)) (scatterRows a.ref
              (npUnique (a.ref ++ b.ref)) (List.replicate (npUnique (a.ref ++ b.ref)).length
                (List.replicate (m.at_ a.coord).ncols 0)) (m.at_ a.coord).rows) (m.at_ b.coord).rows,
              r.length = (m.at_ a.coord).ncols := by
            apply width_scatterRows
            · apply width_scatterRows
              · intro r hr; rw [List.eq_of_mem_replicate hr]; simp
              · intro r hr; exact Buf.length_of_mem_rows hr
            · intro r hr; rw [hwid]; exact Buf.length_of_mem_rows hr
          simp only [Memory.alloc, Memory.at_zero, Buf.rows_ofRows hrows]
          simp [LEntry.mk?, length_scatterRows]
        · exact ⟨[], by simp, _, rfl⟩
      · rw [if_neg h1, if_neg h1]
        by_cases h2 : 0 < a.ref.length
        · rw [if_pos h2, if_pos h2]
          refine Prepares.cons step0 _ _ (by simpa using ha.1) _ ?_
          simp
        · rw [if_neg h2, if_neg h2]
          by_cases h3 : 0 < (m.at_ b.coord).rows.length
          · rw [if_pos h3, if_pos h3]
            refine Prepares.cons step0 _ _ (by simpa using hb.1) _ ?_
            simp
          · rw [if_neg h3, if_neg h3]
            refine Prepares.cons (step _) _ _ (by simp [Memory.alloc]) _ ?_
            simp only [Memory.alloc, Memory.at_zero]
            rw [Buf.rows_ofRows (by simp)]

theorem sumsLoopMem_spec (sums : List (List Int)) (nexp : ℕ) (C : MChains) : ∀ (m : Memory), C.OK m →
    Prepares m (sumsLoopMem sums nexp C m) (LChains.sums (C.read m) sums nexp) := by
  induction C with
  | nil => intro m _; exact ⟨[], by simp [sumsLoopMem], by simp, fun _ => rfl, fun h => absurd (by simp) h⟩
  | cons a as ih =>
    intro m hA
    have ha := hA a (by simp)
    have hAs : MChains.OK m as := fun e he => hA e (by simp [he])
    have step : ∀ new : List Buf, Prepares (m ++ new) (sumsLoopMem sums nexp as (m ++ new))
        (LChains.sums (MChains.read m as) sums nexp) := fun new => by
      have := ih (m ++ new) fun e he =>
        ⟨by have := (hAs e he).1; simp; omega, by rw [Memory.at_append (hAs e he).1]; exact (hAs e he).2⟩
      rwa [MChains.read_append new fun e he => (hAs e he).1] at this
    have hval : LChains.sums (MChains.read m (a :: as)) sums nexp = (do
        let c ← LEntry.sums ⟨a.ref, (m.at_ a.coord).rows⟩ sums nexp
        let cs ← LChains.sums (MChains.read m as) sums nexp
        pure (c :: cs)) := by
      simp [LChains.sums, MChains.read]
    rw [hval]
    unfold sumsLoopMem LEntry.sums
    simp only
    by_cases h1 : a.ref.length = 0
    · rw [if_pos h1, if_pos h1]
      refine Prepares.cons (step _) _ _ (by simp [Memory.alloc]) _ ?_
      simp only [Memory.alloc, Memory.at_zero]
      rw [Buf.rows_ofRows (by simp)]
      rfl
    · rw [if_neg h1, if_neg h1]
      have hhead : ((m.at_ a.coord).rows.headD []).length = (m.at_ a.coord).ncols := by
        have hl : 0 < (m.at_ a.coord).rows.length := by rw [Buf.length_rows, ha.2]; omega
        cases hr : (m.at_ a.coord).rows with
        | nil => simp [hr] at hl
        | cons r rs =>
          simp only [List.headD_cons]
          exact Buf.length_of_mem_rows (b := m.at_ a.coord) (by rw [hr]; simp)
      rw [hhead]
      split
      · refine Prepares.cons (step _) _ _ (by simp [Memory.alloc]) _ ?_
        simp only [Memory.alloc, Memory.at_zero]
        rw [Buf.rows_ofRows]
        · simp [LEntry.mk?]
        · intro r hr
          obtain ⟨s, -, rfl⟩ := List.mem_map.mp hr
          exact length_combine _ _ fun r hr => Buf.length_of_mem_rows hr
      · exact ⟨[], by simp, _, rfl⟩

theorem minusMem_spec (p : ℕ) (C : MChains) : ∀ m : Memory, C.OK m →
    (∃ new, (minusMem p C m).2 = m ++ new) ∧
      (minusMem p C m).1.read (minusMem p C m).2 = LChains.minus p (C.read m) := by
  induction C with
  | nil => intro m _; exact ⟨⟨[], by simp [minusMem]⟩, rfl⟩
  | cons e es ih =>
    intro m hC
    have he := hC e (by simp)
    have hes : MChains.OK m es := fun e he => hC e (by simp [he])
    unfold minusMem
    by_cases h : 0 < (m.at_ e.coord).nrows
    · rw [if_pos h]
      simp only [Memory.alloc]
      obtain ⟨⟨new, h1⟩, h2⟩ := ih (m ++ [{ m.at_ e.coord with
          entry := fun i j => (-(m.at_ e.coord).entry i j) % (p : Int) }]) fun e he =>
        ⟨by have := (hes e he).1; simp; omega, by rw [Memory.at_append (hes e he).1]; exact (hes e he).2⟩
      rw [MChains.read_append _ fun e he => (hes e he).1] at h2
      refine ⟨⟨_ :: new, by rw [h1]; simp; rfl⟩, ?_⟩
      simp only [MChains.read, List.map_cons, LChains.minus, List.cons.injEq] at h2 ⊢
      refine ⟨?_, h2⟩
      rw [h1, List.append_assoc, List.singleton_append, Memory.at_zero]
      simp [Buf.rows, Buf.row, negMod]
    · rw [if_neg h]
      obtain ⟨⟨new, h1⟩, h2⟩ := ih m hes
      refine ⟨⟨new, h1⟩, ?_⟩
      simp only [MChains.read, List.map_cons, LChains.minus, List.cons.injEq] at h2 ⊢
      refine ⟨?_, h2⟩
      rw [h1, Memory.at_append he.1]
      have : (m.at_ e.coord).nrows = 0 := by omega
      simp [Buf.rows, this]

theorem Memory.length_setRow_mem (m : Memory) (r : Ref) (i : ℕ) (v : List Int) : (m.setRow r i v).length = m.length := by
  simp [Memory.setRow]

theorem Memory.at_setRow_of_ne (m : Memory) {r s : Ref} (h : r.addr ≠ s.addr) (i : ℕ) (v : List Int) :
    (m.setRow r i v).at_ s = m.at_ s := by
  have : (m.set r.addr (if r.flip then ((m.at_ r).setRow i v).tr else (m.at_ r).setRow i v)).getD s.addr
      ⟨0, 0, fun _ _ => 0⟩ = m.getD s.addr ⟨0, 0, fun _ _ => 0⟩ := by
    simp [List.getD_eq_getElem?_getD, List.getElem?_set_ne h]
  simp only [Memory.at_, Memory.setRow] at this ⊢
  rw [this]

theorem Memory.at_setRow_same (m : Memory) {r : Ref} (h : r.addr < m.length) (i : ℕ) (v : List Int) :
    (m.setRow r i v).at_ r = (m.at_ r).setRow i v := by
  cases hf : r.flip <;>
    simp [Memory.at_, Memory.setRow, hf, List.getD_eq_getElem?_getD, h, Buf.tr_tr]

theorem copySeqMem_spec (seq : List MChains) : ∀ m : Memory, (∀ C ∈ seq, MChains.OK m C) →
    ∃ new, (copySeqMem seq m).2 = m ++ new ∧ ∃ Ds : List MChains, (copySeqMem seq m).1 = .ok Ds ∧
      MChains.New m (m ++ new) Ds.flatten ∧ MChains.OK (m ++ new) Ds.flatten ∧
      Ds.map (MChains.read (m ++ new)) = seq.map (MChains.read m) := by
  induction seq with
  | nil =>
    intro m _
    refine ⟨[], by simp [copySeqMem], [], rfl, ⟨by simp, by simp, by simp⟩, ?_, rfl⟩
    intro e he; simp at he
  | cons C Cs ih =>
    intro m hm
    have hC := hm C (by simp)
    have hzip : newChainsMem (C.map MEntry.ref) (C.map MEntry.coord) m =
        newChainsLoop (C.map fun e => (e.ref, e.coord)) m := by
      have := newChainsMem_zip (C.map fun e => (e.ref, e.coord)) m
      simpa [List.map_map, Function.comp_def] using this
    obtain ⟨new, h1, h2, -⟩ := newChainsLoop_spec (C.map fun e => (e.ref, e.coord)) m (by
      intro e he
      obtain ⟨x, hx, rfl⟩ := List.mem_map.mp he
      exact (hC x hx).1)
    obtain ⟨D, d1, d2, d3, d4⟩ := h2 (by
      intro e he
      obtain ⟨x, hx, rfl⟩ := List.mem_map.mp he
      exact (hC x hx).2.symm)
    have hCs : ∀ E ∈ Cs, MChains.OK m E := fun E hE => hm E (by simp [hE])
    obtain ⟨new', e1, Ds, e2, e3, e4, e5⟩ := ih (m ++ new) (fun E hE e he =>
      ⟨by have := (hCs E hE e he).1; simp; omega,
        by rw [Memory.at_append (hCs E hE e he).1]; exact (hCs E hE e he).2⟩)
    have hrun : copySeqMem (C :: Cs) m = (.ok (D :: Ds), m ++ (new ++ new')) := by
      have x1 : newChainsLoop (C.map fun e => (e.ref, e.coord)) m = (.ok D, m ++ new) := Prod.ext d1 h1
      have x2 : copySeqMem Cs (m ++ new) = (.ok Ds, m ++ new ++ new') := Prod.ext e2 e1
      simp [copySeqMem, hzip, x1, x2, thenDo]
    rw [hrun]
    refine ⟨new ++ new', rfl, D :: Ds, rfl, ⟨?_, ?_, ?_⟩, ?_, ?_⟩
    · intro e he
      rcases List.mem_append.mp (List.flatten_cons ▸ he) with h | h
      · exact d2.lo e h
      · have := e3.lo e h; simp at this; omega
    · intro e he
      rcases List.mem_append.mp (List.flatten_cons ▸ he) with h | h
      · have := d2.hi e h; simp at this ⊢; omega
      · have := e3.hi e h; simp at this ⊢; omega
    · rw [List.flatten_cons, List.pairwise_append]
      refine ⟨d2.ne, e3.ne, fun a ha b hb => ?_⟩
      have := d2.hi a ha
      have := e3.lo b hb
      omega
    · rw [← List.append_assoc]
      intro e he
      rcases List.mem_append.mp (List.flatten_cons ▸ he) with h | h
      · have := d3 e h
        exact ⟨by have := this.1; simp at this ⊢; omega, by rw [Memory.at_append this.1]; exact this.2⟩
      · exact e4 e h
    · rw [← List.append_assoc]
      simp only [List.map_cons, e5, List.cons.injEq]
      refine ⟨?_, ?_⟩
      · rw [MChains.read_append new' d2.hi, d4]
        simp [MChains.read, entryVal]
      · exact List.map_congr_left fun E hE => MChains.read_append new fun e he => (hCs E hE e he).1

theorem zeroEntryMem_aux (mask : List Bool) (e : MEntry) (m : Memory) (h : e.coord.addr < m.length) (k : ℕ) :
    let m' := (List.range k).foldl (fun m i =>
      if mask.getD (e.ref.getD i 0) false then m
      else m.setRow e.coord i (List.replicate (m.at_ e.coord).ncols 0)) m
    m'.length = m.length ∧ (∀ s : Ref, s.addr ≠ e.coord.addr → m'.at_ s = m.at_ s) ∧
      (m'.at_ e.coord).nrows = (m.at_ e.coord).nrows ∧ (m'.at_ e.coord).ncols = (m.at_ e.coord).ncols ∧
      ∀ i, (m'.at_ e.coord).row i = if i < k ∧ mask.getD (e.ref.getD i 0) false = false
        then List.replicate (m.at_ e.coord).ncols 0 else (m.at_ e.coord).row i := by
  induction k with
  | zero => simp
  | succ k ih =>
    obtain ⟨h1, h2, h3, h4, h5⟩ := ih
    simp only [List.range_succ, List.foldl_append, List.foldl_cons, List.foldl_nil]
    set m' := (List.range k).foldl (fun m i =>
      if mask.getD (e.ref.getD i 0) false then m
      else m.setRow e.coord i (List.replicate (m.at_ e.coord).ncols 0)) m with hm'
    by_cases hk : mask.getD (e.ref.getD k 0) false = true
    · rw [if_pos hk]
      refine ⟨h1, h2, h3, h4, fun i => ?_⟩
      rw [h5 i]
      by_cases hi : i = k
      · subst hi; rw [if_neg (by omega), if_neg (by rw [hk]; simp)]
      · have : i < k + 1 ↔ i < k := by omega
        simp only [this]
    · rw [if_neg hk]
      have hlt : e.coord.addr < m'.length := by rw [h1]; exact h
      refine ⟨by rw [Memory.length_setRow_mem, h1], fun s hs => ?_, ?_, ?_, fun i => ?_⟩
      · rw [Memory.at_setRow_of_ne _ (Ne.symm hs), h2 s hs]
      · rw [Memory.at_setRow_same _ hlt]; exact h3
      · rw [Memory.at_setRow_same _ hlt]; exact h4
      · rw [Memory.at_setRow_same _ hlt, Buf.row_setRow _ _ _ (by simp), h4]
        by_cases hi : i = k
        · subst hi; rw [if_pos rfl, if_pos ⟨by omega, by simpa using hk⟩]
        · have : i < k + 1 ↔ i < k := by omega
          rw [if_neg hi, h5 i]
          simp only [this]

theorem zeroEntryMem_spec (mask : List Bool) (e : MEntry) (m : Memory) (h : e.coord.addr < m.length)
    (hn : (m.at_ e.coord).nrows = e.ref.length) :
    (zeroEntryMem mask e m).length = m.length ∧
      (∀ s : Ref, s.addr ≠ e.coord.addr → (zeroEntryMem mask e m).at_ s = m.at_ s) ∧
      ((zeroEntryMem mask e m).at_ e.coord).nrows = (m.at_ e.coord).nrows ∧
      ((zeroEntryMem mask e m).at_ e.coord).rows = List.zipWith (fun r (row : List Int) =>
        if mask.getD r false then row else row.map fun _ => 0) e.ref (m.at_ e.coord).rows := by
  obtain ⟨h1, h2, h3, h4, h5⟩ := zeroEntryMem_aux mask e m h e.ref.length
  refine ⟨h1, h2, h3, ?_⟩
  apply List.ext_getElem
  · simp [Buf.length_rows, hn]
    rw [← hn]; exact h3
  intro i hi1 hi2
  have hi : i < e.ref.length := by simp at hi2; omega
  simp only [Buf.rows, List.getElem_map, List.getElem_range, List.getElem_zipWith]
  refine (h5 i).trans ?_
  have hg : e.ref.getD i 0 = e.ref[i] := by simp [List.getD_eq_getElem?_getD, hi]
  rw [hg]
  by_cases hm : mask.getD e.ref[i] false = true
  · rw [if_neg (by rw [hm]; simp), if_pos hm]
  · rw [if_pos ⟨hi, by simpa using hm⟩, if_neg hm, List.map_const', Buf.length_row]

theorem zeroFold_spec (mask : List Bool) (l : List MEntry) : ∀ m : Memory, MChains.OK m l →
    l.Pairwise (fun e f => e.coord.addr ≠ f.coord.addr) →
    (l.foldl (fun m e => zeroEntryMem mask e m) m).length = m.length ∧
      (∀ s : Ref, (∀ e ∈ l, s.addr ≠ e.coord.addr) →
        (l.foldl (fun m e => zeroEntryMem mask e m) m).at_ s = m.at_ s) ∧
      MChains.OK (l.foldl (fun m e => zeroEntryMem mask e m) m) l ∧
      ∀ e ∈ l, ((l.foldl (fun m e => zeroEntryMem mask e m) m).at_ e.coord).rows =
        List.zipWith (fun r (row : List Int) => if mask.getD r false then row else row.map fun _ => 0) e.ref
          (m.at_ e.coord).rows := by
  induction l with
  | nil => intro m _ _; exact ⟨rfl, fun _ _ => rfl, fun e he => by simp at he, fun e he => by simp at he⟩
  | cons e es ih =>
    intro m hok hp
    obtain ⟨p1, p2⟩ := List.pairwise_cons.mp hp
    have he := hok e (by simp)
    obtain ⟨z1, z2, z3, z4⟩ := zeroEntryMem_spec mask e m he.1 he.2
    obtain ⟨i1, i2, i3, i4⟩ := ih (zeroEntryMem mask e m) (fun f hf => by
      have := hok f (by simp [hf])
      exact ⟨by rw [z1]; exact this.1, by rw [z2 _ (Ne.symm (p1 f hf))]; exact this.2⟩) p2
    simp only [List.foldl_cons]
    refine ⟨i1.trans z1, fun s hs => ?_, fun f hf => ?_, fun f hf => ?_⟩
    · rw [i2 s fun f hf => hs f (by simp [hf]), z2 s (hs e (by simp))]
    · rcases List.mem_cons.mp hf with rfl | hf
      · exact ⟨by rw [i1, z1]; exact he.1, by rw [i2 _ p1, z3]; exact he.2⟩
      · exact i3 f hf
    · rcases List.mem_cons.mp hf with rfl | hf
      · rw [i2 _ p1, z4]
      · rw [i4 f hf, z2 _ (Ne.symm (p1 f hf))]

end Permaviss
