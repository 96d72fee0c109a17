import Verif.Model.MachineIK
import Verif.Lemmas.Machine
import Verif.Lemmas.IKHist

/-!
# Numbers of bounded precision suffice for `image_kernel` and what is built on it
-/

namespace Permaviss

section Aux

variable {p : ℕ}

theorem col_redL {M : Mat} (h : M.Reduced p) (j : ℕ) : RedL p (M.col j) := by
  unfold Mat.col
  by_cases hj : j < M.cols.length
  · rw [List_getD_eq_getElem _ _ hj]; exact h _ (List.getElem_mem _)
  · rw [List.getD_eq_getElem?_getD, List.getElem?_eq_none (by omega)]
    intro x hx; cases hx

theorem setCol_reduced {M : Mat} (h : M.Reduced p) (j : ℕ) {c : List Int} (hc : RedL p c) :
    (M.setCol j c).Reduced p := by
  intro d hd
  rcases List.mem_or_eq_of_mem_set hd with hd | rfl
  · exact h d hd
  · exact hc

theorem mem_of_gather {β : Type} {l : List β} {idx : List ℕ} {x : β} (h : x ∈ gather l idx) : x ∈ l := by
  obtain ⟨i, -, hi⟩ := List.mem_filterMap.1 h
  exact List.mem_of_getElem? hi

theorem length_gather_le {β : Type} (l : List β) (idx : List ℕ) : (gather l idx).length ≤ idx.length :=
  List.length_filterMap_le _ _

theorem gatherRows_reduced {M : Mat} (h : M.Reduced p) (idx : List ℕ) : (M.gatherRows idx).Reduced p := by
  intro c hc
  obtain ⟨d, hd, rfl⟩ := List.mem_map.1 hc
  exact fun x hx => h d hd x (mem_of_gather hx)

theorem gatherCols_reduced {M : Mat} (h : M.Reduced p) (idx : List ℕ) : (M.gatherCols idx).Reduced p :=
  fun c hc => h c (mem_of_gather hc)

/-- Two loops whose rounds agree on the states that satisfy an invariant. -/
theorem foldlM_agree {ε σ ι : Type} {f g : σ → ι → Except ε σ} {P : σ → Prop}
    (h : ∀ s, P s → ∀ c, f s c = g s c ∧ ∀ s', g s c = .ok s' → P s') :
    ∀ (l : List ι) (s : σ), P s → l.foldlM f s = l.foldlM g s ∧ ∀ s', l.foldlM g s = .ok s' → P s' := by
  intro l
  induction l with
  | nil =>
    intro s hs
    exact ⟨rfl, fun s' hs' => by obtain rfl := Except.ok.inj hs'; exact hs⟩
  | cons c l ih =>
    intro s hs
    obtain ⟨e1, e2⟩ := h s hs c
    rw [List.foldlM_cons, List.foldlM_cons, e1]
    cases hg : g s c with
    | error e => exact ⟨rfl, fun s' hs' => by cases hs'⟩
    | ok s1 => exact ih s1 (e2 s1 hg)

variable {α : Type} [LinearOrder α]

theorem init_facts {bars : List (α × α)} {flat : Bool} {pd : Option ℕ} {cs : Mat} {sw br : Bool} {bd : Option Mat}
    {B : Basis α} (h : Basis.init bars flat pd cs sw br bd = .ok B) :
    (cs.Reduced p → B.coords.Reduced p) ∧ B.dim = B.barcode.length ∧ B.dim ≤ bars.length ∧
      (B.brokenDiff = none ∨ B.brokenDiff = bd) := by
  unfold Basis.init at h
  split at h
  · cases h
  cases hc : initCoords bars pd cs with
  | error e => rw [hc] at h; cases h
  | ok cs' =>
    have hcs : cs.Reduced p → cs'.Reduced p := by
      intro hr
      unfold initCoords at hc
      split at hc
      · obtain rfl := Except.ok.inj hc; exact hr
      · split at hc
        · obtain rfl := Except.ok.inj hc; exact hr
        · split at hc
          · cases hc
          · split at hc
            · cases hc
            · obtain rfl := Except.ok.inj hc
              exact fun c hc => hr c (maskBy_subset _ _ hc)
    rw [hc] at h
    dsimp only at h
    split at h
    · cases h
    split at h
    · cases bd with
      | none => cases h
      | some BD =>
        dsimp only at h
        split at h
        · obtain rfl := Except.ok.inj h
          exact ⟨hcs, rfl, List.length_filter_le .., Or.inr rfl⟩
        · cases h
    · obtain rfl := Except.ok.inj h
      exact ⟨hcs, rfl, List.length_filter_le .., Or.inl rfl⟩

theorem sort_facts {rnd : α → α} {B B' : Basis α} {order : List ℕ} (h : B.sort rnd = .ok (B', order)) :
    (B.coords.Reduced p → B'.coords.Reduced p) ∧ B'.dim = B.dim ∧ B'.barcode.length = B.barcode.length ∧
      ((∀ BD, B.brokenDiff = some BD → BD.Reduced p) → ∀ BD, B'.brokenDiff = some BD → BD.Reduced p) ∧
      (B.brokenDiff = none → B'.brokenDiff = none) := by
  unfold Basis.sort at h
  split at h
  · cases h
  · obtain ⟨rfl, rfl⟩ := Prod.mk.inj (Except.ok.inj h)
    refine ⟨fun hr => ?_, rfl, (gather_perm (sortOrder_perm rnd B.barcode)).length_eq, fun hb BD hBD => ?_, fun h0 => ?_⟩
    · dsimp only
      split
      · exact fun c hc => hr c (mem_of_gather hc)
      · exact hr
    · obtain ⟨BD0, h0, rfl⟩ := Option.map_eq_some_iff.1 hBD
      intro c hc
      obtain ⟨d, hd, rfl⟩ := List.mem_map.1 hc
      exact fun x hx => hb BD0 h0 d (mem_of_gather hd) x (mem_of_gather hx)
    · dsimp only; rw [h0]; rfl

theorem barIndices_length (bars : List (α × α)) (q : α × α → Bool) : (barIndices bars q).length ≤ bars.length := by
  unfold barIndices
  exact (List.length_filter_le ..).trans (by rw [List.length_range])

end Aux

section

variable {o : Ops} {M : Int} {p : ℕ} (ho : o.ExactUpTo M) (hp : 2 ≤ p) (hM : (p : Int) * p ≤ M)

include ho hp hM

/-- The scaled sum of `pivot_check_reduce` is exact. -/
theorem scaleAddO_eq {q : Int} (hq0 : 0 ≤ q) (hq : q ≤ p) : ∀ {a b : List Int}, RedL p a → RedL p b →
    addArraysO o (scaleO o q a) b p = addArraysModC (scale q a) b p := by
  intro a
  induction a with
  | nil => intros; rfl
  | cons x a ih =>
    intro b ha hb
    cases b with
    | nil => rfl
    | cons y b =>
      have hpM := p_le_M ho hp hM
      obtain ⟨x0, x1⟩ := ha x (List.mem_cons_self ..)
      obtain ⟨y0, y1⟩ := hb y (List.mem_cons_self ..)
      have h1 : 0 ≤ q * x := mul_nonneg hq0 x0
      have h2 : q * x ≤ p * p - p := by nlinarith
      have e1 : o.mul q x = q * x := by
        refine ho.mul _ _ ?_ ?_ ?_ <;> rw [abs_le] <;> constructor <;> nlinarith
      have e2 : o.add (q * x) y = q * x + y := by
        refine ho.add _ _ ?_ ?_ ?_ <;> rw [abs_le] <;> constructor <;> nlinarith
      have e3 : o.mod (q * x + y) p = (q * x + y) % (p : Int) :=
        mod_eq ho hp hM (by rw [abs_le]; constructor <;> nlinarith)
      have e := ih (b := b) (fun z hz => ha z (List.mem_cons_of_mem _ hz))
        (fun z hz => hb z (List.mem_cons_of_mem _ hz))
      unfold addArraysO scaleO addArraysModC scale at e ⊢
      rw [List.map_cons, List.zipWith_cons_cons, List.map_cons, List.zipWith_cons_cons, e1, e2, e3, e]

theorem redL_mod {v : List Int} (hv : RedL p v) (i : ℕ) : o.mod (v.getD i 0) p = v.getD i 0 % (p : Int) := by
  have := hv.getD (by omega) i
  have hpM := p_le_M ho hp hM
  exact mod_eq ho hp hM (by rw [abs_of_nonneg this.1]; omega)

/-- A product over selected indices. -/
theorem dotMap_eq (idx : List ℕ) {f g : ℕ → Int} (hf : ∀ k, 0 ≤ f k ∧ f k < p) (hg : ∀ k, 0 ≤ g k ∧ g k < p)
    {s : Int} (hs : 0 ≤ s) (hlen : s + (idx.length : Int) * ((p : Int) - 1) ^ 2 ≤ M) :
    dotO o (idx.map f) (idx.map g) = (idx.map fun k => f k * g k).sum ∧
      0 ≤ (idx.map fun k => f k * g k).sum ∧ s + (idx.map fun k => f k * g k).sum ≤ M := by
  have h1 : RedL p (idx.map f) := by
    intro x hx; obtain ⟨k, -, rfl⟩ := List.mem_map.1 hx; exact hf k
  have h2 : RedL p (idx.map g) := by
    intro x hx; obtain ⟨k, -, rfl⟩ := List.mem_map.1 hx; exact hg k
  have hz : List.zipWith (· * ·) (idx.map f) (idx.map g) = idx.map fun k => f k * g k := by
    rw [List.zipWith_map_left, List.zipWith_map_right, List.zipWith_self]
  obtain ⟨e1, e2, -⟩ := dotO_eq ho hp hM _ _ h1 h2 0 le_rfl (by rw [List.length_map]; omega)
  obtain ⟨-, -, e3⟩ := dotO_eq ho hp hM _ _ h1 h2 s hs (by rw [List.length_map]; exact hlen)
  rw [zero_add, hz] at e1 e2
  rw [hz] at e3
  exact ⟨e1, e2, e3⟩

theorem mulAtO_eq {F : Mat} (hF : F.Reduced p) {idx : List ℕ} {v : List Int} (hv : RedL p v)
    (hlen : (idx.length : Int) * ((p : Int) - 1) ^ 2 ≤ M) : mulAtO o p F idx v = mulAt p F idx v := by
  have hp0 : 0 < p := by omega
  unfold mulAtO mulAt
  refine List.map_congr_left fun i _ => ?_
  obtain ⟨e1, e2, e3⟩ := dotMap_eq ho hp hM idx (f := fun k => F.get i k) (g := fun k => v.getD k 0)
    (fun k => hF.get hp0 i k) (fun k => hv.getD hp0 k) (s := 0) le_rfl (by omega)
  rw [e1, mod_eq ho hp hM (by rw [abs_of_nonneg e2]; omega)]

theorem updateBrokenColO_eq {BD : Mat} (hBD : BD.Reduced p) {dying : List ℕ} {c : List Int} (hc : RedL p c)
    (hlen : ((dying.length : Int) + 1) * ((p : Int) - 1) ^ 2 ≤ M) :
    updateBrokenColO o p BD dying c = updateBrokenCol p BD dying c ∧ RedL p (updateBrokenCol p BD dying c) := by
  have hp0 : 0 < p := by omega
  have h2 : (2 : Int) ≤ p := by exact_mod_cast hp
  have hpM := p_le_M ho hp hM
  constructor
  · unfold updateBrokenColO updateBrokenCol
    refine List.map_congr_left fun i _ => ?_
    obtain ⟨e1, e2, e3⟩ := dotMap_eq ho hp hM dying (f := fun k => BD.get i k) (g := fun k => c.getD k 0)
      (fun k => hBD.get hp0 i k) (fun k => hc.getD hp0 k) (s := (p : Int) - 1) (by omega) (by nlinarith)
    have hx : 0 ≤ (if i ∈ dying then 0 else c.getD i 0) ∧ (if i ∈ dying then 0 else c.getD i 0) < (p : Int) := by
      split
      · omega
      · exact hc.getD hp0 i
    rw [e1]
    generalize (if i ∈ dying then 0 else c.getD i 0) = x at hx ⊢
    generalize (dying.map fun k => BD.get i k * c.getD k 0).sum = S at *
    rw [ho.add x S (by rw [abs_of_nonneg hx.1]; omega) (by rw [abs_of_nonneg e2]; omega)
      (by rw [abs_of_nonneg (by omega)]; omega), mod_eq ho hp hM (by rw [abs_of_nonneg (by omega)]; omega)]
  · intro x hx
    obtain ⟨i, -, rfl⟩ := List.mem_map.1 hx
    exact ⟨Int.emod_nonneg _ (by omega), Int.emod_lt_of_pos _ (by omega)⟩

theorem addPrevColO_eq {q : Int} (hq0 : 0 ≤ q) (hq : q ≤ p) {A : Mat} (hA : A.Reduced p) (prev col : ℕ) :
    addPrevColO o p q A prev col = addPrevCol p q A prev col ∧ (addPrevCol p q A prev col).Reduced p := by
  refine ⟨?_, setCol_reduced hA _ (addArraysModC_red hp _ _)⟩
  unfold addPrevColO addPrevCol
  rw [scaleAddO_eq ho hp hM hq0 hq (col_redL hA prev) (col_redL hA col)]

theorem pcrLoopO_eq {active : List ℕ} {col : ℕ} {pivPrev : List Int} : ∀ (fuel : ℕ) (A : Mat) (T : Option Mat),
    A.Reduced p → (∀ T', T = some T' → T'.Reduced p) →
      pcrLoopO o p active col pivPrev fuel A T = pcrLoop p active col pivPrev fuel A T ∧
      ∀ out, pcrLoop p active col pivPrev fuel A T = .ok out →
        out.1.Reduced p ∧ ∀ T', out.2.1 = some T' → T'.Reduced p := by
  intro fuel
  induction fuel with
  | zero => intros; exact ⟨rfl, fun out h => by cases h⟩
  | succ fuel ih =>
    intro A T hA hT
    have hp0 : 0 < p := by omega
    unfold pcrLoopO pcrLoop
    have he : (active.map fun r => o.mod ((A.col col).getD r 0) p) =
        active.map fun r => (A.col col).getD r 0 % (p : Int) :=
      List.map_congr_left fun r _ => redL_mod ho hp hM (col_redL hA col) r
    rw [he]
    cases hk : indexPivot (active.map fun r => (A.col col).getD r 0 % (p : Int)) with
    | none => exact ⟨rfl, fun out h => by obtain rfl := Except.ok.inj h; exact ⟨hA, hT⟩⟩
    | some k =>
      dsimp only
      cases hf : pivPrev.findIdx? (· == (active.getD k 0 : Int)) with
      | none => exact ⟨rfl, fun out h => by obtain rfl := Except.ok.inj h; exact ⟨hA, hT⟩⟩
      | some prev =>
        dsimp only
        obtain ⟨a0, a1⟩ := (col_redL hA prev).getD hp0 (active.getD k 0)
        obtain ⟨e1, e2⟩ := invModPO_eq ho hp hM a0 a1.le
        rw [e1]
        cases hi : invModP ((A.col prev).getD (active.getD k 0) 0) p with
        | error e => exact ⟨rfl, fun out h => by cases h⟩
        | ok inv =>
          obtain ⟨i0, i1⟩ := e2 inv hi
          obtain ⟨c1, c2⟩ := addPrevColO_eq ho hp hM i0 i1 hA prev col
          have ht : (if anyMat T then T.map fun T => addPrevColO o p inv T prev col else T) =
              (if anyMat T then T.map fun T => addPrevCol p inv T prev col else T) := by
            cases T with
            | none => rfl
            | some T' =>
              rw [Option.map_some, Option.map_some, (addPrevColO_eq ho hp hM i0 i1 (hT T' rfl) prev col).1]
          dsimp only
          rw [c1, ht]
          refine ih _ _ c2 fun T' hT' => ?_
          split at hT'
          · obtain ⟨T0, h0, rfl⟩ := Option.map_eq_some_iff.1 hT'
            exact (addPrevColO_eq ho hp hM i0 i1 (hT T0 h0) prev col).2
          · exact hT T' hT'

theorem pivotCheckReduceO_eq {A : Mat} {active : List ℕ} {col : ℕ} {pivPrev : List Int} {T : Option Mat}
    (hA : A.Reduced p) (hT : ∀ T', T = some T' → T'.Reduced p) :
    pivotCheckReduceO o p A active col pivPrev T = pivotCheckReduce p A active col pivPrev T ∧
      ∀ out, pivotCheckReduce p A active col pivPrev T = .ok out →
        out.1.Reduced p ∧ ∀ T', out.2.1 = some T' → T'.Reduced p :=
  pcrLoopO_eq ho hp hM _ A T hA hT

end

section Env

variable {α : Type} [LinearOrder α] {o : Ops} {M : Int}

/-- What the arrays of `image_kernel` satisfy during the loop. -/
structure IKRed (p n : ℕ) (st : IK α) : Prop where
  im : st.im.Reduced p
  T : st.T.Reduced p
  ker : st.ker.Reduced p
  bars : st.kerBar.length = n

/-- The inputs are reduced, and not so large that sums of products leave the exact range. -/
structure EnvSmall (M : Int) (E : IKEnv α) : Prop where
  hp : 2 ≤ E.p
  hM : (E.p : Int) * E.p ≤ M
  F : E.F.Reduced E.p
  bars : (E.A.barcode.length : Int) * ((E.p : Int) - 1) ^ 2 ≤ M
  cols : (E.F.ncols : Int) * ((E.p : Int) - 1) ^ 2 ≤ M
  broken : ∀ BD, E.B.brokenDiff = some BD → BD.Reduced E.p ∧
    ((E.B.barcode.length : Int) + 1) * ((E.p : Int) - 1) ^ 2 ≤ M

variable (ho : o.ExactUpTo M) {E : IKEnv α} (hE : EnvSmall M E)

include ho hE

theorem kerHitO_eq (rad : α) {activeA : List ℕ} (hact : activeA.length ≤ E.A.barcode.length) (activeB : List ℕ)
    {cyc : List Int} (hc : RedL E.p cyc) (s : ℕ) {st : IK α} (hst : IKRed E.p E.A.dim st) :
    kerHitO o E rad activeA activeB cyc s st = kerHit E rad activeA activeB cyc s st ∧
      ∀ st', kerHit E rad activeA activeB cyc s st = .ok st' → IKRed E.p E.A.dim st' := by
  have hp0 : 0 < E.p := by have := hE.hp; omega
  have e : mulAtO o E.p E.F activeA cyc = mulAt E.p E.F activeA cyc := by
    refine mulAtO_eq ho hE.hp hE.hM hE.F hc (le_trans ?_ hE.bars)
    exact mul_le_mul_of_nonneg_right (by exact_mod_cast hact) (sq_nonneg _)
  unfold kerHitO kerHit
  rw [e]
  refine ⟨rfl, fun st' h => ?_⟩
  split at h
  · cases h
  split at h
  · obtain rfl := Except.ok.inj h
    exact ⟨setCol_reduced hst.im _ (mulAt_red hp0 _ _ _),
      setCol_reduced hst.T _ (overwriteAt_red hp0 _ (col_redL hst.T s) hc), hst.ker, hst.bars⟩
  · obtain rfl := Except.ok.inj h
    exact ⟨hst.im, hst.T, hst.ker, hst.bars⟩

theorem kerStepO_eq (rad : α) {activeA : List ℕ} (hact : activeA.length ≤ E.A.barcode.length) (activeB dyingA : List ℕ)
    (old : List Int) (s : IK α × List Int) (hs : IKRed E.p E.A.dim s.1) (c : ℕ) :
    kerStepO o E rad activeA activeB dyingA old s c = kerStep E rad activeA activeB dyingA old s c ∧
      ∀ s', kerStep E rad activeA activeB dyingA old s c = .ok s' → IKRed E.p E.A.dim s'.1 := by
  unfold kerStepO kerStep
  split
  · obtain ⟨e1, e2⟩ := pivotCheckReduceO_eq ho hE.hp hE.hM (active := activeA) (col := c)
      (pivPrev := s.1.pivKer.take c) (T := none) hs.ker (fun T' h => by cases h)
    rw [e1]
    cases hr : pivotCheckReduce E.p s.1.ker activeA c (s.1.pivKer.take c) none with
    | error e => exact ⟨rfl, fun s' h => by cases h⟩
    | ok out =>
      obtain ⟨K, T, q⟩ := out
      obtain ⟨hK, -⟩ := e2 _ hr
      dsimp only at hK ⊢
      split
      · obtain ⟨k1, k2⟩ := kerHitO_eq ho hE rad hact activeB (col_redL hK c) q.toNat
          (st := { s.1 with ker := K, pivKer := s.1.pivKer.set c q }) ⟨hs.im, hs.T, hK, hs.bars⟩
        rw [k1]
        cases hk : kerHit E rad activeA activeB (K.col c) q.toNat
            { s.1 with ker := K, pivKer := s.1.pivKer.set c q } with
        | error e => exact ⟨rfl, fun s' h => by cases h⟩
        | ok st => exact ⟨rfl, fun s' h => by obtain rfl := Except.ok.inj h; exact k2 st hk⟩
      · exact ⟨rfl, fun s' h => by obtain rfl := Except.ok.inj h; exact ⟨hs.im, hs.T, hK, by rw [List.length_set]; exact hs.bars⟩⟩
  · exact ⟨rfl, fun s' h => by obtain rfl := Except.ok.inj h; exact hs⟩

theorem kerPhaseO_eq (rad : α) {activeA : List ℕ} (hact : activeA.length ≤ E.A.barcode.length)
    (activeB dyingA : List ℕ) {st : IK α} (hst : IKRed E.p E.A.dim st) :
    kerPhaseO o E rad activeA activeB dyingA st = kerPhase E rad activeA activeB dyingA st ∧
      ∀ st', kerPhase E rad activeA activeB dyingA st = .ok st' → IKRed E.p E.A.dim st' := by
  obtain ⟨e1, e2⟩ := foldlM_agree (P := fun s : IK α × List Int => IKRed E.p E.A.dim s.1)
    (kerStepO_eq ho hE rad hact activeB dyingA st.pivKer) (List.range E.A.dim) (st, []) hst
  unfold kerPhaseO kerPhase
  rw [e1]
  cases hr : (List.range E.A.dim).foldlM (kerStep E rad activeA activeB dyingA st.pivKer) (st, []) with
  | error e => exact ⟨rfl, fun s' h => by cases h⟩
  | ok s => exact ⟨rfl, fun s' h => by obtain rfl := Except.ok.inj h; exact e2 s hr⟩

omit ho hE in
theorem relKill_red {start p n : ℕ} {rad : α} : ∀ (l : List ℕ) {st : IK α}, IKRed p n st →
    IKRed p n (l.foldl (relKill start rad) st) := by
  intro l
  induction l with
  | nil => exact fun h => h
  | cons c l ih =>
    intro st h
    rw [List.foldl_cons]
    refine ih ?_
    unfold relKill
    split
    · exact ⟨h.im, h.T, h.ker, h.bars⟩
    · exact h

theorem updateBrokenO_eq {A : Mat} (hA : A.Reduced E.p) (rad : α) :
    E.B.updateBrokenO o E.p A rad = E.B.updateBroken E.p A rad ∧
      ∀ A', E.B.updateBroken E.p A rad = .ok A' → A'.Reduced E.p := by
  unfold Basis.updateBrokenO Basis.updateBroken
  cases hd : E.B.death rad with
  | error e => exact ⟨rfl, fun A' h => by cases h⟩
  | ok dying =>
    have hlen : dying.length ≤ E.B.barcode.length := by
      unfold Basis.death at hd
      split at hd
      · cases hd
      · obtain rfl := Except.ok.inj hd
        exact barIndices_length _ _
    dsimp only
    split
    · exact ⟨rfl, fun A' h => by obtain rfl := Except.ok.inj h; exact hA⟩
    · cases hb : E.B.brokenDiff with
      | none => exact ⟨rfl, fun A' h => by cases h⟩
      | some BD =>
        obtain ⟨b1, b2⟩ := hE.broken BD hb
        have key := fun c hc => updateBrokenColO_eq ho hE.hp hE.hM b1 (dying := dying) (c := c) (hA c hc) (by
          refine le_trans (mul_le_mul_of_nonneg_right ?_ (sq_nonneg _)) b2
          have : (dying.length : Int) ≤ E.B.barcode.length := by exact_mod_cast hlen
          omega)
        dsimp only
        rw [List.map_congr_left fun c hc => (key c hc).1]
        refine ⟨rfl, fun A' h => ?_⟩
        obtain rfl := Except.ok.inj h
        intro c hc
        obtain ⟨d, hd, rfl⟩ := List.mem_map.1 hc
        exact (key d hd).2

theorem relPhaseO_eq (rad : α) (dyingA : List ℕ) {st : IK α} (hst : IKRed E.p E.A.dim st) :
    relPhaseO o E rad dyingA st = relPhase E rad dyingA st ∧
      ∀ st', relPhase E rad dyingA st = .ok st' → IKRed E.p E.A.dim st' := by
  have hk := relKill_red (start := E.start) (rad := rad) dyingA hst
  obtain ⟨e1, e2⟩ := updateBrokenO_eq ho hE hk.im rad
  unfold relPhaseO relPhase
  rw [e1]
  split
  · cases hu : E.B.updateBroken E.p (dyingA.foldl (relKill E.start rad) st).im rad with
    | error e => exact ⟨rfl, fun s' h => by cases h⟩
    | ok A => exact ⟨rfl, fun s' h => by obtain rfl := Except.ok.inj h; exact ⟨e2 A hu, hk.T, hk.ker, hk.bars⟩⟩
  · exact ⟨rfl, fun s' h => by obtain rfl := Except.ok.inj h; exact hk⟩

theorem imDieO_eq (rad : α) (dyingA : List ℕ) (c : ℕ) {st : IK α} (hst : IKRed E.p E.A.dim st) :
    imDieO o E rad dyingA c st = imDie E rad dyingA c st ∧
      ∀ st', imDie E rad dyingA c st = .ok st' → IKRed E.p E.A.dim st' := by
  have hp0 : 0 < E.p := by have := hE.hp; omega
  have hst' : IKRed E.p E.A.dim { st with imDeath := st.imDeath.set c rad } := ⟨hst.im, hst.T, hst.ker, hst.bars⟩
  have hov : RedL E.p (overwriteAt (List.range E.start) (st.T.col c) []) :=
    overwriteAt_red hp0 _ (col_redL hst.T c) (fun x hx => by cases hx)
  have e : stripPrevO o E c { st with imDeath := st.imDeath.set c rad } =
      stripPrev E c { st with imDeath := st.imDeath.set c rad } := by
    unfold stripPrevO stripPrev
    dsimp only
    rw [mulAtO_eq ho hE.hp hE.hM hE.F hov (by rw [List.length_range]; exact hE.cols)]
  unfold imDieO imDie
  rw [e]
  refine ⟨rfl, fun st' h => ?_⟩
  split at h
  · split at h
    · obtain rfl := Except.ok.inj h; exact hst'
    · unfold kerBirth at h
      split at h
      · obtain rfl := Except.ok.inj h
        exact ⟨hst.im, hst.T, setCol_reduced hst.ker _ (col_redL hst.T c),
          by dsimp only; rw [List.length_set]; exact hst.bars⟩
      · cases h
  · split at h
    · obtain rfl := Except.ok.inj h
      exact ⟨setCol_reduced hst.im _ (mulAt_red hp0 _ _ _), setCol_reduced hst.T _ hov, hst.ker, hst.bars⟩
    · obtain rfl := Except.ok.inj h; exact hst'

theorem imStepO_eq (rad : α) (activeB dyingA birthA dyingB : List ℕ) (old : List Int) (s : IK α × List Int)
    (hs : IKRed E.p E.A.dim s.1) (c : ℕ) :
    imStepO o E rad activeB dyingA birthA dyingB old s c = imStep E rad activeB dyingA birthA dyingB old s c ∧
      ∀ s', imStep E rad activeB dyingA birthA dyingB old s c = .ok s' → IKRed E.p E.A.dim s'.1 := by
  unfold imStepO imStep
  rw [redL_mod ho hE.hp hE.hM (col_redL hs.im c)]
  split
  · obtain ⟨e1, e2⟩ := pivotCheckReduceO_eq ho hE.hp hE.hM (active := activeB) (col := c)
      (pivPrev := s.1.pivIm.take c) (T := some s.1.T) hs.im (fun T' h => by obtain rfl := Option.some.inj h; exact hs.T)
    rw [e1]
    cases hr : pivotCheckReduce E.p s.1.im activeB c (s.1.pivIm.take c) (some s.1.T) with
    | error e => exact ⟨rfl, fun s' h => by cases h⟩
    | ok out =>
      obtain ⟨A, T, q⟩ := out
      obtain ⟨hA, hT⟩ := e2 _ hr
      dsimp only at hA hT ⊢
      have hT' : (T.getD s.1.T).Reduced E.p := by
        cases T with
        | none => exact hs.T
        | some T => exact hT T rfl
      split
      · exact ⟨rfl, fun s' h => by obtain rfl := Except.ok.inj h; exact ⟨hA, hT', hs.ker, hs.bars⟩⟩
      · obtain ⟨k1, k2⟩ := imDieO_eq ho hE rad dyingA c
          (st := { s.1 with im := A, T := T.getD s.1.T, pivIm := s.1.pivIm.set c q }) ⟨hA, hT', hs.ker, hs.bars⟩
        rw [k1]
        cases hk : imDie E rad dyingA c { s.1 with im := A, T := T.getD s.1.T, pivIm := s.1.pivIm.set c q } with
        | error e => exact ⟨rfl, fun s' h => by cases h⟩
        | ok st => exact ⟨rfl, fun s' h => by obtain rfl := Except.ok.inj h; exact k2 st hk⟩
  · exact ⟨rfl, fun s' h => by obtain rfl := Except.ok.inj h; exact hs⟩

theorem imPhaseO_eq (rad : α) (activeB dyingA birthA dyingB : List ℕ) {st : IK α} (hst : IKRed E.p E.A.dim st) :
    imPhaseO o E rad activeB dyingA birthA dyingB st = imPhase E rad activeB dyingA birthA dyingB st ∧
      ∀ st', imPhase E rad activeB dyingA birthA dyingB st = .ok st' → IKRed E.p E.A.dim st' := by
  obtain ⟨e1, e2⟩ := foldlM_agree (P := fun s : IK α × List Int => IKRed E.p E.A.dim s.1)
    (imStepO_eq ho hE rad activeB dyingA birthA dyingB st.pivIm) (List.range E.A.dim) (st, []) hst
  unfold imPhaseO imPhase
  rw [e1]
  cases hr : (List.range E.A.dim).foldlM (imStep E rad activeB dyingA birthA dyingB st.pivIm) (st, []) with
  | error e => exact ⟨rfl, fun s' h => by cases h⟩
  | ok s => exact ⟨rfl, fun s' h => by obtain rfl := Except.ok.inj h; exact e2 s hr⟩

theorem ikRadiusO_eq {st : IK α} (hst : IKRed E.p E.A.dim st) (rad : α) :
    ikRadiusO o E st rad = ikRadius E st rad ∧ ∀ st', ikRadius E st rad = .ok st' → IKRed E.p E.A.dim st' := by
  unfold ikRadiusO ikRadius
  cases h1 : E.A.active rad with
  | error e => exact ⟨rfl, fun s' h => by cases h⟩
  | ok activeA =>
  cases h2 : E.B.active rad with
  | error e => exact ⟨rfl, fun s' h => by cases h⟩
  | ok activeB =>
  cases h3 : E.A.death rad with
  | error e => exact ⟨rfl, fun s' h => by cases h⟩
  | ok dyingA =>
  cases h4 : E.A.birth rad with
  | error e => exact ⟨rfl, fun s' h => by cases h⟩
  | ok birthA =>
  cases h5 : E.B.death rad with
  | error e => exact ⟨rfl, fun s' h => by cases h⟩
  | ok dyingB =>
  have hact : activeA.length ≤ E.A.barcode.length := by
    unfold Basis.active at h1
    split at h1
    · cases h1
    · obtain rfl := Except.ok.inj h1
      exact barIndices_length _ _
  have hz := fun s => imPhaseO_eq ho hE rad activeB dyingA birthA dyingB (st := s)
  change (if E.full = true then (kerPhaseO o E rad activeA activeB dyingA st >>=
        fun st => imPhaseO o E rad activeB dyingA birthA dyingB st)
      else (relPhaseO o E rad dyingA st >>= fun st => imPhaseO o E rad activeB dyingA birthA dyingB st)) =
    (if E.full = true then (kerPhase E rad activeA activeB dyingA st >>=
        fun st => imPhase E rad activeB dyingA birthA dyingB st)
      else (relPhase E rad dyingA st >>= fun st => imPhase E rad activeB dyingA birthA dyingB st)) ∧
    ∀ st', (if E.full = true then (kerPhase E rad activeA activeB dyingA st >>=
        fun st => imPhase E rad activeB dyingA birthA dyingB st)
      else (relPhase E rad dyingA st >>= fun st => imPhase E rad activeB dyingA birthA dyingB st)) = .ok st' →
      IKRed E.p E.A.dim st'
  split
  · obtain ⟨a1, a2⟩ := kerPhaseO_eq ho hE rad hact activeB dyingA hst
    rw [a1]
    cases hr : kerPhase E rad activeA activeB dyingA st with
    | error e => exact ⟨rfl, fun s' h => by cases h⟩
    | ok s => exact hz s (a2 s hr)
  · obtain ⟨b1, b2⟩ := relPhaseO_eq ho hE rad dyingA hst
    rw [b1]
    cases hr : relPhase E rad dyingA st with
    | error e => exact ⟨rfl, fun s' h => by cases h⟩
    | ok s => exact hz s (b2 s hr)

theorem ikLoopO_eq : ∀ (l : List α) (st : IK α), IKRed E.p E.A.dim st →
    ikLoopO o E l st = ikLoop E l st ∧ ∀ st', ikLoop E l st = .ok st' → IKRed E.p E.A.dim st' := by
  intro l
  induction l with
  | nil =>
    intro st hst
    unfold ikLoopO ikLoop
    exact ⟨rfl, fun s' h => by obtain rfl := Except.ok.inj h; exact hst⟩
  | cons rad l ih =>
    intro st hst
    unfold ikLoopO ikLoop
    obtain ⟨e1, e2⟩ := ikRadiusO_eq ho hE hst rad
    rw [e1]
    cases hr : ikRadius E st rad with
    | error e => exact ⟨rfl, fun s' h => by cases h⟩
    | ok s => exact ih s (e2 s hr)

omit ho in
theorem init_ikRed [Zero α] : IKRed E.p E.A.dim E.init := by
  have h2 := hE.hp
  refine ⟨hE.F, redL_identity hE.hp, ?_, List.length_replicate⟩
  intro c hc
  obtain rfl := List.eq_of_mem_replicate hc
  intro x hx
  obtain rfl := List.eq_of_mem_replicate hx
  constructor
  · exact le_rfl
  · exact_mod_cast (by omega : 0 < E.p)

end Env

end Permaviss
