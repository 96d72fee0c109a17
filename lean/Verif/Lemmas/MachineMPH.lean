import Verif.Lemmas.MachineIK
import Verif.Lemmas.Translate

/-!
# Numbers of bounded precision suffice for `image_kernel`, `quotient` and `module_persistence_homology`
-/

namespace Permaviss

variable {α : Type} [LinearOrder α] {o : Ops} {M : Int} {p : ℕ}

theorem err_bind_eq {ε β γ : Type} (e : ε) (f : β → Except ε γ) : ((Except.error e : Except ε β) >>= f) = .error e := rfl

/-- A basis with reduced coordinates and at most `n` bars. -/
structure SmallBasis (p n : ℕ) (X : Basis α) : Prop where
  red : X.coords.Reduced p
  dim : X.dim = X.barcode.length
  le : X.dim ≤ n
  proper : ∀ b ∈ X.barcode, b.1 < b.2

theorem SmallBasis.mono {n n' : ℕ} {X : Basis α} (h : SmallBasis p n X) (hn : n ≤ n') : SmallBasis p n' X :=
  ⟨h.red, h.dim, h.le.trans hn, h.proper⟩

theorem init_barcode {bars : List (α × α)} {flat : Bool} {pd : Option ℕ} {cs : Mat} {sw br : Bool}
    {bd : Option Mat} {B : Basis α} (h : Basis.init bars flat pd cs sw br bd = .ok B) :
    B.barcode = bars.filter fun b => decide (b.1 < b.2) := by
  unfold Basis.init at h
  split at h
  · cases h
  split at h
  · cases h
  dsimp only at h
  split at h
  · cases h
  split at h
  · cases bd with
    | none => cases h
    | some BD =>
      dsimp only at h
      split at h
      · obtain rfl := Except.ok.inj h; rfl
      · cases h
  · obtain rfl := Except.ok.inj h; rfl

theorem init_sort_small {bars : List (α × α)} {flat : Bool} {pd : Option ℕ} {cs : Mat} {sw br : Bool}
    {bd : Option Mat} {B B' : Basis α} {rnd : α → α} {order : List ℕ} {n : ℕ}
    (h : Basis.init bars flat pd cs sw br bd = .ok B) (h' : B.sort rnd = .ok (B', order)) (hcs : cs.Reduced p)
    (hn : bars.length ≤ n) : SmallBasis p n B' := by
  obtain ⟨a1, a2, a3, -⟩ := init_facts (p := p) h
  obtain ⟨b1, b2, b3, -, -⟩ := sort_facts (p := p) h'
  refine ⟨b1 (a1 hcs), by omega, by omega, fun b hb => ?_⟩
  have hb' : b ∈ B.barcode := by
    unfold Basis.sort at h'
    split at h'
    · cases h'
    · obtain ⟨rfl, -⟩ := Prod.mk.inj (Except.ok.inj h')
      exact mem_of_gather hb
  rw [init_barcode h] at hb'
  simpa using (List.mem_filter.1 hb').2

theorem ikFinish_small {rnd : α → α} {E : IKEnv α} {dimA dimB : ℕ} {retA retB : List ℕ} {st : IK α} {n : ℕ}
    (hst : IKRed p E.A.dim st) (hA : E.A.barcode.length ≤ n) (hA' : E.A.dim ≤ n) {out : IKOut α}
    (h : ikFinish rnd E dimA dimB retA retB st = .ok out) :
    SmallBasis p n out.im ∧ ∀ K, out.ker = some K → SmallBasis p n K := by
  unfold ikFinish at h
  rw [bind_ok] at h
  obtain ⟨im0, h0, h⟩ := h
  split at h
  · rw [bind_ok] at h
    obtain ⟨⟨im1, order⟩, h1, h⟩ := h
    dsimp only at h
    have him : SmallBasis p n im1 := by
      refine init_sort_small h0 h1 ?_ ?_
      · exact fun c hc => gatherRows_reduced hst.im retB c (List.mem_of_mem_drop hc)
      · rw [List.length_drop, List.length_zip, List.length_map]
        omega
    split at h
    · rw [bind_ok] at h
      obtain ⟨ker0, h2, h⟩ := h
      rw [bind_ok] at h
      obtain ⟨⟨ker1, ord1⟩, h3, h⟩ := h
      obtain rfl := Except.ok.inj h
      refine ⟨him, fun K hK => ?_⟩
      obtain rfl := Option.some.inj hK
      refine init_sort_small h2 h3 ?_ ?_
      · exact fun c hc => gatherRows_reduced hst.ker retA c (List.mem_of_mem_take hc)
      · rw [List.length_zip, List.length_map, List.length_take, hst.bars]
        omega
    · obtain rfl := Except.ok.inj h
      exact ⟨him, fun K hK => by cases hK⟩
  · cases h

theorem sortRange_small {rnd : α → α} {B B' : Basis α} {F F' : Mat} {ret : List ℕ} (hF : F.Reduced p)
    (hB : ∀ BD, B.brokenDiff = some BD → BD.Reduced p) (h : sortRange rnd B F = .ok (B', F', ret)) :
    F'.Reduced p ∧ F'.ncols = F.ncols ∧ (∀ BD, B'.brokenDiff = some BD → BD.Reduced p) ∧
      B'.barcode.length ≤ B.barcode.length ∧ (B.brokenDiff = none → B'.brokenDiff = none) := by
  unfold sortRange at h
  split at h
  · obtain ⟨rfl, rfl, rfl⟩ := by simpa using Except.ok.inj h
    exact ⟨hF, rfl, hB, le_rfl, id⟩
  · rw [bind_ok] at h
    obtain ⟨B1, h1, h⟩ := h
    rw [bind_ok] at h
    obtain ⟨⟨B2, order⟩, h2, h⟩ := h
    obtain ⟨rfl, rfl, rfl⟩ := by simpa using Except.ok.inj h
    obtain ⟨-, a2, a3, a4⟩ := init_facts (p := p) h1
    obtain ⟨-, b2, b3, b4, b5⟩ := sort_facts (p := p) h2
    refine ⟨gatherRows_reduced hF _, by simp [Mat.gatherRows, Mat.ncols], b4 fun BD hBD => ?_, by omega,
      fun hn => b5 ?_⟩
    · rcases a4 with a4 | a4
      · rw [a4] at hBD; cases hBD
      · exact hB BD (a4 ▸ hBD)
    · rcases a4 with a4 | a4
      · exact a4
      · rw [a4, hn]

theorem sortDomain_small {rnd : α → α} {A A' : Basis α} {F F' : Mat} {start : ℕ} {ret : List ℕ} (hF : F.Reduced p)
    (hA : A.dim = A.barcode.length) (h : sortDomain rnd A F start = .ok (A', F', ret)) :
    F'.Reduced p ∧ A'.dim = A'.barcode.length ∧ A'.barcode.length ≤ A.barcode.length ∧
      F'.ncols ≤ max F.ncols (start + A.barcode.length) ∧ (start ≤ A.barcode.length → F'.ncols ≤ max F.ncols A.barcode.length) := by
  unfold sortDomain at h
  split at h
  · obtain ⟨rfl, rfl, rfl⟩ := by simpa using Except.ok.inj h
    exact ⟨hF, hA, le_rfl, le_max_left _ _, fun _ => le_max_left _ _⟩
  · rw [bind_ok] at h
    obtain ⟨A1, h1, h⟩ := h
    rw [bind_ok] at h
    obtain ⟨⟨A2, order⟩, h2, h⟩ := h
    rw [bind_ok] at h
    obtain ⟨A3, h3, h⟩ := h
    obtain ⟨rfl, rfl, rfl⟩ := by simpa using Except.ok.inj h
    obtain ⟨-, a2, a3, -⟩ := init_facts (p := p) h1
    obtain ⟨-, b2, b3, -, -⟩ := sort_facts (p := p) h2
    obtain ⟨-, c2, c3, -⟩ := init_facts (p := p) h3
    have hord : order.length = A1.barcode.length := by
      unfold Basis.sort at h2
      split at h2
      · cases h2
      · obtain ⟨-, rfl⟩ := Prod.mk.inj (Except.ok.inj h2)
        simpa using (sortOrder_perm rnd A1.barcode).length_eq
    rw [List.length_append, List.length_take] at c3
    rw [List.length_drop] at a3
    have hg : (F.gatherCols (List.range start ++ order.map (· + start))).ncols ≤ start + order.length := by
      refine (length_gather_le _ _).trans ?_
      simp
    exact ⟨gatherCols_reduced hF _, c2, by omega, le_max_of_le_right (by omega),
      fun hs => le_max_of_le_right (by omega)⟩

section

variable [Zero α] (ho : o.ExactUpTo M) (hp : 2 ≤ p) (hM : (p : Int) * p ≤ M)

include ho hp hM

theorem imageKernelO_eq (rnd : α → α) {A B : Basis α} {F : Mat} {start : ℕ} (hF : F.Reduced p)
    (hA : A.dim = A.barcode.length) (hs : start ≤ A.dim) (hlen : (A.dim : Int) * ((p : Int) - 1) ^ 2 ≤ M)
    (hB : ∀ BD, B.brokenDiff = some BD → BD.Reduced p ∧ ((B.barcode.length : Int) + 1) * ((p : Int) - 1) ^ 2 ≤ M) :
    imageKernelO o rnd p A B F start = imageKernel rnd p A B F start ∧
      ∀ out, imageKernel rnd p A B F start = .ok out →
        SmallBasis p A.dim out.im ∧ ∀ K, out.ker = some K → SmallBasis p A.dim K := by
  unfold imageKernelO imageKernel
  split
  · exact ⟨rfl, fun out h => by cases h⟩
  rename_i hsh
  push Not at hsh
  cases h1 : sortRange rnd B F with
  | error e =>
    simp only [err_bind_eq]
    exact ⟨trivial, fun out h => by cases h⟩
  | ok r1 =>
  obtain ⟨B', F1, retB⟩ := r1
  obtain ⟨f1, f2, f3, f4, f5⟩ := sortRange_small hF (fun BD h => (hB BD h).1) h1
  simp only [ok_bind_eq]
  cases h2 : sortDomain rnd A F1 start with
  | error e =>
    simp only [err_bind_eq]
    exact ⟨trivial, fun out h => by cases h⟩
  | ok r2 =>
  obtain ⟨A', F2, retA⟩ := r2
  obtain ⟨g1, g2, g3, -, g5⟩ := sortDomain_small f1 hA h2
  simp only [ok_bind_eq]
  split
  · exact ⟨rfl, fun out h => by cases h⟩
  have hE : EnvSmall M (⟨p, A', B', F2, start⟩ : IKEnv α) := by
    have hsq := sq_nonneg ((p : Int) - 1)
    refine ⟨hp, hM, g1, ?_, ?_, fun BD h => ⟨f3 BD h, ?_⟩⟩
    · refine le_trans (mul_le_mul_of_nonneg_right ?_ hsq) hlen
      exact_mod_cast (by omega : A'.barcode.length ≤ A.dim)
    · refine le_trans (mul_le_mul_of_nonneg_right ?_ hsq) hlen
      have := g5 (by omega)
      have h3 : F2.ncols ≤ A.dim := by
        refine this.trans (max_le ?_ hA.ge)
        rw [f2]; exact hsh.2.ge
      exact_mod_cast h3
    · cases hb : B.brokenDiff with
      | none => rw [f5 hb] at h; cases h
      | some BD0 =>
        refine le_trans (mul_le_mul_of_nonneg_right ?_ hsq) (hB BD0 hb).2
        have : (B'.barcode.length : Int) ≤ B.barcode.length := by exact_mod_cast f4
        dsimp only
        omega
  obtain ⟨e1, e2⟩ := ikLoopO_eq ho hE (IKEnv.radii ⟨p, A', B', F2, start⟩) _ (init_ikRed hE)
  rw [e1]
  cases hr : ikLoop (⟨p, A', B', F2, start⟩ : IKEnv α) (IKEnv.radii ⟨p, A', B', F2, start⟩)
      (IKEnv.init ⟨p, A', B', F2, start⟩) with
  | error e =>
    simp only [err_bind_eq]
    exact ⟨trivial, fun out h => by cases h⟩
  | ok st =>
    refine ⟨rfl, fun out h => ?_⟩
    exact ikFinish_small (e2 st hr) (by dsimp only; omega) (by dsimp only; omega) h

theorem quotientO_eq (rnd : α → α) {X N amb : Basis α} (same : Bool) {n m : ℕ} (hX : SmallBasis p n X)
    (hN : N.dim = 0 ∨ SmallBasis p m N) (hamb : amb.brokenDiff = none)
    (hlen : ((n : Int) + m) * ((p : Int) - 1) ^ 2 ≤ M) :
    quotientO o rnd p X N amb same = quotient rnd p X N amb same := by
  unfold quotientO quotient
  split
  · rfl
  rename_i h0
  replace hN := hN.resolve_left h0
  split
  · rfl
  split
  · rfl
  cases h1 : Basis.init (N.barcode ++ X.barcode) false none ⟨0, []⟩ false false none with
  | error e => simp only [err_bind_eq]
  | ok NM =>
    simp only [ok_bind_eq]
    split
    · rfl
    obtain ⟨-, a2, a3, -⟩ := init_facts (p := p) h1
    rw [List.length_append, ← hN.dim, ← hX.dim] at a3
    have hx := hX.le
    have hn := hN.le
    rw [(imageKernelO_eq ho hp hM rnd (A := NM) (B := amb) (start := N.dim)
      (F := ⟨X.coords.nrows, N.coords.cols ++ X.coords.cols⟩) ?_ a2 ?_ ?_ ?_).1]
    · intro c hc
      rcases List.mem_append.1 hc with hc | hc
      · exact hN.red c hc
      · exact hX.red c hc
    · rw [a2, init_barcode h1, List.filter_append, List.length_append, List.filter_eq_self.2 fun b hb => by simpa using hN.proper b hb, ← hN.dim]
      omega
    · refine le_trans (mul_le_mul_of_nonneg_right ?_ (sq_nonneg _)) hlen
      exact_mod_cast (by omega : NM.dim ≤ n + m)
    · intro BD h; rw [hamb] at h; cases h

/-- The bases of images found so far. -/
def ImSmall (p N : ℕ) (st : MPH α) : Prop :=
  ∀ (d : ℕ) (X : Basis α), st.im[d]? = some (some X) → X.dim = 0 ∨ SmallBasis p N X

omit [Zero α] ho hp hM in
theorem imSmall_set {N d : ℕ} {l : List (Option (Basis α))} {Y : Basis α}
    (h : ∀ (d : ℕ) (X : Basis α), l[d]? = some (some X) → X.dim = 0 ∨ SmallBasis p N X)
    (hY : Y.dim = 0 ∨ SmallBasis p N Y) (e : ℕ) (X : Basis α) (he : (l.set d (some Y))[e]? = some (some X)) :
    X.dim = 0 ∨ SmallBasis p N X := by
  rw [List.getElem?_set] at he
  split at he
  · split at he
    · obtain rfl := Option.some.inj (Option.some.inj he); exact hY
    · cases he
  · exact h e X he

variable {N : ℕ} {Base : List (Basis α)} {D : List Mat}
  (hB : ∀ B ∈ Base, B.dim = B.barcode.length ∧ B.brokenDiff = none ∧ B.dim ≤ N)
  (hlen : (2 * N : Int) * ((p : Int) - 1) ^ 2 ≤ M)

include hB hlen

theorem mphStepO_eq (hD : ∀ A ∈ D, A.Reduced p) (rnd : α → α) (st : MPH α) (hst : ImSmall p N st) (d : ℕ) :
    mphStepO o rnd p D Base st d = mphStep rnd p D Base st d ∧
      ∀ st', mphStep rnd p D Base st d = .ok st' → ImSmall p N st' := by
  unfold mphStepO mphStep
  cases hb : Base[d]? with
  | none => exact ⟨rfl, fun st' h => by cases h⟩
  | some Bd =>
  cases hb1 : Base[d - 1]? with
  | none => exact ⟨rfl, fun st' h => by cases h⟩
  | some Bd1 =>
  dsimp only
  split
  · refine ⟨rfl, fun st' h => ?_⟩
    obtain rfl := Except.ok.inj h
    exact imSmall_set hst (Or.inl rfl)
  split
  · rename_i h1
    refine ⟨rfl, fun st' h => ?_⟩
    obtain rfl := Except.ok.inj h
    exact imSmall_set hst (Or.inl h1)
  cases hF : D[d]? with
  | none => exact ⟨rfl, fun st' h => by cases h⟩
  | some F =>
  obtain ⟨b1, b2, b3⟩ := hB Bd (List.mem_of_getElem? hb)
  obtain ⟨c1, c2, c3⟩ := hB Bd1 (List.mem_of_getElem? hb1)
  have hsq := sq_nonneg ((p : Int) - 1)
  obtain ⟨e1, e2⟩ := imageKernelO_eq ho hp hM rnd (A := Bd) (B := Bd1) (start := 0) (hD F (List.mem_of_getElem? hF))
    b1 (Nat.zero_le _) (by
      refine le_trans (mul_le_mul_of_nonneg_right ?_ hsq) hlen
      exact_mod_cast (by omega : Bd.dim ≤ 2 * N)) (fun BD h => by rw [c2] at h; cases h)
  dsimp only
  rw [e1]
  cases hr : imageKernel rnd p Bd Bd1 F 0 with
  | error e =>
    simp only [err_bind_eq]
    exact ⟨trivial, fun out h => by cases h⟩
  | ok out =>
    simp only [ok_bind_eq]
    obtain ⟨i1, i2⟩ := e2 out hr
    cases hk : out.ker with
    | none => exact ⟨rfl, fun st' h => by cases h⟩
    | some K =>
    cases hi : st.im[d]? with
    | none => exact ⟨rfl, fun st' h => by cases h⟩
    | some imd =>
    cases imd with
    | none => exact ⟨rfl, fun st' h => by cases h⟩
    | some imd =>
      dsimp only
      rw [quotientO_eq ho hp hM rnd true ((i2 K hk).mono b3) (hst d imd hi) b2 (by rw [← two_mul]; exact hlen)]
      cases hq : quotient rnd p K imd Bd true with
      | error e =>
        simp only [err_bind_eq]
        exact ⟨trivial, fun out h => by cases h⟩
      | ok q =>
        simp only [ok_bind_eq]
        refine ⟨trivial, fun st' h => ?_⟩
        obtain rfl := Except.ok.inj h
        exact imSmall_set hst (Or.inr (i1.mono b3))

theorem mphZeroO_eq (rnd : α → α) (st : MPH α) (hst : ImSmall p N st) :
    mphZeroO o rnd p Base st = mphZero rnd p Base st := by
  unfold mphZeroO mphZero
  cases hb : Base[0]? with
  | none => rfl
  | some B0 =>
  cases hi : st.im[0]? with
  | none => rfl
  | some im0 =>
  cases im0 with
  | none => rfl
  | some im0 =>
  dsimp only
  split
  · rfl
  obtain ⟨b1, b2, b3⟩ := hB B0 (List.mem_of_getElem? hb)
  cases h0 : Basis.init B0.barcode B0.flat (some B0.dim) ⟨B0.dim, identityCols B0.dim⟩ false false none with
  | error e => simp only [err_bind_eq]
  | ok ker0 =>
  simp only [ok_bind_eq]
  cases h1 : ker0.sort rnd with
  | error e => simp only [err_bind_eq]
  | ok r =>
  obtain ⟨ker, order⟩ := r
  simp only [ok_bind_eq]
  have hk : SmallBasis p N ker := init_sort_small h0 h1 (redL_identity hp) (by omega)
  rw [quotientO_eq ho hp hM rnd true hk (hst 0 im0 hi) b2 (by rw [← two_mul]; exact hlen)]

theorem modulePersistenceHomologyO_eq (hD : ∀ A ∈ D, A.Reduced p) (rnd : α → α) :
    modulePersistenceHomologyO o rnd p D Base = modulePersistenceHomology rnd p D Base := by
  unfold modulePersistenceHomologyO modulePersistenceHomology
  cases ht : Base[Base.length - 1]? with
  | none => rfl
  | some top =>
  dsimp only
  obtain ⟨e1, e2⟩ := foldlM_agree (P := ImSmall p N) (mphStepO_eq ho hp hM hB hlen hD rnd)
    ((List.range (Base.length - 1)).map fun i => Base.length - 1 - i)
    { hom := List.replicate Base.length none
      im := (List.replicate Base.length none).set (Base.length - 1) (some (emptyBasis top))
      preIm := List.replicate Base.length none } (imSmall_set (fun d X h => by
        have := List.eq_of_mem_replicate (List.mem_of_getElem? h)
        cases this) (Or.inl rfl))
  rw [e1]
  cases hr : ((List.range (Base.length - 1)).map fun i => Base.length - 1 - i).foldlM (mphStep rnd p D Base)
    { hom := List.replicate Base.length none
      im := (List.replicate Base.length none).set (Base.length - 1) (some (emptyBasis top))
      preIm := List.replicate Base.length none } with
  | error e => simp only [err_bind_eq]
  | ok st =>
    simp only [ok_bind_eq]
    exact mphZeroO_eq ho hp hM hB hlen rnd st (e2 st hr)

end

end Permaviss
