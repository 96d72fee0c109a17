import Verif.Lemmas.QuotId
import Verif.Lemmas.DegreeZero

/-!
# Homology of sequences of one or two persistence modules
-/

namespace Permaviss

open Finset

attribute [-instance] instMulZeroClassOfSemiring

section

variable {α : Type} [LinearOrder α]

/-! ## Sorted outputs -/

theorem sort_sorted {rnd : α → α} {B B' : Basis α} {order : List ℕ} (h : B.sort rnd = .ok (B', order)) :
    B'.barcode.Pairwise (barLE rnd) := by
  unfold Basis.sort at h
  split at h
  · cases h
  · simp only [Except.ok.injEq, Prod.mk.injEq] at h
    rw [← h.1]
    exact gather_sortOrder rnd _

theorem imageKernel_sorted [Zero α] {rnd : α → α} {p : ℕ} {A B : Basis α} {F : Mat} {start : ℕ}
    {out : IKOut α} (h : imageKernel rnd p A B F start = .ok out) :
    out.im.barcode.Pairwise (barLE rnd) ∧ ∀ k, out.ker = some k → k.barcode.Pairwise (barLE rnd) := by
  unfold imageKernel at h
  split at h
  · cases h
  rw [bind_ok] at h
  obtain ⟨⟨B', F1, retB⟩, -, h⟩ := h
  dsimp only at h
  rw [bind_ok] at h
  obtain ⟨⟨A', F2, retA⟩, -, h⟩ := h
  dsimp only at h
  split at h
  · cases h
  rw [bind_ok] at h
  obtain ⟨st, -, h⟩ := h
  unfold ikFinish at h
  dsimp only at h
  rw [bind_ok] at h
  obtain ⟨im0, -, h⟩ := h
  split at h
  swap
  · cases h
  rw [bind_ok] at h
  obtain ⟨⟨im1, order⟩, h1, h⟩ := h
  dsimp only at h
  split at h
  · rw [bind_ok] at h
    obtain ⟨ker0, -, h⟩ := h
    rw [bind_ok] at h
    obtain ⟨⟨ker1, order'⟩, h2, h⟩ := h
    cases h
    refine ⟨sort_sorted h1, fun k hk => ?_⟩
    cases hk
    exact sort_sorted h2
  · cases h
    exact ⟨sort_sorted h1, fun k hk => by cases hk⟩

theorem maskBy_true {β : Type} : ∀ {m : List Bool} {l : List β}, (∀ x ∈ m, x = true) →
    m.length = l.length → maskBy m l = l
  | [], [], _, _ => rfl
  | [], _ :: _, _, h => by simp at h
  | _ :: _, [], _, h => by simp at h
  | true :: m, x :: l, hm, h => by
    rw [maskBy, maskBy_true (fun y hy => hm y (by simp [hy])) (by simpa using h)]
  | false :: m, x :: l, hm, h => by
    have := hm false (by simp)
    cases this

/-- The identity basis of a list of bars, sorted. -/
theorem identity_sort {rnd : α → α} {bars : List (α × α)} (hb : ∀ b ∈ bars, b.1 < b.2) {b0 b1 : Basis α}
    {order : List ℕ} (h0 : Basis.init bars false (some bars.length) ⟨bars.length, identityCols bars.length⟩
      false false none = .ok b0) (h1 : b0.sort rnd = .ok (b1, order)) :
    b1.barcode = gather bars (sortOrder rnd bars) ∧
    b1.coords.cols = gather (identityCols bars.length) (sortOrder rnd bars) ∧
    b1.coords.nrows = bars.length ∧ b1.dim = bars.length ∧ b1.flat = false := by
  have hfil : bars.filter (fun b => decide (b.1 < b.2)) = bars :=
    List.filter_eq_self.2 fun b h => by simpa using hb b h
  have hc : initCoords bars (some bars.length) ⟨bars.length, identityCols bars.length⟩ =
      .ok ⟨bars.length, identityCols bars.length⟩ := by
    unfold initCoords
    dsimp only
    split
    · rfl
    · rw [if_neg (by simp), if_neg (by simp [Mat.ncols, identityCols]), maskBy_true]
      · intro x hx
        unfold barMask at hx
        obtain ⟨b, hbm, rfl⟩ := List.mem_map.1 hx
        simpa using hb b hbm
      · simp [barMask, identityCols]
  unfold Basis.init at h0
  rw [hc] at h0
  simp only [Bool.false_and, Bool.false_eq_true, if_false, Except.ok.injEq, hfil] at h0
  unfold Basis.sort at h1
  rw [← h0] at h1
  simp only [Bool.false_eq_true, if_false, Except.ok.injEq, Prod.mk.injEq, Option.isSome_some, if_true] at h1
  rw [← h1.1]
  exact ⟨rfl, rfl, rfl, rfl, rfl⟩

/-! ## Modules of a sequence which are zero -/

/-- The degrees `k, k - 1, …, 1`. -/
def downTo (k : ℕ) : List ℕ := (List.range k).map fun i => k - i

theorem downTo_succ (k : ℕ) : downTo (k + 1) = (k + 1) :: downTo k := by
  unfold downTo
  rw [List.range_succ_eq_map, List.map_cons, List.map_map]
  congr 1
  refine List.map_congr_left fun i _ => ?_
  simp

variable [Zero α]

/-- The state after zero modules. -/
structure ZeroState (Base : List (Basis α)) (k : ℕ) (st : MPH α) : Prop where
  im : st.im.length = Base.length
  hom : st.hom.length = Base.length
  zero : ∃ I, st.im[k]? = some (some I) ∧ I.dim = 0 ∧ I.barcode = []

theorem mph_down {rnd : α → α} {p : ℕ} {D : List Mat} {Base : List (Basis α)} {m : ℕ}
    (hz : ∀ d X, m < d → Base[d]? = some X → X.dim = 0) {out : MPH α} (k : ℕ) (hmk : m ≤ k) :
    ∀ st, ZeroState Base k st → (downTo k).foldlM (mphStep rnd p D Base) st = .ok out →
      ∃ st', ZeroState Base m st' ∧ (downTo m).foldlM (mphStep rnd p D Base) st' = .ok out := by
  induction k with
  | zero =>
    intro st hs h
    obtain rfl : m = 0 := by omega
    exact ⟨st, hs, h⟩
  | succ k ih =>
    intro st hs h
    by_cases hm : m = k + 1
    · subst hm; exact ⟨st, hs, h⟩
    rw [downTo_succ, List.foldlM_cons, bind_ok] at h
    obtain ⟨st1, h1, h2⟩ := h
    refine ih (by omega) st1 ?_ h2
    obtain ⟨I, hI, -, -⟩ := hs.zero
    have hk : k + 1 < Base.length := by
      rw [← hs.im]; exact (List.getElem?_eq_some_iff.1 hI).1
    unfold mphStep at h1
    rw [List.getElem?_eq_getElem hk, Nat.add_sub_cancel,
      List.getElem?_eq_getElem (show k < Base.length by omega)] at h1
    dsimp only at h1
    rw [if_pos (hz (k + 1) _ (by omega) (List.getElem?_eq_getElem hk))] at h1
    cases h1
    refine ⟨by rw [List.length_set, hs.im], by rw [List.length_set, hs.hom], emptyBasis Base[k], ?_, rfl, rfl⟩
    exact List.getElem?_set_self (by rw [hs.im]; omega)

/-- The run of `module_persistence_homology` when the modules above degree `m` are zero. -/
theorem mph_tail {rnd : α → α} {p : ℕ} {D : List Mat} {Base : List (Basis α)} {m : ℕ}
    (hz : ∀ d X, m < d → Base[d]? = some X → X.dim = 0) (hm : m < Base.length) {out : MPH α}
    (h : modulePersistenceHomology rnd p D Base = .ok out) :
    ∃ st st', ZeroState Base m st ∧ (downTo m).foldlM (mphStep rnd p D Base) st = .ok st' ∧
      mphZero rnd p Base st' = .ok out := by
  unfold modulePersistenceHomology at h
  rw [List.getElem?_eq_getElem (show Base.length - 1 < Base.length by omega)] at h
  dsimp only at h
  rw [bind_ok] at h
  obtain ⟨st', h1, h2⟩ := h
  obtain ⟨st, s1, s2⟩ := mph_down hz (Base.length - 1) (by omega) _ ⟨by simp, by simp, _,
    List.getElem?_set_self (by simp; omega), rfl, rfl⟩ h1
  exact ⟨st, st', s1, s2, h2⟩

/-- Position zero when nothing comes from the next one: the module itself. -/
theorem mphZero_keep {rnd : α → α} {p : ℕ} {Base : List (Basis α)} {B : Basis α} (hB : Base[0]? = some B)
    (hdim : B.dim = B.barcode.length) (hflat : B.flat = true → B.barcode = [])
    (hbars : ∀ b ∈ B.barcode, b.1 < b.2) (hsort : B.barcode.Pairwise (barLE rnd)) {st out : MPH α}
    (hl : 0 < st.hom.length) {I : Basis α} (hI : st.im[0]? = some (some I)) (hI0 : I.dim = 0)
    (hI1 : I.barcode = []) (h2 : mphZero rnd p Base st = .ok out) :
    (∃ I, out.im.getD 0 none = some I ∧ I.dim = 0 ∧ I.barcode = []) ∧
    ∃ H, out.hom.getD 0 none = some H ∧ H.barcode = B.barcode ∧ H.dim = B.dim ∧
      (B.dim ≠ 0 → H.flat = false ∧ H.coords = ⟨B.dim, identityCols B.dim⟩) ∧ (B.dim = 0 → H = B) := by
  unfold mphZero at h2
  rw [hB, hI] at h2
  dsimp only at h2
  have hset : ∀ H, (st.hom.set 0 (some H)).getD 0 none = some H := by
    intro H
    rw [List.getD_eq_getElem?_getD, List.getElem?_set_self hl]; rfl
  have him : st.im.getD 0 none = some I := by
    rw [List.getD_eq_getElem?_getD, hI]; rfl
  by_cases hB0 : B.dim = 0
  · rw [if_pos hB0] at h2
    cases h2
    exact ⟨⟨I, him, hI0, hI1⟩, B, hset B, rfl, rfl, fun h => absurd hB0 h, fun _ => rfl⟩
  · rw [if_neg hB0] at h2
    have hf : B.flat = false := by
      cases e : B.flat with
      | false => rfl
      | true => rw [hdim, hflat e] at hB0; exact absurd rfl hB0
    rw [bind_ok] at h2
    obtain ⟨k0, e0, h2⟩ := h2
    rw [bind_ok] at h2
    obtain ⟨⟨k, ord⟩, e1, h2⟩ := h2
    dsimp only at h2
    rw [bind_ok] at h2
    obtain ⟨q, e2, h2⟩ := h2
    cases h2
    unfold quotient at e2
    rw [if_pos hI0] at e2
    cases e2
    rw [hf, hdim] at e0
    obtain ⟨g1, g2, g3, g4, g5⟩ := identity_sort hbars e0 e1
    rw [sortOrder_sorted hsort] at g1 g2
    rw [gather_range_self] at g1
    have hid : (identityCols B.barcode.length).length = B.barcode.length := by simp [identityCols]
    have hg : gather (identityCols B.barcode.length) (List.range B.barcode.length) =
        identityCols B.barcode.length := by
      have := gather_range_self (identityCols B.barcode.length)
      rwa [hid] at this
    rw [hg] at g2
    refine ⟨⟨I, him, hI0, hI1⟩, k, hset k, g1, by rw [g4, hdim], fun _ => ⟨g5, ?_⟩, fun h => absurd h hB0⟩
    rw [hdim]
    cases hk : k.coords with
    | mk n cs => rw [hk] at g2 g3; simp only at g2 g3; rw [g2, g3]

/-- The homology of a sequence with one module which is not zero: the module itself. -/
theorem mph_keep {rnd : α → α} {p : ℕ} {D : List Mat} {Base : List (Basis α)}
    (hz : ∀ d X, 0 < d → Base[d]? = some X → X.dim = 0) {B : Basis α} (hB : Base[0]? = some B)
    (hdim : B.dim = B.barcode.length) (hflat : B.flat = true → B.barcode = [])
    (hbars : ∀ b ∈ B.barcode, b.1 < b.2) (hsort : B.barcode.Pairwise (barLE rnd)) {out : MPH α}
    (h : modulePersistenceHomology rnd p D Base = .ok out) :
    (∃ I, out.im.getD 0 none = some I ∧ I.dim = 0 ∧ I.barcode = []) ∧
    ∃ H, out.hom.getD 0 none = some H ∧ H.barcode = B.barcode ∧ H.dim = B.dim ∧
      (B.dim ≠ 0 → H.flat = false ∧ H.coords = ⟨B.dim, identityCols B.dim⟩) ∧ (B.dim = 0 → H = B) := by
  have hl : 0 < Base.length := (List.getElem?_eq_some_iff.1 hB).1
  obtain ⟨st, st', hs, h1, h2⟩ := mph_tail hz hl h
  cases h1
  obtain ⟨I, hI, hI0, hI1⟩ := hs.zero
  exact mphZero_keep hB hdim hflat hbars hsort (by rw [hs.hom]; exact hl) hI hI0 hI1 h2

theorem quotient_sorted {rnd : α → α} {p : ℕ} {M N amb Q : Basis α} {b : Bool}
    (hM : M.barcode.Pairwise (barLE rnd)) (h : quotient rnd p M N amb b = .ok Q) :
    Q.barcode.Pairwise (barLE rnd) := by
  unfold quotient at h
  split at h
  · cases h; exact hM
  split at h
  · cases h
  split at h
  · cases h
  rw [bind_ok] at h
  obtain ⟨NM, -, h⟩ := h
  split at h
  · cases h
  rw [bind_ok] at h
  obtain ⟨out, h1, h⟩ := h
  cases h
  exact (imageKernel_sorted h1).1

theorem modBounds_empty {p : ℕ} {D : List Mat} {Base : List (Basis α)} {d : ℕ} {I : Basis α}
    (h : ImGood p D Base d I) (hI : I.barcode = []) (t : α) : modBounds p D Base d t = ⊥ := by
  rw [← h.gen.span t]
  have : IsEmpty {i // AliveBar I.barcode i t ∧ barRestr p (barsAt Base d) t (I.coords.zcol p i) ≠ 0} := by
    refine ⟨?_⟩
    rintro ⟨i, ⟨b, hb, -⟩, -⟩
    rw [hI] at hb; simp at hb
  rw [Set.range_eq_empty, Submodule.span_empty]

/-- The kernel and the image in a degree between two modules which are not zero. -/
theorem mph_ik {rnd : α → α} {p : ℕ} {D : List Mat} {Base : List (Basis α)}
    (h : ChainInput rnd p D Base) {d : ℕ} {A B : Basis α} (hA : Base[d + 1]? = some A)
    (hB : Base[d]? = some B) (hA0 : A.barcode ≠ []) (hB0 : B.barcode ≠ []) :
    ∃ F im ker pre, D[d + 1]? = some F ∧ imageKernel rnd p A B F 0 = .ok ⟨im, some ker, pre⟩ ∧
      BasisIn p A.barcode ker ∧ IsBasisOf p A.barcode ker (modCycles p D Base (d + 1)) ∧
      ImGood p D Base d im := by
  have mA := List.mem_of_getElem? hA
  have mB := List.mem_of_getElem? hB
  have eA := barsAt_eq hA
  have eB := barsAt_eq hB
  have fl : ∀ X ∈ Base, X.barcode ≠ [] → X.flat = false := by
    intro X hX h0
    cases e : X.flat with
    | false => rfl
    | true => exact absurd (h.flat X hX e) h0
  obtain ⟨F, hF, hmor⟩ := h.mor d (eB ▸ hB0) (eA ▸ hA0)
  have hDF : diffAt D (d + 1) = F := by
    unfold diffAt; rw [List.getD_eq_getElem?_getD, hF]; rfl
  have hin : IKInput rnd p A B F := {
    prime := h.prime
    flatA := fl A mA hA0
    flatB := fl B mB hB0
    dimA := h.dim A mA
    dimB := h.dim B mB
    barsA := h.bars A mA
    barsB := h.bars B mB
    nonempty := hA0
    unbroken := h.unbroken B mB
    mor := by rw [eA, eB] at hmor; exact hmor
    sorted := h.sorted A mA
    rounding := fun _ a ha b hb hr => h.rounding A mA A mA a ha b hb _ (Or.inl rfl) _ (Or.inl rfl) hr }
  obtain ⟨im, ker, pre, h1, h2, h3, h4, h5, h6, h7, h8, -⟩ := imageKernel_abs hin
  have hker : modCycles p D Base (d + 1) = kerAt p A.barcode B.barcode F := by
    funext t
    change kerAt p _ _ _ t = _
    rw [eA, eB, hDF]
  have him : modBounds p D Base d = imAt p A.barcode B.barcode F := by
    funext t
    unfold modBounds
    rw [eA, eB, hDF]
  refine ⟨F, im, ker, pre, hF, h1, h2, hker ▸ h4, ⟨h3.dim, fun _ => by rw [eB]; exact h3, ?_, ?_, ?_⟩⟩
  · rw [eB, him]
    exact ⟨fun t => (h5 t).1, fun t => (h5 t).2, h6⟩
  · rw [him]; exact h7
  · intro t ht c hc
    obtain ⟨a, ha, e⟩ := h8 c hc
    rw [e]; exact ht a (by rw [eA]; exact ha)

theorem quotient_unbroken {rnd : α → α} {p : ℕ} {M N amb Q : Basis α} {b : Bool} (hM : M.brokenDiff = none ∧ M.sorted = true)
    (h : quotient rnd p M N amb b = .ok Q) : Q.brokenDiff = none ∧ Q.sorted = true := by
  have hinit : ∀ {bars : List (α × α)} {fl : Bool} {pd : Option ℕ} {C : Mat} {sw : Bool} {B : Basis α},
      Basis.init bars fl pd C sw false none = .ok B → B.brokenDiff = none := by
    intro bars fl pd C sw B h
    unfold Basis.init at h
    simp only [Bool.false_and, Bool.false_eq_true, if_false] at h
    split at h
    · cases h
    · split at h
      · cases h
      · cases h; rfl
  have hsort : ∀ {B B' : Basis α} {o}, B.sort rnd = .ok (B', o) → B.brokenDiff = none →
      B'.brokenDiff = none ∧ B'.sorted = true := by
    intro B B' o h h0
    unfold Basis.sort at h
    split at h
    · cases h
    · simp only [Except.ok.injEq, Prod.mk.injEq] at h
      rw [← h.1, h0]; exact ⟨rfl, rfl⟩
  unfold quotient at h
  split at h
  · cases h; exact hM
  split at h
  · cases h
  split at h
  · cases h
  rw [bind_ok] at h
  obtain ⟨NM, -, h⟩ := h
  split at h
  · cases h
  rw [bind_ok] at h
  obtain ⟨out, h1, h⟩ := h
  cases h
  unfold imageKernel at h1
  split at h1
  · cases h1
  rw [bind_ok] at h1
  obtain ⟨⟨B', F1, retB⟩, -, h1⟩ := h1
  dsimp only at h1
  rw [bind_ok] at h1
  obtain ⟨⟨A', F2, retA⟩, -, h1⟩ := h1
  dsimp only at h1
  split at h1
  · cases h1
  rw [bind_ok] at h1
  obtain ⟨st, -, h1⟩ := h1
  unfold ikFinish at h1
  dsimp only at h1
  rw [bind_ok] at h1
  obtain ⟨im0, h2, h1⟩ := h1
  split at h1
  swap
  · cases h1
  rw [bind_ok] at h1
  obtain ⟨⟨im1, order⟩, h3, h1⟩ := h1
  dsimp only at h1
  have key := hsort h3 (hinit h2)
  split at h1
  · rw [bind_ok] at h1
    obtain ⟨ker0, -, h1⟩ := h1
    rw [bind_ok] at h1
    obtain ⟨⟨ker1, order'⟩, -, h1⟩ := h1
    cases h1
    exact key
  · cases h1
    exact key

/-- The generators of a quotient are born with those of the module. -/
theorem quotient_births {rnd : α → α} {p : ℕ} {M N amb Q : Basis α} (h : QOK rnd p M N amb)
    (hq : quotient rnd p M N amb true = .ok Q) : ∀ b ∈ Q.barcode, ∃ a ∈ M.barcode, b.1 = a.1 := by
  obtain ⟨Q', h1, -, A, B, F, st, σ, τ, oA, oB, retA, retB, idx, hr⟩ := quotient_run h
  rw [hq] at h1
  cases h1
  intro b hb
  rw [hr.bars] at hb
  simp only [gather, List.mem_filterMap] at hb
  obtain ⟨k, -, hk⟩ := hb
  unfold rawBars at hk
  rw [List.getElem?_drop, List.zip_eq_zipWith, List.getElem?_zipWith, hr.barA, List.map_append] at hk
  rw [List.getElem?_append_right (by simp), List.length_map, Nat.add_sub_cancel_left, List.getElem?_map] at hk
  cases hc : (gather M.barcode oA)[k]? with
  | none => rw [hc] at hk; simp at hk
  | some c =>
    rw [hc] at hk
    cases hd : st.imDeath[N.barcode.length + k]? with
    | none => rw [hd] at hk; simp at hk
    | some d =>
      rw [hd] at hk
      simp only [Option.map_some, Option.some.injEq] at hk
      have hm := List.mem_of_getElem? hc
      simp only [gather, List.mem_filterMap] at hm
      obtain ⟨i, -, hi⟩ := hm
      exact ⟨c, List.mem_of_getElem? hi, by rw [← hk]⟩

theorem bornSpan_nil {p : ℕ} {amb : List (α × α)} {C : Mat} {s t : α} : bornSpan p amb [] C s t = ⊥ := by
  unfold bornSpan
  rw [Submodule.span_eq_bot]
  rintro x ⟨i, ⟨b, hb, -⟩, -⟩
  simp at hb

/-- The last step of `module_persistence_homology`: the quotient of a module by an image. -/
theorem mphZero_quot {rnd : α → α} {p : ℕ} (hp : p.Prime) {Base : List (Basis α)} {B : Basis α}
    (hB : Base[0]? = some B) (hB0 : B.barcode ≠ []) (hdim : B.dim = B.barcode.length) (hfl : B.flat = false)
    (hbars : ∀ b ∈ B.barcode, b.1 < b.2) (hbr : B.brokenDiff = none)
    (hround : ∀ a ∈ B.barcode, ∀ b ∈ B.barcode, rnd a.1 ≤ rnd b.1 → a.1 ≤ b.1)
    (hs : B.sorted = false ∨ B.barcode.Pairwise (barLE rnd)) {st out : MPH α} {I : Basis α}
    (hI : st.im[0]? = some (some I)) (hId : I.dim = I.barcode.length)
    (hIg : I.barcode ≠ [] → BasisIn p B.barcode I) (hrun : mphZero rnd p Base st = .ok out) :
    out.im = st.im ∧ ∃ Q, out.hom = st.hom.set 0 (some Q) ∧
      QuotGen p B.barcode Q (fun t => bornSpan p B.barcode I.barcode I.coords t t) ∧
      Q.barcode.Pairwise (barLE rnd) ∧ (Q.brokenDiff = none ∧ Q.sorted = true) ∧
      ∀ b ∈ Q.barcode, ∃ a ∈ B.barcode, b.1 = a.1 := by
  have hd0 : B.dim ≠ 0 := by
    rw [hdim]; intro e; exact hB0 (List.length_eq_zero_iff.1 e)
  have := Fact.mk hp
  unfold mphZero at hrun
  rw [hB, hI] at hrun
  dsimp only at hrun
  rw [if_neg hd0, hfl, hdim] at hrun
  obtain ⟨b0, b1, order, idx, f1, -, f3, f4, f5, f6, f8, f9, f10, f11, f12, -⟩ :=
    build_sort rnd (raw := B.barcode) (m := B.barcode.length)
      (M := ⟨B.barcode.length, identityCols B.barcode.length⟩) (sw := false) rfl
      (by simp [Mat.ncols, identityCols]) (fun e => by cases e)
  have hIb : IsBasisOf p B.barcode b1 (barModule p B.barcode) :=
    full_isBasisOf hp f4 f5 (by rw [f6])
  have hok := identity_ok hp.one_lt B.barcode.length
  have hIn : BasisIn p B.barcode b1 :=
    picks_basisIn f4 f5 f6 (by simp [Mat.ncols, identityCols]) hok.len hok.red identity_born
      f8 f9 f10 f11 f12
  obtain ⟨g1, g2, -, -, -⟩ := identity_sort hbars f1 f3
  have hmem : ∀ b ∈ b1.barcode, b ∈ B.barcode := by
    intro b hb
    rw [f5] at hb
    simp only [gather, List.mem_filterMap] at hb
    obtain ⟨k, -, hk⟩ := hb
    exact List.mem_of_getElem? hk
  rw [f1] at hrun
  simp only [bind, Except.bind, f3] at hrun
  cases hq : quotient rnd p b1 I B true with
  | error e => rw [hq] at hrun; cases hrun
  | ok Q =>
    rw [hq] at hrun
    cases hrun
    refine ⟨rfl, Q, rfl, ?_⟩
    have hsrt := quotient_sorted (sort_sorted f3) hq
    have hub := quotient_unbroken ⟨hIn.unbroken, hIn.sorted⟩ hq
    by_cases hI0 : I.barcode = []
    · unfold quotient at hq
      rw [if_pos (by rw [hId, hI0]; rfl)] at hq
      cases hq
      rw [hI0]
      refine ⟨⟨hIn.flat, hIn.dim, hIn.bars, ⟨hIn.rows, hIn.cols, hIn.len, hIn.red⟩, hIn.born, ?_, ?_, ?_⟩,
        hsrt, hub, fun b hb => ⟨b, hmem b hb, rfl⟩⟩
      · intro t i b hb hbt
        rw [hIb.dead t i b hb hbt]; exact Submodule.zero_mem _
      · intro t
        rw [hIb.span t]; exact le_sup_right
      · intro t
        refine (hIb.indep t).map' _ ?_
        rw [Submodule.ker_mkQ, bornSpan_nil]
    · have hi := hIg hI0
      have hq' : QOK rnd p b1 I B := {
        prime := hp
        flatB := hfl
        dimB := hdim
        barsB := hbars
        unbroken := hbr
        flatM := hIn.flat
        barsM := hIn.bars
        coordsM := ⟨hIn.rows, hIn.cols, hIn.len, hIn.red⟩
        birthM := hIn.born
        deathM := death_of_dead hIb hIn.born
        rounding := fun a ha b hb hr => hround a (hmem a ha) b (hmem b hb) hr
        nonempty := by
          intro e
          have hpm := sortOrder_perm rnd B.barcode
          have := (gather_perm hpm).length_eq
          rw [← g1, e] at this
          exact hB0 (List.length_eq_zero_iff.1 this.symm)
        flatN := hi.flat
        dimN := hId
        nonemptyN := hI0
        barsN := hi.bars
        coordsN := ⟨hi.rows, hi.cols, hi.len, hi.red⟩
        birthN := hi.born }
      obtain ⟨Q', h1, h2⟩ := quotient_full hq' hs g1 g2
      rw [hq] at h1
      cases h1
      refine ⟨h2, hsrt, hub, fun b hb => ?_⟩
      obtain ⟨a, ha, e⟩ := quotient_births hq' hq b hb
      exact ⟨a, hmem a ha, e⟩

/-- The homology in degree zero of a complex, from its image. -/
theorem mphZero_gen {rnd : α → α} {p : ℕ} {D : List Mat} {Base : List (Basis α)}
    (h : ChainInput rnd p D Base) {B : Basis α} (hB : Base[0]? = some B) (hB0 : B.barcode ≠ [])
    (hs : B.sorted = false ∨ B.barcode.Pairwise (barLE rnd)) {st out : MPH α} {I : Basis α}
    (hI : st.im[0]? = some (some I)) (hIg : ImGood p D Base 0 I) (hrun : mphZero rnd p Base st = .ok out) :
    out.im = st.im ∧ ∃ Q, out.hom = st.hom.set 0 (some Q) ∧ QuotGen p B.barcode Q (modBounds p D Base 0) ∧
      Q.barcode.Pairwise (barLE rnd) ∧ (Q.brokenDiff = none ∧ Q.sorted = true) ∧
      ∀ b ∈ Q.barcode, ∃ a ∈ B.barcode, b.1 = a.1 := by
  have mB := List.mem_of_getElem? hB
  have eB := barsAt_eq hB
  have hfl : B.flat = false := by
    cases e : B.flat with
    | false => rfl
    | true => exact absurd (h.flat B mB e) hB0
  have hg := hIg.gen
  rw [eB] at hg
  have he : (fun t => bornSpan p B.barcode I.barcode I.coords t t) = modBounds p D Base 0 := by
    funext t; exact bornSpan_gen hg
  rw [← he]
  exact mphZero_quot h.prime hB hB0 (h.dim B mB) hfl (h.bars B mB) (h.unbroken B mB)
    (fun a ha b hb hr => h.rounding B mB B mB a ha b hb _ (Or.inl rfl) _ (Or.inl rfl) hr) hs hI hIg.dim
    (fun hne => eB ▸ hIg.isIn hne) hrun

/-- The homology of a sequence of two modules. -/
theorem mph_two {rnd : α → α} {p : ℕ} {D : List Mat} {Base : List (Basis α)}
    (h : ChainInput rnd p D Base) (hz : ∀ d, 1 < d → barsAt Base d = []) {A B : Basis α}
    (hA : Base[1]? = some A) (hB : Base[0]? = some B) (hs : B.sorted = false) {out : MPH α}
    (hrun : modulePersistenceHomology rnd p D Base = .ok out) :
    (B.barcode ≠ [] → ∃ Q I, out.hom.getD 0 none = some Q ∧ out.im.getD 0 none = some I ∧
      QuotGen p B.barcode Q (modBounds p D Base 0) ∧ Q.barcode.Pairwise (barLE rnd) ∧
      ImGood p D Base 0 I) ∧
    (B.barcode = [] → out.hom.getD 0 none = some B) ∧
    (A.barcode ≠ [] → B.barcode ≠ [] → ∃ K I, out.hom.getD 1 none = some K ∧ out.im.getD 1 none = some I ∧
      I.dim = 0 ∧ I.barcode = [] ∧ BasisIn p A.barcode K ∧ IsBasisOf p A.barcode K (modCycles p D Base 1) ∧
      K.barcode.Pairwise (barLE rnd)) ∧
    (A.barcode = [] → ∃ K, out.hom.getD 1 none = some K ∧ K.dim = 0 ∧ K.barcode = []) := by
  have mA := List.mem_of_getElem? hA
  have mB := List.mem_of_getElem? hB
  have hl : 1 < Base.length := (List.getElem?_eq_some_iff.1 hA).1
  have hz' : ∀ d X, 1 < d → Base[d]? = some X → X.dim = 0 := by
    intro d X hd hX
    have := hz d hd
    rw [barsAt_eq hX] at this
    rw [h.dim X (List.mem_of_getElem? hX), this]; rfl
  obtain ⟨st, st', hst, h1, h2⟩ := mph_tail hz' hl hrun
  obtain ⟨J, hJ, hJ0, hJ1⟩ := hst.zero
  rw [show downTo 1 = [1] from rfl, List.foldlM_cons, bind_ok] at h1
  obtain ⟨st1, h1, h1'⟩ := h1
  cases h1'
  have dA : A.dim = 0 ↔ A.barcode = [] := by rw [h.dim A mA, List.length_eq_zero_iff]
  have dB : B.dim = 0 ↔ B.barcode = [] := by rw [h.dim B mB, List.length_eq_zero_iff]
  -- the step from the first to the zeroth module
  have hstep : st'.hom.length = Base.length ∧ st'.im.length = Base.length ∧
      (B.barcode ≠ [] → ∃ I, st'.im[0]? = some (some I) ∧ ImGood p D Base 0 I) ∧
      (A.barcode ≠ [] → B.barcode ≠ [] → ∃ K, st'.hom[1]? = some (some K) ∧ st'.im[1]? = some (some J) ∧
        BasisIn p A.barcode K ∧ IsBasisOf p A.barcode K (modCycles p D Base 1) ∧
        K.barcode.Pairwise (barLE rnd)) ∧
      (A.barcode = [] → ∃ K, st'.hom[1]? = some (some K) ∧ K.dim = 0 ∧ K.barcode = []) := by
    unfold mphStep at h1
    rw [hA, show (1 : ℕ) - 1 = 0 from rfl, hB] at h1
    dsimp only at h1
    by_cases hA0 : A.dim = 0
    · rw [if_pos hA0] at h1
      cases h1
      refine ⟨by rw [List.length_set, hst.hom], by rw [List.length_set, hst.im], fun _ => ⟨emptyBasis B, ?_, ?_⟩,
        fun hne => absurd (dA.1 hA0) hne, fun _ => ⟨emptyBasis A, ?_, rfl, rfl⟩⟩
      · exact List.getElem?_set_self (by rw [hst.im]; omega)
      · exact imGood_empty rfl rfl fun t => imAt_bot_left (by rw [barsAt_eq hA]; exact dA.1 hA0) t
      · exact List.getElem?_set_self (by rw [hst.hom]; omega)
    · rw [if_neg hA0] at h1
      by_cases hB0 : B.dim = 0
      · rw [if_pos hB0] at h1
        cases h1
        exact ⟨by rw [List.length_set, hst.hom], by rw [List.length_set, hst.im],
          fun hne => absurd (dB.1 hB0) hne, fun _ hne => absurd (dB.1 hB0) hne,
          fun e => absurd (dA.2 e) hA0⟩
      · rw [if_neg hB0] at h1
        obtain ⟨F, im, ker, pre, e1, e2, e3, e4, e5⟩ :=
          mph_ik h hA hB (fun e => hA0 (dA.2 e)) (fun e => hB0 (dB.2 e))
        rw [e1] at h1
        dsimp only at h1
        rw [e2] at h1
        simp only [bind, Except.bind, hJ] at h1
        have hq : quotient rnd p ker J A true = .ok ker := by
          unfold quotient; rw [if_pos hJ0]
        rw [hq] at h1
        cases h1
        refine ⟨by rw [List.length_set, hst.hom], by rw [List.length_set, hst.im], fun _ => ⟨im, ?_, e5⟩,
          fun _ _ => ⟨ker, ?_, ?_, e3, e4, (imageKernel_sorted e2).2 ker rfl⟩, fun e => absurd (dA.2 e) hA0⟩
        · exact List.getElem?_set_self (by rw [hst.im]; omega)
        · exact List.getElem?_set_self (by rw [hst.hom]; omega)
        · dsimp only
          rw [List.getElem?_set_ne (by omega)]; exact hJ
  obtain ⟨l1, l2, s1, s2, s3⟩ := hstep
  have hzero : out.im = st'.im ∧ ∃ Q, out.hom = st'.hom.set 0 (some Q) ∧ (B.barcode = [] → Q = B) ∧
      (B.barcode ≠ [] → QuotGen p B.barcode Q (modBounds p D Base 0) ∧ Q.barcode.Pairwise (barLE rnd)) := by
    by_cases hB0 : B.barcode = []
    · unfold mphZero at h2
      rw [hB] at h2
      split at h2
      · next he1 he2 =>
        cases he1
        rw [if_pos (dB.2 hB0)] at h2
        cases h2
        exact ⟨rfl, B, rfl, fun _ => rfl, fun hne => absurd hB0 hne⟩
      · cases h2
    · obtain ⟨I, i1, i2⟩ := s1 hB0
      obtain ⟨o1, Q, o2, o3, o4⟩ := mphZero_gen h hB hB0 (Or.inl hs) i1 i2 h2
      exact ⟨o1, Q, o2, fun e => absurd e hB0, fun _ => ⟨o3, o4.1⟩⟩
  obtain ⟨o1, Q, o2, o3, o4⟩ := hzero
  have hQ : out.hom.getD 0 none = some Q := by
    rw [o2, List.getD_eq_getElem?_getD, List.getElem?_set_self (by rw [l1]; omega)]; rfl
  have h1h : out.hom[1]? = st'.hom[1]? := by rw [o2, List.getElem?_set_ne (by omega)]
  refine ⟨fun hB0 => ?_, fun hB0 => by rw [hQ, o3 hB0], fun hA0 hB0 => ?_, fun hA0 => ?_⟩
  · obtain ⟨I, i1, i2⟩ := s1 hB0
    refine ⟨Q, I, hQ, ?_, (o4 hB0).1, (o4 hB0).2, i2⟩
    rw [o1, List.getD_eq_getElem?_getD, i1]; rfl
  · obtain ⟨K, k1, k2, k3, k4, k5⟩ := s2 hA0 hB0
    refine ⟨K, J, ?_, ?_, hJ0, hJ1, k3, k4, k5⟩
    · rw [List.getD_eq_getElem?_getD, h1h, k1]; rfl
    · rw [o1, List.getD_eq_getElem?_getD, k2]; rfl
  · obtain ⟨K, k1, k2, k3⟩ := s3 hA0
    exact ⟨K, by rw [List.getD_eq_getElem?_getD, h1h, k1]; rfl, k2, k3⟩

end

end Permaviss
