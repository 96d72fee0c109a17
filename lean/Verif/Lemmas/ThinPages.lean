import Verif.Lemmas.RowTotal
import Verif.Lemmas.StripPos

/-!
# With two columns, no page fails
-/

namespace Permaviss

open Finset

attribute [-instance] instMulZeroClassOfSemiring

section

variable {α : Type} [LinearOrder α] [Zero α] {rnd : α → α} {E : SSEnv α} {ρ : List ℕ → α}

theorem foldlM_ok_of {ε σ γ : Type} {f : σ → γ → Except ε σ} (I : σ → Prop) :
    ∀ (l : List γ), (∀ x ∈ l, ∀ s, I s → ∃ s', f s x = .ok s' ∧ I s') → ∀ s, I s →
      ∃ s', l.foldlM f s = .ok s' ∧ I s'
  | [], _, s, hs => ⟨s, rfl, hs⟩
  | x :: l, hf, s, hs => by
    obtain ⟨s1, h1, h2⟩ := hf x (by simp) s hs
    obtain ⟨s2, h3, h4⟩ := foldlM_ok_of I l (fun y hy => hf y (by simp [hy])) s1 h2
    exact ⟨s2, by rw [List.foldlM_cons, bind_ok]; exact ⟨s1, h1, h3⟩, h4⟩

/-! ## The homology of a sequence with one module -/

theorem mph_down_total {p : ℕ} {D : List Mat} {Base : List (Basis α)}
    (hz : ∀ d X, 0 < d → Base[d]? = some X → X.dim = 0) (k : ℕ) :
    ∀ st, ZeroState Base k st → (∀ i, k < i → i < Base.length → ∃ H, st.hom[i]? = some (some H)) →
      ∃ st', (downTo k).foldlM (mphStep rnd p D Base) st = .ok st' ∧ ZeroState Base 0 st' ∧
        ∀ i, 0 < i → i < Base.length → ∃ H, st'.hom[i]? = some (some H) := by
  induction k with
  | zero => intro st hs h; exact ⟨st, rfl, hs, h⟩
  | succ k ih =>
    intro st hs h
    obtain ⟨I, hI, -, -⟩ := hs.zero
    have hk : k + 1 < Base.length := by
      rw [← hs.im]; exact (List.getElem?_eq_some_iff.1 hI).1
    have h0 := hz (k + 1) _ (by omega) (List.getElem?_eq_getElem hk)
    have hstep : mphStep rnd p D Base st (k + 1) = .ok { st with
        im := st.im.set k (some (emptyBasis Base[k])), hom := st.hom.set (k + 1) (some (emptyBasis Base[k + 1])) } := by
      unfold mphStep
      rw [List.getElem?_eq_getElem hk, Nat.add_sub_cancel,
        List.getElem?_eq_getElem (show k < Base.length by omega)]
      dsimp only
      rw [if_pos h0]
    obtain ⟨st', a1, a2, a3⟩ := ih { st with
        im := st.im.set k (some (emptyBasis Base[k])), hom := st.hom.set (k + 1) (some (emptyBasis Base[k + 1])) }
      ⟨by rw [List.length_set, hs.im], by rw [List.length_set, hs.hom], emptyBasis Base[k],
        List.getElem?_set_self (by rw [hs.im]; omega), rfl, rfl⟩ (by
        intro i hi hl
        by_cases hik : i = k + 1
        · subst hik
          exact ⟨_, List.getElem?_set_self (by rw [hs.hom]; exact hl)⟩
        · dsimp only
          rw [List.getElem?_set_ne (fun e => hik e.symm)]
          exact h i (by omega) hl)
    exact ⟨st', by rw [downTo_succ, List.foldlM_cons, bind_ok]; exact ⟨_, hstep, a1⟩, a2, a3⟩

theorem mph_keep_total {p : ℕ} {D : List Mat} {Base : List (Basis α)}
    (hz : ∀ d X, 0 < d → Base[d]? = some X → X.dim = 0) {B : Basis α} (hB : Base[0]? = some B)
    (hd : B.dim = B.barcode.length) :
    ∃ out, modulePersistenceHomology rnd p D Base = .ok out ∧
      ∀ i < Base.length, ∃ H, out.hom.getD i none = some H := by
  have hl : 0 < Base.length := (List.getElem?_eq_some_iff.1 hB).1
  unfold modulePersistenceHomology
  rw [List.getElem?_eq_getElem (show Base.length - 1 < Base.length by omega)]
  dsimp only
  obtain ⟨st, a1, a2, a3⟩ := mph_down_total (rnd := rnd) (p := p) (D := D) hz (Base.length - 1)
    { hom := List.replicate Base.length none
      im := (List.replicate Base.length none).set (Base.length - 1) (some (emptyBasis Base[Base.length - 1]))
      preIm := List.replicate Base.length none } ⟨by simp, by simp, _,
    List.getElem?_set_self (by simp; omega), rfl, rfl⟩ (fun i h1 h2 => by omega)
  obtain ⟨I, hI, hI0, -⟩ := a2.zero
  have hfin : ∀ H, ∀ i < Base.length, ∃ H', (st.hom.set 0 (some H)).getD i none = some H' := by
    intro H i hi
    rw [List.getD_eq_getElem?_getD]
    by_cases h0 : i = 0
    · subst h0
      rw [List.getElem?_set_self (by rw [a2.hom]; exact hl)]
      exact ⟨H, rfl⟩
    · rw [List.getElem?_set_ne (fun e => h0 e.symm)]
      obtain ⟨H', hH'⟩ := a3 i (by omega) hi
      rw [hH']
      exact ⟨H', rfl⟩
  by_cases h0 : B.dim = 0
  · refine ⟨{ st with hom := st.hom.set 0 (some B) }, ?_, hfin B⟩
    rw [bind_ok]
    refine ⟨st, a1, ?_⟩
    unfold mphZero
    rw [hB, hI]
    dsimp only
    rw [if_pos h0]
  · obtain ⟨b0, b1, order, idx, f1, -, f3, f4, f5, f6, -⟩ :=
      build_sort rnd (raw := B.barcode) (m := B.dim)
        (M := ⟨B.dim, identityCols B.dim⟩) (sw := false) rfl
        (by simp [Mat.ncols, identityCols, hd]) (fun e => by cases e)
    have hinit : Basis.init B.barcode B.flat (some B.dim) ⟨B.dim, identityCols B.dim⟩ false false none =
        .ok b0 := by
      rw [← f1]
      have hne : B.barcode.isEmpty = false := by
        cases hb : B.barcode with
        | nil => rw [hb] at hd; exact absurd hd h0
        | cons => rfl
      unfold Basis.init
      simp [hne]
    refine ⟨{ st with hom := st.hom.set 0 (some b1) }, ?_, hfin b1⟩
    rw [bind_ok]
    refine ⟨st, a1, ?_⟩
    unfold mphZero
    rw [hB, hI]
    dsimp only
    rw [if_neg h0, hinit, ok_bind, f3, ok_bind]
    unfold quotient
    rw [if_pos hI0]
    rfl

/-! ## The higher pages -/

/-- What the computation of page `k + 1` needs of a position of page `k`. -/
structure PosOK (rnd : α → α) (S : SSt α) (k n deg : ℕ) : Prop where
  dim : (S.hom k n deg).basis.dim = (S.hom k n deg).basis.barcode.length
  bars : ∀ b ∈ (S.hom k n deg).basis.barcode, b.1 < b.2
  sorted : (S.hom k n deg).basis.barcode.Pairwise (barLE rnd)
  flat : (S.hom k n deg).basis.flat = true → (S.hom k n deg).basis.barcode = []
  reps : (S.hom k n deg).basis.dim ≠ 0 → ∀ C ∈ S.reps k n deg,
    (∃ ws, C.WF ws) ∧ ∀ e ∈ C, ∀ g ∈ e.ref, g < (S.hom k n deg).basis.dim

theorem PosOK.congr {S S' : SSt α} {k n deg : ℕ} (h : PosOK rnd S k n deg)
    (h1 : S'.hom k n deg = S.hom k n deg) (h2 : S'.reps k n deg = S.reps k n deg) : PosOK rnd S' k n deg :=
  ⟨by rw [h1]; exact h.dim, by rw [h1]; exact h.bars, by rw [h1]; exact h.sorted, by rw [h1]; exact h.flat,
    by rw [h1, h2]; exact h.reps⟩

theorem PosOK.zero {S : SSt α} {k n deg : ℕ}
    (h : (S.hom k n deg).basis.dim = 0 ∧ (S.hom k n deg).basis.barcode = []) : PosOK rnd S k n deg :=
  ⟨by rw [h.1, h.2]; rfl, by rw [h.2]; simp, by rw [h.2]; exact List.Pairwise.nil, fun _ => h.2,
    fun hc => absurd h.1 hc⟩

theorem pageSequence_thin {N cp n deg : ℕ} (hcp : 2 ≤ cp) (hn : n < cp) (hnN : n < N) {S : SSt α}
    (hz : ∀ n deg, 2 ≤ n → (S.hom (cp - 1) n deg).basis.dim = 0 ∧ (S.hom (cp - 1) n deg).basis.barcode = [])
    (hS : PosOK rnd S (cp - 1) n deg) : ∃ S', pageSequence rnd E N cp S (n, deg) = .ok S' := by
  obtain ⟨rest, hsw, hrest⟩ := sweep_cons (cp := cp) (N := N) (deg := deg) hcp hnN
  unfold pageSequence
  simp only []
  obtain ⟨diffs, hd⟩ := mapM_ok_of (xs := (sweep cp N N n deg).tail)
    (f := fun x => highDifferential rnd E S (x.1 - cp) x.2 cp) (by
      intro x hx
      rw [hsw] at hx
      have := hrest x hx
      refine ⟨⟨0, []⟩, ?_⟩
      unfold highDifferential
      dsimp only
      rw [if_pos]
      exact (hz _ _ (by omega)).1)
  have hzero : ∀ d X, 0 < d → ((sweep cp N N n deg).map fun x => (S.hom (cp - 1) x.1 x.2).basis)[d]? = some X →
      X.dim = 0 ∧ X.barcode = [] := by
    intro d X hd hX
    rw [hsw] at hX
    obtain ⟨d, rfl⟩ : ∃ j, d = j + 1 := ⟨d - 1, by omega⟩
    rw [List.map_cons, List.getElem?_cons_succ, List.getElem?_map, Option.map_eq_some_iff] at hX
    obtain ⟨x, hx, rfl⟩ := hX
    exact hz _ _ (by have := hrest x (List.mem_of_getElem? hx); omega)
  have hB : ((sweep cp N N n deg).map fun x => (S.hom (cp - 1) x.1 x.2).basis)[0]? =
      some (S.hom (cp - 1) n deg).basis := by rw [hsw]; rfl
  obtain ⟨out, o1, o2⟩ := mph_keep_total (rnd := rnd) (p := E.p) (D := ⟨0, []⟩ :: diffs)
    (fun d X hd hX => (hzero d X hd hX).1) hB hS.dim
  rw [List.length_map] at o2
  obtain ⟨S1, s1, s2⟩ := addOutputHigher_total S (out := out)
    ((sweep cp N N n deg).map fun x => S.hom (cp - 1) x.1 x.2) (sweep cp N N n deg) cp o2
  have hW := addOutputHigher_written (sweep_nodup hcp hnN) s1
  obtain ⟨-, H, k4, k5, k6, k7, k8⟩ := mph_keep (fun d X hd hX => (hzero d X hd hX).1) hB hS.dim hS.flat
    hS.bars hS.sorted o1
  have hnew : ∀ x ∈ sweep cp N N n deg, x = (n, deg) ∧ (S1.hom cp x.1 x.2).basis = H ∨
      (S1.hom cp x.1 x.2).basis.dim = 0 := by
    intro x hx
    obtain ⟨i, hi⟩ := List.mem_iff_getElem?.1 hx
    obtain ⟨H', w1, w2, -⟩ := hW.new i x hi
    by_cases h0 : i = 0
    · subst h0
      rw [k4] at w1
      obtain rfl := Option.some.inj w1
      rw [hsw] at hi
      left
      refine ⟨(Option.some.inj hi).symm, by rw [w2]⟩
    · right
      rw [w2]
      exact (mph_zero_at o1 (i := i) (X := (S.hom (cp - 1) x.1 x.2).basis)
        (by rw [List.getElem?_map, hi]; rfl) (hzero i _ (by omega) (by rw [List.getElem?_map, hi]; rfl)) w1).1
  obtain ⟨S2, t1, -⟩ := foldlM_ok_of (f := fun S x => computeHigher rnd E S x.1 x.2 cp)
    (fun T => S1.SameHom T ∧ T.reps (cp - 1) = S.reps (cp - 1)) (sweep cp N N n deg) (by
      rintro x hx T ⟨hT, hR⟩
      suffices h : ∃ T', computeHigher rnd E T x.1 x.2 cp = .ok T' by
        obtain ⟨T', hT'⟩ := h
        refine ⟨T', hT', hT.trans (computeHigher_same hT'), ?_⟩
        rw [← hR]
        funext b c
        exact computeHigher_reps hT' (by omega)
      unfold computeHigher
      dsimp only
      rw [hT.hom]
      by_cases h0 : (S1.hom cp x.1 x.2).basis.dim = 0
      · rw [if_pos h0]; exact ⟨_, rfl⟩
      · rw [if_neg h0]
        obtain ⟨rfl, hH⟩ := (hnew x hx).resolve_right h0
        dsimp only at h0 hH ⊢
        rw [hH, k6] at h0
        obtain ⟨tot, ht⟩ := mapM_ok_of (xs := T.reps (cp - 1) n deg)
          (f := fun C : LChains => C.sums H.coords.cols H.coords.nrows) (by
            intro C hC
            rw [hR] at hC
            obtain ⟨⟨ws, w1⟩, w2⟩ := hS.reps h0 C hC
            obtain ⟨X, hX, -⟩ := C44_sums w1 (nexp := H.coords.nrows) (by rw [(k7 h0).2]; exact w2) H.coords.cols
            exact ⟨X, hX⟩)
        refine ⟨{ T with hom := S1.hom, reps := upd T.reps cp n deg tot }, ?_⟩
        rw [hH, bind_ok]
        refine ⟨tot, ht, ?_⟩
        rw [if_pos hn]
        rfl) S1 ⟨.refl _, by rw [s2]⟩
  refine ⟨S2, ?_⟩
  rw [bind_ok]
  refine ⟨diffs, hd, ?_⟩
  rw [bind_ok]
  exact ⟨out, by rw [List.map_map]; exact o1, by rw [bind_ok]; exact ⟨S1, s1, t1⟩⟩

theorem posOK_stable (m : ℕ) : StableRep m fun l =>
    ∀ C ∈ l, (∃ ws, C.WF ws) ∧ ∀ e ∈ C, ∀ g ∈ e.ref, g < m := by
  intro l l' hl hm C' hC'
  obtain ⟨m1, m2⟩ := mapM_ok_spec hm
  obtain ⟨i, hi, rfl⟩ := List.mem_iff_getElem.1 hC'
  have hs := m2 i (by omega) hi
  obtain ⟨⟨ws, w1⟩, w2⟩ := hl _ (List.getElem_mem (show i < l.length by omega))
  obtain ⟨X, x1, x2, -⟩ := C44_sums w1 w2 (identityCols m)
  rw [hs] at x1
  obtain rfl := Except.ok.inj x1
  refine ⟨⟨ws, x2⟩, fun e he g hg => ?_⟩
  obtain ⟨q1, q2⟩ := mapM_ok_spec hs
  obtain ⟨j, hj, rfl⟩ := List.mem_iff_getElem.1 he
  have := sums_refs (q2 j (by omega) hj) g hg
  simpa [identityCols] using this

theorem pageHigher_thin {N cp : ℕ} (hcp : 2 ≤ cp) (hcpN : cp ≤ N) {S : SSt α} (hz : ZeroColumns S)
    (hS : ∀ n < N, ∀ deg < E.rows, PosOK rnd S (cp - 1) n deg) :
    ∃ S', pageHigher rnd E N S cp = .ok S' ∧ ZeroColumns S' ∧
      ∀ n < N, ∀ deg < E.rows, PosOK rnd S' cp n deg := by
  have hrun : ∃ S', pageHigher rnd E N S cp = .ok S' := by
    unfold pageHigher
    obtain ⟨S', h1, -⟩ := foldlM_ok_of (f := pageSequence rnd E N cp)
      (fun T : SSt α => ∀ n deg, T.hom (cp - 1) n deg = S.hom (cp - 1) n deg ∧
        T.reps (cp - 1) n deg = S.reps (cp - 1) n deg) (pageStarts E.rows cp) (by
        rintro ⟨n, deg⟩ hs T hT
        obtain ⟨a1, a2⟩ := mem_pageStarts.1 hs
        dsimp only at a1 a2
        obtain ⟨T', h1⟩ := pageSequence_thin (E := E) (rnd := rnd) (N := N) hcp a1 (by omega) (S := T)
          (by intro n deg hn; rw [(hT n deg).1]; exact hz _ _ _ hn)
          ((hS n (by omega) deg a2).congr (hT n deg).1 (hT n deg).2)
        refine ⟨T', h1, fun b c => ?_⟩
        obtain ⟨_, _, -, -, w⟩ := pageSequence_written hcp (s := (n, deg)) (show n < N by omega) h1
        rw [(w.old (cp - 1) b c (by omega)).1, pageSequence_reps h1 (by omega)]
        exact hT b c) S fun _ _ => ⟨rfl, rfl⟩
    exact ⟨S', h1⟩
  obtain ⟨S', h1⟩ := hrun
  have hz' : ZeroColumns S' := pages_zeroColumns (cps := [cp]) (N := N) (E := E) (rnd := rnd)
    (by intro c hc; rw [List.mem_singleton] at hc; omega)
    (by rw [List.foldlM_cons, bind_ok]; exact ⟨S', h1, rfl⟩) hz
  refine ⟨S', h1, hz', fun n hn deg hdeg => ?_⟩
  by_cases hn2 : 2 ≤ n
  · exact PosOK.zero (hz' _ _ _ hn2)
  have P := hS n hn deg hdeg
  obtain ⟨k1, k2, -⟩ := pageHigher_kept hcp hcpN (by omega) hn hdeg (fun x _ h => (hz _ x.1 x.2 (by omega)).1) P.dim P.bars
    P.sorted rfl rfl P.flat h1
  refine ⟨by rw [k1.dim, k1.bars]; exact P.dim, by rw [k1.bars]; exact P.bars, by rw [k1.bars]; exact P.sorted,
    fun hf => ?_, fun h0 => ?_⟩
  · rw [k1.bars]
    by_contra hne
    have := (k1.coords (by rw [P.dim]; exact fun e => hne (List.length_eq_zero_iff.1 e))).1
    rw [this] at hf; cases hf
  · rw [k1.dim] at h0 ⊢
    exact k2 _ (posOK_stable _) h0 (P.reps h0)

/-! ## The first page -/

/-- A row of the first two pages, when only the first two columns are not zero. -/
theorem pageOneRow_thin (h : SSOK rnd E ρ) (hlen : 2 ≤ E.columns.length) {deg : ℕ} (hdeg : deg < E.rows)
    (hz : ∀ n deg, 2 ≤ n → E.firstBars deg n = [])
    (hround : ∀ n m, ∀ a ∈ E.firstBars deg n, ∀ b ∈ E.firstBars deg m,
      ∀ x, x = a.1 ∨ x = a.2 → ∀ y, y = b.1 ∨ y = b.2 → rnd x ≤ rnd y → x ≤ y)
    (hgap : E.firstBars deg 0 = [] → E.firstBars deg 1 = []) (S : SSt α) :
    ∃ S', pageOneRow rnd E E.columns.length S deg = .ok S' ∧
      ∀ n < E.columns.length, PosOK rnd S' 1 n deg := by
  have := Fact.mk h.prime
  obtain ⟨base, diffs, hrow⟩ := row_input h (by omega) hdeg hround
  have hb : ∀ n, n < E.columns.length → barsAt base n = E.firstBars deg n := by
    intro n hn
    rw [hrow.bars, if_pos hn]
  have hzb : ∀ d, 1 < d → barsAt base d = [] := by
    intro d hd
    rw [hrow.bars]
    split
    · exact hz d deg hd
    · rfl
  have hgap' : ∀ n, barsAt base n = [] → barsAt base (n + 1) = [] := by
    intro n h0
    by_cases hn : n = 0
    · subst hn
      rw [hb _ (by omega)]
      rw [hb _ (by omega)] at h0
      exact hgap h0
    · exact hzb _ (by omega)
  obtain ⟨out, o1, o2, o3, o4⟩ := mph_good hrow.input (fun n h0 hne => absurd (hgap' n h0) hne)
  rw [hrow.len] at o4 o2
  obtain ⟨S1, s1, -⟩ := addOutputHigher_total S (out := out) (base.map fun b => ⟨b, none⟩)
    ((List.range E.columns.length).map fun n => (n, deg)) 1 (by
      intro i hi
      rw [List.length_map, List.length_range] at hi
      obtain ⟨⟨H, e, -⟩, -⟩ := o4 i hi
      exact ⟨H, by rw [List.getD_eq_getElem?_getD, e]; rfl⟩)
  have hW := addOutputHigher_written (by
    exact List.nodup_range.map fun a b h => (Prod.mk.inj h).1) s1
  -- the entries of the second page
  have hS1 : ∀ n < E.columns.length, out.hom.getD n none = some (S1.hom 1 n deg).basis := by
    intro n hn
    obtain ⟨H', e1, e2, -⟩ := hW.new n (n, deg) (by
      rw [List.getElem?_map, List.getElem?_eq_getElem (by simpa using hn)]; simp)
    rw [e2]; exact e1
  have hH : ∀ n < E.columns.length, HomGood E.p (⟨0, []⟩ :: diffs) base n (S1.hom 1 n deg).basis := by
    intro n hn
    obtain ⟨⟨H, e, hg⟩, -⟩ := o4 n hn
    have := hS1 n hn
    rw [List.getD_eq_getElem?_getD, e] at this
    obtain rfl := Option.some.inj this
    exact hg
  have hG : ∀ n < E.columns.length, HomGens E.p (⟨0, []⟩ :: diffs) base n (S1.hom 1 n deg).basis := by
    intro n hn
    refine (hH n hn).gens fun hne h0 he => hne ?_
    have := hgap' _ he
    rwa [Nat.sub_add_cancel (by omega)] at this
  -- bars
  have hborn : ∀ n < E.columns.length, ∀ b ∈ (S1.hom 1 n deg).basis.barcode,
      E.firstBars deg n ≠ [] ∧ b.1 < E.maxR := by
    intro n hn b hbm
    have hc := (hH n hn).count b.1 b.1 le_rfl
    have hpos := (barsThrough_pos (bars := (S1.hom 1 n deg).basis.barcode)
          (s := b.1) (t := b.1)).2 ⟨b, hbm, le_rfl, (hH n hn).bars b hbm⟩
    have hal : ∃ i, AliveBar (barsAt base n) i b.1 := by
      by_contra hno
      push Not at hno
      rw [homRank_unborn h.prime hno] at hc
      omega
    obtain ⟨i, c, hc, hc1, hc2⟩ := hal
    rw [hb n hn] at hc
    have hm := List.mem_of_getElem? hc
    exact ⟨List.ne_nil_of_mem hm, hc2.trans_le (h.firstBars_lt hn hdeg c hm).2⟩
  have hn2 : ∀ n < E.columns.length, (S1.hom 1 n deg).basis.barcode ≠ [] → n ≤ 1 := by
    intro n hn hne
    obtain ⟨b, hbm⟩ := List.exists_mem_of_ne_nil _ hne
    by_contra hc
    exact (hborn n hn b hbm).1 (hz n deg (by omega))
  have g0 := hrow.get h hdeg (n := 0) (by omega)
  have g1 := hrow.get h hdeg (n := 1) (by omega)
  obtain ⟨mq, mq0, mk, mk0⟩ := mph_two hrow.input hzb g1 g0 rfl o1
  have hne0 : ∀ n < E.columns.length, (S1.hom 1 n deg).basis.barcode ≠ [] → E.firstBars deg 0 ≠ [] := by
    intro n hn hne h0
    obtain ⟨b, hbm⟩ := List.exists_mem_of_ne_nil _ hne
    have h1 := hn2 n hn hne
    obtain rfl | rfl : n = 0 ∨ n = 1 := by omega
    · exact (hborn 0 hn b hbm).1 h0
    · exact (hborn 1 hn b hbm).1 (hgap h0)
  have hsorted : ∀ n < E.columns.length, (S1.hom 1 n deg).basis.barcode ≠ [] →
      (S1.hom 1 n deg).basis.flat = false ∧ (S1.hom 1 n deg).basis.barcode.Pairwise (barLE rnd) ∧
      ∀ g b, (S1.hom 1 n deg).basis.barcode[g]? = some b →
        E.BornBy n deg ((S1.hom 1 n deg).basis.coords.zcol E.p g) b.1 := by
    intro n hn hne
    have h0 := hne0 n hn hne
    obtain ⟨b, hbm⟩ := List.exists_mem_of_ne_nil _ hne
    have h1 := hn2 n hn hne
    obtain rfl | rfl : n = 0 ∨ n = 1 := by omega
    · obtain ⟨Q, I, m1, -, m3, m4, -⟩ := mq h0
      rw [hS1 0 (by omega)] at m1
      obtain rfl := Option.some.inj m1
      refine ⟨m3.flat, m4, fun g b hg => ?_⟩
      exact m3.gens.born g b hg
    · obtain ⟨K, I, m1, -, -, -, m5, m6, m7⟩ := mk (hborn 1 (by omega) b hbm).1 h0
      rw [hS1 1 (by omega)] at m1
      obtain rfl := Option.some.inj m1
      have m5' : BasisIn E.p (E.firstBars deg 1) (S1.hom 1 1 deg).basis := m5
      refine ⟨m5.flat, m7, fun g b hg => ?_⟩
      exact BornBy.of_born m5'.born m5'.len hg
  obtain ⟨S2, t1, t2, t3⟩ := foldlM_range_inv (fun S n => computeTwoPage E S n deg)
    (fun m T => S1.SameHom T ∧ ∀ n < m, ((S1.hom 1 n deg).basis.dim ≠ 0 → ∀ C ∈ T.reps 1 n deg,
      (∃ ws, C.WF ws) ∧ ∀ e ∈ C, ∀ g ∈ e.ref, g < (S1.hom 1 n deg).basis.dim))
    E.columns.length S1 ⟨.refl _, fun n hn => absurd hn (by omega)⟩ (by
      rintro n hn T ⟨hT, hR⟩
      obtain ⟨T', c1, c2⟩ := computeTwoPage_total h hn hdeg (S := T) (H := (S1.hom 1 n deg).basis)
        (by rw [hT.hom]) (hG n hn).dim (by
          intro hne
          obtain ⟨b, hbm⟩ := List.exists_mem_of_ne_nil _ hne
          exact (hborn n hn b hbm).1) (by
          intro hne
          have := (hG n hn).mat hne
          rwa [hb n hn] at this) (by
          intro g b hgb
          have hbm := List.mem_of_getElem? hgb
          refine ⟨(hborn n hn b hbm).2, (hsorted n hn (List.ne_nil_of_mem hbm)).2.2 g b hgb, ?_⟩
          rintro k rfl M hM
          have := (hG (k + 1) hn).cyc g b hgb (by
            intro a ha
            rw [hzb _ (by omega)] at ha
            simp at ha)
          rw [hrow.diff k hn] at hM
          obtain rfl := Except.ok.inj hM
          change _ ∈ kerAt _ _ _ _ _ at this
          rwa [hb _ hn, hb k (by omega)] at this)
      refine ⟨T', c1, hT.trans (computeTwoPage_same c1), ?_⟩
      intro m hm
      by_cases hmn : m = n
      · subst hmn; exact c2
      · rw [computeTwoPage_reps c1 (by simp; omega)]
        exact hR m (by omega))
  refine ⟨S2, ?_, ?_⟩
  · unfold pageOneRow
    rw [bind_ok]
    refine ⟨base, hrow.run_base, ?_⟩
    rw [bind_ok]
    refine ⟨diffs, hrow.run_diffs, ?_⟩
    rw [bind_ok]
    refine ⟨out, o1, ?_⟩
    rw [bind_ok]
    exact ⟨S1, s1, t1⟩
  · intro n hn
    refine ⟨?_, ?_, ?_, ?_, ?_⟩
    · rw [t2.hom]; exact (hG n hn).dim
    · rw [t2.hom]; exact (hH n hn).bars
    · rw [t2.hom]
      by_cases hne : (S1.hom 1 n deg).basis.barcode = []
      · rw [hne]; exact List.Pairwise.nil
      · exact (hsorted n hn hne).2.1
    · rw [t2.hom]
      intro hf
      by_contra hne
      rw [(hsorted n hn hne).1] at hf
      cases hf
    · rw [t2.hom]; exact t3 n hn

theorem pageOneRow_frame {N deg : ℕ} {S S' : SSt α} (h : pageOneRow rnd E N S deg = .ok S') {k n d : ℕ}
    (hd : d ≠ deg) : S'.hom k n d = S.hom k n d ∧ S'.reps k n d = S.reps k n d := by
  obtain ⟨_, _, _, -, -, -, q⟩ := pageOneRow_written h
  refine ⟨(q.old k n d ?_).1, pageOneRow_reps h fun hc => hd hc.2⟩
  rintro ⟨-, hm⟩
  obtain ⟨_, -, hm⟩ := List.mem_map.1 hm
  exact hd (congrArg Prod.snd hm).symm

/-- All pages are computed when only the first two columns are not zero. -/
theorem allPages_thin (h : SSOK rnd E ρ) (hlen : 2 ≤ E.columns.length)
    (hNp : E.noPages ≤ E.columns.length + 1)
    (hz : ∀ n deg, 2 ≤ n → E.firstBars deg n = [])
    (hround : ∀ deg < E.rows, ∀ n m, ∀ a ∈ E.firstBars deg n, ∀ b ∈ E.firstBars deg m,
      ∀ x, x = a.1 ∨ x = a.2 → ∀ y, y = b.1 ∨ y = b.2 → rnd x ≤ rnd y → x ≤ y)
    (hgap : ∀ deg < E.rows, E.firstBars deg 0 = [] → E.firstBars deg 1 = []) :
    ∃ S, allPages rnd E E.columns.length = .ok S := by
  obtain ⟨T, t1, t2⟩ := foldlM_range_inv (pageOneRow rnd E E.columns.length)
    (fun m T => ∀ deg < m, ∀ n < E.columns.length, PosOK rnd T 1 n deg) E.rows SSt.init
    (fun deg hd => absurd hd (by omega)) (by
      intro deg hdeg T hT
      obtain ⟨T', a1, a2⟩ := pageOneRow_thin h hlen hdeg hz (hround deg hdeg) (hgap deg hdeg) T
      refine ⟨T', a1, fun d hd n hn => ?_⟩
      by_cases hdd : d = deg
      · subst hdd; exact a2 n hn
      · obtain ⟨f1, f2⟩ := pageOneRow_frame a1 (k := 1) (n := n) hdd
        exact (hT d (by omega) n hn).congr f1 f2)
  have hz1 := rows_zeroColumns hz t1
  have key : ∀ m, m + 2 ≤ E.columns.length + 1 → ∃ U,
      ((List.range m).map (· + 2)).foldlM (pageHigher rnd E E.columns.length) T = .ok U ∧ ZeroColumns U ∧
      ∀ n < E.columns.length, ∀ deg < E.rows, PosOK rnd U (m + 1) n deg := by
    intro m
    induction m with
    | zero => intro _; exact ⟨T, rfl, hz1, fun n hn deg hd => t2 deg hd n hn⟩
    | succ m ih =>
      intro hm
      obtain ⟨U, u1, u2, u3⟩ := ih (by omega)
      obtain ⟨V, v1, v2, v3⟩ := pageHigher_thin (rnd := rnd) (cp := m + 2) (N := E.columns.length) (by omega)
        (by omega) u2 u3
      refine ⟨V, ?_, v2, v3⟩
      rw [List.range_succ, List.map_append, List.foldlM_append, bind_ok]
      refine ⟨U, u1, ?_⟩
      rw [List.map_singleton, List.foldlM_cons, bind_ok]
      exact ⟨V, v1, rfl⟩
  by_cases h2 : 2 ≤ E.noPages
  · obtain ⟨U, u1, -⟩ := key (E.noPages - 2) (by omega)
    exact ⟨U, by unfold allPages; rw [bind_ok]; exact ⟨T, t1, u1⟩⟩
  · refine ⟨T, ?_⟩
    unfold allPages
    rw [bind_ok]
    refine ⟨T, t1, ?_⟩
    rw [show E.noPages - 2 = 0 by omega]
    rfl

end

end Permaviss
