import Verif.Lemmas.TwoPageTotal
import Verif.Lemmas.DegreeZero
import Verif.Props.Chains

/-!
# With one row, no page fails
-/

namespace Permaviss

open Finset

attribute [-instance] instMulZeroClassOfSemiring

section

variable {α : Type} [LinearOrder α] [Zero α] {rnd : α → α} {E : SSEnv α} {ρ : List ℕ → α}

/-- `add_output_higher` succeeds when all entries of `Hom` have been written. -/
theorem addOutputHigher_total (S : SSt α) {out : MPH α} (base : List (HomEntry α))
    (positions : List (ℕ × ℕ)) (page : ℕ)
    (h : ∀ i < positions.length, ∃ H, out.hom.getD i none = some H) :
    ∃ S', addOutputHigher S out base positions page = .ok S' ∧ S'.reps = S.reps := by
  unfold addOutputHigher
  have key : ∀ (l : List (ℕ × (ℕ × ℕ))) (S : SSt α), (∀ x ∈ l, ∃ H, out.hom.getD x.1 none = some H) →
      ∃ S', l.foldlM (fun (S : SSt α) x =>
        match out.hom.getD x.1 none with
        | none => (Except.error PyErr.attributeError : Except PyErr (SSt α))
        | some h => Except.ok
          { S with
            hom := upd S.hom page x.2.1 x.2.2 ⟨h, prevOf base x.1⟩
            im := upd S.im page x.2.1 x.2.2 (out.im.getD x.1 none)
            preIm := upd S.preIm page x.2.1 x.2.2 (out.preIm.getD x.1 none) }) S = .ok S' ∧
        S'.reps = S.reps := by
    intro l
    induction l with
    | nil => intro S _; exact ⟨S, rfl, rfl⟩
    | cons y l ih =>
      intro S hl
      obtain ⟨H, hH⟩ := hl y (by simp)
      obtain ⟨S', s1, s2⟩ := ih { S with
            hom := upd S.hom page y.2.1 y.2.2 ⟨H, prevOf base y.1⟩
            im := upd S.im page y.2.1 y.2.2 (out.im.getD y.1 none)
            preIm := upd S.preIm page y.2.1 y.2.2 (out.preIm.getD y.1 none) }
        (fun x hx => hl x (List.mem_cons_of_mem _ hx))
      refine ⟨S', ?_, s2⟩
      rw [List.foldlM_cons, bind_ok]
      exact ⟨_, by rw [hH], s1⟩
  exact key _ S fun x hx => h x.1 (List.mem_range.1 (List.of_mem_zip hx).1)

/-- An entry of the second page whose representatives can be combined. -/
structure RepsOK (S : SSt α) (n deg : ℕ) : Prop where
  dim : (S.hom 1 n deg).basis.dim = (S.hom 1 n deg).basis.barcode.length
  bars : ∀ b ∈ (S.hom 1 n deg).basis.barcode, b.1 < b.2
  reps : (S.hom 1 n deg).basis.dim ≠ 0 → ∀ C ∈ S.reps 1 n deg,
    (∃ ws, C.WF ws) ∧ ∀ e ∈ C, ∀ g ∈ e.ref, g < (S.hom 1 n deg).basis.dim

theorem homRank_unborn {p : ℕ} (hp : p.Prime) {D : List Mat} {Base : List (Basis α)} {d : ℕ} {s t : α}
    (h : ∀ i, ¬ AliveBar (barsAt Base d) i s) : homRank p D Base d s t = 0 := by
  have := Fact.mk hp
  have e : modCycles p D Base d s = ⊥ := by
    cases d with
    | zero =>
      change barModule p _ s = ⊥
      unfold barModule
      rw [LinearMap.range_eq_bot]
      ext x i
      exact restr_apply_neg (h i)
    | succ d => exact kerAt_bot h
  unfold homRank quotRank
  rw [e, Submodule.map_bot]
  exact finrank_bot _ _

/-- A row of the first page whose bars are all born at the same radius. -/
theorem pageOneRow_total (h : SSOK rnd E ρ) (hlen : 0 < E.columns.length) {deg : ℕ} (hdeg : deg < E.rows)
    (hround : ∀ n m, ∀ a ∈ E.firstBars deg n, ∀ b ∈ E.firstBars deg m,
      ∀ x, x = a.1 ∨ x = a.2 → ∀ y, y = b.1 ∨ y = b.2 → rnd x ≤ rnd y → x ≤ y)
    (hgap : ∀ n, n + 1 < E.columns.length → E.firstBars deg n = [] → E.firstBars deg (n + 1) = [])
    {z : α} (hz : ∀ n < E.columns.length, ∀ a ∈ E.firstBars deg n, a.1 = z) (S : SSt α) :
    ∃ S', pageOneRow rnd E E.columns.length S deg = .ok S' ∧
      ∀ n < E.columns.length, RepsOK S' n deg := by
  have := Fact.mk h.prime
  obtain ⟨base, diffs, hrow⟩ := row_input h hlen hdeg hround
  have hb : ∀ n, n < E.columns.length → barsAt base n = E.firstBars deg n := by
    intro n hn
    rw [hrow.bars, if_pos hn]
  have hgap' : ∀ n, barsAt base n = [] → barsAt base (n + 1) = [] := by
    intro n h0
    by_cases hn : n + 1 < E.columns.length
    · rw [hb _ hn]
      rw [hb _ (by omega)] at h0
      exact hgap n hn h0
    · rw [hrow.bars, if_neg hn]
  obtain ⟨out, o1, o2, o3, o4⟩ := mph_good hrow.input (fun n h0 hne => absurd (hgap' n h0) hne)
  rw [hrow.len] at o4 o2
  obtain ⟨S1, s1, -⟩ := addOutputHigher_total S (out := out) (base.map fun b => ⟨b, none⟩)
    ((List.range E.columns.length).map fun n => (n, deg)) 1 (by
      intro i hi
      rw [List.length_map, List.length_range] at hi
      obtain ⟨⟨H, e, -⟩, -⟩ := o4 i hi
      exact ⟨H, by rw [List.getD_eq_getElem?_getD, e]; rfl⟩)
  have hW := addOutputHigher_written (by
    exact List.nodup_range.map fun a b h => (Prod.mk.inj h).1) s1
  -- the entries of the second page
  have hH : ∀ n < E.columns.length, HomGood E.p (⟨0, []⟩ :: diffs) base n (S1.hom 1 n deg).basis := by
    intro n hn
    obtain ⟨⟨H, e, hg⟩, -⟩ := o4 n hn
    obtain ⟨H', e1, e2, -⟩ := hW.new n (n, deg) (by
      rw [List.getElem?_map, List.getElem?_eq_getElem (by simpa using hn)]; simp)
    rw [List.getD_eq_getElem?_getD, e] at e1
    obtain rfl := Option.some.inj e1
    rw [e2]
    exact hg
  have hG : ∀ n < E.columns.length, HomGens E.p (⟨0, []⟩ :: diffs) base n (S1.hom 1 n deg).basis := by
    intro n hn
    refine (hH n hn).gens fun hne h0 he => hne ?_
    have := hgap' _ he
    rwa [Nat.sub_add_cancel (by omega)] at this
  -- bars
  have hborn : ∀ n < E.columns.length, ∀ b ∈ (S1.hom 1 n deg).basis.barcode,
      E.firstBars deg n ≠ [] ∧ z ≤ b.1 ∧ b.1 < E.maxR := by
    intro n hn b hbm
    have hc := (hH n hn).count b.1 b.1 le_rfl
    have hpos := (barsThrough_pos (bars := (S1.hom 1 n deg).basis.barcode)
          (s := b.1) (t := b.1)).2 ⟨b, hbm, le_rfl, (hH n hn).bars b hbm⟩
    have hal : ∃ i, AliveBar (barsAt base n) i b.1 := by
      by_contra hno
      push Not at hno
      rw [homRank_unborn h.prime hno] at hc
      omega
    obtain ⟨i, c, hc, hc1, hc2⟩ := hal
    rw [hb n hn] at hc
    have hm := List.mem_of_getElem? hc
    refine ⟨List.ne_nil_of_mem hm, ?_, ?_⟩
    · rw [← hz n hn c hm]; exact hc1
    · exact hc2.trans_le (h.firstBars_lt hn hdeg c hm).2
  obtain ⟨S2, t1, t2, t3⟩ := foldlM_range_inv (fun S n => computeTwoPage E S n deg)
    (fun m T => S1.SameHom T ∧ ∀ n < m, ((S1.hom 1 n deg).basis.dim ≠ 0 → ∀ C ∈ T.reps 1 n deg,
      (∃ ws, C.WF ws) ∧ ∀ e ∈ C, ∀ g ∈ e.ref, g < (S1.hom 1 n deg).basis.dim))
    E.columns.length S1 ⟨.refl _, fun n hn => absurd hn (by omega)⟩ (by
      rintro n hn T ⟨hT, hR⟩
      obtain ⟨T', c1, c2⟩ := computeTwoPage_total h hn hdeg (S := T) (H := (S1.hom 1 n deg).basis)
        (by rw [hT.hom]) (hG n hn).dim (by
          intro hne
          obtain ⟨b, hbm⟩ := List.exists_mem_of_ne_nil _ hne
          exact (hborn n hn b hbm).1) (by
          intro hne
          have := (hG n hn).mat hne
          rwa [hb n hn] at this) (by
          intro g b hgb
          have hbm := List.mem_of_getElem? hgb
          obtain ⟨b1, b2, b3⟩ := hborn n hn b hbm
          refine ⟨b3, ?_, ?_⟩
          · intro i hi
            have hm := (hG n hn).mat (List.ne_nil_of_mem hbm)
            rw [hb n hn] at hm
            have hil : i < (E.firstBars deg n).length := by
              by_contra hc
              apply hi
              change zv _ _ _ = 0
              unfold zv
              rw [getD_eq_zero_of_le _ (by
                rw [hm.len _ (getD_mem' (by
                  rw [hm.ncols]; exact (List.getElem?_eq_some_iff.1 hgb).1))]
                omega), Int.cast_zero]
            refine ⟨_, List.getElem?_eq_getElem hil, ?_⟩
            rw [hz n hn _ (List.getElem_mem hil)]
            exact b2
          · rintro k rfl M hM
            have := (hG (k + 1) hn).cyc g b hgb (by
              intro a ha
              by_cases hn' : k + 1 + 1 < E.columns.length
              · rw [hb _ hn'] at ha
                rw [hz _ hn' a ha]; exact b2
              · rw [hrow.bars, if_neg hn'] at ha
                simp at ha)
            rw [hrow.diff k hn] at hM
            obtain rfl := Except.ok.inj hM
            change _ ∈ kerAt _ _ _ _ _ at this
            rwa [hb _ hn, hb k (by omega)] at this)
      refine ⟨T', c1, hT.trans (computeTwoPage_same c1), ?_⟩
      intro m hm
      by_cases hmn : m = n
      · subst hmn; exact c2
      · rw [computeTwoPage_reps c1 (by simp; omega)]
        exact hR m (by omega))
  refine ⟨S2, ?_, ?_⟩
  · unfold pageOneRow
    rw [bind_ok]
    refine ⟨base, hrow.run_base, ?_⟩
    rw [bind_ok]
    refine ⟨diffs, hrow.run_diffs, ?_⟩
    rw [bind_ok]
    refine ⟨out, o1, ?_⟩
    rw [bind_ok]
    exact ⟨S1, s1, t1⟩
  · intro n hn
    refine ⟨?_, ?_, ?_⟩
    · rw [t2.hom]; exact (hG n hn).dim
    · rw [t2.hom]; exact (hH n hn).bars
    · rw [t2.hom]; exact t3 n hn

/-- The homology of a single module. -/
theorem mph_single_total {p : ℕ} {D : List Mat} {B : Basis α} (hd : B.dim = B.barcode.length)
    (hB : ∀ b ∈ B.barcode, b.1 < b.2) :
    ∃ out H, modulePersistenceHomology rnd p D [B] = .ok out ∧ out.hom.getD 0 none = some H ∧
      (B.dim = 0 → H.dim = 0) ∧ (B.dim ≠ 0 → H.coords.nrows = B.dim) := by
  unfold modulePersistenceHomology
  simp only [List.length_singleton, Nat.sub_self, List.getElem?_cons_zero, List.range_zero, List.map_nil,
    List.foldlM_nil, List.replicate_one, List.set_cons_zero]
  unfold mphZero
  by_cases h0 : B.dim = 0
  · refine ⟨⟨[some B], [some (emptyBasis B)], [none]⟩, B, ?_, rfl, fun _ => h0, fun hc => absurd h0 hc⟩
    rw [bind_ok]
    refine ⟨_, rfl, ?_⟩
    simp [h0]
  · obtain ⟨b0, b1, order, idx, f1, -, f3, f4, f5, f6, -⟩ :=
      build_sort rnd (raw := B.barcode) (m := B.dim)
        (M := ⟨B.dim, identityCols B.dim⟩) (sw := false) rfl
        (by simp [Mat.ncols, identityCols, hd]) (fun e => by cases e)
    have hinit : Basis.init B.barcode B.flat (some B.dim) ⟨B.dim, identityCols B.dim⟩ false false none =
        .ok b0 := by
      rw [← f1]
      have hne : B.barcode.isEmpty = false := by
        cases hb : B.barcode with
        | nil => rw [hb] at hd; exact absurd hd h0
        | cons => rfl
      unfold Basis.init
      simp [hne]
    refine ⟨⟨[some b1], [some (emptyBasis B)], [none]⟩, b1, ?_, rfl, fun hc => absurd hc h0, fun _ => by rw [f6]⟩
    rw [bind_ok]
    refine ⟨_, rfl, ?_⟩
    simp only [List.getElem?_cons_zero]
    rw [if_neg h0, hinit, ok_bind, f3, ok_bind]
    unfold quotient
    rw [if_pos (show (emptyBasis B).dim = 0 from rfl)]
    rfl

theorem sweep_single {cp N n : ℕ} (hcp : 2 ≤ cp) (hN : 0 < N) : sweep cp N N n 0 = [(n, 0)] := by
  obtain ⟨N, rfl⟩ : ∃ M, N = M + 1 := ⟨N - 1, by omega⟩
  unfold sweep
  rw [if_neg (by omega)]

/-- The second page, with one row. -/
theorem pageSequence_total {N n : ℕ} (hN : 0 < N) (hn : n < 2) {S : SSt α} (hS : RepsOK S n 0) :
    ∃ S', pageSequence rnd E N 2 S (n, 0) = .ok S' ∧
      ∀ m, S'.hom 1 m 0 = S.hom 1 m 0 ∧ S'.reps 1 m 0 = S.reps 1 m 0 := by
  obtain ⟨out, H, o1, o2, o3, o4⟩ := mph_single_total (rnd := rnd) (p := E.p) (D := [⟨0, []⟩]) hS.dim hS.bars
  obtain ⟨S1, s1, s2⟩ := addOutputHigher_total S (out := out) [S.hom 1 n 0] [(n, 0)] 2 (by
    intro i hi
    have : i = 0 := by simpa using hi
    subst this
    exact ⟨H, o2⟩)
  have hW := addOutputHigher_written (by simp) s1
  obtain ⟨H', e1, e2, -⟩ := hW.new 0 (n, 0) rfl
  rw [o2] at e1
  obtain rfl := Option.some.inj e1
  have hold : ∀ m, S1.hom 1 m 0 = S.hom 1 m 0 := fun m => (hW.old 1 m 0 (by omega)).1
  have hrun : ∃ S', computeHigher rnd E S1 n 0 2 = .ok S' ∧ ∀ m, S'.reps 1 m 0 = S1.reps 1 m 0 := by
    unfold computeHigher
    rw [e2]
    dsimp only
    by_cases h0 : H.dim = 0
    · rw [if_pos h0]
      exact ⟨_, rfl, fun m => by simp [upd]⟩
    · rw [if_neg h0]
      have hB0 : (S.hom 1 n 0).basis.dim ≠ 0 := fun hc => h0 (o3 hc)
      obtain ⟨tot, ht⟩ := mapM_ok_of (xs := S1.reps 1 n 0) (f := fun C : LChains => C.sums H.coords.cols H.coords.nrows) (by
        intro C hC
        rw [s2] at hC
        obtain ⟨⟨ws, w1⟩, w2⟩ := hS.reps hB0 C hC
        obtain ⟨X, hX, -⟩ := C44_sums w1 (nexp := H.coords.nrows) (by rw [o4 hB0]; exact w2) H.coords.cols
        exact ⟨X, hX⟩)
      refine ⟨{ S1 with reps := upd S1.reps 2 n 0 tot }, ?_, fun m => by simp [upd]⟩
      rw [bind_ok]
      refine ⟨tot, ht, ?_⟩
      rw [if_pos hn]
      rfl
  obtain ⟨S2, t1, t2⟩ := hrun
  refine ⟨S2, ?_, ?_⟩
  · unfold pageSequence
    rw [sweep_single le_rfl hN]
    simp only [List.map_cons, List.map_nil, List.tail_cons]
    rw [bind_ok]
    refine ⟨[], rfl, ?_⟩
    rw [bind_ok]
    refine ⟨out, o1, ?_⟩
    rw [bind_ok]
    refine ⟨S1, s1, ?_⟩
    rw [List.foldlM_cons, bind_ok]
    exact ⟨S2, t1, rfl⟩
  · intro m
    rw [t2, s2, (computeHigher_same t1).hom, hold]
    exact ⟨rfl, rfl⟩

/-- With one row and at most three pages, all pages are computed. -/
theorem allPages_total (h : SSOK rnd E ρ) (hlen : 2 ≤ E.columns.length) (hrows : E.rows = 1)
    (hpages : E.noPages ≤ 3)
    (hround : ∀ n m, ∀ a ∈ E.firstBars 0 n, ∀ b ∈ E.firstBars 0 m,
      ∀ x, x = a.1 ∨ x = a.2 → ∀ y, y = b.1 ∨ y = b.2 → rnd x ≤ rnd y → x ≤ y)
    (hgap : ∀ n, n + 1 < E.columns.length → E.firstBars 0 n = [] → E.firstBars 0 (n + 1) = [])
    {z : α} (hz : ∀ n < E.columns.length, ∀ a ∈ E.firstBars 0 n, a.1 = z) :
    ∃ S, allPages rnd E E.columns.length = .ok S := by
  obtain ⟨S1, s1, s2⟩ := pageOneRow_total h (by omega) (by omega) hround hgap hz SSt.init
  unfold allPages
  rw [hrows]
  simp only [List.range_one, List.foldlM_cons, List.foldlM_nil]
  rw [s1, ok_bind]
  change ∃ S, List.foldlM _ S1 _ = Except.ok S
  by_cases h3 : E.noPages = 3
  · obtain ⟨T1, t1, t2⟩ := pageSequence_total (rnd := rnd) (E := E) (N := E.columns.length) (n := 0)
      (by omega) (by omega) (s2 0 (by omega))
    have r1 : RepsOK T1 1 0 := by
      have r := s2 1 (by omega)
      obtain ⟨e1, e2⟩ := t2 1
      refine ⟨?_, ?_, ?_⟩
      · rw [e1]; exact r.dim
      · rw [e1]; exact r.bars
      · rw [e1, e2]; exact r.reps
    obtain ⟨T2, u1, -⟩ := pageSequence_total (rnd := rnd) (E := E) (N := E.columns.length) (n := 1)
      (by omega) (by omega) r1
    refine ⟨T2, ?_⟩
    rw [h3]
    change List.foldlM _ S1 [2] = _
    rw [List.foldlM_cons, bind_ok]
    refine ⟨T2, ?_, rfl⟩
    unfold pageHigher
    rw [hrows]
    change List.foldlM _ S1 [(0, 0), (1, 0)] = _
    rw [List.foldlM_cons, bind_ok]
    refine ⟨T1, t1, ?_⟩
    rw [List.foldlM_cons, bind_ok]
    exact ⟨T2, u1, rfl⟩
  · have : E.noPages - 2 = 0 := by omega
    rw [this]
    exact ⟨S1, rfl⟩

end

end Permaviss
