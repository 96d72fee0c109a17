import Verif.Lemmas.ThinFull
import Verif.Lemmas.ThinStep
import Verif.Lemmas.StripExt
import Verif.Lemmas.StripPos

/-!
# `extension` does not fail
-/

namespace Permaviss

open Finset

attribute [-instance] instMulZeroClassOfSemiring

section

variable {α : Type} [LinearOrder α] [Zero α] {rnd : α → α} {E : SSEnv α} {ρ : List ℕ → α}

/-- The family of chains `f` is homologous, at `d`, to the classes with coordinates `x`. -/
def HasClass (E : SSEnv α) (ρ : List ℕ → α) (n deg : ℕ) (d : α) (f : ℕ → ℕ → ZMod E.p)
    (x : ℕ → ZMod E.p) : Prop :=
  E.BornBy n deg x d ∧ ∃ w : ℕ → ℕ → ZMod E.p, ∀ k < E.spx n, E.PresentAt ρ n k (deg + 1) (w k) d ∧
    f k = E.bd n k (deg + 1) (w k) + E.fam n deg k x

theorem HasClass.unique (h : SSOK rnd E ρ) {n deg : ℕ} (hn : n < E.columns.length) (hdeg : deg < E.rows)
    {d : α} (hd : d < E.maxR) {f : ℕ → ℕ → ZMod E.p} {x y : ℕ → ZMod E.p}
    (hx : HasClass E ρ n deg d f x) (hy : HasClass E ρ n deg d f y) :
    barRestr E.p (E.firstBars deg n) d x = barRestr E.p (E.firstBars deg n) d y := by
  obtain ⟨bx, w, hw⟩ := hx
  obtain ⟨by', w', hw'⟩ := hy
  have := fam_dead h hn hdeg hd (BornBy.sub bx by') (w := fun k => w' k - w k) (by
    intro k hk
    refine ⟨PresentAt.sub (hw' k hk).1 (hw k hk).1, ?_⟩
    have e := (hw k hk).2.symm.trans (hw' k hk).2
    rw [map_sub, map_sub, sub_eq_sub_iff_add_eq_add, add_comm, e, add_comm])
  rwa [map_sub, sub_eq_zero] at this

theorem HasClass.sub_fam {n deg : ℕ} {d : α} {f : ℕ → ℕ → ZMod E.p} {x g : ℕ → ZMod E.p}
    (hx : HasClass E ρ n deg d f x) (hg : E.BornBy n deg g d) :
    HasClass E ρ n deg d (fun k => f k - E.fam n deg k g) (x - g) := by
  obtain ⟨bx, w, hw⟩ := hx
  refine ⟨BornBy.sub bx hg, w, fun k hk => ⟨(hw k hk).1, ?_⟩⟩
  dsimp only
  rw [(hw k hk).2, map_sub, add_sub_assoc]

theorem HasClass.congr {n deg : ℕ} {d : α} {f f' : ℕ → ℕ → ZMod E.p} {x : ℕ → ZMod E.p}
    (hx : HasClass E ρ n deg d f x) (h : ∀ k < E.spx n, f k = f' k) : HasClass E ρ n deg d f' x := by
  obtain ⟨bx, w, hw⟩ := hx
  exact ⟨bx, w, fun k hk => ⟨(hw k hk).1, by rw [← h k hk]; exact (hw k hk).2⟩⟩

/-- The chains `C` which one round of `extension` works on: one row for each death. -/
structure ExtRows (E : SSEnv α) (ρ : List ℕ → α) (n deg : ℕ) (deaths : List α) (f : ℕ → ℕ → ℕ → ZMod E.p)
    (C : LChains) : Prop where
  chain : ChainIs E n deg deaths.length f C
  full : FullRefs deaths.length C
  zero : ∀ j d, deaths[j]? = some d → ¬ d < E.maxR → ∀ k < E.spx n, f k j = 0
  cyc : ∀ j d, deaths[j]? = some d → d < E.maxR → ∀ k < E.spx n,
    E.PresentAt ρ n k deg (f k j) d ∧ E.bd n k deg (f k j) = 0

/-- What `first_page_lift` makes of them. -/
structure ExtLift (E : SSEnv α) (ρ : List ℕ → α) (n deg : ℕ) (deaths : List α) (f : ℕ → ℕ → ℕ → ZMod E.p)
    (out : List (List ℤ) × LChains) : Prop where
  len : out.1.length = deaths.length
  width : ∀ c ∈ out.1, c.length = (E.firstBars deg n).length
  red : ∀ c ∈ out.1, RedL E.p c
  wf : out.2.WF (E.widths n (deg + 1))
  refs : ∀ e ∈ out.2, ∀ g ∈ e.ref, g < deaths.length
  full : FullRefs deaths.length out.2
  zero : ∀ j d, deaths[j]? = some d → ¬ d < E.maxR → zv E.p (out.1.getD j []) = 0 ∧
    ∀ k < E.spx n, (fun i => (out.2.val k j i : ZMod E.p)) = 0
  cls : ∀ j d, deaths[j]? = some d → d < E.maxR → E.BornBy n deg (zv E.p (out.1.getD j [])) d ∧
    ∀ k < E.spx n, E.PresentAt ρ n k (deg + 1) (fun i => (out.2.val k j i : ZMod E.p)) d ∧
      f k j = E.bd n k (deg + 1) (fun i => (out.2.val k j i : ZMod E.p)) +
        E.fam n deg k (zv E.p (out.1.getD j []))
  dead : ∀ j d, deaths[j]? = some d → d < E.maxR →
    barRestr E.p (E.firstBars deg n) d (zv E.p (out.1.getD j [])) = 0 → zv E.p (out.1.getD j []) = 0

theorem ExtLift.hasClass {n deg : ℕ} {deaths : List α} {f : ℕ → ℕ → ℕ → ZMod E.p}
    {out : List (List ℤ) × LChains} (h : ExtLift E ρ n deg deaths f out) {j : ℕ} {d : α}
    (hj : deaths[j]? = some d) (hd : d < E.maxR) :
    HasClass E ρ n deg d (fun k => f k j) (zv E.p (out.1.getD j [])) :=
  ⟨(h.cls j d hj hd).1, fun k i => (out.2.val k j i : ZMod E.p), (h.cls j d hj hd).2⟩

theorem ExtRows.lift (h : SSOK rnd E ρ) {n deg : ℕ} (hn : n < E.columns.length) (hpos : 0 < E.spx n)
    (hdeg : deg < E.rows) {deaths : List α} {f : ℕ → ℕ → ℕ → ZMod E.p} {C : LChains}
    (R : ExtRows E ρ n deg deaths f C) :
    ∃ out, firstPageLift E n deg C deaths = .ok out ∧ ExtLift E ρ n deg deaths f out := by
  have hlt : ∀ {j : ℕ} {d : α}, deaths[j]? = some d → j < deaths.length := fun hj =>
    (List.getElem?_eq_some_iff.1 hj).1
  have hz : ∀ j d, deaths[j]? = some d → ¬ d < E.maxR →
      ∀ l < E.spx n, (fun i => (C.val l j i : ZMod E.p)) = 0 := by
    intro j d hj hd l hl
    rw [R.chain.val l hl j (hlt hj), R.zero j d hj hd l hl]
  have hc : ∀ j d, deaths[j]? = some d → d < E.maxR → ∀ l < E.spx n,
      E.PresentAt ρ n l deg (fun i => (C.val l j i : ZMod E.p)) d ∧
        E.bd n l deg (fun i => (C.val l j i : ZMod E.p)) = 0 := by
    intro j d hj hd l hl
    rw [R.chain.val l hl j (hlt hj)]
    exact R.cyc j d hj hd l hl
  obtain ⟨out, ho, G⟩ := firstPageLift_total h hn hpos hdeg R.chain.wf R.chain.refs (by
    intro j d hj
    by_cases hd : d < E.maxR
    · exact Or.inr ⟨hd, hc j d hj hd⟩
    · exact Or.inl (hz j d hj hd))
  obtain ⟨o1, o2, o3, o4, o5⟩ := firstPageLift_spec h hn hpos hdeg R.chain.wf R.chain.refs ho
  refine ⟨out, ho, ⟨o1, ?_, fun c hc => (o2 c hc).2, o3, o4, G.full (by rw [o3.length, widths_length]) R.full,
    fun j d hj hd => G.zero j (hlt hj) (hz j d hj hd), ?_, ?_⟩⟩
  · intro c hc
    rw [(o2 c hc).1, h.firstBars_length' hn hdeg, h.pageOne_eq hn hdeg]
  · intro j d hj hd
    obtain ⟨q1, q2⟩ := o5 j d hj hd (hc j d hj hd)
    refine ⟨q1, fun k hk => ⟨(q2 k hk).1, ?_⟩⟩
    rw [← (q2 k hk).2, R.chain.val k hk j (hlt hj)]
  · intro j d hj hd h0
    obtain ⟨q1, -⟩ := o5 j d hj hd (hc j d hj hd)
    funext i
    by_contra hne
    obtain ⟨b, hb, hb1⟩ := q1 i hne
    rcases lt_or_ge d b.2 with hb2 | hb2
    · have := congrFun h0 i
      rw [barRestr, restr_apply_pos ⟨b, hb, hb1, hb2⟩] at this
      exact hne this
    · exact hne (G.alive j d hj hd i b hb hb2)

theorem Comb.neg {p : ℕ} {I : Basis α} {d : α} {g : ℕ → ZMod p} (h : Comb p I d g) : Comb p I d (-g) := by
  obtain ⟨γ, h1, rfl⟩ := h
  refine ⟨-γ, fun i hi => by rw [Pi.neg_apply, h1 i hi, neg_zero], ?_⟩
  rw [← Finset.sum_neg_distrib]
  exact Finset.sum_congr rfl fun i _ => by rw [Pi.neg_apply, neg_smul]

theorem Comb.sub {p : ℕ} {I : Basis α} {d : α} {g g' : ℕ → ZMod p} (h : Comb p I d g) (h' : Comb p I d g') :
    Comb p I d (g - g') := by
  rw [sub_eq_add_neg]; exact h.add h'.neg

/-- What is needed of a position for the loop of `extension`. -/
structure ExtPos (E : SSEnv α) (S : SSt α) (n deg : ℕ) (H I : Basis α) : Prop where
  pos : LiftPos E S n deg (E.firstBars deg n) H I
  indep : ∀ d (β g : ℕ → ZMod E.p), (∀ i, ¬ AliveBar H.barcode i d → β i = 0) → Comb E.p I d g →
    barRestr E.p (E.firstBars deg n) d (∑ i ∈ range H.dim, β i • H.coords.zcol E.p i) =
      barRestr E.p (E.firstBars deg n) d g → ∀ i, β i = 0
  skip : H.dim = 0 → ∀ d g, Comb E.p I d g → barRestr E.p (E.firstBars deg n) d g = 0
  bornH : ∀ i b, H.barcode[i]? = some b → E.BornBy n deg (H.coords.zcol E.p i) b.1
  bornI : ∀ i b, I.barcode[i]? = some b → E.BornBy n deg (I.coords.zcol E.p i) b.1
  le : ∀ b ∈ E.firstBars deg n, b.2 ≤ E.maxR
  leH : ∀ b ∈ H.barcode, b.2 ≤ E.maxR

theorem ExtPos.ne {S : SSt α} {n deg : ℕ} {H I : Basis α} (hp : E.p.Prime) (P : ExtPos E S n deg H I) :
    H.dim ≠ 0 → E.firstBars deg n ≠ [] := by
  intro hH h0
  have hl : 0 < H.barcode.length := by rw [← P.pos.liftH.dim]; omega
  have := Fact.mk hp
  have hz := P.indep H.barcode[0].1 (Pi.single 0 1) 0 (by
    intro i hi
    rw [Pi.single_apply, if_neg]
    rintro rfl
    exact hi ⟨_, List.getElem?_eq_getElem hl, le_rfl, P.pos.wfH _ (List.getElem_mem hl)⟩) Comb.zero (by
    funext i
    rw [barRestr, restr_apply_neg, restr_apply_neg]
    all_goals
      rw [h0]
      rintro ⟨b, hb, -⟩
      simp at hb) 0
  rw [Pi.single_eq_same] at hz
  exact one_ne_zero hz

/-- One round over the pages succeeds. -/
theorem extRound_total (h : SSOK rnd E ρ) {S : SSt α} {n deg t : ℕ} (hn : n < E.columns.length)
    (hpos : 0 < E.spx n) (hdeg : deg < E.rows) {H I : Basis α} (P : ExtPos E S n deg H I) (ht : 2 ≤ t)
    (htp : t ≤ E.noPages) {deaths : List α} {C : LChains} {f : ℕ → ℕ → ℕ → ZMod E.p}
    (R : ExtRows E ρ n deg deaths f C)
    (hcls : ∀ j d, deaths[j]? = some d → d < E.maxR → ∃ x g, HasClass E ρ n deg d (fun k => f k j) x ∧
      Comb E.p I d g ∧ barRestr E.p (E.firstBars deg n) d x = barRestr E.p (E.firstBars deg n) d g) :
    ∃ X, extRound rnd E S n deg deaths C t = .ok X ∧ (t ≠ 2 → X = C) ∧
      (t = 2 → ∃ f', ExtRows E ρ n deg deaths f' X ∧
        ∀ j d, deaths[j]? = some d → d < E.maxR → ∃ x, HasClass E ρ n deg d (fun k => f' k j) x ∧
          barRestr E.p (E.firstBars deg n) d x = 0) := by
  obtain ⟨out, ho, L⟩ := R.lift h hn hpos hdeg
  have hrow : ∀ j d, deaths[j]? = some d → d < E.maxR → ∃ g, Comb E.p I d g ∧
      barRestr E.p (E.firstBars deg n) d (zv E.p (out.1.getD j [])) =
        barRestr E.p (E.firstBars deg n) d g := by
    intro j d hj hd
    obtain ⟨x, g, h1, h2, h3⟩ := hcls j d hj hd
    exact ⟨g, h2, ((L.hasClass hj hd).unique h hn hdeg hd h1).trans h3⟩
  have hget : ∀ j < deaths.length, (deaths.map fun d => (d, E.maxR))[j]? = some (deaths.getD j 0, E.maxR) ∧
      deaths[j]? = some (deaths.getD j 0) := by
    intro j hj
    have e : deaths[j]? = some (deaths.getD j 0) := by
      rw [List.getD_eq_getElem?_getD, List.getElem?_eq_getElem hj]; rfl
    rw [List.getElem?_map, e]
    exact ⟨rfl, rfl⟩
  obtain ⟨lo, hlo⟩ := liftToPage_total (rnd := rnd) (bars := deaths.map fun d => (d, E.maxR)) h.prime P.pos
    (P.ne h.prime) ht htp L.red L.width (by
      intro _ j hj
      rw [L.len] at hj
      obtain ⟨e1, e2⟩ := hget j hj
      refine ⟨_, e1, ?_⟩
      by_cases hd : deaths.getD j 0 < E.maxR
      · obtain ⟨g, ⟨γ, h1, rfl⟩, h2⟩ := hrow j _ e2 hd
        exact ⟨γ, 0, h1, fun _ _ => rfl, by simpa using h2⟩
      · refine ⟨0, 0, fun _ _ => rfl, fun _ _ => rfl, ?_⟩
        rw [(L.zero j _ e2 hd).1]; simp)
  unfold extRound
  rw [ho, ok_bind, hlo, ok_bind]
  have hspec := liftToPage_spec h.prime P.pos ht htp L.red hlo
  -- nothing happens
  have triv : (∀ j d, deaths[j]? = some d → d < E.maxR →
      barRestr E.p (E.firstBars deg n) d (zv E.p (out.1.getD j [])) = 0) →
      ∃ f', ExtRows E ρ n deg deaths f' C ∧
        ∀ j d, deaths[j]? = some d → d < E.maxR → ∃ x, HasClass E ρ n deg d (fun k => f' k j) x ∧
          barRestr E.p (E.firstBars deg n) d x = 0 := fun h0 =>
    ⟨f, R, fun j d hj hd => ⟨_, L.hasClass hj hd, h0 j d hj hd⟩⟩
  rcases hspec with ⟨hH, rfl⟩ | ⟨hH, β, γ, γ', rfl, hβ, hγ', h2, hn2, hrel⟩
  · refine ⟨C, rfl, fun _ => rfl, fun _ => triv ?_⟩
    intro j d hj hd
    obtain ⟨g, h1, h2⟩ := hrow j d hj hd
    rw [h2, P.skip hH d g h1]
  rw [L.len] at hβ hγ'
  have hrel' : ∀ j d, deaths[j]? = some d →
      ((∀ i, ¬ AliveBar (E.firstBars deg n) i d) → ∀ i, γ'.zcol E.p j i = 0) ∧
      (∀ i, ¬ AliveBar H.barcode i d → β.zcol E.p j i = 0) ∧
      (∀ i, ¬ AliveBar I.barcode i d → γ'.zcol E.p j i = 0) ∧
      barRestr E.p (E.firstBars deg n) d (zv E.p (out.1.getD j [])) = barRestr E.p (E.firstBars deg n) d
        (∑ i ∈ range I.dim, γ'.zcol E.p j i • I.coords.zcol E.p i +
          ∑ i ∈ range H.dim, β.zcol E.p j i • H.coords.zcol E.p i) := by
    intro j d hj
    have hjl : j < deaths.length := (List.getElem?_eq_some_iff.1 hj).1
    obtain ⟨b, hb, h3⟩ := hrel j (by rw [L.len]; exact hjl)
    rw [List.getElem?_map, hj] at hb
    obtain rfl : (d, E.maxR) = b := Option.some.inj hb
    exact h3
  have hβ0 : ∀ j d, deaths[j]? = some d → ∀ i, β.zcol E.p j i = 0 := by
    intro j d hj
    obtain ⟨-, r2, r3, r4⟩ := hrel' j d hj
    have hγc : Comb E.p I d (∑ i ∈ range I.dim, γ'.zcol E.p j i • I.coords.zcol E.p i) := ⟨_, r3, rfl⟩
    by_cases hd : d < E.maxR
    · obtain ⟨g, hg, hg'⟩ := hrow j d hj hd
      refine P.indep d _ _ r2 (hg.sub hγc) ?_
      rw [map_sub, ← hg', r4, map_add, add_sub_cancel_left]
    · intro i
      exact r2 i (no_alive_end P.leH hd i)
  have hanyβ : anyRows β.cols = false := by
    refine anyRows_of_zv h.prime.pos hβ.red fun j hj => ?_
    funext i
    exact hβ0 j _ (hget j (by rw [← hβ.ncols]; exact hj)).2 i
  dsimp only
  rw [if_neg (by rw [hanyβ]; simp)]
  have hrow0 : (∀ j d, deaths[j]? = some d → ∀ i, γ'.zcol E.p j i = 0) → ∀ j d, deaths[j]? = some d → d < E.maxR →
      barRestr E.p (E.firstBars deg n) d (zv E.p (out.1.getD j [])) = 0 := by
    intro h0 j d hj hd
    obtain ⟨-, -, -, r4⟩ := hrel' j d hj
    rw [r4, Finset.sum_eq_zero (fun i _ => by rw [h0 j d hj i, zero_smul]),
      Finset.sum_eq_zero (fun i _ => by rw [hβ0 j d hj i, zero_smul]), add_zero, map_zero]
  by_cases hany : anyRows γ.cols = true
  swap
  · rw [if_pos (by simpa using hany)]
    refine ⟨C, rfl, fun _ => rfl, fun ht2 => triv (hrow0 ?_)⟩
    obtain rfl := h2 ht2
    intro j d _ i
    exact congrFun (anyRows_zv (p := E.p) (by simpa using hany) j) i
  rw [if_neg (by rw [hany]; simp)]
  have ht2 : t = 2 := by
    by_contra ht2
    rw [anyRows_false.2 fun c hc i => by rw [hn2 ht2 c hc]; rfl] at hany
    cases hany
  obtain rfl := h2 ht2
  subst ht2
  rw [show (2 : ℕ) - 1 = 1 from rfl, P.pos.im]
  dsimp only
  rw [if_pos rfl]
  have hI0 : I.dim ≠ 0 := by
    intro h0
    rw [anyRows_false.2 fun c hc i => by
      have := hγ'.len c hc
      rw [h0] at this
      rw [List.length_eq_zero_iff.1 this]; rfl] at hany
    cases hany
  have hIm := P.pos.liftI.mat (by omega)
  obtain ⟨cyc, J, hcyc, hJ⟩ := classFold_total h hn hpos hdeg (nr := I.coords.nrows) (m := γ.ncols)
    (cols := γ.cols.map fun g => mulVec I.coords (scale (-1) g)) hIm.rows (by rw [List.length_map]; rfl)
  rw [hcyc, ok_bind]
  erw [hJ, ok_bind]
  have hγl : γ.cols.length = deaths.length := hγ'.ncols
  have hJc : ChainIs E n deg deaths.length (fun k g => E.fam n deg k (zv E.p
      ((γ.cols.map fun g => mulVec I.coords (scale (-1) g)).getD g []))) J := by
    have := classFold_spec h hn hpos hdeg (nr := I.coords.nrows) (m := γ.ncols)
      (cols := γ.cols.map fun g => mulVec I.coords (scale (-1) g)) (by
        intro c hc
        obtain ⟨x, -, rfl⟩ := List.mem_map.1 hc
        exact mulVec_length _ _) (by rw [List.length_map]; rfl) hcyc hJ
    rw [show γ.ncols = deaths.length from hγl] at this
    exact this
  have hval : ∀ j < deaths.length, zv E.p ((γ.cols.map fun g => mulVec I.coords (scale (-1) g)).getD j []) =
      - ∑ i ∈ range I.dim, γ.zcol E.p j i • I.coords.zcol E.p i := by
    intro j hj
    have hj' : j < γ.cols.length := by omega
    rw [getD_map_lt hj', zv_mulVec (fun c hc => by rw [hIm.len c hc, hIm.rows]), ← Finset.sum_neg_distrib,
      show I.coords.ncols = I.dim from hIm.ncols]
    refine Finset.sum_congr rfl fun i _ => ?_
    rw [zv_scale]
    unfold Mat.zcol
    rw [List_getD_eq_getElem γ.cols _ hj']
    simp
  obtain ⟨X, hX, -⟩ := C44_add R.chain.wf hJc.wf
  have hJf := classFold_full h hn hpos hdeg hcyc hJ
  rw [show γ.ncols = deaths.length from hγl] at hJf
  have hcomb : ∀ j d, deaths[j]? = some d →
      Comb E.p I d (∑ i ∈ range I.dim, γ.zcol E.p j i • I.coords.zcol E.p i) := fun j d hj =>
    ⟨_, (hrel' j d hj).2.2.1, rfl⟩
  refine ⟨X, hX, fun h0 => absurd rfl h0, fun _ =>
    ⟨fun k j => f k j - E.fam n deg k (∑ i ∈ range I.dim, γ.zcol E.p j i • I.coords.zcol E.p i),
      ⟨?_, R.full.add R.chain.wf hJc.wf hJf hX, ?_, ?_⟩, ?_⟩⟩
  · refine (R.chain.add hJc hX).congr fun k _ j hj => ?_
    rw [hval j hj, map_neg, sub_eq_add_neg]
  · intro j d hj hd k hk
    rw [R.zero j d hj hd k hk, Finset.sum_eq_zero, map_zero, sub_zero]
    intro i _
    rw [(hrel' j d hj).1 (no_alive_end P.le hd) i, zero_smul]
  · intro j d hj hd k hk
    have c := fam_cycle h hn hdeg ((hcomb j d hj).born P.bornI) hk
    obtain ⟨c1, c2⟩ := R.cyc j d hj hd k hk
    exact ⟨PresentAt.sub c1 c.1, by rw [map_sub, c2, c.2, sub_zero]⟩
  · intro j d hj hd
    refine ⟨_, (L.hasClass hj hd).sub_fam ((hcomb j d hj).born P.bornI), ?_⟩
    rw [map_sub, (hrel' j d hj).2.2.2, Finset.sum_eq_zero (s := range H.dim) (fun i _ => by
      rw [hβ0 j d hj i, zero_smul]), add_zero, sub_self]

/-- The rounds over the pages succeed, and clear the class. -/
theorem extRounds_total (h : SSOK rnd E ρ) {S : SSt α} {n deg : ℕ} (hn : n < E.columns.length)
    (hpos : 0 < E.spx n) (hdeg : deg < E.rows) {H I : Basis α} (P : ExtPos E S n deg H I)
    (h2 : 2 ≤ E.noPages) {deaths : List α} {C : LChains} {f : ℕ → ℕ → ℕ → ZMod E.p}
    (R : ExtRows E ρ n deg deaths f C)
    (hcls : ∀ j d, deaths[j]? = some d → d < E.maxR → ∃ x g, HasClass E ρ n deg d (fun k => f k j) x ∧
      Comb E.p I d g ∧ barRestr E.p (E.firstBars deg n) d x = barRestr E.p (E.firstBars deg n) d g) :
    ∃ X out f', ((List.range (E.noPages - 1)).map fun i => E.noPages - i).foldlM
        (extRound rnd E S n deg deaths) C = .ok X ∧ firstPageLift E n deg X deaths = .ok out ∧
      anyRows out.1 = false ∧ ExtLift E ρ n deg deaths f' out := by
  rw [List.foldlM_map]
  obtain ⟨X, hX, hi⟩ := foldlM_range_inv (fun C i => extRound rnd E S n deg deaths C (E.noPages - i))
    (fun k X => (k < E.noPages - 1 → X = C) ∧ (k = E.noPages - 1 →
      ∃ f', ExtRows E ρ n deg deaths f' X ∧
        ∀ j d, deaths[j]? = some d → d < E.maxR → ∃ x, HasClass E ρ n deg d (fun k => f' k j) x ∧
          barRestr E.p (E.firstBars deg n) d x = 0)) (E.noPages - 1) C ⟨fun _ => rfl, fun h0 => by omega⟩ (by
      intro k hk X hX
      obtain rfl := hX.1 hk
      obtain ⟨Y, y1, y2, y3⟩ := extRound_total h hn hpos hdeg P (t := E.noPages - k) (by omega) (by omega) R hcls
      exact ⟨Y, y1, fun h0 => y2 (by omega), fun h0 => y3 (by omega)⟩)
  obtain ⟨f', R', hz⟩ := hi.2 rfl
  obtain ⟨out, ho, L⟩ := R'.lift h hn hpos hdeg
  refine ⟨X, out, f', hX, ho, anyRows_of_zv h.prime.pos (fun c hc => L.red c hc) fun j hj => ?_, L⟩
  rw [L.len] at hj
  have hj' := List.getElem?_eq_getElem hj
  by_cases hd : deaths[j] < E.maxR
  · obtain ⟨x, hx, hx0⟩ := hz j _ hj' hd
    exact L.dead j _ hj' hd (((L.hasClass hj' hd).unique h hn hdeg hd hx).trans hx0)
  · exact (L.zero j _ hj' hd).1

/-- One round of `extension` over the diagonal, from its parts. -/
theorem extLoop_of {S : SSt α} {deaths : List α} {m idx n deg : ℕ} {reps : List LChains}
    {C0 C1 C : LChains} {o o' : List (List ℤ) × LChains} {bg : Option (Mat × Mat)} {reps1 reps2 : List LChains}
    {rest : List Mat} (h1 : atE reps idx = .ok C0) (h2 : firstPageLift E n deg C0 deaths = .ok o)
    (h3 : liftToPage rnd E S n deg E.noPages o.1 (deaths.map fun d => (d, E.maxR)) = .ok bg)
    (h4 : (if anyRows ((bg.map Prod.fst).getD ⟨0, []⟩ : Mat).cols then
      extSubtract E S n deg idx ((bg.map Prod.fst).getD ⟨0, []⟩) reps else pure reps) = .ok reps1)
    (h5 : atE reps1 idx = .ok C1)
    (h6 : ((List.range (E.noPages - 1)).map fun i => E.noPages - i).foldlM
      (extRound rnd E S n deg deaths) C1 = .ok C)
    (h7 : firstPageLift E n deg C deaths = .ok o') (h8 : anyRows o'.1 = false)
    (h9 : (n = 0 ∧ reps2 = reps1) ∨ (0 < n ∧ ∃ I Cn Cn', cechDiff E (n - 1) (deg + 1) (o'.2.minus E.p) = .ok I ∧
      atE reps1 (idx + 1) = .ok Cn ∧ Cn.add I = .ok Cn' ∧ reps2 = reps1.set (idx + 1) Cn'))
    (h10 : extLoop rnd E S deaths m (idx + 1) (n - 1) (deg + 1) reps2 = .ok rest) :
    extLoop rnd E S deaths (m + 1) idx n deg reps = .ok ((bg.map Prod.fst).getD ⟨0, []⟩ :: rest) := by
  rw [extLoop, h1, ok_bind, h2, ok_bind, h3, ok_bind]
  dsimp only
  have tail : ∀ reps1', reps1' = reps1 → (do
      let C1 ← atE reps1' idx
      let C ← ((List.range (E.noPages - 1)).map fun i => E.noPages - i).foldlM
        (extRound rnd E S n deg deaths) C1
      let out ← firstPageLift E n deg C deaths
      if anyRows out.1 then .error .runtimeError
      else do
        let reps ← if 0 < n then do
            let I ← cechDiff E (n - 1) (deg + 1) (out.2.minus E.p)
            let Cn ← atE reps1' (idx + 1)
            let Cn' ← Cn.add I
            pure (reps1'.set (idx + 1) Cn')
          else pure reps1'
        let rest ← extLoop rnd E S deaths m (idx + 1) (n - 1) (deg + 1) reps
        pure ((bg.map Prod.fst).getD ⟨0, []⟩ :: rest) : Except PyErr (List Mat)) =
        .ok ((bg.map Prod.fst).getD ⟨0, []⟩ :: rest) := by
    rintro _ rfl
    rw [h5, ok_bind, h6, ok_bind, h7, ok_bind, if_neg (by rw [h8]; simp)]
    rcases h9 with ⟨hn, rfl⟩ | ⟨hn, I, Cn, Cn', q1, q2, q3, rfl⟩
    · rw [if_neg (by omega)]
      change (extLoop rnd E S deaths m (idx + 1) (n - 1) (deg + 1) _ >>= _) = _
      rw [h10, ok_bind]; rfl
    · rw [if_pos hn, q1, ok_bind, q2, ok_bind, q3, ok_bind]
      change (extLoop rnd E S deaths m (idx + 1) (n - 1) (deg + 1) _ >>= _) = _
      rw [h10, ok_bind]; rfl
  split at h4
  · next ha =>
    rw [if_pos ha, h4, ok_bind]
    exact tail _ rfl
  · next ha =>
    rw [if_neg ha]
    have := Except.ok.inj h4
    exact tail _ this

theorem extSubtract_of {S : SSt α} {n deg idx : ℕ} {B : Mat} {reps : List LChains} {X b C C' : LChains}
    (hX : S.reps (E.noPages - 1) n deg = [X]) (h1 : LChains.sums X (B.cols.map (scale (-1))) B.nrows = .ok b)
    (h2 : atE reps idx = .ok C) (h3 : subtractBeta E.p C b = .ok C') :
    extSubtract E S n deg idx B reps = .ok (reps.set idx C') := by
  unfold extSubtract
  rw [hX]
  simp only [List.length_singleton, List.range_one, List.zip_cons_cons, List.zip_nil_left, List.foldlM_cons,
    List.foldlM_nil, zero_add]
  rw [h1, ok_bind, h2, ok_bind, h3, ok_bind]
  rfl

/-- One round of `extension` over the diagonal succeeds. -/
theorem extLoop_round (h : SSOK rnd E ρ) {S : SSt α} {n deg idx : ℕ} (hn : n < E.columns.length)
    (hpos : 0 < E.spx n) (hdeg : deg < E.rows) {H I : Basis α} (P : ExtPos E S n deg H I)
    (h2 : 2 ≤ E.noPages) {deaths : List α} {C : LChains} {f : ℕ → ℕ → ℕ → ZMod E.p}
    (R : ExtRows E ρ n deg deaths f C)
    (hcls : ∀ j d, deaths[j]? = some d → d < E.maxR → ∃ x, HasClass E ρ n deg d (fun k => f k j) x ∧
      Decomp E.p (E.firstBars deg n) I H d x)
    (hreps : (∀ j d, deaths[j]? = some d → d < E.maxR → ∃ x, HasClass E ρ n deg d (fun k => f k j) x ∧
        barRestr E.p (E.firstBars deg n) d x = 0) ∨
      (H.dim ≠ 0 → ∃ X, S.reps (E.noPages - 1) n deg = [X] ∧
        ChainIs E n deg H.dim (fun k i => E.fam n deg k (H.coords.zcol E.p i)) X))
    {reps : List LChains} (hC : reps[idx]? = some C) :
    ∃ o bg reps1 C1 X o' f', firstPageLift E n deg C deaths = .ok o ∧
      liftToPage rnd E S n deg E.noPages o.1 (deaths.map fun d => (d, E.maxR)) = .ok bg ∧
      (if anyRows ((bg.map Prod.fst).getD ⟨0, []⟩ : Mat).cols then
        extSubtract E S n deg idx ((bg.map Prod.fst).getD ⟨0, []⟩) reps else pure reps) = .ok reps1 ∧
      atE reps1 idx = .ok C1 ∧
      ((List.range (E.noPages - 1)).map fun i => E.noPages - i).foldlM
        (extRound rnd E S n deg deaths) C1 = .ok X ∧ firstPageLift E n deg X deaths = .ok o' ∧
      anyRows o'.1 = false ∧ ExtLift E ρ n deg deaths f' o' ∧
      ((∀ j d, deaths[j]? = some d → d < E.maxR → ∃ x, HasClass E ρ n deg d (fun k => f k j) x ∧
        barRestr E.p (E.firstBars deg n) d x = 0) → reps1 = reps) := by
  obtain ⟨out, ho, L⟩ := R.lift h hn hpos hdeg
  have hrow : ∀ j d, deaths[j]? = some d → d < E.maxR →
      Decomp E.p (E.firstBars deg n) I H d (zv E.p (out.1.getD j [])) := by
    intro j d hj hd
    obtain ⟨x, h1, γ, β, h3, h4, h5⟩ := hcls j d hj hd
    exact ⟨γ, β, h3, h4, ((L.hasClass hj hd).unique h hn hdeg hd h1).trans h5⟩
  have hget : ∀ j < deaths.length, (deaths.map fun d => (d, E.maxR))[j]? = some (deaths.getD j 0, E.maxR) ∧
      deaths[j]? = some (deaths.getD j 0) := by
    intro j hj
    have e : deaths[j]? = some (deaths.getD j 0) := by
      rw [List.getD_eq_getElem?_getD, List.getElem?_eq_getElem hj]; rfl
    rw [List.getElem?_map, e]
    exact ⟨rfl, rfl⟩
  obtain ⟨lo, hlo⟩ := liftToPage_total (rnd := rnd) (bars := deaths.map fun d => (d, E.maxR)) h.prime P.pos
    (P.ne h.prime) h2 le_rfl L.red L.width (by
      intro _ j hj
      rw [L.len] at hj
      obtain ⟨e1, e2⟩ := hget j hj
      refine ⟨_, e1, ?_⟩
      by_cases hd : deaths.getD j 0 < E.maxR
      · exact hrow j _ e2 hd
      · refine ⟨0, 0, fun _ _ => rfl, fun _ _ => rfl, ?_⟩
        rw [(L.zero j _ e2 hd).1]; simp)
  have hspec := liftToPage_spec h.prime P.pos h2 le_rfl L.red hlo
  suffices H1 : ∃ reps1 C1 f1, (if anyRows ((lo.map Prod.fst).getD ⟨0, []⟩ : Mat).cols then
        extSubtract E S n deg idx ((lo.map Prod.fst).getD ⟨0, []⟩) reps else pure reps) = .ok reps1 ∧
      reps1[idx]? = some C1 ∧ ExtRows E ρ n deg deaths f1 C1 ∧
      (∀ j d, deaths[j]? = some d → d < E.maxR → ∃ x g, HasClass E ρ n deg d (fun k => f1 k j) x ∧
        Comb E.p I d g ∧ barRestr E.p (E.firstBars deg n) d x = barRestr E.p (E.firstBars deg n) d g) ∧
      ((∀ j d, deaths[j]? = some d → d < E.maxR → ∃ x, HasClass E ρ n deg d (fun k => f k j) x ∧
        barRestr E.p (E.firstBars deg n) d x = 0) → reps1 = reps) by
    obtain ⟨reps1, C1, f1, e1, e2, R1, hg, e3⟩ := H1
    obtain ⟨X, o', f', x1, x2, x3, x4⟩ := extRounds_total h hn hpos hdeg P h2 R1 hg
    exact ⟨out, lo, reps1, C1, X, o', f', ho, hlo, e1, atE_some e2, x1, x2, x3, x4, e3⟩
  rcases hspec with ⟨hH, rfl⟩ | ⟨hH, β, γ, γ', rfl, hβ, hγ', -, -, hrel⟩
  · refine ⟨reps, C, f, rfl, hC, R, fun j d hj hd => ?_, fun _ => rfl⟩
    obtain ⟨γ, β, h3, h4, h5⟩ := hrow j d hj hd
    refine ⟨_, _, L.hasClass hj hd, ⟨γ, h3, rfl⟩, ?_⟩
    rw [h5, hH, Finset.sum_range_zero, add_zero]
  rw [L.len] at hβ hγ'
  have hrel' : ∀ j d, deaths[j]? = some d →
      (∀ i, ¬ AliveBar H.barcode i d → β.zcol E.p j i = 0) ∧
      (∀ i, ¬ AliveBar I.barcode i d → γ'.zcol E.p j i = 0) ∧
      barRestr E.p (E.firstBars deg n) d (zv E.p (out.1.getD j [])) = barRestr E.p (E.firstBars deg n) d
        (∑ i ∈ range I.dim, γ'.zcol E.p j i • I.coords.zcol E.p i +
          ∑ i ∈ range H.dim, β.zcol E.p j i • H.coords.zcol E.p i) := by
    intro j d hj
    have hjl : j < deaths.length := (List.getElem?_eq_some_iff.1 hj).1
    obtain ⟨b, hb, -, h3⟩ := hrel j (by rw [L.len]; exact hjl)
    rw [List.getElem?_map, hj] at hb
    obtain rfl : (d, E.maxR) = b := Option.some.inj hb
    exact h3
  have hβz : ∀ j d, deaths[j]? = some d → ¬ d < E.maxR → ∀ i, β.zcol E.p j i = 0 := fun j d hj hd i =>
    (hrel' j d hj).1 i (no_alive_end P.leH hd i)
  have hany0 : (∀ j d, deaths[j]? = some d → d < E.maxR → ∃ x, HasClass E ρ n deg d (fun k => f k j) x ∧
      barRestr E.p (E.firstBars deg n) d x = 0) → anyRows β.cols = false := by
    intro hz
    refine anyRows_of_zv h.prime.pos hβ.red fun j hj => ?_
    have hj' := (hget j (by rw [← hβ.ncols]; exact hj)).2
    funext i
    by_cases hd : deaths.getD j 0 < E.maxR
    swap
    · exact hβz j _ hj' hd i
    obtain ⟨r2, r3, r4⟩ := hrel' j _ hj'
    obtain ⟨x, hx, hx0⟩ := hz j _ hj' hd
    rw [((L.hasClass hj' hd).unique h hn hdeg hd hx).trans hx0, map_add] at r4
    refine P.indep _ _ _ r2 (Comb.neg ⟨_, r3, rfl⟩) ?_ i
    rw [map_neg, eq_neg_iff_add_eq_zero, add_comm, ← r4]
  have hcomb : ∀ j d, deaths[j]? = some d →
      Comb E.p I d (∑ i ∈ range I.dim, γ'.zcol E.p j i • I.coords.zcol E.p i) := fun j d hj =>
    ⟨_, (hrel' j d hj).2.1, rfl⟩
  change ∃ reps1 C1 f1, (if anyRows β.cols then extSubtract E S n deg idx β reps else pure reps) = .ok reps1 ∧ _
  by_cases ha : anyRows β.cols = true
  swap
  · rw [if_neg ha]
    refine ⟨reps, C, f, rfl, hC, R, fun j d hj hd => ?_, fun _ => rfl⟩
    obtain ⟨r2, r3, r4⟩ := hrel' j d hj
    refine ⟨_, _, L.hasClass hj hd, hcomb j d hj, ?_⟩
    rw [r4, Finset.sum_eq_zero (s := range H.dim), add_zero]
    intro i _
    rw [show β.zcol E.p j i = 0 from congrFun (anyRows_zv (p := E.p) (by simpa using ha) j) i, zero_smul]
  rw [if_pos ha]
  rcases hreps with hz | hreps
  · rw [hany0 hz] at ha; cases ha
  obtain ⟨X, hX, hXc⟩ := hreps hH
  have hidx : idx < reps.length := (List.getElem?_eq_some_iff.1 hC).1
  have hBl : β.cols.length = deaths.length := hβ.ncols
  obtain ⟨b, hb, -⟩ := C44_sums hXc.wf hXc.refs (β.cols.map (scale (-1)))
  have hsum := hXc.sums hb
  rw [List.length_map, hBl] at hsum
  have hbf : FullRefs deaths.length b := FullRefs.sums (by rw [List.length_map, hBl]) hb
  obtain ⟨C', hC', fC'⟩ := subtractBeta_total (p := E.p) R.chain.wf hsum.wf R.full hbf
  have hbs : ∀ j < deaths.length, ∀ k, (∑ g ∈ range H.dim, zv E.p ((β.cols.map (scale (-1))).getD j []) g •
      E.fam n deg k (H.coords.zcol E.p g)) =
      - E.fam n deg k (∑ i ∈ range H.dim, β.zcol E.p j i • H.coords.zcol E.p i) := by
    intro j hj k
    rw [fam_smulsum, ← Finset.sum_neg_distrib]
    refine Finset.sum_congr rfl fun i _ => ?_
    have hjB : j < β.cols.length := by omega
    rw [getD_map_lt hjB, zv_scale]
    unfold Mat.zcol
    rw [List_getD_eq_getElem β.cols _ hjB]
    simp
  have hbornH : ∀ j d, deaths[j]? = some d →
      E.BornBy n deg (∑ i ∈ range H.dim, β.zcol E.p j i • H.coords.zcol E.p i) d := fun j d hj =>
    Comb.born (I := H) ⟨β.zcol E.p j, (hrel' j d hj).1, rfl⟩ P.bornH
  refine ⟨reps.set idx C', C', fun k j => f k j -
      E.fam n deg k (∑ i ∈ range H.dim, β.zcol E.p j i • H.coords.zcol E.p i),
    extSubtract_of hX (by rw [hβ.rows]; exact hb) (atE_some hC) hC', ?_, ⟨?_, fC', ?_, ?_⟩, ?_, ?_⟩
  · rw [List.getElem?_set_self hidx]
  · refine (R.chain.subtractBeta h.prime hsum hC').congr fun k _ j hj => ?_
    rw [hbs j hj k, sub_eq_add_neg]
  · intro j d hj hd k hk
    rw [R.zero j d hj hd k hk, Finset.sum_eq_zero, map_zero, sub_zero]
    intro i _
    rw [hβz j d hj hd i, zero_smul]
  · intro j d hj hd k hk
    have c := fam_cycle h hn hdeg (hbornH j d hj) hk
    obtain ⟨c1, c2⟩ := R.cyc j d hj hd k hk
    exact ⟨PresentAt.sub c1 c.1, by rw [map_sub, c2, c.2, sub_zero]⟩
  · intro j d hj hd
    refine ⟨_, _, (L.hasClass hj hd).sub_fam (hbornH j d hj), hcomb j d hj, ?_⟩
    rw [map_sub, (hrel' j d hj).2.2, map_add, add_sub_cancel_right]
  · intro hz
    rw [hany0 hz] at ha; cases ha

/-- `extension` succeeds at a position of the second column. -/
theorem extension_total (h : SSOK rnd E ρ) {e : ℕ} {D : Mat} (hD : E.nerveDiff[0]? = some D)
    (hn : 1 < E.columns.length) (hpos : 0 < E.spx 1) (hpos0 : 0 < E.spx 0)
    (he : e + 1 < E.rows) {S : SSt α} {K I1 Q I0 : Basis α}
    (h2 : 2 ≤ E.noPages) (P1 : ExtPos E S 1 e K I1) (hI1 : I1.dim = 0)
    (P0 : ExtPos E S 0 (e + 1) Q I0)
    {Z : α → Submodule (ZMod E.p) (ℕ → ZMod E.p)}
    (hG : Gens E 1 e K.barcode (K.coords.zcol E.p) Z (fun _ => ⊥))
    (hdec : ∀ d x, d < E.maxR → E.BornBy 0 (e + 1) x d → Decomp E.p (E.firstBars (e + 1) 0) I0 Q d x)
    (hflat : (S.hom (E.noPages - 1) 1 e).basis.flat = false)
    {C L : LChains} {v : ℕ → ℕ → ℕ → ZMod E.p} (hreps : S.reps (E.noPages - 1) 1 e = [C, L])
    (hC : ChainIs E 1 e K.dim (fun k j => E.fam 1 e k (K.coords.zcol E.p j)) C)
    (hL : ChainIs E 0 (e + 1) K.dim (fun k j => v j k) L) (fC : FullRefs K.dim C) (fL : FullRefs K.dim L)
    (hlift : ∀ j b, K.barcode[j]? = some b → ∀ k < E.spx 0, E.PresentAt ρ 0 k (e + 1) (v j k) b.1 ∧
      E.bd 0 k (e + 1) (v j k) + E.cechSum D 0 e k (fun l => E.fam 1 e l (K.coords.zcol E.p j)) = 0)
    (hreps0 : Q.dim ≠ 0 → ∃ X, S.reps (E.noPages - 1) 0 (e + 1) = [X] ∧
      ChainIs E 0 (e + 1) Q.dim (fun k i => E.fam 0 (e + 1) k (Q.coords.zcol E.p i)) X) :
    ∃ exts, extension rnd E S 1 e = .ok exts := by
  unfold extension
  dsimp only
  rw [if_neg (by rw [hflat]; simp), hreps, (P1.pos.last h2).1]
  set deaths := K.barcode.map Prod.snd with hde
  have hdl : deaths.length = K.dim := by rw [hde, List.length_map, P1.pos.liftH.dim]
  have hdj : ∀ (j : ℕ) (d : α), deaths[j]? = some d → ∃ b, K.barcode[j]? = some b ∧ b.2 = d := by
    intro j d hd
    rw [hde, List.getElem?_map] at hd
    cases hb : K.barcode[j]? with
    | none => rw [hb] at hd; cases hd
    | some b => rw [hb] at hd; exact ⟨b, rfl, Option.some.inj hd⟩
  split
  · exact ⟨_, rfl⟩
  set mask := deaths.map fun d => decide (d < E.maxR) with hmask
  have hmj : ∀ (j : ℕ) (d : α), deaths[j]? = some d → mask.getD j false = decide (d < E.maxR) := by
    intro j d hd
    rw [hmask, List.getD_eq_getElem?_getD, List.getElem?_map, hd]; rfl
  rw [← hdl] at hC hL fC fL
  have hC0 := hC.zeroRows mask
  have hL0 := hL.zeroRows mask
  rw [List.length_cons, List.length_singleton, List.map_cons, List.map_singleton]
  have hbj : ∀ j d, deaths[j]? = some d → E.BornBy 1 e (K.coords.zcol E.p j) d ∧
      barRestr E.p (E.firstBars e 1) d (K.coords.zcol E.p j) = 0 := by
    intro j d hd
    obtain ⟨b, hb, rfl⟩ := hdj j d hd
    refine ⟨BornBy.mono (P1.pos.wfH b (List.mem_of_getElem? hb)).le (hG.born j b hb), ?_⟩
    exact (Submodule.mem_bot _).1 (hG.dead j b b.2 hb le_rfl)
  have R1 : ExtRows E ρ 1 e deaths (fun k j => if mask.getD j false then E.fam 1 e k (K.coords.zcol E.p j) else 0)
      (zeroRows mask C) := by
    refine ⟨hC0, fC.zeroRows mask, ?_, ?_⟩
    · intro j d hj hd k _
      rw [hmj j d hj, decide_eq_false hd]
      exact if_neg (by simp)
    · intro j d hj hd k hk
      rw [hmj j d hj, decide_eq_true hd, if_pos rfl]
      exact fam_cycle h hn (by omega) (hbj j d hj).1 hk
  have hz1 : ∀ j d, deaths[j]? = some d → d < E.maxR → ∃ x, HasClass E ρ 1 e d
      (fun k => if mask.getD j false then E.fam 1 e k (K.coords.zcol E.p j) else 0) x ∧
        barRestr E.p (E.firstBars e 1) d x = 0 := by
    intro j d hj hd
    refine ⟨K.coords.zcol E.p j, ⟨(hbj j d hj).1, fun _ => 0, fun k hk => ⟨fun i hi => absurd rfl hi, ?_⟩⟩,
      (hbj j d hj).2⟩
    rw [hmj j d hj, decide_eq_true hd, map_zero, zero_add]
    exact if_pos rfl
  obtain ⟨o, bg, reps1, C1, X, o', f', r1, r2, r3, r4, r5, r6, r7, -, r8⟩ := extLoop_round (idx := 0)
    (reps := [zeroRows mask C, zeroRows mask L]) h hn hpos (by omega : e < E.rows) P1 h2 R1 (by
      intro j d hj hd
      obtain ⟨x, h3, h4⟩ := hz1 j d hj hd
      exact ⟨x, h3, 0, 0, fun _ _ => rfl, fun _ _ => rfl, by rw [h4]; simp⟩) (Or.inl hz1) rfl
  obtain rfl := r8 hz1
  obtain rfl : zeroRows mask C = C1 := Except.ok.inj r4
  obtain rfl := (extRounds_spec h hn hpos (by omega) P1.pos hC0 r5).1 hI1
  obtain ⟨o'', ho'', L1⟩ := R1.lift h hn hpos (by omega : e < E.rows)
  rw [r6] at ho''
  obtain rfl := Except.ok.inj ho''
  have hu := ChainIs.self L1.wf L1.refs
  obtain ⟨J, hJ, -⟩ := cechDiff_spec h hD hn hpos (by omega : e + 1 ≤ E.rows) hu.minus.wf
  have hJc := cechDiff_chain h hD hn hpos (by omega) hu.minus hJ
  obtain ⟨Cn', hCn', -⟩ := C44_add hL0.wf hJc.wf
  have hCn := hL0.add hJc hCn'
  have fCn : FullRefs deaths.length Cn' := (fL.zeroRows mask).add hL0.wf hJc.wf
    (FullRefs.cechDiff h hD hn hpos (by omega) hu.minus.wf L1.full.minus hJ) hCn'
  set u : ℕ → ℕ → ℕ → ZMod E.p := fun j l i => (o'.2.val l j i : ZMod E.p) with hude
  have hub : ∀ (j : ℕ) (d : α), deaths[j]? = some d → d < E.maxR → ∀ l < E.spx 1,
      E.PresentAt ρ 1 l (e + 1) (u j l) d ∧ E.fam 1 e l (K.coords.zcol E.p j) = E.bd 1 l (e + 1) (u j l) := by
    intro j d hj hd l hl
    obtain ⟨q4, q5⟩ := (L1.cls j d hj hd).2 l hl
    refine ⟨q4, ?_⟩
    rw [hmj j d hj, decide_eq_true hd, if_pos rfl, anyRows_zv r7, map_zero, add_zero] at q5
    exact q5
  have R2 : ExtRows E ρ 0 (e + 1) deaths (fun k j =>
      (if mask.getD j false then v j k else 0) + E.cechSum D 0 (e + 1) k (fun l => - u j l)) Cn' := by
    refine ⟨hCn, fCn, ?_, ?_⟩
    · intro j d hj hd k _
      rw [hmj j d hj, decide_eq_false hd, if_neg (by simp), zero_add,
        cechSum_congr (c' := fun _ => 0) (fun l hl => by
          rw [show u j l = 0 from (L1.zero j d hj hd).2 l hl, neg_zero]), cechSum_zero]
    · intro j d hj hd k hk
      obtain ⟨b, hb, rfl⟩ := hdj j d hj
      obtain ⟨l1, l2⟩ := hlift j b hb k hk
      have hcb : E.bd 0 k (e + 1) (E.cechSum D 0 (e + 1) k (fun l => - u j l)) =
          E.cechSum D 0 e k (fun l => E.fam 1 e l (K.coords.zcol E.p j)) := by
        have := cechSum_bd h hD hn (by omega : e < E.rows) hk (fun l => - u j l)
        rw [← neg_eq_iff_eq_neg] at this
        rw [← this, cechSum_congr (c := fun l => E.fam 1 e l (K.coords.zcol E.p j))
          (c' := fun l => E.bd 1 l (e + 1) (u j l)) (fun l hl => (hub j b.2 hj hd l hl).2)]
        have hneg : (fun l => E.bd 1 l (e + 1) (- u j l)) = fun l => 0 - E.bd 1 l (e + 1) (u j l) := by
          funext l; rw [map_neg, zero_sub]
        rw [hneg, cechSum_sub, cechSum_zero, zero_sub, neg_neg]
      rw [hmj j _ hj, decide_eq_true hd, if_pos rfl]
      refine ⟨PresentAt.add ?_ ?_, by rw [map_add, hcb, l2]⟩
      · exact PresentAt.mono (P1.pos.wfH b (List.mem_of_getElem? hb)).le l1
      · exact PresentAt.cechSum fun l hl => PresentAt.neg (hub j b.2 hj hd l hl).1
  obtain ⟨o2, -, L2⟩ := R2.lift h (by omega : 0 < E.columns.length) hpos0 he
  obtain ⟨p, bg', reps1', C1', X', p', f'', s1, s2, s3, s4, s5, s6, s7, -, -⟩ := extLoop_round (idx := 1)
    (reps := [zeroRows mask C, Cn']) h (by omega : 0 < E.columns.length) hpos0 he P0 h2 R2 (by
      intro j d hj hd
      exact ⟨_, L2.hasClass hj hd, hdec d _ hd (L2.hasClass hj hd).1⟩) (Or.inr hreps0) rfl
  have hsecond := extLoop_of (m := 0) (rest := []) (rnd := rnd) (E := E) (S := S) (idx := 1) (n := 0)
    (deg := e + 1) (reps := [zeroRows mask C, Cn']) rfl s1 s2 s3 s4 s5 s6 s7 (Or.inl ⟨rfl, rfl⟩) rfl
  exact ⟨_, extLoop_of (m := 1) (rnd := rnd) rfl r1 r2 r3 r4 r5 r6 r7
    (Or.inr ⟨one_pos, J, _, Cn', hJ, rfl, hCn', rfl⟩) hsecond⟩

end

end Permaviss
