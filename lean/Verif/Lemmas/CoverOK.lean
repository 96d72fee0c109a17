import Verif.Lemmas.CechExact
import Verif.Lemmas.CreateEnv
import Verif.Props.Cover

/-!
# The cubical cover satisfies the conditions for exactness
-/

namespace Permaviss

open Finset

attribute [-instance] instMulZeroClassOfSemiring

/-- One step from `a` towards `b`. -/
def toward (a b : ℕ) : ℕ := if a < b then a + 1 else if b < a then a - 1 else a

theorem toward_spec (a b : ℕ) : min a b ≤ toward a b ∧ toward a b ≤ max a b ∧ a ≤ toward a b + 1 ∧
    toward a b ≤ a + 1 ∧ ∀ m, a ≤ b + (m + 1) → b ≤ a + (m + 1) →
      toward a b ≤ b + m ∧ b ≤ toward a b + m := by
  have h : (a < b ∧ toward a b = a + 1) ∨ (b < a ∧ toward a b = a - 1) ∨ (a = b ∧ toward a b = a) := by
    unfold toward
    split
    · omega
    · split <;> omega
  refine ⟨?_, ?_, ?_, ?_, fun m h1 h2 => ⟨?_, ?_⟩⟩ <;> omega

/-- Move every coordinate one step. -/
def stepTo (p q : List ℕ) : List ℕ := List.zipWith toward p q

theorem stepTo_getD {p q : List ℕ} {i : ℕ} (hp : i < p.length) (hq : i < q.length) :
    (stepTo p q).getD i 0 = toward (p.getD i 0) (q.getD i 0) := by
  unfold stepTo
  simp [List.getD_eq_getElem?_getD, hp, hq]

theorem stepTo_length (p q : List ℕ) : (stepTo p q).length = min p.length q.length := by
  unfold stepTo; simp

theorem adjacent_iff_getD {ds p q : List ℕ} (hp : p.length = ds.length) (hq : q.length = ds.length) :
    Adjacent p q ↔ ∀ i < ds.length, p.getD i 0 ≤ q.getD i 0 + 1 ∧ q.getD i 0 ≤ p.getD i 0 + 1 := by
  unfold Adjacent
  rw [List.forall₂_iff_get]
  constructor
  · rintro ⟨-, h⟩ i hi
    have := h i (by omega) (by omega)
    rw [List_getD_eq_getElem _ _ (show i < p.length by omega),
      List_getD_eq_getElem _ _ (show i < q.length by omega)]
    exact this
  · intro h
    refine ⟨by omega, fun i h1 h2 => ?_⟩
    have := h i (by omega)
    rw [List_getD_eq_getElem _ _ h1, List_getD_eq_getElem _ _ h2] at this
    exact this

section

variable {K : Type} [Field K] [LinearOrder K] [IsStrictOrderedRing K]

/-- A point of two cubes lies in all the cubes between them. -/
theorem inCube_between {dim : ℕ} {lo : ℕ → K} {side overlap : K} (hs : 0 < side) {p q r : List ℕ}
    {pt : List K} (hp : InCube dim lo side overlap p pt) (hq : InCube dim lo side overlap q pt)
    (h : ∀ i < dim, min (p.getD i 0) (q.getD i 0) ≤ r.getD i 0 ∧
      r.getD i 0 ≤ max (p.getD i 0) (q.getD i 0)) : InCube dim lo side overlap r pt := by
  intro i hi
  obtain ⟨h1, h2⟩ := h i hi
  obtain ⟨a1, a2⟩ := hp i hi
  obtain ⟨b1, b2⟩ := hq i hi
  constructor
  · rcases le_max_iff.1 h2 with h2 | h2
    · have : (r.getD i 0 : K) * side ≤ p.getD i 0 * side :=
        mul_le_mul_of_nonneg_right (by exact_mod_cast h2) hs.le
      linarith
    · have : (r.getD i 0 : K) * side ≤ q.getD i 0 * side :=
        mul_le_mul_of_nonneg_right (by exact_mod_cast h2) hs.le
      linarith
  · rcases min_le_iff.1 h1 with h1 | h1
    · have : ((p.getD i 0 : K) + 1) * side ≤ (r.getD i 0 + 1) * side :=
        mul_le_mul_of_nonneg_right (by exact_mod_cast Nat.succ_le_succ h1) hs.le
      linarith
    · have : ((q.getD i 0 : K) + 1) * side ≤ (r.getD i 0 + 1) * side :=
        mul_le_mul_of_nonneg_right (by exact_mod_cast Nat.succ_le_succ h1) hs.le
      linarith

variable [FloorRing K]

/-- A cover by a grid covers the complex and its pieces are well connected, if close points have a cube in common and
a point of two cubes is in the cubes between them. -/
theorem envOf_coverOK {p : ℕ} (hp : p.Prime) {pdist : List (List K) → List (List K)}
    {d : List K → List K → K} (hdist : IsDistTable pdist d) {argsort : List K → List Nat}
    (ha : IsArgsort argsort) {rnd : K → K} {maxR : K} (hmax : 0 < maxR) {maxDim : ℕ}
    {dim : Nat} {cloud : List (List K)} {div : List ℕ} {In : List ℕ → ℕ → Prop} {out : CoverOut K}
    {C : List (List (List ℕ))} {L : List (List ℕ)} (hdl : div.length = dim)
    (hG : GridCover cloud div In out C L) (hpos : ∀ x ∈ div, 0 < x)
    (hconv : ∀ p q r i, In p i → In q i → (∀ j < dim, min (p.getD j 0) (q.getD j 0) ≤ r.getD j 0 ∧
      r.getD j 0 ≤ max (p.getD j 0) (q.getD j 0)) → In r i)
    (hdim : 0 < dim) (hcov : ∀ s : List ℕ, s ≠ [] → (∀ v ∈ s, v < cloud.length) →
      (∀ u ∈ s, ∀ v ∈ s, u < v → d (cloud.getD v []) (cloud.getD u []) < maxR) →
      ∃ pos, IsPos div pos ∧ ∀ v ∈ s, In pos v) {E : SSEnv K}
    (hE : envOf pdist argsort rnd maxR maxDim p out = .ok E) :
    ∃ D, CoverOK E (diam d fun v => cloud.getD v []) cloud.length D ∧
      ∀ n, n + 1 < E.columns.length → ∀ l < E.spx (n + 1), ∃ k < E.spx n, ∀ pts pts',
        E.pts n k = .ok pts → E.pts (n + 1) l = .ok pts' → pts' ⊆ pts := by
  obtain ⟨E', h1, hS, h3, h4, h5, h6, h7, h8, hC, hD, hspx, hpts, -⟩ :=
    envOf_ok hp hdist ha rnd hmax maxDim hdl hG
  rw [hE] at h1
  obtain rfl := Except.ok.inj h1
  have hN := hG.run
  have hL := hG.length
  have hcube := hG.cubes
  have hcols : 1 < E.columns.length := by
    rw [h7]; exact Nat.one_lt_two_pow (by omega)
  have h0 : E.spx 0 = div.prod := by rw [hspx]; simp [simplicesOf]
  -- the points of a cube
  have hp0 : ∀ k < E.spx 0, ∃ pts, E.pts 0 k = .ok pts ∧ ∀ i, i ∈ pts ↔ i < cloud.length ∧
      In (posAt div k) i := by
    intro k hk
    rw [h0] at hk
    obtain ⟨q1, q2⟩ := posAt_spec hpos hk
    obtain ⟨pts, e1, -, e3⟩ := hpts 0 (by omega) k [k] (by simp [simplicesOf, hk])
    obtain ⟨l, l1, -, l3⟩ := hcube _ q1
    rw [q2] at l1
    refine ⟨pts, e1, fun i => ?_⟩
    rw [e3 i, ← l3 i]
    simp [List.getD_eq_getElem?_getD, l1]
  -- the edges of the nerve
  obtain ⟨C', Ed, c1, c2, c3, c4⟩ := C41_nerve_edges hpos
  rw [hN] at c1
  obtain rfl : C = C' := congrArg Prod.snd (Except.ok.inj c1)
  have hEd : simplicesOf div.prod C 1 = Ed := by
    simp [simplicesOf, List.getD_eq_getElem?_getD, c2]
  have hs1 : E.spx 1 = Ed.length := by rw [hspx, hEd]
  obtain ⟨-, -, -, hD0, -⟩ := C19_differentials_boundary hp.two_le hC _ _ hD
  obtain ⟨D, d1, d2, d3, d4⟩ := hD0 Ed c2
  have hedge : ∀ l < E.spx 1, ∃ u v, Ed[l]? = some [u, v] ∧ u < v ∧ v < div.prod := by
    intro l hl
    rw [hs1] at hl
    have hm : Ed[l] ∈ Ed := List.getElem_mem hl
    have hlen := hC.length 0 Ed c2 _ hm
    obtain ⟨u, v, he⟩ := List.length_eq_two.1 hlen
    rw [he] at hm
    obtain ⟨pp, q, a1, a2, -, a4, a5, a6⟩ := (c4 u v).1 hm
    exact ⟨u, v, by rw [List.getElem?_eq_getElem hl, he], a4, a6 ▸ rank_lt a2⟩
  have hz : ∀ l u v, Ed[l]? = some [u, v] → D.z E.p u l = 1 ∧ D.z E.p v l = -1 ∧
      ∀ k, k ≠ u → k ≠ v → D.z E.p k l = 0 := by
    intro l u v he
    obtain ⟨g1, g2, g3⟩ := d4 l u v he
    rw [h3]
    refine ⟨?_, ?_, ?_⟩
    · unfold Mat.z; rw [g1]; simp
    · unfold Mat.z; rw [g2]; simp
    · intro k k1 k2; unfold Mat.z; rw [g3 k k1 k2]; simp
  have hmem0 : ∀ k < E.spx 0, ∀ deg ≤ E.rows, ∀ s, s ∈ E.G 0 k deg ↔ s.length = deg + 1 ∧
      s.Pairwise (· < ·) ∧ (∀ v ∈ s, v < cloud.length ∧
        In (posAt div k) v) ∧
      diam d (fun v => cloud.getD v []) s < E.maxR := by
    intro k hk deg hdeg s
    obtain ⟨pts, e1, e2⟩ := hp0 k hk
    rw [hS.mem 0 (by omega) k hk pts e1 deg hdeg s]
    simp only [e2]
  refine ⟨D, ⟨d1, hcols, ?_, ?_, ?_, ?_⟩, ?_⟩
  · -- cover
    intro s hlen hsne hsort hlt hdiam
    obtain ⟨pos, r1, r2⟩ := hcov s hsne hlt (by rw [h4, diam_lt_iff] at hdiam; exact hdiam.2)
    have hk : rank div pos < E.spx 0 := by rw [h0]; exact rank_lt r1
    refine ⟨_, hk, (hmem0 _ hk _ (by omega) s).2 ⟨?_, hsort, fun v hv => ⟨hlt v hv, ?_⟩, hdiam⟩⟩
    · have := List.length_pos_of_ne_nil hsne
      omega
    · rw [posAt_rank r1]
      exact r2 v hv
  · -- vertices
    intro k hk deg hdeg s hsm v hv
    exact (((hmem0 k hk deg hdeg s).1 hsm).2.2.1 v hv).1
  · -- connectivity
    intro deg hdeg s k hk k' hk' hsk hsk'
    rw [hmem0 k hk deg hdeg] at hsk
    rw [hmem0 k' hk' deg hdeg] at hsk'
    obtain ⟨g1, g2, g3, g4⟩ := hsk
    obtain ⟨-, -, g3', -⟩ := hsk'
    rw [h0] at hk hk'
    obtain ⟨a1, a2⟩ := posAt_spec hpos hk
    obtain ⟨b1, b2⟩ := posAt_spec hpos hk'
    rw [← a2, ← b2]
    set q := posAt div k' with hq
    have hqf := isPos_iff.1 b1
    have key : ∀ m, ∀ pp, IsPos div pp → (∀ v ∈ s, In pp v) →
        (∀ i < div.length, pp.getD i 0 ≤ q.getD i 0 + m ∧ q.getD i 0 ≤ pp.getD i 0 + m) →
        Relation.ReflTransGen (E.Step D deg s) (rank div pp) (rank div q) := by
      intro m
      induction m with
      | zero =>
        intro pp hpp _ hm
        have : pp = q := by
          have hpf := isPos_iff.1 hpp
          apply List.ext_getElem (by omega)
          intro i i1 i2
          have := hm i (by omega)
          rw [List_getD_eq_getElem _ _ i1, List_getD_eq_getElem _ _ i2] at this
          omega
        rw [this]
      | succ m ih =>
        intro pp hpp hin hm
        have hpf := isPos_iff.1 hpp
        have hr : ∀ i < div.length, (stepTo pp q).getD i 0 = toward (pp.getD i 0) (q.getD i 0) :=
          fun i hi => stepTo_getD (by omega) (by omega)
        have hrl : (stepTo pp q).length = div.length := by rw [stepTo_length]; omega
        have hrp : IsPos div (stepTo pp q) := by
          refine isPos_iff.2 ⟨hrl, fun i hi => ?_⟩
          rw [hr i hi]
          have := (toward_spec (pp.getD i 0) (q.getD i 0)).2.1
          have := hpf.2 i hi
          have := hqf.2 i hi
          omega
        have hrin : ∀ v ∈ s, In (stepTo pp q) v := by
          intro v hv
          refine hconv _ _ _ _ (hin v hv) (g3' v hv).2 fun i hi => ?_
          rw [hr i (by omega)]
          have := toward_spec (pp.getD i 0) (q.getD i 0)
          exact ⟨this.1, this.2.1⟩
        have hrest := ih (stepTo pp q) hrp hrin (by
          intro i hi
          rw [hr i hi]
          exact (toward_spec (pp.getD i 0) (q.getD i 0)).2.2.2.2 m (hm i hi).1 (hm i hi).2)
        by_cases heq : rank div pp = rank div (stepTo pp q)
        · rw [heq]; exact hrest
        refine Relation.ReflTransGen.head ?_ hrest
        have hadj : Adjacent pp (stepTo pp q) := by
          refine (adjacent_iff_getD (ds := div) (by omega) hrl).2 fun i hi => ?_
          rw [hr i hi]
          have := toward_spec (pp.getD i 0) (q.getD i 0)
          omega
        -- the edge
        have hwlog : ∃ u v, [u, v] ∈ Ed ∧ ((u = rank div pp ∧ v = rank div (stepTo pp q)) ∨
            (v = rank div pp ∧ u = rank div (stepTo pp q))) := by
          rcases Nat.lt_or_gt_of_ne heq with hlt | hlt
          · exact ⟨_, _, (c4 _ _).2 ⟨pp, _, hpp, hrp, hadj, hlt, rfl, rfl⟩, Or.inl ⟨rfl, rfl⟩⟩
          · exact ⟨_, _, (c4 _ _).2 ⟨_, pp, hrp, hpp, hadj.symm', hlt, rfl, rfl⟩, Or.inr ⟨rfl, rfl⟩⟩
        obtain ⟨u, v, huv, hcase⟩ := hwlog
        obtain ⟨l, hl, hle⟩ := List.getElem_of_mem huv
        have hle' : Ed[l]? = some [u, v] := by rw [List.getElem?_eq_getElem hl, hle]
        have hl1 : l < E.spx 1 := by omega
        obtain ⟨z1, z2, z3⟩ := hz l u v hle'
        refine ⟨by rw [h0]; exact rank_lt hpp, by rw [h0]; exact rank_lt hrp, heq, l, hl1, ?_, ?_, ?_⟩
        · obtain ⟨pts, e1, -, e3⟩ := hpts 1 hcols l [u, v] (by rw [hEd]; exact hle')
          rw [hS.mem 1 hcols l hl1 pts e1 deg hdeg]
          refine ⟨g1, g2, fun x hx => (e3 x).2 ?_, g4⟩
          have hboth : ∀ r, IsPos div r → In r x →
              x ∈ L.getD (rank div r) [] := by
            intro r hr hir
            obtain ⟨lst, l1, -, l3⟩ := hcube r hr
            rw [List.getD_eq_getElem?_getD, l1]
            exact (l3 x).2 ⟨(g3 x hx).1, hir⟩
          intro w hw
          have hw' : w = rank div pp ∨ w = rank div (stepTo pp q) := by
            simp only [List.mem_cons, List.not_mem_nil, or_false] at hw
            omega
          rcases hw' with rfl | rfl
          · exact hboth _ hpp (hin x hx)
          · exact hboth _ hrp (hrin x hx)
        · rcases hcase with ⟨rfl, rfl⟩ | ⟨rfl, rfl⟩
          · exact Or.inl ⟨z1, z2⟩
          · exact Or.inr ⟨z2, z1⟩
        · intro j j1 j2
          rcases hcase with ⟨rfl, rfl⟩ | ⟨rfl, rfl⟩
          · exact z3 j j1 j2
          · exact z3 j j2 j1
    have hbd : ∀ i < div.length, (posAt div k).getD i 0 ≤ q.getD i 0 + div.sum ∧
        q.getD i 0 ≤ (posAt div k).getD i 0 + div.sum := by
      intro i hi
      have h1 := (isPos_iff.1 a1).2 i hi
      have h2 := hqf.2 i hi
      have : div.getD i 0 ≤ div.sum := by
        rw [List_getD_eq_getElem _ _ hi]; exact List.le_sum_of_mem (List.getElem_mem hi)
      omega
    exact key _ _ a1 (fun v hv => (g3 v hv).2) hbd
  · -- sums of columns
    intro l hl
    obtain ⟨u, v, he, huv, hv⟩ := hedge l hl
    obtain ⟨z1, z2, z3⟩ := hz l u v he
    have hne' : u ≠ v := by omega
    rw [Finset.sum_eq_add_of_mem u v (by rw [h0]; exact mem_range.2 (by omega))
      (by rw [h0]; exact mem_range.2 hv) hne' fun k _ hk => z3 k hk.1 hk.2, z1, z2]
    ring
  · -- faces
    intro n hn l hl
    rw [hspx] at hl
    have hget : (simplicesOf div.prod C (n + 1))[l]? = some (simplicesOf div.prod C (n + 1))[l] :=
      List.getElem?_eq_getElem hl
    have hmem : (simplicesOf div.prod C (n + 1))[l] ∈ simplicesOf div.prod C (n + 1) := List.getElem_mem hl
    obtain ⟨hlen, -⟩ := simplicesOf_spec hC hmem
    have hface := simplicesOf_face hC hmem (k := 0) (by omega)
    obtain ⟨k, hk, he⟩ := List.getElem_of_mem hface
    refine ⟨k, by rw [hspx]; exact hk, fun pts pts' hp1 hp2 => ?_⟩
    obtain ⟨q, e1, -, e3⟩ := hpts n (by omega) k _ (List.getElem?_eq_getElem hk)
    obtain ⟨q', e1', -, e3'⟩ := hpts (n + 1) hn l _ hget
    obtain rfl : pts = q := Except.ok.inj (hp1.symm.trans e1)
    obtain rfl : pts' = q' := Except.ok.inj (hp2.symm.trans e1')
    intro i hi
    rw [e3'] at hi
    rw [e3]
    intro v hv
    rw [he] at hv
    exact hi v (List.mem_of_mem_eraseIdx hv)


/-- The cover computed by `create_MV_ss` covers the complex and its pieces are well connected. -/
theorem createEnv_coverOK {p : ℕ} (hp : p.Prime) {pdist : List (List K) → List (List K)}
    {d : List K → List K → K} (hdist : IsDistTable pdist d) {argsort : List K → List Nat}
    (ha : IsArgsort argsort) {rnd : K → K} {maxR : K} (hmax : 0 < maxR) {maxDim : ℕ}
    {maxDiv dim : Nat} {overlap : K} {cloud : List (List K)} {lo hi : Nat → K}
    {side : K} (hne : cloud ≠ []) (hdim : 0 < dim) (hm : 0 < maxDiv)
    (hbox : IsBox maxDiv dim cloud lo hi side) (hs : 0 < side) (hw : ∀ i < dim, lo i < hi i)
    (ho : maxR ≤ overlap)
    (hcoord : ∀ a ∈ cloud, ∀ b ∈ cloud, ∀ i < dim, |a.getD i 0 - b.getD i 0| ≤ d a b) {E : SSEnv K}
    (hE : createEnv pdist argsort rnd maxR maxDim maxDiv overlap dim cloud p = .ok E) :
    ∃ D, CoverOK E (diam d fun v => cloud.getD v []) cloud.length D ∧
      ∀ n, n + 1 < E.columns.length → ∀ l < E.spx (n + 1), ∃ k < E.spx n, ∀ pts pts',
        E.pts n k = .ok pts → E.pts (n + 1) l = .ok pts' → pts' ⊆ pts := by
  obtain ⟨out, div, C, L, h1, hdiv, hG⟩ := cover_table (overlap := overlap) hne hdim hm hbox hs
  unfold createEnv at hE
  rw [h1] at hE
  refine envOf_coverOK hp hdist ha hmax hdiv.1 hG ?_
    (fun _ _ _ _ h1 h2 h3 => inCube_between hs h1 h2 h3) hdim ?_ hE
  · intro x hx
    obtain ⟨i, hi, rfl⟩ := List.getElem_of_mem hx
    have hdl := hdiv.1
    have := (isDiv_pos_iff hdiv (d := i) (by omega) hs).2 (hw i (by omega))
    rwa [List_getD_eq_getElem _ _ hi] at this
  · intro s hsne hlt hdiam
    obtain ⟨pos, r1, r2⟩ := exists_cube (overlap := overlap) (cloud := cloud)
      (fun i hi pt hpt => (hbox.isLo i hi).2 ⟨pt, hpt, rfl⟩)
      (fun i hi pt hpt => (hbox.isHi i hi).2 ⟨pt, hpt, rfl⟩) hdiv hs hw
      (s.map fun v => cloud.getD v []) (by simpa using hsne)
      (by
        intro pt hpt
        obtain ⟨v, hv, rfl⟩ := List.mem_map.1 hpt
        exact getD_mem' (hlt v hv))
      (by
        intro x hx y hy i hi
        obtain ⟨u, hu, rfl⟩ := List.mem_map.1 hx
        obtain ⟨v, hv, rfl⟩ := List.mem_map.1 hy
        rcases lt_trichotomy u v with huv | rfl | huv
        · have := hdiam u hu v hv huv
          have hc := hcoord _ (getD_mem' (x := []) (hlt v hv)) _ (getD_mem' (x := []) (hlt u hu)) i hi
          have := neg_abs_le ((cloud.getD v []).getD i 0 - (cloud.getD u []).getD i 0)
          linarith
        · linarith
        · have := hdiam v hv u hu huv
          have hc := hcoord _ (getD_mem' (x := []) (hlt u hu)) _ (getD_mem' (x := []) (hlt v hv)) i hi
          have := le_abs_self ((cloud.getD u []).getD i 0 - (cloud.getD v []).getD i 0)
          linarith)
    exact ⟨pos, r1, fun v hv => r2 _ (List.mem_map_of_mem hv)⟩

end

end Permaviss
