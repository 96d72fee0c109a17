import Verif.Lemmas.CechRows
import Verif.Lemmas.CoverOK
import Verif.Lemmas.Thin

/-!
# The nerve of the cubical cover satisfies the conditions for exactness
-/

namespace Permaviss

open Finset

attribute [-instance] instMulZeroClassOfSemiring

/-- Positions are numbered in lexicographic order. -/
theorem rank_lex : ∀ {ds p q : List ℕ}, IsPos ds p → IsPos ds q → rank ds p < rank ds q →
    ∃ j < ds.length, (∀ i < j, p.getD i 0 = q.getD i 0) ∧ p.getD j 0 < q.getD j 0
  | [], p, q, hp, hq, h => by cases hp; cases hq; exact absurd h (lt_irrefl _)
  | d :: ds, p, q, hp, hq, h => by
    cases hp with
    | @cons a _ ps _ ha hps =>
    cases hq with
    | @cons b _ qs _ hb hqs =>
    unfold rank at h
    have h1 := rank_lt hps
    have h2 := rank_lt hqs
    rcases lt_trichotomy a b with hab | rfl | hab
    · exact ⟨0, by simp, fun i hi => absurd hi (by omega), by simpa using hab⟩
    · obtain ⟨j, hj, e1, e2⟩ := rank_lex hps hqs (by omega)
      refine ⟨j + 1, by simpa using hj, fun i hi => ?_, by simpa using e2⟩
      rcases i with _ | i
      · simp
      · simpa using e1 i (by omega)
    · exfalso
      have : (b + 1) * ds.prod ≤ a * ds.prod := Nat.mul_le_mul_right _ hab
      rw [Nat.add_mul, one_mul] at this
      omega

theorem rank_lt_of_le {ds p q : List ℕ} (hp : IsPos ds p) (hq : IsPos ds q)
    (hle : ∀ i < ds.length, p.getD i 0 ≤ q.getD i 0) (hne : p ≠ q) : rank ds p < rank ds q := by
  rcases lt_trichotomy (rank ds p) (rank ds q) with h | h | h
  · exact h
  · exact absurd (rank_inj hp hq h) hne
  · obtain ⟨j, hj, -, e⟩ := rank_lex hq hp h
    have := hle j hj
    omega

/-- A set of cubes with all the cubes between any two of them has no homology. -/
theorem box_acyclic {K : Type} [CommRing K] {ds : List ℕ} (hpos : ∀ d ∈ ds, 0 < d) (P : List ℕ → Prop)
    (hP : ∀ p q r, IsPos ds p → IsPos ds q → IsPos ds r → P p → P q →
      (∀ i < ds.length, min (p.getD i 0) (q.getD i 0) ≤ r.getD i 0 ∧
        r.getD i 0 ≤ max (p.getD i 0) (q.getD i 0)) → P r) (V : Finset ℕ)
    (hV : ∀ v, v ∈ V ↔ v < ds.prod ∧ P (posAt ds v)) (m : ℕ) :
    AcycAt K (fun u v => Adjacent (posAt ds u) (posAt ds v)) V (m + 1) := by
  classical
  refine dominated_acyclic V.card V le_rfl (fun v hv hmax => ?_) m
  obtain ⟨hv1, hv2⟩ := (hV v).1 hv
  obtain ⟨pv, ev⟩ := posAt_spec hpos hv1
  set p := posAt ds v with hp
  have hpl := (isPos_iff.1 pv).1
  have hex : ∃ j, j < ds.length ∧ ∃ u ∈ V, p.getD j 0 < (posAt ds u).getD j 0 := by
    obtain ⟨u, hu, hvu⟩ := hmax
    obtain ⟨pu, eu⟩ := posAt_spec hpos ((hV u).1 hu).1
    obtain ⟨j, hj, -, e⟩ := rank_lex pv pu (by omega)
    exact ⟨j, hj, u, hu, e⟩
  obtain ⟨hj, u0, hu0, hlt0⟩ := Nat.find_spec hex
  have hmin := fun i (hi : i < Nat.find hex) => Nat.find_min hex hi
  set j := Nat.find hex
  obtain ⟨hu01, hu02⟩ := (hV u0).1 hu0
  obtain ⟨pu0, -⟩ := posAt_spec hpos hu01
  have hj0 := (isPos_iff.1 pu0).2 j hj
  have pw : IsPos ds (p.set j (p.getD j 0 + 1)) := isPos_set pv (by omega)
  have hw : ∀ i, (p.set j (p.getD j 0 + 1)).getD i 0 = if j = i then p.getD j 0 + 1 else p.getD i 0 :=
    fun i => getD_set_eq (by omega)
  set w := p.set j (p.getD j 0 + 1)
  have hwV : rank ds w ∈ V := by
    refine (hV _).2 ⟨rank_lt pw, ?_⟩
    rw [posAt_rank pw]
    refine hP p _ w pv pu0 pw hv2 hu02 fun i hi => ?_
    rw [hw i]
    split
    · next h => subst h; omega
    · omega
  have hadj : ∀ u ∈ V, v < u → Adjacent p (posAt ds u) → Adjacent (posAt ds u) w := by
    intro u hu hvu hau
    obtain ⟨pu, eu⟩ := posAt_spec hpos ((hV u).1 hu).1
    obtain ⟨j', hj', e1, e2⟩ := rank_lex pv pu (by omega)
    have hul := (isPos_iff.1 pu).1
    rw [adjacent_iff_getD hpl hul] at hau
    rw [adjacent_iff_getD hul (isPos_iff.1 pw).1]
    intro i hi
    have h1 := hau i hi
    rw [hw i]
    split
    · next h =>
      subst h
      have : p.getD j 0 ≤ (posAt ds u).getD j 0 := by
        rcases lt_trichotomy j j' with h | h | h
        · rw [e1 j h]
        · rw [h]; exact e2.le
        · exact absurd ⟨hj', u, hu, e2⟩ (hmin j' h)
      omega
    · omega
  refine ⟨rank ds w, hwV, ?_, ?_, fun u hu hvu hau => ⟨fun _ => ?_, fun _ => ?_⟩⟩
  · rw [← ev]
    refine rank_lt_of_le pv pw (fun i _ => ?_) fun e => ?_
    · rw [hw i]; split
      · next h => subst h; omega
      · exact le_rfl
    · have := hw j
      rw [← e, if_pos rfl] at this
      omega
  · rw [posAt_rank pw, adjacent_iff_getD hpl (isPos_iff.1 pw).1]
    intro i _
    rw [hw i]; split
    · next h => subst h; omega
    · omega
  · rw [posAt_rank pw]; exact hadj u hu hvu hau
  · rw [posAt_rank pw]; exact (hadj u hu hvu hau).symm'

theorem augSum_erase {K : Type} [CommRing K] {τ σ : List ℕ} (hτ : τ.Pairwise (· < ·)) :
    (∀ k < τ.length, σ = τ.eraseIdx k → augSum K τ σ = (-1) ^ k) ∧
    ((∀ k < τ.length, σ ≠ τ.eraseIdx k) → augSum K τ σ = 0) := by
  unfold augSum
  rw [Finsupp.finset_sum_apply]
  constructor
  · rintro k hk rfl
    rw [Finset.sum_eq_single k]
    · rw [Finsupp.smul_apply, Finsupp.single_eq_same, smul_eq_mul, mul_one]
    · intro b hb hne
      rw [Finsupp.smul_apply, Finsupp.single_eq_of_ne, smul_zero]
      exact fun e => hne (eraseIdx_inj hτ (mem_range.1 hb) hk e.symm)
    · intro h; exact absurd (mem_range.2 hk) h
  · intro h
    refine Finset.sum_eq_zero fun k hk => ?_
    rw [Finsupp.smul_apply, Finsupp.single_eq_of_ne (h k (mem_range.1 hk)), smul_zero]

section

variable {K : Type} [Field K] [LinearOrder K] [IsStrictOrderedRing K] [FloorRing K]

/-- The nerve of a cover by a grid. -/
theorem envOf_nerveOK {p : ℕ} (hp : p.Prime) {pdist : List (List K) → List (List K)}
    {d : List K → List K → K} (hdist : IsDistTable pdist d) {argsort : List K → List Nat}
    (ha : IsArgsort argsort) {rnd : K → K} {maxR : K} (hmax : 0 < maxR) {maxDim : ℕ}
    {dim : Nat} {cloud : List (List K)} {div : List ℕ} {In : List ℕ → ℕ → Prop} {out : CoverOut K}
    {C : List (List (List ℕ))} {L : List (List ℕ)} (hdl : div.length = dim)
    (hG : GridCover cloud div In out C L) (hpos : ∀ x ∈ div, 0 < x)
    (hconv : ∀ p q r i, In p i → In q i → (∀ j < dim, min (p.getD j 0) (q.getD j 0) ≤ r.getD j 0 ∧
      r.getD j 0 ≤ max (p.getD j 0) (q.getD j 0)) → In r i)
    {E : SSEnv K} (hE : envOf pdist argsort rnd maxR maxDim p out = .ok E) :
    ∃ N S adj, NerveOK E N S adj := by
  obtain ⟨E', h1, hS, h3, h4, h5, h6, h7, h8, hC, hD, hspx, hpts, -⟩ :=
    envOf_ok hp hdist ha rnd hmax maxDim hdl hG
  rw [hE] at h1
  obtain rfl := Except.ok.inj h1
  have hN := hG.run
  have hL := hG.length
  have hcube := hG.cubes
  obtain ⟨C', c1, c2, c3⟩ := C41_nerve_simplices hpos
  rw [hN] at c1
  obtain rfl : C = C' := congrArg Prod.snd (Except.ok.inj c1)
  obtain ⟨C', l1, l2, l3⟩ := C42_last_empty div
  rw [hN] at l1
  obtain rfl : C = C' := congrArg Prod.snd (Except.ok.inj l1)
  obtain ⟨-, -, -, hD0, hD1⟩ := C19_differentials_boundary hp.two_le hC _ _ hD
  have hcol : E.columns.length = C.length := by rw [h7, c2, hdl]
  have h2p : 0 < 2 ^ div.length := by positivity
  have hget : ∀ n < C.length, C[n]? = some (simplicesOf div.prod C (n + 1)) := by
    intro n hn
    simp only [simplicesOf]
    rw [List_getD_eq_getElem _ _ hn, List.getElem?_eq_getElem hn]
  have hz1 : simplicesOf div.prod C C.length = [] := by
    rw [c2, show 2 ^ div.length = (2 ^ div.length - 1) + 1 by omega]
    simp only [simplicesOf]
    rw [List.getD_eq_getElem?_getD, l3]; rfl
  have hmem : ∀ n ≤ E.columns.length, ∀ σ, σ ∈ simplicesOf div.prod C n ↔
      CliqueOn (fun u v => Adjacent (posAt div u) (posAt div v)) (range div.prod) (n + 1) σ := by
    intro n hn σ
    rcases n with _ | n
    · simp only [simplicesOf, List.mem_map, List.mem_range, CliqueOn]
      constructor
      · rintro ⟨v, hv, rfl⟩
        exact ⟨rfl, by simpa using hv, by simp⟩
      · rintro ⟨e1, e2, -⟩
        obtain ⟨v, rfl⟩ := List.length_eq_one_iff.1 e1
        exact ⟨v, by simpa using e2, rfl⟩
    · rw [(c3 n _ (hget n (by omega))).2 σ]
      constructor
      · rintro ⟨e1, e2, ps, e3, rfl, e4⟩
        refine ⟨e1, ?_, ?_⟩
        · intro v hv
          obtain ⟨q, hq, rfl⟩ := List.mem_map.1 hv
          exact mem_range.2 (rank_lt (e3 q hq))
        · refine (List.pairwise_map.2 ?_)
          refine List.Pairwise.imp_of_mem ?_ (List.pairwise_map.1 e2)
          intro a b ha hb hlt
          refine ⟨hlt, ?_⟩
          beta_reduce
          rw [posAt_rank (e3 a ha), posAt_rank (e3 b hb)]
          exact e4 a ha b hb
      · rintro ⟨e1, e2, e3⟩
        refine ⟨e1, e3.imp fun h => h.1, σ.map (posAt div), ?_, ?_, ?_⟩
        · intro q hq
          obtain ⟨v, hv, rfl⟩ := List.mem_map.1 hq
          exact (posAt_spec hpos (mem_range.1 (e2 v hv))).1
        · rw [List.map_map]
          refine (List.map_id σ).symm.trans (List.map_congr_left fun v hv => ?_)
          exact (posAt_spec hpos (mem_range.1 (e2 v hv))).2.symm
        · intro a ha b hb
          obtain ⟨u, hu, rfl⟩ := List.mem_map.1 ha
          obtain ⟨v, hv, rfl⟩ := List.mem_map.1 hb
          rw [pairwise_iff_forall_lt (e3.imp fun h => h.1)] at e3
          rcases lt_trichotomy u v with huv | rfl | huv
          · exact (e3 u hu v hv huv).2
          · exact Adjacent.refl' _
          · exact (e3 v hv u hu huv).2.symm'
  have hcube0 : ∀ k < div.prod, ∀ i, i ∈ L.getD k [] ↔ i < cloud.length ∧
      In (posAt div k) i := by
    intro k hk i
    obtain ⟨q1, q2⟩ := posAt_spec hpos hk
    obtain ⟨l, l1, -, l3⟩ := hcube _ q1
    rw [q2] at l1
    rw [← l3 i, List.getD_eq_getElem?_getD, l1]
    rfl
  have hmem0 : ∀ k < div.prod, ∀ deg ≤ E.rows, ∀ s, s ∈ E.G 0 k deg ↔ s.length = deg + 1 ∧
      s.Pairwise (· < ·) ∧ (∀ v ∈ s, v < cloud.length ∧
        In (posAt div k) v) ∧
      diam d (fun v => cloud.getD v []) s < E.maxR := by
    intro k hk deg hdeg s
    have hkE : k < E.spx 0 := by rw [hspx]; simpa [simplicesOf] using hk
    obtain ⟨pts, e1, -, e3⟩ := hpts 0 (by rw [hcol, c2]; exact h2p) k [k] (by simp [simplicesOf, hk])
    rw [hS.mem 0 (by rw [hcol, c2]; exact h2p) k hkE pts e1 deg hdeg s]
    simp only [e3, List.mem_singleton, forall_eq, hcube0 k hk]
  refine ⟨div.prod, simplicesOf div.prod C, fun u v => Adjacent (posAt div u) (posAt div v), ?_⟩
  refine ⟨fun n _ => hspx n, ?_, ?_, hmem, ?_, ?_, ?_⟩
  · rw [hspx, hcol, hz1]; rfl
  · intro n hn
    rcases n with _ | n
    · simp only [simplicesOf]
      exact List.Nodup.map (fun a b h => by simpa using h) List.nodup_range
    · exact (c3 n _ (hget n (by omega))).1
  · intro n hn D hDn
    rw [hcol] at hn
    rcases n with _ | n
    · obtain ⟨M, m1, m2, m3, m4⟩ := hD0 _ (hget 0 hn)
      rw [hDn] at m1
      obtain rfl := Option.some.inj m1
      refine ⟨-1, by ring, fun k l σ τ hσ hτ => ?_⟩
      have hτm := (hmem 1 (by omega) τ).1 (List.mem_of_getElem? hτ)
      obtain ⟨u, v, rfl⟩ := List.length_eq_two.1 hτm.1
      have hσk : σ = [k] := by
        simp only [simplicesOf] at hσ
        obtain ⟨hk, e⟩ := List.getElem?_eq_some_iff.1 hσ
        simpa using e.symm
      subst hσk
      obtain ⟨g1, g2, g3⟩ := m4 l u v hτ
      have huv : u < v := by have := hτm.2.2; simp at this; exact this.1
      have e0 := augSum_erase (K := ZMod E.p) (τ := [u, v]) (σ := [k]) (by simpa using huv)
      rcases eq_or_ne k u with rfl | hku
      · rw [e0.1 1 (by simp) (by simp)]
        unfold Mat.z; rw [g1]; simp
      · rcases eq_or_ne k v with rfl | hkv
        · rw [e0.1 0 (by simp) (by simp)]
          unfold Mat.z; rw [g2]; rw [h3]; simp
        · rw [e0.2]
          · unfold Mat.z; rw [g3 k hku hkv]; simp
          · intro i hi e
            match i, hi with
            | 0, _ => simp at e; exact hkv e
            | 1, _ => simp at e; exact hku e
    · obtain ⟨M, m1, m2, m3, m4⟩ := hD1 n _ _ (hget n (by omega)) (hget (n + 1) (by omega))
      rw [hDn] at m1
      obtain rfl := Option.some.inj m1
      refine ⟨1, by ring, fun k l σ τ hσ hτ => ?_⟩
      obtain ⟨g1, g2⟩ := m4 k l σ τ hσ hτ
      have hτm := (hmem (n + 2) (by omega) τ).1 (List.mem_of_getElem? hτ)
      have e0 := augSum_erase (K := ZMod E.p) (τ := τ) (σ := σ) (hτm.2.2.imp fun h => h.1)
      rw [one_mul]
      by_cases hex : ∃ k < τ.length, σ = τ.eraseIdx k
      · obtain ⟨q, hq, e⟩ := hex
        rw [e0.1 q hq e]
        unfold Mat.z; rw [g1 q hq e, ← h3, cast_fmod]
        push_cast
        rfl
      · rw [e0.2 (fun q hq e => hex ⟨q, hq, e⟩)]
        unfold Mat.z; rw [g2 fun q hq e => hex ⟨q, hq, e⟩]; simp
  · intro n hn k σ hσ deg hdeg s
    have hk : k < E.spx n := by rw [hspx]; exact (List.getElem?_eq_some_iff.1 hσ).1
    obtain ⟨pts, e1, -, e3⟩ := hpts n hn k σ hσ
    obtain ⟨g1, g2, g3⟩ := (hmem n hn.le σ).1 (List.mem_of_getElem? hσ)
    rw [hS.mem n hn k hk pts e1 deg hdeg s]
    constructor
    · rintro ⟨b1, b2, b3, b4⟩ v hv
      have hv' := mem_range.1 (g2 v hv)
      rw [hmem0 v hv' deg hdeg s]
      exact ⟨b1, b2, fun x hx => (hcube0 v hv' x).1 ((e3 x).1 (b3 x hx) v hv), b4⟩
    · intro hall
      have hne' : σ ≠ [] := by rintro rfl; simp at g1
      obtain ⟨v0, hv0⟩ := List.exists_mem_of_ne_nil σ hne'
      have h0 := (hmem0 v0 (mem_range.1 (g2 v0 hv0)) deg hdeg s).1 (hall v0 hv0)
      refine ⟨h0.1, h0.2.1, fun x hx => (e3 x).2 fun v hv => ?_, h0.2.2.2⟩
      have hv' := mem_range.1 (g2 v hv)
      exact (hcube0 v hv' x).2 (((hmem0 v hv' deg hdeg s).1 (hall v hv)).2.2.1 x hx)
  · intro deg hdeg s m
    refine box_acyclic hpos (fun q => s.length = deg + 1 ∧ s.Pairwise (· < ·) ∧
      (∀ x ∈ s, x < cloud.length ∧ In q x) ∧
      diam d (fun v => cloud.getD v []) s < E.maxR) ?_ _ ?_ m
    · rintro a b r - - - ⟨a1, a2, a3, a4⟩ ⟨-, -, b3, -⟩ hr
      refine ⟨a1, a2, fun x hx => ⟨(a3 x hx).1, ?_⟩, a4⟩
      exact hconv _ _ _ _ (a3 x hx).2 (b3 x hx).2 fun i hi => hr i (by omega)
    · intro v
      rw [Finset.mem_filter, mem_range]
      constructor
      · rintro ⟨v1, v2⟩
        exact ⟨v1, (hmem0 v v1 deg hdeg s).1 v2⟩
      · rintro ⟨v1, v2⟩
        exact ⟨v1, (hmem0 v v1 deg hdeg s).2 v2⟩


/-- The nerve of the cover computed by `create_MV_ss`. -/
theorem createEnv_nerveOK {p : ℕ} (hp : p.Prime) {pdist : List (List K) → List (List K)}
    {d : List K → List K → K} (hdist : IsDistTable pdist d) {argsort : List K → List Nat}
    (ha : IsArgsort argsort) {rnd : K → K} {maxR : K} (hmax : 0 < maxR) {maxDim : ℕ}
    {maxDiv dim : Nat} {overlap : K} {cloud : List (List K)} {lo hi : Nat → K}
    {side : K} (hne : cloud ≠ []) (hdim : 0 < dim) (hm : 0 < maxDiv)
    (hbox : IsBox maxDiv dim cloud lo hi side) (hs : 0 < side) (hw : ∀ i < dim, lo i < hi i) {E : SSEnv K}
    (hE : createEnv pdist argsort rnd maxR maxDim maxDiv overlap dim cloud p = .ok E) :
    ∃ N S adj, NerveOK E N S adj := by
  obtain ⟨out, div, C, L, h1, hdiv, hG⟩ := cover_table (overlap := overlap) hne hdim hm hbox hs
  unfold createEnv at hE
  rw [h1] at hE
  refine envOf_nerveOK hp hdist ha hmax hdiv.1 hG ?_
    (fun _ _ _ _ h1 h2 h3 => inCube_between hs h1 h2 h3) hE
  intro x hx
  obtain ⟨i, hi, rfl⟩ := List.getElem_of_mem hx
  have hdl := hdiv.1
  have := (isDiv_pos_iff hdiv (d := i) (by omega) hs).2 (hw i (by omega))
  rwa [List_getD_eq_getElem _ _ hi] at this

end

end Permaviss
