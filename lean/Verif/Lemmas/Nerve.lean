import Verif.Lemmas.Cover

/-! The graph of the nerve. -/

namespace Permaviss

/-- Entries `-1`, `0` or `1`. -/
def Small3 (s : List Int) : Prop := ∀ x ∈ s, x = -1 ∨ x = 0 ∨ x = 1

/-- The value of a step read in base three, least significant entry first. -/
def val3 : List Int → Int
  | [] => 0
  | s :: ss => s + 3 * val3 ss

/-- The most significant nonzero entry, least significant entry first. -/
def lead : List Int → Int
  | [] => 0
  | s :: ss => if lead ss = 0 then s else lead ss

theorem lead_zero {s : List Int} : lead s = 0 ↔ ∀ x ∈ s, x = 0 := by
  induction s with
  | nil => simp [lead]
  | cons a s ih =>
    simp only [lead, List.mem_cons, forall_eq_or_imp]
    by_cases h : lead s = 0
    · rw [if_pos h]; simp [ih.1 h]
      exact fun _ => ih.1 h
    · rw [if_neg h]
      exact ⟨fun h' => absurd h' h, fun h' => absurd (ih.2 h'.2) h⟩

/-- The weighted sum of a step has the sign of its most significant entry. -/
theorem offset_sign {s : List Int} {ds : List Nat}
    (h : List.Forall₂ (fun (x : Int) (d : Nat) => x < d ∧ -(d : Int) < x) s ds) :
    (0 < offsetRev s ds ↔ 0 < lead s) ∧ (offsetRev s ds < 0 ↔ lead s < 0) := by
  induction h with
  | nil => simp [offsetRev, lead]
  | @cons x d s ds hx _ ih =>
    simp only [offsetRev, lead]
    obtain ⟨h1, h2⟩ := hx
    have hd : (0 : Int) < d := by omega
    by_cases h0 : lead s = 0
    · rw [if_pos h0]
      have : offsetRev s ds = 0 := by
        rw [h0] at ih
        omega
      rw [this]; simp
    · rw [if_neg h0]
      rcases lt_or_gt_of_ne h0 with hl | hl
      · have := ih.2.2 hl
        have h3 : (d : Int) * offsetRev s ds ≤ d * (-1) :=
          Int.mul_le_mul_of_nonneg_left (by omega) (by omega)
        omega
      · have := ih.1.2 hl
        have h3 : (d : Int) * 1 ≤ d * offsetRev s ds :=
          Int.mul_le_mul_of_nonneg_left (by omega) (by omega)
        omega

theorem val3_lead {s : List Int} (h : Small3 s) : val3 s < 0 ↔ lead s < 0 := by
  have e : val3 s = offsetRev s (s.map fun _ => 3) := by
    clear h
    induction s with
    | nil => rfl
    | cons a s ih => simp [val3, offsetRev, ih]
  rw [e]
  refine (offset_sign ?_).2
  rw [List.forall₂_map_right_iff, List.forall₂_same]
  intro x hx
  rcases h x hx with rfl | rfl | rfl <;> simp

theorem val3_inj {s t : List Int} (hl : s.length = t.length) (hs : Small3 s) (ht : Small3 t)
    (e : val3 s = val3 t) : s = t := by
  induction s generalizing t with
  | nil => cases t with
    | nil => rfl
    | cons a t => simp at hl
  | cons a s ih => cases t with
    | nil => simp at hl
    | cons b t =>
      simp only [val3] at e
      have ha := hs a (by simp)
      have hb := ht b (by simp)
      have hab : a = b := by omega
      subst hab
      rw [ih (by simpa using hl) (fun x hx => hs x (by simp [hx])) (fun x hx => ht x (by simp [hx]))
        (by omega)]

theorem val3_bound {s : List Int} (hs : Small3 s) :
    -(3 ^ s.length - 1 : Int) ≤ 2 * val3 s ∧ 2 * val3 s ≤ 3 ^ s.length - 1 := by
  induction s with
  | nil => simp [val3]
  | cons a s ih =>
    have ha := hs a (by simp)
    obtain ⟨h1, h2⟩ := ih fun x hx => hs x (by simp [hx])
    simp only [val3, List.length_cons, pow_succ]
    omega

theorem stepRev_spec {s : List Int} (hs : Small3 s) :
    (2 * val3 s < 3 ^ s.length - 1 → ∃ t, stepRev s = some t ∧ Small3 t ∧ t.length = s.length ∧
      val3 t = val3 s + 1) := by
  induction s with
  | nil => simp [val3]
  | cons a s ih =>
    intro h
    have ha := hs a (by simp)
    have hs' : Small3 s := fun x hx => hs x (by simp [hx])
    simp only [val3, List.length_cons, pow_succ, stepRev] at *
    by_cases h1 : a < 1
    · rw [if_pos h1]
      refine ⟨_, rfl, ?_, rfl, by simp only [val3]; ring⟩
      intro x hx
      rcases List.mem_cons.1 hx with rfl | hx
      · omega
      · exact hs' x hx
    · rw [if_neg h1]
      have ha1 : a = 1 := by omega
      obtain ⟨t, e1, e2, e3, e4⟩ := ih hs' (by omega)
      refine ⟨-1 :: t, by rw [e1]; rfl, ?_, by simp [e3], ?_⟩
      · intro x hx
        rcases List.mem_cons.1 hx with rfl | hx
        · simp
        · exact e2 x hx
      · simp only [val3]; omega

theorem small3_pos {s : List Int} (hs : Small3 s) (h : ∀ x ∈ s, 0 ≤ x) : 0 ≤ val3 s := by
  induction s with
  | nil => simp [val3]
  | cons a s ih =>
    have := ih (fun x hx => hs x (by simp [hx])) (fun x hx => h x (by simp [hx]))
    have ha := h a (by simp)
    simp only [val3]; omega

theorem stepLoop_spec (fuel : Nat) : ∀ (s : List Int), Small3 s → val3 s ≤ 0 → -val3 s < fuel →
    ∃ l, stepLoop fuel s = .ok l ∧ ∀ t, t ∈ l ↔ Small3 t ∧ t.length = s.length ∧
      val3 s ≤ val3 t ∧ val3 t < 0 := by
  induction fuel with
  | zero => intro s _ h1 h2; exact absurd h2 (by simp; omega)
  | succ fuel ih =>
    intro s hs h1 h2
    unfold stepLoop
    by_cases hneg : val3 s < 0
    · have hany : s.any (fun x => decide (x < 0)) = true := by
        rw [List.any_eq_true]
        by_contra hc
        push Not at hc
        have := small3_pos hs fun x hx => by
          have := hc x hx
          simp at this; exact this
        omega
      rw [if_pos hany]
      have hb : (0 : Int) < 3 ^ s.length := by positivity
      obtain ⟨t, e1, e2, e3, e4⟩ := stepRev_spec hs (by omega)
      obtain ⟨l, e5, e6⟩ := ih t e2 (by omega) (by push_cast at h2; omega)
      rw [e1]
      simp only [Option.getD_some, e5]
      refine ⟨_, rfl, ?_⟩
      intro u
      rw [List.mem_cons, e6, e3, e4]
      constructor
      · rintro (rfl | ⟨h3, h4, h5, h6⟩)
        · exact ⟨hs, rfl, le_rfl, hneg⟩
        · exact ⟨h3, h4, by omega, h6⟩
      · rintro ⟨h3, h4, h5, h6⟩
        by_cases he : val3 u = val3 s
        · exact Or.inl (val3_inj h4 h3 hs he)
        · exact Or.inr ⟨h3, h4, by omega, h6⟩
    · have h0 : val3 s = 0 := by omega
      have hz : s = s.map fun _ => 0 := by
        refine val3_inj (by simp) hs ?_ ?_
        · intro x hx
          obtain ⟨_, _, rfl⟩ := List.mem_map.1 hx
          simp
        · rw [h0]
          clear h0 hneg h1 h2 hs ih
          induction s with
          | nil => rfl
          | cons a s ih => simp only [List.map_cons, val3, ← ih]; rfl
      have hany : ¬ s.any (fun x => decide (x < 0)) = true := by
        rw [hz]; simp
      rw [if_neg hany]
      refine ⟨_, rfl, ?_⟩
      intro t
      simp only [List.not_mem_nil, false_iff, not_and]
      intro _ _ h3
      omega

/-- The steps visited are those whose first nonzero entry is `-1`. -/
theorem neighbourSteps_spec (n : Nat) : ∃ l, neighbourSteps n = .ok l ∧
    ∀ t, t ∈ l ↔ Small3 t ∧ t.length = n ∧ lead t.reverse < 0 := by
  have hs : Small3 (List.replicate n (-1)) := fun x hx => Or.inl (List.eq_of_mem_replicate hx)
  have hv : 2 * val3 (List.replicate n (-1)) = -(3 ^ n - 1 : Int) := by
    clear hs
    induction n with
    | zero => simp [val3]
    | succ n ih =>
      simp only [List.replicate_succ, val3, pow_succ]
      omega
  have hb : (0 : Int) < 3 ^ n := by positivity
  obtain ⟨l, h1, h2⟩ := stepLoop_spec (3 ^ n) _ hs (by omega) (by push_cast; omega)
  unfold neighbourSteps
  rw [h1]
  refine ⟨_, rfl, ?_⟩
  intro t
  rw [List.mem_map]
  have hrev : Small3 t ↔ Small3 t.reverse := by
    unfold Small3; simp
  constructor
  · rintro ⟨u, hu, rfl⟩
    obtain ⟨h3, h4, -, h6⟩ := (h2 u).1 hu
    refine ⟨by rw [hrev]; simpa using h3, by simpa using h4, ?_⟩
    rw [List.reverse_reverse]
    exact (val3_lead h3).1 h6
  · rintro ⟨h3, h4, h5⟩
    refine ⟨t.reverse, (h2 _).2 ⟨hrev.1 h3, by simpa using h4, ?_, (val3_lead (hrev.1 h3)).2 h5⟩,
      List.reverse_reverse t⟩
    have := (val3_bound (hrev.1 h3)).1
    rw [List.length_reverse, h4] at this
    omega

/-- The step from `p` to `q`. -/
def stepOf (p q : List Nat) : List Int := List.zipWith (fun (a b : Nat) => (b : Int) - (a : Int)) p q

theorem offset_stepOf {ds p q : List Nat} (hp : p.length = ds.length) (hq : q.length = ds.length) :
    offsetRev (stepOf p q) ds = (rrank ds q : Int) - rrank ds p := by
  induction ds generalizing p q with
  | nil => cases p <;> cases q <;> simp [offsetRev, rrank, stepOf]
  | cons d ds ih =>
    cases p with
    | nil => simp at hp
    | cons a p => cases q with
      | nil => simp at hq
      | cons b q =>
        have := ih (p := p) (q := q) (by simpa using hp) (by simpa using hq)
        simp only [stepOf, List.zipWith_cons_cons, offsetRev, rrank] at *
        rw [this]
        push_cast
        ring

theorem stepOf_reverse {p q : List Nat} (h : p.length = q.length) :
    (stepOf p q).reverse = stepOf p.reverse q.reverse := by
  unfold stepOf
  rw [List.reverse_zipWith h]

theorem stepOf_getElem {p q : List Nat} {i : Nat} (h : i < (stepOf p q).length) (h1 : i < p.length)
    (h2 : i < q.length) : (stepOf p q)[i] = (q[i] : Int) - (p[i] : Int) := by
  simp [stepOf]

theorem stepOf_get {p q : List Nat} {i : Nat} (hi : i < p.length) (hq : i < q.length) :
    (stepOf p q).getD i 0 = (q.getD i 0 : Int) - p.getD i 0 := by
  unfold stepOf
  simp [List.getD_eq_getElem?_getD, hi, hq]

theorem isPos_iff {ds ps : List Nat} :
    IsPos ds ps ↔ ps.length = ds.length ∧ ∀ i < ds.length, ps.getD i 0 < ds.getD i 0 := by
  unfold IsPos
  rw [List.forall₂_iff_get]
  constructor
  · rintro ⟨h1, h2⟩
    refine ⟨h1, fun i hi => ?_⟩
    have := h2 i (h1 ▸ hi) hi
    simpa [List.getD_eq_getElem?_getD, hi, h1 ▸ hi] using this
  · rintro ⟨h1, h2⟩
    refine ⟨h1, fun i hi hi' => ?_⟩
    have := h2 i hi'
    simpa [List.getD_eq_getElem?_getD, hi, hi'] using this

theorem getD_ext {l l' : List Int} (h : l.length = l'.length)
    (h' : ∀ i < l.length, l.getD i 0 = l'.getD i 0) : l = l' := by
  apply List.ext_getElem h
  intro i h1 h2
  have := h' i h1
  simpa [List.getD_eq_getElem?_getD, h1, h2] using this

theorem neighbourIndex_spec {ds p : List Nat} (hp : IsPos ds p) {t : List Int} (ht : Small3 t)
    (hl : t.length = ds.length) :
    (neighbourIndex ds p (rank ds p) t = -1 ∧ ¬ ∃ q, IsPos ds q ∧ t = stepOf p q) ∨
    ∃ q, IsPos ds q ∧ t = stepOf p q ∧ neighbourIndex ds p (rank ds p) t = rank ds q := by
  obtain ⟨hpl, hpd⟩ := isPos_iff.1 hp
  have hsm : ∀ i < ds.length, t.getD i 0 = -1 ∨ t.getD i 0 = 0 ∨ t.getD i 0 = 1 := by
    intro i hi
    have : i < t.length := by omega
    simp only [List.getD_eq_getElem?_getD, List.getElem?_eq_getElem this, Option.getD_some]
    exact ht _ (List.getElem_mem _)
  unfold neighbourIndex
  by_cases hany : ((List.range ds.length).any fun i =>
      (p.getD i 0 == 0 && t.getD i 0 == -1) ||
      ((p.getD i 0 : Int) == (ds.getD i 0 : Int) - 1 && t.getD i 0 == 1)) = true
  · rw [if_pos hany]
    left
    refine ⟨rfl, ?_⟩
    rintro ⟨q, hq, e⟩
    obtain ⟨hql, hqd⟩ := isPos_iff.1 hq
    rw [List.any_eq_true] at hany
    obtain ⟨i, hi, hc⟩ := hany
    have hi := List.mem_range.1 hi
    have hg := stepOf_get (p := p) (q := q) (i := i) (by omega) (by omega)
    rw [← e] at hg
    have := hqd i hi
    simp only [Bool.or_eq_true, Bool.and_eq_true, beq_iff_eq] at hc
    omega
  · rw [if_neg hany]
    right
    rw [List.any_eq_true] at hany
    have hin : ∀ i < ds.length, 0 ≤ (p.getD i 0 : Int) + t.getD i 0 ∧
        (p.getD i 0 : Int) + t.getD i 0 < ds.getD i 0 := by
      intro i hi
      have h1 : ¬ ((p.getD i 0 = 0 ∧ t.getD i 0 = -1) ∨
          ((p.getD i 0 : Int) = (ds.getD i 0 : Int) - 1 ∧ t.getD i 0 = 1)) := fun hc =>
        hany ⟨i, List.mem_range.2 hi, by simpa using hc⟩
      have h2 := hpd i hi
      have h3 := hsm i hi
      omega
    let q : List Nat := List.zipWith (fun (a : Nat) (s : Int) => ((a : Int) + s).toNat) p t
    have hql : q.length = ds.length := by simp [q]; omega
    have hqg : ∀ i < ds.length, q.getD i 0 = ((p.getD i 0 : Int) + t.getD i 0).toNat := by
      intro i hi
      have h1 : i < p.length := by omega
      have h2 : i < t.length := by omega
      simp [q, List.getD_eq_getElem?_getD, h1, h2]
    have hq : IsPos ds q := by
      refine isPos_iff.2 ⟨hql, fun i hi => ?_⟩
      rw [hqg i hi]
      have := hin i hi
      omega
    have e : t = stepOf p q := by
      apply getD_ext
      · simp [stepOf]; omega
      · intro i hi
        rw [stepOf_get (by omega) (by omega), hqg i (by omega)]
        have := hin i (by omega)
        omega
    refine ⟨q, hq, e, ?_⟩
    rw [e, stepOf_reverse (by omega), offset_stepOf (by simp [hpl]) (by simp [hql]),
      ← rank_eq_rrank hql, ← rank_eq_rrank hpl]
    omega

theorem adjacent_iff {ds p q : List Nat} (hp : p.length = ds.length) (hq : q.length = ds.length) :
    Adjacent p q ↔ Small3 (stepOf p q) := by
  unfold Adjacent Small3
  rw [List.forall₂_iff_get]
  constructor
  · rintro ⟨-, h⟩ x hx
    obtain ⟨i, hi, rfl⟩ := List.getElem_of_mem hx
    have hi' : i < p.length ∧ i < q.length := by simp [stepOf] at hi; omega
    rw [stepOf_getElem hi hi'.1 hi'.2]
    have := h i hi'.1 hi'.2
    simp only [List.get_eq_getElem] at this
    omega
  · intro h
    refine ⟨by omega, fun i h1 h2 => ?_⟩
    have hi : i < (stepOf p q).length := by simp [stepOf]; omega
    have := h _ (List.getElem_mem hi)
    rw [stepOf_getElem hi h1 h2] at this
    simp only [List.get_eq_getElem]
    omega

/-- The steps visited from `p` inside the grid are those to adjacent positions of smaller index. -/
theorem step_visited {ds p q : List Nat} (hp : IsPos ds p) (hq : IsPos ds q) :
    (Small3 (stepOf p q) ∧ (stepOf p q).length = ds.length ∧ lead (stepOf p q).reverse < 0) ↔
      Adjacent p q ∧ rank ds q < rank ds p := by
  have hpl := hp.length
  have hql := hq.length
  have hlen : (stepOf p q).length = ds.length := by simp [stepOf]; omega
  have hsign : lead (stepOf p q).reverse < 0 ↔ rank ds q < rank ds p := by
    rw [stepOf_reverse (by omega)]
    have hf : List.Forall₂ (fun (x : Int) (d : Nat) => x < d ∧ -(d : Int) < x)
        (stepOf p.reverse q.reverse) ds.reverse := by
      rw [List.forall₂_iff_get]
      refine ⟨by simp [stepOf]; omega, fun i h1 h2 => ?_⟩
      simp only [List.get_eq_getElem]
      have h3 : i < p.reverse.length ∧ i < q.reverse.length := by simp [stepOf] at h1; simp; omega
      have hp' := (List.forall₂_iff_get.1 hp.reverse).2 i h3.1 h2
      have hq' := (List.forall₂_iff_get.1 hq.reverse).2 i h3.2 h2
      simp only [List.get_eq_getElem] at hp' hq'
      unfold stepOf
      rw [List.getElem_zipWith]
      omega
    rw [← (offset_sign hf).2, offset_stepOf (by simp [hpl]) (by simp [hql]),
      ← rank_eq_rrank hql, ← rank_eq_rrank hpl]
    omega
  rw [hsign, adjacent_iff hpl hql]
  simp [hlen]

theorem addEdges_spec {ds p : List Nat} (hp : IsPos ds p) {steps : List (List Int)}
    (hst : ∀ t ∈ steps, Small3 t ∧ t.length = ds.length ∧ lead t.reverse < 0)
    (graph : List (List Nat)) (hnd : graph.Nodup) :
    (addEdges ds p (rank ds p) steps graph).Nodup ∧
    ∀ e, e ∈ addEdges ds p (rank ds p) steps graph ↔ e ∈ graph ∨
      ∃ q, IsPos ds q ∧ stepOf p q ∈ steps ∧ e = [rank ds q, rank ds p] := by
  unfold addEdges
  induction steps generalizing graph with
  | nil => simpa using hnd
  | cons t steps ih =>
    obtain ⟨ht1, ht2, ht3⟩ := hst t (by simp)
    have hst' : ∀ t ∈ steps, Small3 t ∧ t.length = ds.length ∧ lead t.reverse < 0 :=
      fun t ht => hst t (by simp [ht])
    rw [List.foldl_cons]
    rcases neighbourIndex_spec hp ht1 ht2 with ⟨h1, h2⟩ | ⟨q, hq, e1, e2⟩
    · rw [if_neg (by rw [h1]; simp)]
      obtain ⟨i1, i2⟩ := ih hst' graph hnd
      refine ⟨i1, fun e => ?_⟩
      rw [i2]
      constructor
      · rintro (h | ⟨q, hq, h3, h4⟩)
        · exact Or.inl h
        · exact Or.inr ⟨q, hq, by simp [h3], h4⟩
      · rintro (h | ⟨q, hq, h3, h4⟩)
        · exact Or.inl h
        · rcases List.mem_cons.1 h3 with h3 | h3
          · exact absurd ⟨q, hq, h3.symm⟩ h2
          · exact Or.inr ⟨q, hq, h3, h4⟩
    · have hlt : rank ds q < rank ds p :=
        ((step_visited hp hq).1 (e1 ▸ ⟨ht1, ht2, ht3⟩)).2
      have hpair : sortedPair (neighbourIndex ds p (rank ds p) t).toNat (rank ds p) =
          [rank ds q, rank ds p] := by
        rw [e2, Int.toNat_natCast, sortedPair, if_pos hlt.le]
      have huniq : ∀ q', IsPos ds q' → stepOf p q' = t → q' = q := by
        intro q' hq' h
        rw [e1] at h
        have := congrArg (fun s => offsetRev s.reverse ds.reverse) h
        have hpl := hp.length
        have hql := hq.length
        have hql' := hq'.length
        rw [stepOf_reverse (by omega), stepOf_reverse (by omega), offset_stepOf (by simp [hpl])
          (by simp [hql']), offset_stepOf (by simp [hpl]) (by simp [hql]), ← rank_eq_rrank hql,
          ← rank_eq_rrank hql', ← rank_eq_rrank hpl] at this
        exact rank_inj hq' hq (by omega)
      rw [hpair]
      by_cases hmem : [rank ds q, rank ds p] ∈ graph
      · rw [if_neg (by simp [hmem])]
        obtain ⟨i1, i2⟩ := ih hst' graph hnd
        refine ⟨i1, fun e => ?_⟩
        rw [i2]
        constructor
        · rintro (h | ⟨q, hq, h3, h4⟩)
          · exact Or.inl h
          · exact Or.inr ⟨q, hq, by simp [h3], h4⟩
        · rintro (h | ⟨q', hq', h3, h4⟩)
          · exact Or.inl h
          · rcases List.mem_cons.1 h3 with h3 | h3
            · rw [huniq q' hq' h3] at h4
              exact Or.inl (h4 ▸ hmem)
            · exact Or.inr ⟨q', hq', h3, h4⟩
      · rw [if_pos ⟨by rw [e2]; omega, hmem⟩]
        obtain ⟨i1, i2⟩ := ih hst' (graph ++ [[rank ds q, rank ds p]])
          (List.nodup_append.2 ⟨hnd, by simp, by
            intro a ha b hb
            rw [List.mem_singleton] at hb
            rintro rfl
            exact hmem (hb ▸ ha)⟩)
        refine ⟨i1, fun e => ?_⟩
        rw [i2, List.mem_append, List.mem_singleton]
        constructor
        · rintro ((h | h) | ⟨q', hq', h3, h4⟩)
          · exact Or.inl h
          · exact Or.inr ⟨q, hq, by simp [e1], h⟩
          · exact Or.inr ⟨q', hq', by simp [h3], h4⟩
        · rintro (h | ⟨q', hq', h3, h4⟩)
          · exact Or.inl (Or.inl h)
          · rcases List.mem_cons.1 h3 with h3 | h3
            · rw [huniq q' hq' h3] at h4
              exact Or.inl (Or.inr h4)
            · exact Or.inr ⟨q', hq', h3, h4⟩

theorem nerveGraph_spec {ds : List Nat} (hpos : ∀ d ∈ ds, 0 < d) :
    ∃ G, nerveGraph ds = .ok G ∧ G.Nodup ∧
      ∀ e, e ∈ G ↔ ∃ p q, IsPos ds p ∧ IsPos ds q ∧ Adjacent p q ∧ rank ds p < rank ds q ∧
        e = [rank ds p, rank ds q] := by
  obtain ⟨steps, h1, h2⟩ := neighbourSteps_spec ds.length
  unfold nerveGraph
  rw [h1]
  refine ⟨_, rfl, ?_⟩
  have key : ∀ (L : List (List Nat × Nat)), (∀ x ∈ L, IsPos ds x.1 ∧ rank ds x.1 = x.2) →
      ∀ graph : List (List Nat), graph.Nodup →
      (L.foldl (fun graph x => addEdges ds x.1 x.2 steps graph) graph).Nodup ∧
      ∀ e, e ∈ L.foldl (fun graph x => addEdges ds x.1 x.2 steps graph) graph ↔
        e ∈ graph ∨ ∃ p q, IsPos ds p ∧ (∃ x ∈ L, x.1 = q) ∧ Adjacent q p ∧
          rank ds p < rank ds q ∧ e = [rank ds p, rank ds q] := by
    intro L
    induction L with
    | nil => intro _ graph hg; simpa using hg
    | cons x L ih =>
      intro hL graph hg
      rw [List.foldl_cons]
      obtain ⟨hx1, hx2⟩ := hL x (by simp)
      obtain ⟨a1, a2⟩ := addEdges_spec hx1 (steps := steps) (fun t ht => (h2 t).1 ht) graph hg
      rw [hx2] at a1 a2
      obtain ⟨i1, i2⟩ := ih (fun y hy => hL y (by simp [hy])) _ a1
      refine ⟨i1, fun e => ?_⟩
      rw [i2, a2]
      constructor
      · rintro ((h | ⟨q, hq, h3, h4⟩) | ⟨p, q, hp, ⟨y, hy, rfl⟩, h5⟩)
        · exact Or.inl h
        · obtain ⟨h6, h7⟩ := (step_visited hx1 hq).1 ((h2 _).1 h3)
          exact Or.inr ⟨q, x.1, hq, ⟨x, by simp, rfl⟩, h6, h7, by rw [hx2]; exact h4⟩
        · exact Or.inr ⟨p, y.1, hp, ⟨y, by simp [hy], rfl⟩, h5⟩
      · rintro (h | ⟨p, q, hp, ⟨y, hy, rfl⟩, h5, h6, h7⟩)
        · exact Or.inl (Or.inl h)
        · rcases List.mem_cons.1 hy with rfl | hy
          · refine Or.inl (Or.inr ⟨p, hp, (h2 _).2 ((step_visited hx1 hp).2 ⟨h5, h6⟩), ?_⟩)
            rw [← hx2]; exact h7
          · exact Or.inr ⟨p, y.1, hp, ⟨y, hy, rfl⟩, h5, h6, h7⟩
  have hL : ∀ x ∈ (positions ds).zip (List.range ds.prod), IsPos ds x.1 ∧ rank ds x.1 = x.2 := by
    intro x hx
    obtain ⟨i, hi, rfl⟩ := List.getElem_of_mem hx
    have hi' : i < ds.prod := by
      simp only [List.length_zip, List.length_range] at hi; omega
    simp only [List.getElem_zip, List.getElem_range, positions, List.getElem_map]
    exact posAt_spec hpos hi'
  obtain ⟨k1, k2⟩ := key _ hL [] List.nodup_nil
  refine ⟨k1, fun e => ?_⟩
  rw [k2]
  simp only [List.not_mem_nil, false_or]
  constructor
  · rintro ⟨p, q, hp, ⟨x, hx, rfl⟩, h5, h6, h7⟩
    refine ⟨p, x.1, hp, (hL x hx).1, ?_, h6, h7⟩
    exact List.Forall₂.flip (h5.imp fun a b h => ⟨h.2, h.1⟩)
  · rintro ⟨p, q, hp, hq, h5, h6, h7⟩
    refine ⟨p, q, hp, ⟨(q, rank ds q), ?_, rfl⟩, ?_, h6, h7⟩
    · rw [List.mem_iff_getElem?]
      refine ⟨rank ds q, ?_⟩
      rw [List.getElem?_zip_eq_some]
      have hlt := rank_lt hq
      refine ⟨?_, by simp [hlt]⟩
      simp only [positions, List.getElem?_map, List.getElem?_range hlt, Option.map_some]
      exact congrArg some (posAt_rank hq)
    · exact List.Forall₂.flip (h5.imp fun a b h => ⟨h.2, h.1⟩)

end Permaviss
