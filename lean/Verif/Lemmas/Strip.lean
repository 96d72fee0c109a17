import Verif.Lemmas.Components
import Verif.Lemmas.RowZero
import Verif.Spec.Broken

/-!
# The homology of a complex covered by pieces in a line

The classes of the whole complex, from the second page of the spectral sequence with two columns.
-/

namespace Permaviss

open Finset

attribute [-instance] instMulZeroClassOfSemiring

section

variable {α : Type} [LinearOrder α] [Zero α] {rnd : α → α} {E : SSEnv α} {ρ : List ℕ → α}

/-- Generators of `Z / N`, as combinations of classes of column `n`. -/
structure Gens (E : SSEnv α) (n deg : ℕ) (bars : List (α × α)) (x : ℕ → ℕ → ZMod E.p)
    (Z N : α → Submodule (ZMod E.p) (ℕ → ZMod E.p)) : Prop where
  wf : ∀ b ∈ bars, b.1 < b.2
  born : ∀ i b, bars[i]? = some b → E.BornBy n deg (x i) b.1
  dead : ∀ i b t, bars[i]? = some b → b.2 ≤ t → barRestr E.p (E.firstBars deg n) t (x i) ∈ N t
  span : ∀ t z, z ∈ Z t → ∃ c : ℕ → ZMod E.p, (∀ i, ¬ AliveBar bars i t → c i = 0) ∧
    z - barRestr E.p (E.firstBars deg n) t (∑ i ∈ range bars.length, c i • x i) ∈ N t
  indep : ∀ t (c : ℕ → ZMod E.p), (∀ i, ¬ AliveBar bars i t → c i = 0) →
    barRestr E.p (E.firstBars deg n) t (∑ i ∈ range bars.length, c i • x i) ∈ N t → ∀ i, c i = 0

theorem BornBy.zero {n deg : ℕ} {t : α} : E.BornBy n deg 0 t := fun _ hi => absurd rfl hi

theorem BornBy.add {n deg : ℕ} {x y : ℕ → ZMod E.p} {t : α} (hx : E.BornBy n deg x t)
    (hy : E.BornBy n deg y t) : E.BornBy n deg (x + y) t := by
  intro i hi
  by_cases h0 : x i = 0
  · refine hy i fun h1 => hi ?_
    rw [Pi.add_apply, h0, h1, add_zero]
  · exact hx i h0

theorem BornBy.smul {n deg : ℕ} {x : ℕ → ZMod E.p} {t : α} (r : ZMod E.p) (hx : E.BornBy n deg x t) :
    E.BornBy n deg (r • x) t := by
  intro i hi
  refine hx i fun h0 => hi ?_
  rw [Pi.smul_apply, h0, smul_zero]

theorem BornBy.sum {n deg : ℕ} {t : α} {ι : Type} (S : Finset ι) (f : ι → ℕ → ZMod E.p)
    (hf : ∀ i ∈ S, E.BornBy n deg (f i) t) : E.BornBy n deg (∑ i ∈ S, f i) t := by
  classical
  induction S using Finset.induction_on with
  | empty => rw [Finset.sum_empty]; exact BornBy.zero
  | insert a S ha ih =>
    rw [Finset.sum_insert ha]
    exact BornBy.add (hf a (Finset.mem_insert_self a S)) (ih fun i hi => hf i (Finset.mem_insert_of_mem hi))

theorem Gens.comb {n deg : ℕ} {bars : List (α × α)} {x : ℕ → ℕ → ZMod E.p}
    {Z N : α → Submodule (ZMod E.p) (ℕ → ZMod E.p)} (X : Gens E n deg bars x Z N) {t : α}
    {c : ℕ → ZMod E.p} (hc : ∀ i, ¬ AliveBar bars i t → c i = 0) :
    E.BornBy n deg (∑ i ∈ range bars.length, c i • x i) t := by
  refine BornBy.sum _ _ fun i _ => ?_
  by_cases h0 : c i = 0
  · rw [h0, zero_smul]; exact BornBy.zero
  have : AliveBar bars i t := by by_contra hn; exact h0 (hc i hn)
  obtain ⟨b, hb, hb1, -⟩ := this
  exact BornBy.smul _ (BornBy.mono hb1 (X.born i b hb))

theorem cechSum_congr {D : Mat} {n deg k : ℕ} {c c' : ℕ → ℕ → ZMod E.p}
    (h : ∀ l < E.spx (n + 1), c l = c' l) : E.cechSum D n deg k c = E.cechSum D n deg k c' := by
  unfold SSEnv.cechSum
  exact Finset.sum_congr rfl fun l hl => by rw [h l (mem_range.1 hl)]

/-- Dead classes go to dead classes. -/
theorem first_dead (h : SSOK rnd E ρ) {n deg : ℕ} (hn : n + 1 < E.columns.length) (hdeg : deg < E.rows)
    {M : Mat} (hM : firstDifferential E n deg = .ok M) {t : α} {β : ℕ → ZMod E.p}
    (hβ : E.BornBy (n + 1) deg β t) :
    barRestr E.p (E.firstBars deg n) t (M.mulVecL E.p (barRestr E.p (E.firstBars deg (n + 1)) t β)) =
      barRestr E.p (E.firstBars deg n) t (M.mulVecL E.p β) := by
  symm
  rw [← sub_eq_zero, ← map_sub, ← map_sub]
  have hM0 : E.firstBars deg (n + 1) ≠ [] → IsMorphism E.p (E.firstBars deg (n + 1)) (E.firstBars deg n) M := by
    intro hne
    obtain ⟨M', hM', hmor⟩ := firstDifferential_morphism (n := n) h hn hdeg hne
    rw [hM] at hM'
    obtain rfl := Except.ok.inj hM'
    exact hmor
  funext i
  by_cases hS : AliveBar (E.firstBars deg n) i t
  swap
  · exact restr_apply_neg hS
  refine (restr_apply_pos hS).trans ?_
  rw [mulVecL_apply]
  refine Finset.sum_eq_zero fun j hj => ?_
  rw [Pi.sub_apply]
  by_cases hj' : AliveBar (E.firstBars deg (n + 1)) j t
  · rw [show barRestr E.p (E.firstBars deg (n + 1)) t β j = β j from restr_apply_pos hj', sub_self, mul_zero]
  · rw [show barRestr E.p (E.firstBars deg (n + 1)) t β j = 0 from restr_apply_neg hj', sub_zero]
    by_cases hb0 : β j = 0
    · rw [hb0, mul_zero]
    by_cases hz : M.z E.p i j = 0
    · rw [hz, zero_mul]
    exfalso
    obtain ⟨a, ha, hat⟩ := hβ j hb0
    obtain ⟨b, hb, hb1, hb2⟩ := hS
    have hmor := hM0 (by rintro h0; rw [h0] at ha; simp at ha)
    exact hj' ⟨a, ha, hat, hb2.trans_le (hmor.death i j a b ha hb hz)⟩

theorem fam_smulsum {n deg k m : ℕ} (c : ℕ → ZMod E.p) (x : ℕ → ℕ → ZMod E.p) :
    E.fam n deg k (∑ i ∈ range m, c i • x i) = ∑ i ∈ range m, c i • E.fam n deg k (x i) := by
  rw [map_sum]
  exact Finset.sum_congr rfl fun i _ => map_smul _ _ _

theorem cechSum_smulsum {D : Mat} {n deg k m : ℕ} (c : ℕ → ZMod E.p) (f : ℕ → ℕ → ℕ → ZMod E.p) :
    E.cechSum D n deg k (fun l => ∑ i ∈ range m, c i • f i l) =
      ∑ i ∈ range m, c i • E.cechSum D n deg k (f i) := by
  have e : (fun l => ∑ i ∈ range m, c i • f i l) = ∑ i ∈ range m, c i • f i := by
    funext l; rw [Finset.sum_apply]; rfl
  rw [e]
  change E.cechLin D n deg (∑ i ∈ range m, c i • f i) k = _
  rw [map_sum, Finset.sum_apply]
  refine Finset.sum_congr rfl fun i _ => ?_
  rw [map_smul]; rfl

theorem cechSum_add {D : Mat} {n deg k : ℕ} (f g : ℕ → ℕ → ZMod E.p) :
    E.cechSum D n deg k (fun l => f l + g l) = E.cechSum D n deg k f + E.cechSum D n deg k g :=
  congrFun (map_add (E.cechLin D n deg) f g) k

theorem cechSum_sub {D : Mat} {n deg k : ℕ} (f g : ℕ → ℕ → ZMod E.p) :
    E.cechSum D n deg k (fun l => f l - g l) = E.cechSum D n deg k f - E.cechSum D n deg k g :=
  congrFun (map_sub (E.cechLin D n deg) f g) k

theorem cechSum_zero {D : Mat} {n deg k : ℕ} :
    E.cechSum D n deg k (fun _ => 0) = 0 :=
  congrFun (map_zero (E.cechLin D n deg)) k

theorem PresentAt.sub {n k deg : ℕ} {r : α} {w w' : ℕ → ZMod E.p} (hw : E.PresentAt ρ n k deg w r)
    (hw' : E.PresentAt ρ n k deg w' r) : E.PresentAt ρ n k deg (w - w') r := by
  rw [sub_eq_add_neg]; exact PresentAt.add hw (PresentAt.neg hw')

/-- The Čech differential from the second column to the first one is injective. -/
def SSEnv.CechInj (E : SSEnv α) (ρ : List ℕ → α) (D : Mat) : Prop :=
  ∀ deg ≤ E.rows, ∀ (t : α) (c : ℕ → ℕ → ZMod E.p), (∀ l < E.spx 1, E.PresentAt ρ 1 l deg (c l) t) →
    (∀ k < E.spx 0, E.cechSum D 0 deg k c = 0) → ∀ l < E.spx 1, c l = 0

/-- Chains with a closed Čech differential are closed. -/
theorem CechInj.closed (h : SSOK rnd E ρ) {N : ℕ} {D : Mat} (C : CoverOK E ρ N D) (hI : E.CechInj ρ D)
    {deg : ℕ} (hdeg : deg ≤ E.rows) {t : α} {e : ℕ → ℕ → ZMod E.p}
    (he : ∀ l < E.spx 1, E.PresentAt ρ 1 l deg (e l) t)
    (hz : ∀ k < E.spx 0, E.bd 0 k deg (E.cechSum D 0 deg k e) = 0) :
    ∀ l < E.spx 1, E.bd 1 l deg (e l) = 0 := by
  rcases deg with _ | deg
  · intro l _; rw [bd_zero]; rfl
  · refine hI deg (by omega) t (fun l => E.bd 1 l (deg + 1) (e l))
      (fun l hl => (present_bd h C.cols (by omega) hl (he l hl)).1) fun k hk => ?_
    rw [cechSum_bd h C.diff C.cols (by omega) hk, hz k hk, neg_zero]

/-- Cycles of the whole complex at `t`. -/
noncomputable def SSEnv.ZG (E : SSEnv α) (ρ : List ℕ → α) (N e : ℕ) (t : α) :
    Submodule (ZMod E.p) (List ℕ →₀ ZMod E.p) :=
  E.chG ρ N e t ⊓ LinearMap.ker (simplicialBdry (ZMod E.p))

/-- Boundaries of the whole complex at `t`. -/
noncomputable def SSEnv.BG (E : SSEnv α) (ρ : List ℕ → α) (N e : ℕ) (t : α) :
    Submodule (ZMod E.p) (List ℕ →₀ ZMod E.p) :=
  (E.chG ρ N (e + 1) t).map (simplicialBdry (ZMod E.p))

/-- Families of chains with a closed sum. -/
theorem glSum_closed_iff (h : SSOK rnd E ρ) {N : ℕ} {D : Mat} (C : CoverOK E ρ N D) {deg : ℕ}
    (hdeg : deg < E.rows) (w : ℕ → ℕ → ZMod E.p) :
    simplicialBdry (ZMod E.p) (E.glSum (deg + 1) w) = 0 ↔
      E.glSum deg (fun k => E.bd 0 k (deg + 1) (w k)) = 0 := by
  rw [glSum_bd h C hdeg]
  constructor
  · intro e; rw [e, smul_zero]
  · intro e
    have := congrArg (fun x => bdrySign E.p deg • x) e
    simp only [smul_smul, bdrySign_ne, one_smul, smul_zero] at this
    exact this

/-- The boundaries are the sums of families of boundaries. -/
theorem mem_BG (h : SSOK rnd E ρ) {N : ℕ} {D : Mat} (C : CoverOK E ρ N D) {deg : ℕ}
    (hdeg : deg < E.rows) {t : α} (ht : t < E.maxR) {z : List ℕ →₀ ZMod E.p}
    (hz : z ∈ E.BG ρ N deg t) : ∃ w : ℕ → ℕ → ZMod E.p,
      (∀ k < E.spx 0, E.PresentAt ρ 0 k (deg + 1) (w k) t) ∧
      z = E.glSum deg (fun k => E.bd 0 k (deg + 1) (w k)) := by
  obtain ⟨Y, hY, rfl⟩ := hz
  obtain ⟨y, hy, rfl⟩ := exists_local C hdeg ht hY
  refine ⟨fun k => bdrySign E.p deg • y k, fun k hk => PresentAt.smul _ (hy k hk), ?_⟩
  rw [glSum_bd h C hdeg]
  rw [show E.glSum (deg + 1) (fun k => bdrySign E.p deg • y k) = bdrySign E.p deg • E.glSum (deg + 1) y
        from map_smul (E.glSum (deg + 1)) (bdrySign E.p deg) y, map_smul, smul_smul, bdrySign_ne, one_smul]

/-- What is known of the second page of a spectral sequence with two columns and of the chains which
represent its classes: `x` are generators on the first column in degree `e + 1`, `y` on the second one
in degree `e`, `v j` is the other part of the representative of `y j`, and `c` the combination which it
becomes when the bar of `y j` ends. -/
structure StripData (E : SSEnv α) (ρ : List ℕ → α) (D M M' : Mat) (e : ℕ) (b0 b1 : List (α × α))
    (x y : ℕ → ℕ → ZMod E.p) (v : ℕ → ℕ → ℕ → ZMod E.p) (c : ℕ → ℕ → ZMod E.p) : Prop where
  first : Gens E 0 (e + 1) b0 x (barModule E.p (E.firstBars (e + 1) 0))
    (imAt E.p (E.firstBars (e + 1) 1) (E.firstBars (e + 1) 0) M)
  second : Gens E 1 e b1 y (kerAt E.p (E.firstBars e 1) (E.firstBars e 0) M') fun _ => ⊥
  lift : ∀ j b, b1[j]? = some b → ∀ k < E.spx 0, E.PresentAt ρ 0 k (e + 1) (v j k) b.1 ∧
    E.bd 0 k (e + 1) (v j k) + E.cechSum D 0 e k (fun l => E.fam 1 e l (y j)) = 0
  dies : ∀ j b, b1[j]? = some b → b.2 < E.maxR → ∃ (u : ℕ → ℕ → ZMod E.p) (g : ℕ → ZMod E.p)
    (w : ℕ → ℕ → ZMod E.p), E.BornBy 0 (e + 1) g b.2 ∧
    barRestr E.p (E.firstBars (e + 1) 0) b.2 g ∈
      imAt E.p (E.firstBars (e + 1) 1) (E.firstBars (e + 1) 0) M b.2 ∧
    ∀ k < E.spx 0, E.PresentAt ρ 0 k (e + 2) (w k) b.2 ∧
      v j k + E.cechSum D 0 (e + 1) k u - E.fam 0 (e + 1) k (∑ i ∈ range b0.length, c i j • x i) -
        E.fam 0 (e + 1) k g = E.bd 0 k (e + 2) (w k)

/-- The lifts of a combination. -/
theorem StripData.comb {D M M' : Mat} {e : ℕ} {b0 b1 : List (α × α)} {x y : ℕ → ℕ → ZMod E.p}
    {v : ℕ → ℕ → ℕ → ZMod E.p} {c : ℕ → ℕ → ZMod E.p} (S : StripData E ρ D M M' e b0 b1 x y v c) {t : α}
    {a : ℕ → ZMod E.p} (ha : ∀ j, ¬ AliveBar b1 j t → a j = 0) {k : ℕ} (hk : k < E.spx 0) :
    E.PresentAt ρ 0 k (e + 1) (∑ j ∈ range b1.length, a j • v j k) t ∧
    E.bd 0 k (e + 1) (∑ j ∈ range b1.length, a j • v j k) +
      E.cechSum D 0 e k (fun l => E.fam 1 e l (∑ j ∈ range b1.length, a j • y j)) = 0 := by
  constructor
  · refine PresentAt.sum _ _ fun j hj => ?_
    by_cases h0 : a j = 0
    · rw [h0, zero_smul]; exact fun i hi => absurd rfl hi
    have : AliveBar b1 j t := by by_contra hn; exact h0 (ha j hn)
    obtain ⟨b, hb, hb1, -⟩ := this
    exact PresentAt.smul _ (PresentAt.mono hb1 (S.lift j b hb k hk).1)
  · simp only [fam_smulsum]
    rw [cechSum_smulsum a (fun j l => E.fam 1 e l (y j)), map_sum, ← Finset.sum_add_distrib]
    refine Finset.sum_eq_zero fun j hj => ?_
    rw [map_smul, ← smul_add]
    have hj' := mem_range.1 hj
    rw [(S.lift j _ (List.getElem?_eq_getElem hj') k hk).2, smul_zero]

/-- The generators of the homology of the whole complex. -/
noncomputable def SSEnv.stripGen (E : SSEnv α) (e m : ℕ) (x : ℕ → ℕ → ZMod E.p)
    (v : ℕ → ℕ → ℕ → ZMod E.p) (i : ℕ) : List ℕ →₀ ZMod E.p :=
  if i < m then E.whole (e + 1) (x i) else E.glSum (e + 1) (v (i - m))

theorem sum_stripGen {e m n : ℕ} {x : ℕ → ℕ → ZMod E.p} {v : ℕ → ℕ → ℕ → ZMod E.p} (a : ℕ → ZMod E.p) :
    ∑ i ∈ range (m + n), a i • E.stripGen e m x v i = E.whole (e + 1) (∑ i ∈ range m, a i • x i) +
      E.glSum (e + 1) (fun k => ∑ j ∈ range n, a (m + j) • v j k) := by
  rw [Finset.sum_range_add]
  congr 1
  · rw [map_sum]
    refine Finset.sum_congr rfl fun i hi => ?_
    unfold SSEnv.stripGen
    rw [if_pos (mem_range.1 hi), map_smul]
  · have e1 : (fun k => ∑ j ∈ range n, a (m + j) • v j k) = ∑ j ∈ range n, a (m + j) • v j := by
      funext k; rw [Finset.sum_apply]; rfl
    rw [e1, map_sum]
    refine Finset.sum_congr rfl fun j _ => ?_
    unfold SSEnv.stripGen
    rw [if_neg (by omega), map_smul, Nat.add_sub_cancel_left]

theorem aliveBar_append_left {A B : List (α × α)} {i : ℕ} (hi : i < A.length) {t : α} :
    AliveBar (A ++ B) i t ↔ AliveBar A i t := by
  unfold AliveBar
  rw [List.getElem?_append_left hi]

theorem aliveBar_append_right {A B : List (α × α)} {j : ℕ} {t : α} :
    AliveBar (A ++ B) (A.length + j) t ↔ AliveBar B j t := by
  unfold AliveBar
  rw [List.getElem?_append_right (by omega), Nat.add_sub_cancel_left]

/-- The whole chain of a family. -/
theorem glSum_add' {deg : ℕ} (f g : ℕ → ℕ → ZMod E.p) :
    E.glSum deg (fun k => f k + g k) = E.glSum deg f + E.glSum deg g := map_add (E.glSum deg) f g

theorem glSum_sub' {deg : ℕ} (f g : ℕ → ℕ → ZMod E.p) :
    E.glSum deg (fun k => f k - g k) = E.glSum deg f - E.glSum deg g := map_sub (E.glSum deg) f g

section

variable {N : ℕ} {D M M' : Mat} {e : ℕ} {b0 b1 : List (α × α)} {x y : ℕ → ℕ → ZMod E.p}
  {v : ℕ → ℕ → ℕ → ZMod E.p} {c : ℕ → ℕ → ZMod E.p}

theorem strip_indep (h : SSOK rnd E ρ) (C : CoverOK E ρ N D) (hI : E.CechInj ρ D) (he : e + 1 < E.rows)
    (hM : firstDifferential E 0 (e + 1) = .ok M) (S : StripData E ρ D M M' e b0 b1 x y v c) {t : α}
    (ht : t < E.maxR) {a : ℕ → ZMod E.p} (ha : ∀ i, ¬ AliveBar (b0 ++ b1) i t → a i = 0)
    (hb : ∑ i ∈ range (b0.length + b1.length), a i • E.stripGen e b0.length x v i ∈ E.BG ρ N (e + 1) t) :
    ∀ i, a i = 0 := by
  have hc0 : 0 < E.columns.length := by have := C.cols; omega
  rw [sum_stripGen] at hb
  have ha0 : ∀ i, ¬ AliveBar b0 i t → (fun i => if i < b0.length then a i else 0) i = 0 := by
    intro i hi
    beta_reduce
    split
    · next hlt => exact ha i (by rwa [aliveBar_append_left hlt])
    · rfl
  have ha1 : ∀ j, ¬ AliveBar b1 j t → (fun j => a (b0.length + j)) j = 0 := by
    intro j hj
    exact ha _ (by rwa [aliveBar_append_right])
  have hX : ∑ i ∈ range b0.length, a i • x i =
      ∑ i ∈ range b0.length, (fun i => if i < b0.length then a i else 0) i • x i :=
    Finset.sum_congr rfl fun i hi => by beta_reduce; rw [if_pos (mem_range.1 hi)]
  set a0 : ℕ → ZMod E.p := fun i => if i < b0.length then a i else 0 with ha0e
  set a1 : ℕ → ZMod E.p := fun j => a (b0.length + j) with ha1e
  rw [hX] at hb
  set X := ∑ i ∈ range b0.length, a0 i • x i with hXe
  have hXb : E.BornBy 0 (e + 1) X t := S.first.comb ha0
  have hYb : E.BornBy 1 e (∑ j ∈ range b1.length, a1 j • y j) t := S.second.comb ha1
  obtain ⟨w, hw, hsum⟩ := mem_BG h C he ht hb
  rw [whole_eq, ← glSum_add'] at hsum
  have hsum' := sub_eq_zero.2 hsum
  rw [← glSum_sub'] at hsum'
  -- the family is a Čech differential
  obtain ⟨u, hu1, hu2⟩ := cech_exact h C he.le (t := t)
    (c := fun k => E.fam 0 (e + 1) k X + ∑ j ∈ range b1.length, a1 j • v j k -
      E.bd 0 k (e + 1 + 1) (w k)) (by
      intro k hk
      exact PresentAt.sub (PresentAt.add (fam_cycle h hc0 he hXb hk).1 (S.comb ha1 hk).1)
        (present_bd h hc0 he hk (hw k hk)).1)
    (by rw [← glSum_eq]; exact hsum')
  -- the classes on the second column are zero
  have hu3 : ∀ l < E.spx 1, E.bd 1 l (e + 1) (u l) - E.fam 1 e l (∑ j ∈ range b1.length, a1 j • y j) = 0 := by
    refine hI e (by omega) t _ (fun l hl => PresentAt.sub (present_bd h C.cols (by omega) hl (hu1 l hl)).1
      (fam_cycle h C.cols (by omega) hYb hl).1) fun k hk => ?_
    rw [cechSum_sub (fun l => E.bd 1 l (e + 1) (u l)), cechSum_bd h C.diff C.cols (by omega) hk,
      ← hu2 k hk, map_sub, map_add, (fam_cycle h hc0 he hXb hk).2, (present_bd h hc0 he hk (hw k hk)).2,
      zero_add, sub_zero, neg_sub_left, add_comm, (S.comb ha1 hk).2, neg_zero]
  have h1 : ∀ j, a1 j = 0 := by
    refine S.second.indep t a1 ha1 ?_
    rw [fam_dead h C.cols (by omega) ht hYb (w := u) fun l hl => ⟨hu1 l hl, (sub_eq_zero.1 (hu3 l hl)).symm⟩]
    exact Submodule.zero_mem _
  -- the classes on the first one
  have h0 : ∀ i, a0 i = 0 := by
    refine S.first.indep t a0 ha0 ?_
    refine bounds_of_whole h C he hM ht (fun e' he1 he2 => CechInj.closed h C hI he.le he1 he2) hXb ?_
    have ez : E.glSum (e + 1) (fun k => ∑ j ∈ range b1.length, a1 j • v j k) = 0 := by
      refine (glSum_congr fun k _ => ?_).trans (map_zero (E.glSum (e + 1)))
      rw [Finset.sum_eq_zero fun j _ => by rw [h1 j, zero_smul]]; rfl
    rw [ez, add_zero] at hb
    exact hb
  intro i
  by_cases hi : i < b0.length
  · have := h0 i
    simp only [ha0e, if_pos hi] at this
    exact this
  · have := h1 (i - b0.length)
    simp only [ha1e] at this
    rwa [Nat.add_sub_of_le (by omega)] at this

/-- A combination of classes that the first differential hits, up to the generators. -/
theorem strip_span (h : SSOK rnd E ρ) (C : CoverOK E ρ N D) (hI : E.CechInj ρ D) (he : e + 1 < E.rows)
    (hM : firstDifferential E 0 (e + 1) = .ok M) (hM' : firstDifferential E 0 e = .ok M')
    (S : StripData E ρ D M M' e b0 b1 x y v c) {t : α}
    (ht : t < E.maxR) {z : List ℕ →₀ ZMod E.p} (hz : z ∈ E.ZG ρ N (e + 1) t) :
    ∃ a : ℕ → ZMod E.p, (∀ i, ¬ AliveBar (b0 ++ b1) i t → a i = 0) ∧
      z - ∑ i ∈ range (b0.length + b1.length), a i • E.stripGen e b0.length x v i ∈ E.BG ρ N (e + 1) t := by
  have hc0 : 0 < E.columns.length := by have := C.cols; omega
  obtain ⟨hz1, hz2⟩ := hz
  obtain ⟨f, hf, rfl⟩ := exists_local C he.le ht hz1
  rw [SetLike.mem_coe, LinearMap.mem_ker, glSum_closed_iff h C (by omega)] at hz2
  -- the boundaries on the pieces are a Čech differential
  obtain ⟨q, hq1, hq2⟩ := cech_exact h C (deg := e) (by omega) (t := t)
    (fun k hk => (present_bd h hc0 (by omega) hk (hf k hk)).1) (by rw [← glSum_eq]; exact hz2)
  have hq3 := CechInj.closed h C hI (deg := e) (by omega) hq1 fun k hk => by
    rw [← hq2 k hk]; exact (present_bd h hc0 (by omega) hk (hf k hk)).2
  obtain ⟨β, w, hβ, hw⟩ := exists_fam h C.cols (by omega) ht fun l hl => ⟨hq1 l hl, hq3 l hl⟩
  obtain ⟨g1, w', hw'⟩ := fam_first h C.diff C.cols (by omega) hM' hβ
  have hcf : ∀ k < E.spx 0, E.cechSum D 0 e k (fun l => E.fam 1 e l β) =
      E.bd 0 k (e + 1) (f k) - E.bd 0 k (e + 1) (E.cechSum D 0 (e + 1) k w) := by
    intro k hk
    rw [hq2 k hk, sub_eq_neg_add, ← cechSum_bd h C.diff C.cols (by omega) hk, ← cechSum_add]
    exact (cechSum_congr fun l hl => (hw l hl).2).symm
  have hdead : barRestr E.p (E.firstBars e 0) t (M'.mulVecL E.p β) = 0 := by
    refine fam_dead h hc0 (by omega) ht g1 (w := fun k => w' k + (f k - E.cechSum D 0 (e + 1) k w))
      fun k hk => ⟨?_, ?_⟩
    · exact PresentAt.add (hw' k hk).1 (PresentAt.sub (hf k hk) (PresentAt.cechSum fun l hl => (hw l hl).1))
    · rw [← (hw' k hk).2, map_add, map_sub, hcf k hk]
  have hker : barRestr E.p (E.firstBars e 1) t β ∈ kerAt E.p (E.firstBars e 1) (E.firstBars e 0) M' t := by
    refine ⟨⟨β, rfl⟩, ?_⟩
    rw [SetLike.mem_coe, LinearMap.mem_ker]
    unfold morAt
    rw [LinearMap.comp_apply, LinearMap.comp_apply]
    rw [show barRestr E.p (E.firstBars e 1) t (barRestr E.p (E.firstBars e 1) t β) =
      barRestr E.p (E.firstBars e 1) t β from restr_restr _, first_dead h C.cols (by omega) hM' hβ, hdead]
  obtain ⟨a1, ha1, hs1⟩ := S.second.span t _ hker
  rw [Submodule.mem_bot, ← map_sub] at hs1
  have hYb : E.BornBy 1 e (∑ j ∈ range b1.length, a1 j • y j) t := S.second.comb ha1
  obtain ⟨w2, hw2⟩ := dead_fam h C.cols (by omega) ht (BornBy.sub hβ hYb) hs1
  -- a family of cycles on the first column
  have hcyc : ∀ k < E.spx 0, E.PresentAt ρ 0 k (e + 1) (f k + ∑ j ∈ range b1.length, a1 j • v j k +
      E.cechSum D 0 (e + 1) k (fun l => w2 l - w l)) t ∧ E.bd 0 k (e + 1) (f k +
      ∑ j ∈ range b1.length, a1 j • v j k + E.cechSum D 0 (e + 1) k (fun l => w2 l - w l)) = 0 := by
    intro k hk
    refine ⟨PresentAt.add (PresentAt.add (hf k hk) (S.comb ha1 hk).1)
      (PresentAt.cechSum fun l hl => PresentAt.sub (hw2 l hl).1 (hw l hl).1), ?_⟩
    have e1 := (S.comb ha1 hk).2
    have e2 : E.cechSum D 0 e k (fun l => E.fam 1 e l β) -
        E.cechSum D 0 e k (fun l => E.fam 1 e l (∑ j ∈ range b1.length, a1 j • y j)) =
        - E.bd 0 k (e + 1) (E.cechSum D 0 (e + 1) k w2) := by
      rw [← cechSum_sub, ← cechSum_bd h C.diff C.cols (by omega) hk]
      refine cechSum_congr fun l hl => ?_
      rw [← (hw2 l hl).2, map_sub]
    rw [hcf k hk] at e2
    rw [map_add, map_add, cechSum_sub, map_sub]
    rw [eq_neg_of_add_eq_zero_left e1]
    rw [sub_eq_iff_eq_add] at e2
    rw [sub_eq_iff_eq_add.1 e2]
    abel
  obtain ⟨ξ, w3, hξ, hw3⟩ := exists_fam h hc0 he ht hcyc
  obtain ⟨a0, ha0, hs0⟩ := S.first.span t (barRestr E.p (E.firstBars (e + 1) 0) t ξ) ⟨ξ, rfl⟩
  have hXb : E.BornBy 0 (e + 1) (∑ i ∈ range b0.length, a0 i • x i) t := S.first.comb ha0
  rw [← map_sub] at hs0
  have hB := whole_of_bounds h C he hM ht (BornBy.sub hξ hXb) hs0
  refine ⟨fun i => if i < b0.length then a0 i else - a1 (i - b0.length), ?_, ?_⟩
  · intro i hi
    beta_reduce
    split
    · next hlt => exact ha0 i (by rwa [aliveBar_append_left hlt] at hi)
    · next hge =>
      rw [ha1 _ (by
        rw [show i = b0.length + (i - b0.length) by omega, aliveBar_append_right] at hi
        exact hi), neg_zero]
  · rw [sum_stripGen]
    have eA : ∑ i ∈ range b0.length, (fun i => if i < b0.length then a0 i else - a1 (i - b0.length)) i • x i =
        ∑ i ∈ range b0.length, a0 i • x i :=
      Finset.sum_congr rfl fun i hi => by beta_reduce; rw [if_pos (mem_range.1 hi)]
    have eB : E.glSum (e + 1) (fun k => ∑ j ∈ range b1.length,
        (fun i => if i < b0.length then a0 i else - a1 (i - b0.length)) (b0.length + j) • v j k) =
        - E.glSum (e + 1) (fun k => ∑ j ∈ range b1.length, a1 j • v j k) := by
      rw [← map_neg]
      refine glSum_congr fun k _ => ?_
      rw [Pi.neg_apply, ← Finset.sum_neg_distrib]
      refine Finset.sum_congr rfl fun j _ => ?_
      beta_reduce
      rw [if_neg (by omega), Nat.add_sub_cancel_left, neg_smul]
    rw [eA, eB]
    have e4 : E.glSum (e + 1) (fun k => E.bd 0 k (e + 1 + 1) (w3 k)) + (E.glSum (e + 1) f +
        E.glSum (e + 1) (fun k => ∑ j ∈ range b1.length, a1 j • v j k) +
        E.glSum (e + 1) (fun k => E.cechSum D 0 (e + 1) k (fun l => w2 l - w l))) =
        E.whole (e + 1) ξ := by
      rw [← glSum_add', ← glSum_add', ← glSum_add', whole_eq]
      exact glSum_congr fun k hk => (hw3 k hk).2
    rw [glSum_cech h C he.le, add_zero] at e4
    have e5 := glSum_bd_mem h C he (t := t) (w := w3) fun k hk => (hw3 k hk).1
    have : E.glSum (e + 1) f - (E.whole (e + 1) (∑ i ∈ range b0.length, a0 i • x i) +
        - E.glSum (e + 1) (fun k => ∑ j ∈ range b1.length, a1 j • v j k)) =
        E.whole (e + 1) (ξ - ∑ i ∈ range b0.length, a0 i • x i) -
          E.glSum (e + 1) (fun k => E.bd 0 k (e + 1 + 1) (w3 k)) := by
      rw [map_sub, ← e4]; abel
    rw [this]
    exact Submodule.sub_mem _ hB e5

/-- The generators of the second page and their chains resolve the homology of the whole complex. -/
theorem strip_resolves (h : SSOK rnd E ρ) (C : CoverOK E ρ N D) (hI : E.CechInj ρ D) (he : e + 1 < E.rows)
    (hM : firstDifferential E 0 (e + 1) = .ok M) (hM' : firstDifferential E 0 e = .ok M')
    (S : StripData E ρ D M M' e b0 b1 x y v c) (hF : Fact E.p.Prime) {BD : ℕ → ℕ → ZMod E.p}
    (hBD : ∀ i < b0.length + b1.length, ∀ j < b0.length + b1.length, BD i j =
      if i < b0.length ∧ b0.length ≤ j then c i (j - b0.length) else 0) :
    Resolves (b0 ++ b1) E.maxR BD (E.ZG ρ N (e + 1)) (E.BG ρ N (e + 1)) (E.stripGen e b0.length x v) := by
  have hc0 : 0 < E.columns.length := by have := C.cols; omega
  have hborn : ∀ j b, (b0 ++ b1)[j]? = some b → E.stripGen e b0.length x v j ∈ E.ZG ρ N (e + 1) b.1 := by
    intro j b hb
    unfold SSEnv.stripGen
    split
    · next hlt =>
      rw [List.getElem?_append_left hlt] at hb
      have hcy := fun k hk => fam_cycle h hc0 he (S.first.born j b hb) (k := k) hk
      refine ⟨glSum_present h C he.le fun k hk => (hcy k hk).1, ?_⟩
      rw [SetLike.mem_coe, LinearMap.mem_ker, whole_eq, glSum_closed_iff h C (by omega)]
      refine (glSum_congr fun k hk => ?_).trans (map_zero (E.glSum e))
      rw [(hcy k hk).2]; rfl
    · next hge =>
      rw [List.getElem?_append_right (by omega)] at hb
      have hl := fun k hk => S.lift _ b hb k hk
      refine ⟨glSum_present h C he.le fun k hk => (hl k hk).1, ?_⟩
      rw [SetLike.mem_coe, LinearMap.mem_ker, glSum_closed_iff h C (by omega)]
      refine (glSum_congr (c' := - fun k => E.cechSum D 0 e k
        (fun l => E.fam 1 e l (y (j - b0.length)))) fun k hk => ?_).trans ?_
      · rw [Pi.neg_apply]; exact eq_neg_of_add_eq_zero_left (hl k hk).2
      · rw [map_neg, glSum_cech h C (by omega), neg_zero]
  refine ⟨fun s t hst => inf_le_inf_right _ (chG_mono hst), fun s t hst => Submodule.map_mono (chG_mono hst),
    hborn, fun t ht a hb ha => ?_, fun t ht => ?_, fun j b hb hR => ?_⟩
  · rw [List.length_append] at hb
    exact strip_indep h C hI he hM S ht ha hb
  · apply le_antisymm
    · intro z hz
      obtain ⟨a, ha, hm⟩ := strip_span h C hI he hM hM' S ht hz
      rw [← add_sub_cancel (∑ i ∈ range (b0.length + b1.length), a i • E.stripGen e b0.length x v i) z]
      refine Submodule.add_mem_sup (Submodule.sum_mem _ fun i _ => ?_) hm
      by_cases h0 : a i = 0
      · rw [h0, zero_smul]; exact Submodule.zero_mem _
      · refine Submodule.smul_mem _ _ (Submodule.subset_span ⟨i, ?_, rfl⟩)
        by_contra hn
        exact h0 (ha i hn)
    · refine sup_le (Submodule.span_le.2 ?_) ?_
      · rintro _ ⟨j, ⟨b, hb, hb1, -⟩, rfl⟩
        exact inf_le_inf_right _ (chG_mono hb1) (hborn j b hb)
      · intro z hz
        obtain ⟨w, hw, rfl⟩ := mem_BG h C he ht hz
        have hp := fun k hk => present_bd h hc0 he hk (hw k hk)
        refine ⟨glSum_present h C he.le fun k hk => (hp k hk).1, ?_⟩
        rw [SetLike.mem_coe, LinearMap.mem_ker, glSum_closed_iff h C (by omega)]
        refine (glSum_congr fun k hk => ?_).trans (map_zero (E.glSum e))
        rw [(hp k hk).2]; rfl
  · have hjl : j < b0.length + b1.length := by
      have := (List.getElem?_eq_some_iff.1 hb).1
      rwa [List.length_append] at this
    rw [List.length_append, Finset.sum_congr rfl fun i hi => by rw [hBD i (mem_range.1 hi) j hjl]]
    by_cases hj : j < b0.length
    · rw [Finset.sum_eq_zero fun i _ => by rw [if_neg (by omega), zero_smul], sub_zero]
      unfold SSEnv.stripGen
      rw [if_pos hj]
      rw [List.getElem?_append_left hj] at hb
      refine whole_of_bounds h C he hM hR ?_ (S.first.dead j b b.2 hb le_rfl)
      exact BornBy.mono (S.first.wf b (List.mem_of_getElem? hb)).le (S.first.born j b hb)
    · rw [List.getElem?_append_right (by omega)] at hb
      obtain ⟨u, g, w, hg1, hg2, hw⟩ := S.dies _ b hb hR
      rw [Finset.sum_range_add, Finset.sum_eq_zero (s := range b1.length)
        fun i _ => by rw [if_neg (by omega), zero_smul], add_zero]
      have e1 : ∑ i ∈ range b0.length, (if i < b0.length ∧ b0.length ≤ j then c i (j - b0.length) else 0) •
          E.stripGen e b0.length x v i =
          E.whole (e + 1) (∑ i ∈ range b0.length, c i (j - b0.length) • x i) := by
        rw [map_sum]
        refine Finset.sum_congr rfl fun i hi => ?_
        have := mem_range.1 hi
        unfold SSEnv.stripGen
        rw [if_pos ⟨this, by omega⟩, if_pos this, map_smul]
      rw [e1]
      have e2 : E.glSum (e + 1) (v (j - b0.length)) +
          E.glSum (e + 1) (fun k => E.cechSum D 0 (e + 1) k u) -
          E.whole (e + 1) (∑ i ∈ range b0.length, c i (j - b0.length) • x i) - E.whole (e + 1) g =
          E.glSum (e + 1) (fun k => E.bd 0 k (e + 1 + 1) (w k)) := by
        rw [whole_eq, whole_eq, ← glSum_add', ← glSum_sub', ← glSum_sub']
        exact glSum_congr fun k hk => (hw k hk).2
      rw [glSum_cech h C he.le, add_zero, sub_eq_iff_eq_add] at e2
      unfold SSEnv.stripGen
      rw [if_neg hj, e2]
      exact Submodule.add_mem _ (glSum_bd_mem h C he fun k hk => (hw k hk).1)
        (whole_of_bounds h C he hM hR hg1 hg2)

end

end

end Permaviss
