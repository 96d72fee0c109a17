import Verif.Lemmas.IKMath
import Mathlib.LinearAlgebra.LinearIndependent.Lemmas

/-!
# Invariants of the main loop of `image_kernel`: definitions and linear algebra

The state of the loop is described with respect to a predicate `P` on radii ("passed"): `· < rad`
before the radius `rad` is processed, `· ≤ rad` afterwards.
-/

namespace Permaviss

open Finset

variable {α : Type} [LinearOrder α]

/-- The bar has been born. -/
def BornBy (P : α → Prop) (bars : List (α × α)) (i : ℕ) : Prop := ∃ b, bars[i]? = some b ∧ P b.1

/-- The bar has been born and has not died. -/
def ActBy (P : α → Prop) (bars : List (α × α)) (i : ℕ) : Prop :=
  ∃ b, bars[i]? = some b ∧ P b.1 ∧ ¬ P b.2

/-- Downward closed. -/
def Down (P : α → Prop) : Prop := ∀ x y, y ≤ x → P x → P y

theorem down_lt (r : α) : Down (· < r) := fun _ _ h h' => lt_of_le_of_lt h h'
theorem down_le (r : α) : Down (· ≤ r) := fun _ _ h h' => le_trans h h'

omit [LinearOrder α] in
theorem ActBy.born {P : α → Prop} {bars : List (α × α)} {i : ℕ} (h : ActBy P bars i) :
    BornBy P bars i := by
  obtain ⟨b, h1, h2, -⟩ := h; exact ⟨b, h1, h2⟩

omit [LinearOrder α] in
theorem BornBy.lt {P : α → Prop} {bars : List (α × α)} {i : ℕ} (h : BornBy P bars i) :
    i < bars.length := by
  obtain ⟨b, h1, -⟩ := h; exact (List.getElem?_eq_some_iff.1 h1).1

omit [LinearOrder α] in
theorem ActBy.lt {P : α → Prop} {bars : List (α × α)} {i : ℕ} (h : ActBy P bars i) :
    i < bars.length := h.born.lt

theorem actBy_le_iff {bars : List (α × α)} {i : ℕ} {t : α} :
    ActBy (· ≤ t) bars i ↔ AliveBar bars i t := by
  unfold ActBy AliveBar
  simp only [not_le]

/-- `if j < d then P1 else P0`. -/
def cutAt (P0 P1 : α → Prop) (d j : ℕ) : α → Prop := if j < d then P1 else P0

omit [LinearOrder α] in
theorem cutAt_lo {P0 P1 : α → Prop} {d j : ℕ} (h : j < d) : cutAt P0 P1 d j = P1 := if_pos h
omit [LinearOrder α] in
theorem cutAt_hi {P0 P1 : α → Prop} {d j : ℕ} (h : d ≤ j) : cutAt P0 P1 d j = P0 :=
  if_neg (by omega)

/-- The last nonzero entry of the vector is at `j`. -/
def Tri {K : Type*} [Zero K] (j : ℕ) (τ : ℕ → K) : Prop := τ j ≠ 0 ∧ ∀ l, τ l ≠ 0 → l ≤ j

/-- `pivots_Im[j]`. -/
def IK.piv (st : IK α) (j : ℕ) : Int := st.pivIm.getD j (-2)
/-- `pivots_Ker[k]`. -/
def IK.rho (st : IK α) (k : ℕ) : Int := st.pivKer.getD k (-2)

/-- What is assumed about the data of the loop in the absolute case. -/
structure EnvOK (E : IKEnv α) : Prop where
  hp : E.p.Prime
  lenA : E.A.dim = E.A.barcode.length
  lenB : E.B.dim = E.B.barcode.length
  flatA : E.A.flat = false
  flatB : E.B.flat = false
  mor : IsMorphism E.p E.A.barcode E.B.barcode E.F
  wfA : ∀ b ∈ E.A.barcode, b.1 < b.2
  sorted : ∀ (i j : ℕ) (a a' : α × α), i ≤ j → E.A.barcode[i]? = some a → E.A.barcode[j]? = some a' → a.1 ≤ a'.1

namespace IKEnv

variable (E : IKEnv α)

/-- Columns of the state as vectors. -/
def V (st : IK α) (j : ℕ) : ℕ → ZMod E.p := zv E.p (st.im.col j)
def Tc (st : IK α) (j : ℕ) : ℕ → ZMod E.p := zv E.p (st.T.col j)
def Kc (st : IK α) (j : ℕ) : ℕ → ZMod E.p := zv E.p (st.ker.col j)

/-- Multiplication by `F`. -/
def ev : (ℕ → ZMod E.p) →ₗ[ZMod E.p] (ℕ → ZMod E.p) := E.F.mulVecL E.p

/-- The morphism on the active generators. -/
noncomputable def mor (P : α → Prop) : (ℕ → ZMod E.p) →ₗ[ZMod E.p] (ℕ → ZMod E.p) :=
  restr (ActBy P E.B.barcode) ∘ₗ E.ev ∘ₗ restr (ActBy P E.A.barcode)

theorem mor_apply (P : α → Prop) (x : ℕ → ZMod E.p) :
    E.mor P x = restr (ActBy P E.B.barcode) (E.ev (restr (ActBy P E.A.barcode) x)) := rfl

/-- Deaths of the domain increase with the index. -/
def MonoDeath : Prop :=
  ∀ (i j : ℕ) (a a' : α × α), i ≤ j → E.A.barcode[i]? = some a → E.A.barcode[j]? = some a' → a.2 ≤ a'.2

end IKEnv

/-- Shapes of the arrays. -/
structure Shape (E : IKEnv α) (st : IK α) : Prop where
  im : MatOK E.p E.B.dim E.A.dim st.im
  T : MatOK E.p E.A.dim E.A.dim st.T
  ker : MatOK E.p E.A.dim E.A.dim st.ker
  pivIm : st.pivIm.length = E.A.dim
  imDeath : st.imDeath.length = E.A.dim
  pivKer : st.pivKer.length = E.A.dim
  kerBar : st.kerBar.length = E.A.dim
  kdim : st.kdim ≤ E.A.dim

theorem zv_mulVecL {p : ℕ} {m n : ℕ} {F : Mat} (h : MatOK p m n F) (x : ℕ → ZMod p) :
    F.mulVecL p x = ∑ k ∈ range n, x k • zv p (F.col k) := by
  funext i
  rw [Finset.sum_apply]
  simp only [Mat.mulVecL, LinearMap.coe_mk, AddHom.coe_mk, Mat.ncols, h.ncols, Pi.smul_apply,
    smul_eq_mul]
  refine Finset.sum_congr rfl fun k _ => ?_
  rw [mul_comm]; rfl

theorem IsMorphism.matOK {p : ℕ} {A B : List (α × α)} {F : Mat} (h : IsMorphism p A B F) :
    MatOK p B.length A.length F where
  rows := h.rows
  ncols := h.cols
  len := fun c hc => (h.shape c hc).trans h.rows
  red := fun c hc => h.red c hc

namespace EnvOK

variable {E : IKEnv α} (hE : EnvOK E)
include hE

theorem FOK : MatOK E.p E.B.dim E.A.dim E.F := by
  have := hE.mor.matOK
  rwa [← hE.lenA, ← hE.lenB] at this

theorem ev_apply (x : ℕ → ZMod E.p) (r : ℕ) :
    E.ev x r = ∑ k ∈ range E.A.dim, x k * E.F.z E.p r k := by
  unfold IKEnv.ev
  simp only [Mat.mulVecL, LinearMap.coe_mk, AddHom.coe_mk]
  rw [show E.F.ncols = E.A.dim from hE.FOK.ncols]
  exact Finset.sum_congr rfl fun k _ => mul_comm _ _

theorem bar (i : ℕ) (h : i < E.A.dim) : ∃ a, E.A.barcode[i]? = some a := by
  rw [hE.lenA] at h
  exact ⟨_, List.getElem?_eq_getElem h⟩

theorem barB (i : ℕ) (h : i < E.B.dim) : ∃ a, E.B.barcode[i]? = some a := by
  rw [hE.lenB] at h
  exact ⟨_, List.getElem?_eq_getElem h⟩

theorem z_lt {r k : ℕ} (h : E.F.z E.p r k ≠ 0) : r < E.B.dim := by
  by_contra hc
  apply h
  have := zv_of_le (p := E.p) (E.F.col k) (i := r)
  rcases lt_or_ge k E.A.dim with h1 | h1
  · exact this (by rw [hE.FOK.col_len h1]; omega)
  · exact this (by rw [Mat.col_of_le (by rw [hE.FOK.ncols]; exact h1)]; simp)

/-- Images of born vectors are born. -/
theorem ev_supp {P : α → Prop} (hP : Down P) {x : ℕ → ZMod E.p}
    (hx : ∀ i, x i ≠ 0 → BornBy P E.A.barcode i) (r : ℕ) (hr : E.ev x r ≠ 0) :
    BornBy P E.B.barcode r := by
  rw [hE.ev_apply] at hr
  obtain ⟨k, -, hk⟩ := Finset.exists_ne_zero_of_sum_ne_zero hr
  have h1 : x k ≠ 0 := fun h => hk (by rw [h, zero_mul])
  have h2 : E.F.z E.p r k ≠ 0 := fun h => hk (by rw [h, mul_zero])
  obtain ⟨a, ha, hPa⟩ := hx k h1
  obtain ⟨b, hb⟩ := hE.barB r (hE.z_lt h2)
  exact ⟨b, hb, hP _ _ (hE.mor.birth r k a b ha hb h2) hPa⟩

/-- Dead generators map to zero. -/
theorem ev_dead {P : α → Prop} (hP : Down P) {x : ℕ → ZMod E.p}
    (hx : ∀ i, x i ≠ 0 → BornBy P E.A.barcode i ∧ ¬ ActBy P E.A.barcode i) (r : ℕ)
    (hr : ActBy P E.B.barcode r) : E.ev x r = 0 := by
  rw [hE.ev_apply]
  apply Finset.sum_eq_zero
  intro k _
  by_contra hk
  have h1 : x k ≠ 0 := fun h => hk (by rw [h, zero_mul])
  have h2 : E.F.z E.p r k ≠ 0 := fun h => hk (by rw [h, mul_zero])
  obtain ⟨⟨a, ha, hPa⟩, hna⟩ := hx k h1
  obtain ⟨b, hb, -, hPb⟩ := hr
  have hd := hE.mor.death r k a b ha hb h2
  have : P a.2 := by
    by_contra hc; exact hna ⟨a, ha, hPa, hc⟩
  exact hPb (hP _ _ hd this)

/-- On born vectors, the morphism is multiplication by `F`. -/
theorem mor_eq {P : α → Prop} (hP : Down P) {x : ℕ → ZMod E.p}
    (hx : ∀ i, x i ≠ 0 → BornBy P E.A.barcode i) (r : ℕ) (hr : ActBy P E.B.barcode r) :
    E.mor P x r = E.ev x r := by
  rw [IKEnv.mor_apply, restr_apply_pos hr]
  have h := hE.ev_dead hP (x := x - restr (ActBy P E.A.barcode) x) (fun i hi => by
    by_cases hA : ActBy P E.A.barcode i
    · exact absurd (by simp [restr_apply_pos hA]) hi
    · refine ⟨hx i fun h => hi ?_, hA⟩
      simp [restr_apply_neg hA, h]) r hr
  rw [map_sub, Pi.sub_apply, sub_eq_zero] at h
  exact h.symm

theorem tri_born {P : α → Prop} (hP : Down P) {j : ℕ} {τ : ℕ → ZMod E.p} (h : Tri j τ)
    (hj : BornBy P E.A.barcode j) (i : ℕ) (hi : τ i ≠ 0) : BornBy P E.A.barcode i := by
  have hij := h.2 i hi
  have hjl := hj.lt
  obtain ⟨a, ha⟩ := hE.bar i (by rw [hE.lenA]; omega)
  obtain ⟨b, hb, hPb⟩ := hj
  exact ⟨a, ha, hP _ _ (hE.sorted i j a b hij ha hb) hPb⟩

omit hE in
theorem mor_act {P : α → Prop} (x : ℕ → ZMod E.p) :
    E.mor P (restr (ActBy P E.A.barcode) x) = E.mor P x := by
  rw [IKEnv.mor_apply, IKEnv.mor_apply, restr_restr]

omit hE in
theorem mor_single {P : α → Prop} (i : ℕ) (h : ¬ ActBy P E.A.barcode i) :
    E.mor P (Pi.single i 1) = 0 := by
  rw [IKEnv.mor_apply, restr_single_neg _ h]
  simp

end EnvOK

/-- History of the image: what the final columns need to know about radius `t`. -/
structure HistIm (E : IKEnv α) (st : IK α) (t : α) (U : Finset ℕ) : Prop where
  act : ∀ j ∈ U, ActBy (· ≤ t) E.A.barcode j
  rank : ∃ w : ℕ → ℕ → ZMod E.p, (∀ j ∈ U, ∃ x, w j = E.mor (· ≤ t) x) ∧
    LinearIndependent (ZMod E.p) fun j : U => w j
  kerv : ∀ i, ActBy (· ≤ t) E.A.barcode i → i ∉ U → ∃ x : ℕ → ZMod E.p, x i ≠ 0 ∧
    (∀ l, x l ≠ 0 → l ≤ i) ∧ E.mor (· ≤ t) x = 0
  alive : ∀ j ∈ U, st.piv j = -1 → ∀ d, st.imDeath[j]? = some d → t < d
  dead : ∀ j, BornBy (· ≤ t) E.A.barcode j → j ∉ U → st.piv j = -1 ∧
    ∀ r, ActBy (· ≤ t) E.B.barcode r → E.V st j r = 0
  deadMono : E.MonoDeath → ∀ j, BornBy (· ≤ t) E.A.barcode j → j ∉ U →
    ∀ d, st.imDeath[j]? = some d → d ≤ t

/-- The kernel generator `k` is alive at `t`, as far as is known. -/
def KAlive (st : IK α) (t : α) (k : ℕ) : Prop :=
  k < st.kdim ∧ ∃ b, st.kerBar[k]? = some b ∧ b.1 ≤ t ∧ (st.rho k = -1 → t < b.2)

/-- History of the kernel. -/
structure HistKer (E : IKEnv α) (st : IK α) (t : α) (W : Finset ℕ) : Prop where
  mem : ∀ k, k ∈ W ↔ KAlive st t k
  indep : LinearIndependent (ZMod E.p) fun k : W => restr (ActBy (· ≤ t) E.A.barcode) (E.Kc st k)
  ker : ∀ k ∈ W, E.mor (· ≤ t) (E.Kc st k) = 0
  dead : ∀ k, k < st.kdim → ∀ b, st.kerBar[k]? = some b → b.1 ≤ t → k ∉ W →
    st.rho k = -1 ∧ ∀ i, ActBy (· ≤ t) E.A.barcode i → E.Kc st k i = 0

open Classical in
/-- The active generators of the domain. -/
noncomputable def actSet (E : IKEnv α) (t : α) : Finset ℕ :=
  (range E.A.dim).filter fun i => ActBy (· ≤ t) E.A.barcode i

/-- History up to the radius `rad`. -/
def Hist (E : IKEnv α) (st : IK α) (P : α → Prop) : Prop :=
  ∀ t, P t → ∃ U W, HistIm E st t U ∧ HistKer E st t W ∧ W.card + U.card = (actSet E t).card

open Classical in
/-- The invariant in the middle of the radius `rad`: kernel generators below `c` and image generators
below `d` have been processed (with respect to `P1`), the others have not (with respect to `P0`).
`PK` is `P0` during the loop over kernel generators and `P1` during the one over image generators. -/
structure Core (E : IKEnv α) (P0 P1 PK : α → Prop) (c d : ℕ) (st : IK α) : Prop where
  sh : Shape E st
  unborn : ∀ j, j < E.A.dim → (st.piv j = -2 ↔ ¬ BornBy (cutAt P0 P1 d j) E.A.barcode j)
  pcase : ∀ j, j < E.A.dim → st.piv j = -2 ∨ st.piv j = -1 ∨ ∃ r : ℕ, st.piv j = r
  alive : ∀ j, j < E.A.dim → ∀ r : ℕ, st.piv j = r →
    IsPivOn (ActBy (cutAt P0 P1 d j) E.B.barcode) (E.V st j) r
  injLo : ∀ j j', j < d → j' < d → ∀ r : ℕ, st.piv j = r → st.piv j' = r → j = j'
  injHi : ∀ j j', d ≤ j → d ≤ j' → ∀ r : ℕ, st.piv j = r → st.piv j' = r → j = j'
  dead : ∀ j, j < E.A.dim → st.piv j = -1 → ∀ r, ActBy P1 E.B.barcode r → E.V st j r = 0
  g1 : ∀ j, j < E.A.dim → ∃ τ, Tri j τ ∧ E.V st j = E.ev τ
  g2 : ∀ j, j < E.A.dim → st.piv j ≠ -1 → Tri j (E.Tc st j) ∧ E.V st j = E.ev (E.Tc st j)
  gm : E.MonoDeath → ∀ j, j < E.A.dim → E.V st j = E.ev (E.Tc st j)
  kcase : ∀ k, k < st.kdim → st.rho k = -1 ∨ ∃ i : ℕ, st.rho k = i
  kge : ∀ k, st.kdim ≤ k → st.rho k = -2
  kalive : ∀ k, ∀ i : ℕ, st.rho k = i → IsPivOn (ActBy (cutAt P0 P1 c k) E.A.barcode) (E.Kc st k) i
  kinjLo : ∀ k k', k < c → k' < c → ∀ i : ℕ, st.rho k = i → st.rho k' = i → k = k'
  kinjHi : ∀ k k', c ≤ k → c ≤ k' → ∀ i : ℕ, st.rho k = i → st.rho k' = i → k = k'
  kdead : ∀ k, k < st.kdim → st.rho k = -1 → ∀ i, ActBy P1 E.A.barcode i → E.Kc st k i = 0
  ksupp : ∀ k, k < st.kdim → ∀ i, E.Kc st k i ≠ 0 → BornBy PK E.A.barcode i
  kker : ∀ k, k < st.kdim → E.mor PK (E.Kc st k) = 0
  cover : ∀ i, ActBy P1 E.A.barcode i → (BornBy P0 E.A.barcode i ∨ i < d) →
    (∃ r : ℕ, st.piv i = r) ∨ ∃ k, k < st.kdim ∧ st.rho k = i
  disj : ∀ i, ∀ r : ℕ, st.piv i = r → ∀ k, st.rho k ≠ i
  upA : ∀ j, d ≤ j → ∀ r : ℕ, st.piv j = r → ActBy P0 E.A.barcode j
  kdle : st.kdim ≤ ((range E.A.dim).filter fun j => st.piv j = -1).card
  kb : ∀ k, k < st.kdim → ∀ b, st.kerBar[k]? = some b → P1 b.1 ∧ (st.rho k = -1 → P1 b.2)
  kbmono : ∀ k k', k ≤ k' → k' < st.kdim → ∀ b b', st.kerBar[k]? = some b →
    st.kerBar[k']? = some b' → b.1 ≤ b'.1
  kbs : ∀ k, k < st.kdim → ∀ b, st.kerBar[k]? = some b → ∀ i, E.Kc st k i ≠ 0 →
    BornBy (· ≤ b.1) E.A.barcode i
  db : ∀ j, j < E.A.dim → st.piv j = -1 → ∀ e, st.imDeath[j]? = some e → P1 e
  kpiv : ∀ k, ∀ i : ℕ, st.rho k = i → BornBy P0 E.A.barcode i ∨ i < d

/-- Loops over `range n` in `Except`, by an invariant. -/
theorem foldlM_range_inv {ε σ : Type*} (f : σ → ℕ → Except ε σ) (I : ℕ → σ → Prop) (n : ℕ) (s0 : σ)
    (h0 : I 0 s0) (hstep : ∀ c, c < n → ∀ s, I c s → ∃ s', f s c = .ok s' ∧ I (c + 1) s') :
    ∃ s, (List.range n).foldlM f s0 = .ok s ∧ I n s := by
  induction n with
  | zero => exact ⟨s0, rfl, h0⟩
  | succ n ih =>
    obtain ⟨s, h1, h2⟩ := ih fun c hc => hstep c (by omega)
    obtain ⟨s', h3, h4⟩ := hstep n (by omega) s h2
    refine ⟨s', ?_, h4⟩
    rw [List.range_succ, List.foldlM_append, h1]
    simp only [bind, Except.bind, List.foldlM_cons, List.foldlM_nil, h3, pure, Except.pure]

/-- Adding combinations of other members keeps a family independent. -/
theorem indep_update {K M : Type*} [Field K] [AddCommGroup M] [Module K M] {W : Finset ℕ}
    (v : ℕ → M) (hv : LinearIndependent K fun k : W => v k) (c : ℕ) (a : ℕ → K) (n : ℕ)
    (ha : ∀ i, a i ≠ 0 → i < n → i ≠ c ∧ (c ∈ W → i ∈ W)) (v' : ℕ → M)
    (hc : v' c = v c + ∑ i ∈ range n, a i • v i) (ho : ∀ k, k ≠ c → v' k = v k) :
    LinearIndependent K fun k : W => v' k := by
  classical
  by_cases hcW : c ∈ W
  · induction n generalizing v' with
    | zero =>
      have : v' = v := by
        funext k
        by_cases hk : k = c
        · subst hk; simpa using hc
        · exact ho k hk
      rw [this]; exact hv
    | succ n ih =>
      let v1 : ℕ → M := Function.update v c (v c + ∑ i ∈ range n, a i • v i)
      have h1 : LinearIndependent K fun k : W => v1 k := by
        refine ih (fun i hi hin => ha i hi (by omega)) v1 ?_ ?_
        · simp [v1]
        · intro k hk; simp [v1, hk]
      by_cases han : a n = 0
      · have : v' = v1 := by
          funext k
          by_cases hk : k = c
          · subst hk; simp only [v1, Function.update_self]; rw [hc, Finset.sum_range_succ, han]; simp
          · simp [v1, hk, ho k hk]
        rw [this]; exact h1
      · obtain ⟨hnc, hnW⟩ := ha n han (by omega)
        have hn : n ∈ W := hnW hcW
        have h2 := (linearIndependent_add_smul_iff (v := fun k : W => v1 k) (i := ⟨n, hn⟩)
          (c := Pi.single ⟨c, hcW⟩ (a n)) (by
            rw [Pi.single_eq_of_ne]
            intro h; exact hnc (congrArg Subtype.val h))).2 h1
        have e : (fun k : W => v' k) = ((fun k : W => v1 k) +
            fun k => (Pi.single (⟨c, hcW⟩ : W) (a n) : W → K) k • v1 (⟨n, hn⟩ : W).1) := by
          funext k
          by_cases hk : k.1 = c
          · have : k = ⟨c, hcW⟩ := Subtype.ext hk
            subst this
            simp only [Pi.add_apply, Pi.single_eq_same]
            simp only [v1, Function.update_self, Function.update_of_ne hnc]
            rw [hc, Finset.sum_range_succ, add_assoc]
          · have : k ≠ ⟨c, hcW⟩ := fun h => hk (congrArg Subtype.val h)
            simp only [Pi.add_apply, Pi.single_eq_of_ne this, zero_smul, add_zero]
            simp only [v1, Function.update_of_ne hk]
            exact ho _ hk
        rw [e]
        exact h2
  · have : (fun k : W => v' k) = fun k : W => v k := by
      funext k
      exact ho _ (fun h => hcW (h ▸ k.2))
    rw [this]; exact hv

end Permaviss
