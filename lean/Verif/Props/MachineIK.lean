import Verif.Lemmas.MachineMPH
import Verif.Props.Machine
import Verif.Props.ModuleHomology
import Verif.Props.Bottleneck

/-!
# Doubles and machine integers suffice for images, kernels and homology of modules (C78), and rounded distances (C88)

The functions with the suffix `O` are the functions of the code with the operations `o` of a machine on the entries
of the arrays, in `Model/Machine` and `Model/MachineIK`.
-/

namespace Permaviss

section

variable {o : Ops} {M : Int} {p : ℕ} {α : Type} [LinearOrder α] [Zero α]

/-- **C78** for `image_kernel`: with entries from `0` to `p - 1`, in all three cases (absolute, relative, with broken
differentials), as long as `A.dim * (p-1)²` and `p²` are in the exact range, and `(B.dim + 1) * (p-1)²` if `B` has
broken differentials. -/
theorem C78_image_kernel (ho : o.ExactUpTo M) (hp : 2 ≤ p) (hM : (p : Int) * p ≤ M) (rnd : α → α) {A B : Basis α}
    {F : Mat} {start : ℕ} (hF : F.Reduced p) (hA : A.dim = A.barcode.length) (hs : start ≤ A.dim)
    (hlen : (A.dim : Int) * ((p : Int) - 1) ^ 2 ≤ M)
    (hB : ∀ BD, B.brokenDiff = some BD → BD.Reduced p ∧ ((B.barcode.length : Int) + 1) * ((p : Int) - 1) ^ 2 ≤ M) :
    imageKernelO o rnd p A B F start = imageKernel rnd p A B F start :=
  (imageKernelO_eq ho hp hM rnd hF hA hs hlen hB).1

/-- **C78** for `module_persistence_homology`: bases with at most `N` bars each, where `2N * (p-1)²` is in the exact
range. -/
theorem C78_module_homology (ho : o.ExactUpTo M) (hp : 2 ≤ p) (hM : (p : Int) * p ≤ M) (rnd : α → α) {D : List Mat}
    {Base : List (Basis α)} (hD : ∀ A ∈ D, A.Reduced p) {N : ℕ}
    (hB : ∀ B ∈ Base, B.dim = B.barcode.length ∧ B.brokenDiff = none ∧ B.dim ≤ N)
    (hlen : (2 * N : Int) * ((p : Int) - 1) ^ 2 ≤ M) :
    modulePersistenceHomologyO o rnd p D Base = modulePersistenceHomology rnd p D Base :=
  modulePersistenceHomologyO_eq ho hp hM hB hlen hD rnd

/-- With doubles and primes below `2^16`, a million bars are not too many. -/
theorem C78_module_homology_double (hp : 2 ≤ p) (hp' : p ≤ 65536) (rnd : α → α) {D : List Mat}
    {Base : List (Basis α)} (hD : ∀ A ∈ D, A.Reduced p)
    (hB : ∀ B ∈ Base, B.dim = B.barcode.length ∧ B.brokenDiff = none ∧ B.dim ≤ 1000000) :
    modulePersistenceHomologyO Ops.double rnd p D Base = modulePersistenceHomology rnd p D Base := by
  have h : (p : Int) ≤ 65536 := by exact_mod_cast hp'
  have h2 : (2 : Int) ≤ p := by exact_mod_cast hp
  refine C78_module_homology exactUpTo_double hp (by nlinarith) rnd hD hB ?_
  have : ((p : Int) - 1) ^ 2 ≤ 65535 ^ 2 := pow_le_pow_left₀ (by omega) (by omega) 2
  push_cast
  omega

end

/-- The complex of `Props/ModuleHomology` meets the hypotheses, and computed with doubles it gives the same. -/
example : (∀ A ∈ cxD, A.Reduced 5) ∧
    (∀ B ∈ cxBase, B.dim = B.barcode.length ∧ B.brokenDiff = none ∧ B.dim ≤ 1000000) ∧
    (modulePersistenceHomologyO Ops.double id 5 cxD cxBase).toOption.map (fun out =>
      out.hom.map fun H => H.map Basis.barcode) = some [some [(0, 4), (0, 1)], some [(2, 3)], some []] := by
  refine ⟨by unfold Mat.Reduced; decide, by decide, by decide +kernel⟩

/-- The relative case: a quotient computed with doubles. -/
example : quotientO Ops.double id 5 qM qN qAmb true = quotient id 5 qM qN qAmb true := by decide +kernel

/-! ## Rounded distances -/

section

variable {K : Type} [Field K] [LinearOrder K] [IsStrictOrderedRing K] {p : ℕ} {Pt : Type}

/-- **C88**: the persistent homology of a cloud computed on a machine, from distances `pdist'` that are not the exact
distances `pdist` but off by at most `ε`, is at bottleneck distance at most `ε` from the exact barcodes computed with
exact integers. -/
theorem C88_rounded_distances {o : Ops} {M : Int} (ho : o.ExactUpTo M) (hp : p.Prime) (hM : (p : Int) * p ≤ M)
    {pdist pdist' : List Pt → List (List K)} (hd : IsPdist pdist) (hd' : IsPdist pdist')
    {argsort argsort' : List K → List Nat} (ha : IsArgsort argsort) (ha' : IsArgsort argsort') (rnd rnd' : K → K)
    (cloud : List Pt) {ε : K} (hε0 : 0 ≤ ε)
    (hε : ∀ u < cloud.length, ∀ v < u, |cloudDist pdist cloud u v - cloudDist pdist' cloud u v| ≤ ε)
    {maxR : K} (hmax : 0 < maxR) (maxDim : Int) {L L' : LocalOut K}
    (hL : localPersistentHomology pdist argsort rnd cloud maxR maxDim p = .ok L)
    (hL' : localPersistentHomologyO o pdist' argsort' rnd' cloud maxR maxDim p = .ok L')
    (e : ℕ) (he : (e : Int) < max maxDim 1) :
    ∃ B B', L.ph.hom[e]? = some B ∧ L'.ph.hom[e]? = some B' ∧ BarsWithin ε B.barcode B'.barcode := by
  rw [localPersistentHomologyO_eq ho hp.two_le hM] at hL'
  exact C65_stability hp hd hd' ha ha' rnd rnd' cloud cloud rfl hε hε0 hmax maxDim hL hL' e he

/-- **C88** with doubles: distances with relative error `η`, of points at most `R` apart, change the barcodes by at
most `η * R`. -/
theorem C88_relative_errors (hp : p.Prime) (hp' : p ≤ 94906265)
    {pdist pdist' : List Pt → List (List K)} (hd : IsPdist pdist) (hd' : IsPdist pdist')
    {argsort argsort' : List K → List Nat} (ha : IsArgsort argsort) (ha' : IsArgsort argsort') (rnd rnd' : K → K)
    (cloud : List Pt) {η R : K} (hη0 : 0 ≤ η) (hR0 : 0 ≤ R)
    (hR : ∀ u < cloud.length, ∀ v < u, cloudDist pdist cloud u v ≤ R)
    (hη : ∀ u < cloud.length, ∀ v < u,
      |cloudDist pdist cloud u v - cloudDist pdist' cloud u v| ≤ η * cloudDist pdist cloud u v)
    {maxR : K} (hmax : 0 < maxR) (maxDim : Int) {L L' : LocalOut K}
    (hL : localPersistentHomology pdist argsort rnd cloud maxR maxDim p = .ok L)
    (hL' : localPersistentHomologyO Ops.double pdist' argsort' rnd' cloud maxR maxDim p = .ok L')
    (e : ℕ) (he : (e : Int) < max maxDim 1) :
    ∃ B B', L.ph.hom[e]? = some B ∧ L'.ph.hom[e]? = some B' ∧ BarsWithin (η * R) B.barcode B'.barcode := by
  rw [C78_cloud hp.two_le hp'] at hL'
  exact C65_stability hp hd hd' ha ha' rnd rnd' cloud cloud rfl
    (fun u hu v hv => (hη u hu v hv).trans (mul_le_mul_of_nonneg_left (hR u hu v hv) hη0)) (mul_nonneg hη0 hR0)
    hmax maxDim hL hL' e he

end

/-- Distances that are one percent too large. -/
def longD (a b : ℚ × ℚ) : ℚ := quadD a b * (101 / 100)

def longDist (c : List (ℚ × ℚ)) : List (List ℚ) := c.map fun a => c.map (longD a)

theorem long_table : IsDistTable longDist longD :=
  ⟨fun _ => rfl, fun a b => by unfold longD quadD; positivity⟩

/-- C88: the rectangle of `quad_runs`, with these distances and doubles. -/
theorem long_runs : (localPersistentHomologyO Ops.double longDist stableArgsort id
      [(0, 0), (0, 3), (4, 0), (4, 3)] 9 2 5).map (fun L => (L.ph.hom.take 2).map fun B => B.barcode) =
      .ok [[(0, 9), (0, 101/25), (0, 303/100), (0, 303/100)], [(101/25, 707/100)]] := by
  decide +kernel

example : (∀ u < 4, ∀ v < u, |cloudDist quadDist [(0, 0), (0, 3), (4, 0), (4, 3)] u v -
      cloudDist longDist [(0, 0), (0, 3), (4, 0), (4, 3)] u v| ≤
        1 / 100 * cloudDist quadDist [(0, 0), (0, 3), (4, 0), (4, 3)] u v) ∧
    ∀ u < 4, ∀ v < u, cloudDist quadDist [(0, 0), (0, 3), (4, 0), (4, 3)] u v ≤ 7 :=
  ⟨by decide +kernel, by decide +kernel⟩

end Permaviss
