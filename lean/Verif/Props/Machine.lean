import Verif.Lemmas.Machine
import Verif.Props.LocalPH
import Mathlib.Tactic.NormNum.Prime

/-!
# Doubles and machine integers suffice for small primes (C78)

The functions with the suffix `O` are the functions of the code with the operations `o` of a machine on the entries
of the arrays.  Those without suffix compute with the integers, and the other properties are about them.
-/

namespace Permaviss

section

variable {o : Ops} {M : Int} {p : ℕ}

/-- Two kinds of numbers of numpy and the range in which they are exact. -/
theorem C78_machines : Ops.double.ExactUpTo (2 ^ 53) ∧ Ops.int64.ExactUpTo (2 ^ 63 - 1) :=
  ⟨exactUpTo_double, exactUpTo_int64⟩

/-- When the square of `p` is in the exact range, nothing is rounded and nothing overflows in the elimination, in
the inversion of numbers modulo `p` and in the solution of equations. -/
theorem C78_elimination (ho : o.ExactUpTo M) (hp : 2 ≤ p) (hM : (p : Int) * p ≤ M) :
    (∀ a : Int, 0 ≤ a → a ≤ p → invModPO o a p = invModP a p) ∧
    (∀ A : Mat, A.Reduced p → gaussColO o p A = gaussCol p A) ∧
    (∀ (A : Mat) (b : List Int), A.Reduced p → (∀ x ∈ b, 0 ≤ x ∧ x < (p : Int)) →
      solveModPO o p A b = solveModP p A b) :=
  ⟨fun _ h0 h1 => (invModPO_eq ho hp hM h0 h1).1, fun _ hA => (gaussColO_eq ho hp hM hA).1,
    fun _ _ hA hb => solveModPO_eq ho hp hM hA hb⟩

/-- The same for the eliminations that take radii and bars into account. -/
theorem C78_elimination_bars {α : Type} [LinearOrder α] (ho : o.ExactUpTo M) (hp : 2 ≤ p) (hM : (p : Int) * p ≤ M) :
    (∀ (A : Mat) (R : List α) (start : ℕ), (∀ c ∈ A.cols, ∀ x ∈ c, |x| ≤ M) →
      gaussColRadO o p A R start = gaussColRad p A R start) ∧
    (∀ (A : Mat) (rowBars colBars : List (α × α)) (start : ℕ), A.Reduced p →
      gaussBarcodesO o p A rowBars colBars start = gaussBarcodes p A rowBars colBars start) :=
  ⟨fun _ R start hA => gaussColRadO_eq ho hp hM hA R start,
    fun _ rb cb start hA => gaussBarcodesO_eq ho hp hM hA rb cb start⟩

/-- A product of matrices has to add as many products as the first matrix has columns. -/
theorem C78_product (ho : o.ExactUpTo M) (hp : 2 ≤ p) (hM : (p : Int) * p ≤ M) {A B : Mat} (hA : A.Reduced p)
    (hB : B.Reduced p) (hlen : (A.cols.length : Int) * ((p : Int) - 1) ^ 2 ≤ M) :
    multiplyModPO o p A B = multiplyModP p A B :=
  multiplyModPO_eq ho hp hM hA hB hlen

/-- Persistent homology, for differentials with entries from `0` to `p - 1`. -/
theorem C78_persistentHomology {α : Type} [LinearOrder α] [Zero α] (ho : o.ExactUpTo M) (hp : 2 ≤ p)
    (hM : (p : Int) * p ≤ M) (rnd : α → α) (D0 : ℕ) {D : List Mat} (hD : ∀ A ∈ D, A.Reduced p) (R : List (List α))
    (maxRad : α) : persistentHomologyO o rnd p D0 D R maxRad = persistentHomology rnd p D0 D R maxRad :=
  persistentHomologyO_eq ho hp hM rnd D0 hD R maxRad

/-- The persistent homology of any cloud, with doubles and with any `p` up to 94906265. -/
theorem C78_cloud {α Pt : Type} [LinearOrder α] [Zero α] (hp : 2 ≤ p) (hp' : p ≤ 94906265)
    (pdist : List Pt → List (List α)) (argsort : List α → List Nat) (rnd : α → α) (cloud : List Pt) (maxR : α)
    (maxDim : Int) : localPersistentHomologyO Ops.double pdist argsort rnd cloud maxR maxDim p =
      localPersistentHomology pdist argsort rnd cloud maxR maxDim p := by
  refine localPersistentHomologyO_eq exactUpTo_double hp ?_ pdist argsort rnd cloud maxR maxDim
  have h0 : (0 : Int) ≤ p := by positivity
  have h : (p : Int) ≤ 94906265 := by exact_mod_cast hp'
  calc (p : Int) * p ≤ 94906265 * 94906265 := mul_le_mul h h h0 (by norm_num)
    _ ≤ 2 ^ 53 := by norm_num

/-- For the first prime above this bound, a product of two numbers is wrong with doubles. -/
theorem C78_bound_sharp : (94906297 : ℕ).Prime ∧ (∀ q : ℕ, q.Prime → 94906265 < q → 94906297 ≤ q) ∧
    multiplyModP 94906297 ⟨1, [[94906295]]⟩ ⟨1, [[94906295]]⟩ = ⟨1, [[4]]⟩ ∧
    multiplyModPO Ops.double 94906297 ⟨1, [[94906295]]⟩ ⟨1, [[94906295]]⟩ ≠ ⟨1, [[4]]⟩ := by
  refine ⟨by norm_num, fun q hq hlt => ?_, by decide +kernel, by decide +kernel⟩
  by_contra hlt'
  push Not at hlt'
  have : q ∈ Finset.Ico 94906266 94906297 := Finset.mem_Ico.2 ⟨hlt, hlt'⟩
  revert hq
  interval_cases q <;> norm_num

/-- A cloud computed with doubles and `p = 94906249`: one loop, born at one and filled at two. -/
example : (94906249 : ℕ).Prime ∧
    (localPersistentHomologyO Ops.double (fun _ : List Nat => [[0, 1, 2, 1], [1, 0, 1, 2], [2, 1, 0, 1],
      [1, 2, 1, (0 : Int)]]) stableArgsort id [0, 1, 2, 3] 5 2 94906249).map
      (fun L => L.ph.hom.map fun B => B.barcode) =
      .ok [[(0, 5), (0, 1), (0, 1), (0, 1)], [(1, 2)], [(2, 5)]] := by
  exact ⟨by norm_num, by decide +kernel⟩

/-- The elimination of a matrix with entries that need inverses, with doubles. -/
example : gaussColO Ops.double 94906249 ⟨2, [[94906248, 47453124], [94906247, 94906246]]⟩ =
    .ok (⟨2, [[94906248, 47453124], [4, 0]]⟩, ⟨2, [[1, 0], [94906243, 1]]⟩) := by decide +kernel

end

end Permaviss
