import Verif.Model.Mesh
import Mathlib.Algebra.Polynomial.Derivative
import Mathlib.Algebra.Polynomial.Eval.Degree

/-!
# Specification of the mesh, and what the `smooth` library is assumed to provide
-/

namespace Verif.Mesh

open Polynomial

section

variable {F : Type*} [Field F] [LinearOrder F]

/-- A mesh of `[0, 1)` with all degrees in `[Kmin, Kmax + 1]`: intervals start at 0, in strictly increasing order,
before 1. -/
structure Valid (Kmin Kmax : ℕ) (m : Mesh F) : Prop where
  starts : (m.map Ival.tau0).head? = some 0
  increasing : (m.map Ival.tau0).Pairwise (· < ·)
  below : ∀ v ∈ m, v.tau0 < 1
  degree : ∀ v ∈ m, Kmin ≤ v.K ∧ v.K ≤ Kmax + 1

/-- The interval `[a, b)` cut into `n` equal parts: the first of degree `K0`, the others of degree `K`. -/
def equalParts (n K0 K : ℕ) (a b : F) : List (Ival F) :=
  (List.range n).map fun k : ℕ => ⟨if k = 0 then K0 else K, a + (k : F) * ((b - a) / (n : F))⟩

/-- What the documentation of `refine_ph` (mesh.hpp:134-141) says becomes of one interval `[a, b)` of degree `K`;
`K0` is the degree of the first part (the documentation says `Kmin`). -/
def refined (Kmin Kmax D K0 : ℕ) (v : Ival F) (b : F) : List (Ival F) :=
  if Kmax < D ∨ Kmax < v.K then equalParts (max 2 ((D + Kmin - 1) / Kmin)) K0 Kmin v.tau0 b
  else if D < v.K then [v]
  else [⟨D, v.tau0⟩]

/-- The pair of an interval and its end, for every interval: the end is the start of the next interval, or `b`. -/
def spans (b : F) : Mesh F → List (Ival F × F)
  | [] => []
  | [v] => [(v, b)]
  | v :: w :: r => (v, w.tau0) :: spans b (w :: r)

/-- Assumption on the LGR rule with `K` points (external): nodes increase from −1 and stay below 1, weights are positive,
and the rule integrates exactly up to degree `2 K - 2`: for every antiderivative `P` of degree at most `2 K - 1`. -/
structure IsLGR (env : Env F) (K : ℕ) : Prop where
  first : env.node K 0 = -1
  increasing : ∀ i j, i < j → j < K → env.node K i < env.node K j
  below : ∀ i, i < K → env.node K i < 1
  positive : ∀ i, i < K → 0 < env.weight K i
  exact : ∀ P : F[X], P.natDegree ≤ 2 * K - 1 →
    ∑ j ∈ Finset.range K, env.weight K j * P.derivative.eval (env.node K j) = P.eval 1 - P.eval (-1)

/-- Assumption on `lagrange_basis` (external): the `j`-th polynomial is one at the `j`-th point and zero at the others,
for pairwise different points. -/
def IsLagrange (env : Env F) : Prop :=
  ∀ (N : ℕ) (ts : Fin (N + 1) → F), Function.Injective ts →
    ∀ i j, ∑ k : Fin (N + 1), env.basis N ts k j * ts i ^ (k : ℕ) = if i = j then 1 else 0

/-- Assumption on `binary_interval_search` (external), on an increasing list: `end()` for a value before the first
element, otherwise the last position whose element is not above `t`. -/
def IsSearch (env : Env F) : Prop :=
  ∀ (l : List F) (t : F), l.Pairwise (· < ·) →
    (env.search l t = none ∧ ∀ a, l.head? = some a → t < a) ∨
    ∃ i a, env.search l t = some i ∧ l[i]? = some a ∧ a ≤ t ∧ ∀ b, l[i + 1]? = some b → t < b

/-- Assumption on the real functions in `refine_errors`: with at least two points and an error above a positive target the
rounded value of `log(e/target)/log(K) + 1` is at least one. -/
def GrowthPos (env : Env F) : Prop := ∀ K e target, 2 ≤ K → 0 < target → target < e → 1 ≤ env.growth K e target

/-- The number of collocation points of a list of intervals. -/
def points (m : Mesh F) : ℕ := (m.map Ival.K).sum

end

end Verif.Mesh
