import Mathlib.Data.Matrix.Mul
import Mathlib.LinearAlgebra.Matrix.NonsingularInverse
import Mathlib.Algebra.Order.Field.Basic
import Mathlib.Data.List.FinRange
import Mathlib.Data.Nat.Factorial.Basic

/-!
# The collocation mesh (include/smooth/feedback/collocation/mesh.hpp)

Simplifications, repeated in DESIGN.md:
* scalars are exact elements of an ordered field;
* `N_colloc` sums in a natural number (the code accumulates in `unsigned int` and wraps at 2^32);
* the LGR nodes and weights, `lagrange_basis`, `binary_interval_search` of the `smooth` library and the real functions
  in `refine_errors` are the fields of `Env`; `monomial_derivative` and `polynomial_basis_derivatives` are written out.
* a failed `assert` and an out-of-range access are the outcome `none`.
-/

set_option linter.dupNamespace false

namespace Verif.Mesh

open Matrix

/-- `Mesh::Interval` (mesh.hpp:490-496). -/
structure Ival (F : Type*) where
  K : ℕ
  tau0 : F
deriving DecidableEq

/-- The data member `intervals_` (mesh.hpp:499). -/
abbrev Mesh (F : Type*) := List (Ival F)

/-- External functions. -/
structure Env (F : Type*) where
  /-- `::smooth::lgr_nodes<K>().first[i]` for `i < K` (mesh.hpp:38). -/
  node : ℕ → ℕ → F
  /-- `::smooth::lgr_nodes<K>().second[i]` for `i < K` (mesh.hpp:38). -/
  weight : ℕ → ℕ → F
  /-- `lagrange_basis<N>(ts)` (mesh.hpp:325, 463, 471): entry `(k, j)` is the coefficient of `t^k` in the `j`-th
  basis polynomial. -/
  basis : (N : ℕ) → (Fin (N + 1) → F) → Matrix (Fin (N + 1)) (Fin (N + 1)) F
  /-- `utils::binary_interval_search` on the interval start points (mesh.hpp:400-401); `none` is `end()`. -/
  search : List F → F → Option ℕ
  /-- `std::lround(std::log(e / target) / std::log(K) + 1)` (mesh.hpp:184). -/
  growth : ℕ → F → F → ℕ

section

variable {F : Type*} [Field F] [LinearOrder F]

/-- `detail::lgr_plus_one<K>().first[j]` (mesh.hpp:36-48). -/
def nodeExt (env : Env F) (K j : ℕ) : F := if j < K then env.node K j else 1

/-- `detail::lgr_plus_one<K>().second[j]` (mesh.hpp:36-48). -/
def weightExt (env : Env F) (K j : ℕ) : F := if j < K then env.weight K j else 0

/-- `Mesh()` (mesh.hpp:82). -/
def single (Kmin : ℕ) : Mesh F := [⟨Kmin, 0⟩]

/-- `Mesh(n, k)` (mesh.hpp:92-103). -/
def uniform (Kmin Kmax n k : ℕ) : Option (Mesh F) :=
  if Kmin ≤ k ∧ k ≤ Kmax + 1 then
    some (if n < 2 then [⟨k, 0⟩] else (List.range n).map fun i : ℕ => ⟨k, (i : F) * (1 / (n : F))⟩)
  else none

/-- `N_colloc` (mesh.hpp:113-117). -/
def nColloc (m : Mesh F) : ℕ := m.foldl (fun c v => c + v.K) 0

/-- `N_colloc_ival` (mesh.hpp:125-129). -/
def nCollocIval (m : Mesh F) (i : ℕ) : Option ℕ := m[i]?.map Ival.K

/-- `i + 1 < intervals_.size() ? intervals_[i + 1].tau0 : 1.` (mesh.hpp:151, 228, 279, 319, 348, 448). -/
def tauf (m : Mesh F) (i : ℕ) : F :=
  match m[i + 1]? with
  | some v => v.tau0
  | none => 1

/-- The loop `while (n-- > 1)` of `refine_ph` (mesh.hpp:154-158); the first argument is `n` at the test. -/
def splitLoop (Kmin i : ℕ) (tau0 taum : F) : ℕ → Mesh F → Mesh F
  | 0, m => m
  | 1, m => m
  | n + 2, m => splitLoop Kmin i tau0 taum (n + 1) (m.insertIdx (i + 1) ⟨Kmin, tau0 + ((n + 1 : ℕ) : F) * taum⟩)

/-- `refine_ph` (mesh.hpp:143-165). With `Kmin = 0` the division (mesh.hpp:148) is undefined. -/
def refinePh (Kmin Kmax : ℕ) (m : Mesh F) (i D : ℕ) : Option (Mesh F) :=
  match m[i]? with
  | none => none
  | some v =>
    if Kmax < D ∨ Kmax < v.K then
      if Kmin = 0 then none
      else
        let n := max 2 ((D + Kmin - 1) / Kmin)
        let tau0 := v.tau0
        let taum := (tauf m i - tau0) / (n : F)
        some (splitLoop Kmin i tau0 taum n m)
    else if D < v.K then some m
    else if D ≤ Kmax then some (m.set i ⟨D, v.tau0⟩)
    else some m

/-- One pass of the loop of `refine_errors` at index `i` with error `e` (mesh.hpp:178-187). -/
def refineErrorsStep (env : Env F) (Kmin Kmax : ℕ) (target : F) (m : Mesh F) (i : ℕ) (e : F) : Option (Mesh F) :=
  match nCollocIval m i with
  | none => none
  | some Ki => if target < e then refinePh Kmin Kmax m i (Ki + env.growth Ki e target) else some m

/-- The loop of `refine_errors` (mesh.hpp:178-188) over the remaining (index, error) pairs. -/
def refineErrorsLoop (env : Env F) (Kmin Kmax : ℕ) (target : F) : List (ℕ × F) → Mesh F → Option (Mesh F)
  | [], m => some m
  | (i, e) :: r, m =>
    match refineErrorsStep env Kmin Kmax target m i e with
    | none => none
    | some m' => refineErrorsLoop env Kmin Kmax target r m'

/-- `refine_errors` (mesh.hpp:172-189): indices and errors are both traversed backwards. -/
def refineErrors (env : Env F) (Kmin Kmax : ℕ) (m : Mesh F) (errs : List F) (target : F) : Option (Mesh F) :=
  if m.length = errs.length then
    refineErrorsLoop env Kmin Kmax target ((List.range m.length).reverse.zip errs.reverse) m
  else none

/-- `set_N_colloc_ival` (mesh.hpp:196-201). -/
def setNColloc (Kmin Kmax : ℕ) (m : Mesh F) (i K : ℕ) : Option (Mesh F) :=
  match m[i]? with
  | none => none
  | some v => if Kmin ≤ K ∧ K ≤ Kmax + 1 then some (m.set i ⟨K, v.tau0⟩) else none

/-- `increase_degrees` (mesh.hpp:409-412). -/
def increaseDegrees (Kmax : ℕ) (m : Mesh F) : Mesh F := m.map fun v => ⟨min (v.K + 1) (Kmax + 1), v.tau0⟩

/-- `decrease_degrees` (mesh.hpp:417-420). A zero degree would wrap around; natural subtraction stays at zero. -/
def decreaseDegrees (Kmin : ℕ) (m : Mesh F) : Mesh F := m.map fun v => ⟨max (v.K - 1) Kmin, v.tau0⟩

/-- The mutating operations. -/
inductive Op (F : Type*) where
  | refinePh (i D : ℕ)
  | refineErrors (errs : List F) (target : F)
  | setNColloc (i K : ℕ)
  | increaseDegrees
  | decreaseDegrees

/-- One operation; `none` when it does not return normally. -/
def step (env : Env F) (Kmin Kmax : ℕ) (m : Mesh F) : Op F → Option (Mesh F)
  | .refinePh i D => refinePh Kmin Kmax m i D
  | .refineErrors errs target => refineErrors env Kmin Kmax m errs target
  | .setNColloc i K => setNColloc Kmin Kmax m i K
  | .increaseDegrees => some (increaseDegrees Kmax m)
  | .decreaseDegrees => some (decreaseDegrees Kmin m)

/-- A history of operations, oldest first. -/
def run (env : Env F) (Kmin Kmax : ℕ) : Mesh F → List (Op F) → Option (Mesh F)
  | m, [] => some m
  | m, o :: os =>
    match step env Kmin Kmax m o with
    | none => none
    | some m' => run env Kmin Kmax m' os

/-! ### Nodes, weights, matrices -/

/-- `interval_nodes` (mesh.hpp:208-232). -/
def intervalNodes (env : Env F) (m : Mesh F) (i : ℕ) : List F :=
  match m[i]? with
  | none => []
  | some v =>
    let al := (tauf m i - v.tau0) / 2
    (List.range (v.K + 1)).map fun j => v.tau0 + al * (nodeExt env v.K j + 1)

/-- `interval_weights` (mesh.hpp:258-283). -/
def intervalWeights (env : Env F) (m : Mesh F) (i : ℕ) : List F :=
  match m[i]? with
  | none => []
  | some v =>
    let al := (tauf m i - v.tau0) / 2
    (List.range (v.K + 1)).map fun j => al * weightExt env v.K j

/-- The `take` of `all_nodes`, `all_weights` (mesh.hpp:246, 297): `i + 1 < n_ivals ? n_ival : n_ival + 1`. -/
def nTake (m : Mesh F) (i : ℕ) : ℕ :=
  match m[i]? with
  | none => 0
  | some v => if i + 1 < m.length then v.K else v.K + 1

/-- `all_nodes` (mesh.hpp:241-251). -/
def allNodes (env : Env F) (m : Mesh F) : List F :=
  (List.range m.length).flatMap fun i => (intervalNodes env m i).take (nTake m i)

/-- `all_weights` (mesh.hpp:292-302). -/
def allWeights (env : Env F) (m : Mesh F) : List F :=
  (List.range m.length).flatMap fun i => (intervalWeights env m i).take (nTake m i)

/-- `polynomial_basis_derivatives<N, N+1>(B, ts)` (mesh.hpp:326-327): entry `(j, i)` is the derivative of the `j`-th
basis polynomial at `ts i`. -/
def basisDeriv {N : ℕ} (B : Matrix (Fin (N + 1)) (Fin (N + 1)) F) (ts : Fin (N + 1) → F) :
    Matrix (Fin (N + 1)) (Fin (N + 1)) F :=
  fun j i => ∑ k : Fin (N + 1), B k j * ((k : ℕ) : F) * ts i ^ ((k : ℕ) - 1)

/-- `interval_diffmat_unscaled(i).second` (mesh.hpp:354-359) for degree `K`: the first `K` columns. -/
def diffmatUnscaled (env : Env F) (K : ℕ) : Matrix (Fin (K + 1)) (Fin K) F :=
  fun j i => basisDeriv (env.basis K fun j => nodeExt env K j) (fun j => nodeExt env K j) j i.castSucc

/-- `interval_diffmat_unscaled(i).first` (mesh.hpp:364) for an interval `[tau0, tauf)`. -/
def diffmatScale (tau0 tauf : F) : F := 2 / (tauf - tau0)

/-- `interval_diffmat` (mesh.hpp:313-334) for an interval `[tau0, tauf)` of degree `K`. -/
def diffmat (env : Env F) (K : ℕ) (tau0 tauf : F) : Matrix (Fin (K + 1)) (Fin K) F :=
  fun j i => diffmatUnscaled env K j i * (2 / (tauf - tau0))

/-- `interval_intmat` (mesh.hpp:387-391): the inverse of rows `1 ..= K`. -/
noncomputable def intmat (env : Env F) (K : ℕ) (tau0 tauf : F) : Matrix (Fin K) (Fin K) F :=
  ((diffmat env K tau0 tauf).submatrix Fin.succ id)⁻¹

/-! ### Evaluation -/

/-- `interval_find` (mesh.hpp:396-404). -/
def intervalFind (env : Env F) (m : Mesh F) (t : F) : ℕ :=
  if t < 0 then 0
  else if 1 < t then m.length - 1
  else
    match env.search (m.map Ival.tau0) t with
    | some i => i
    | none => 0

/-- `monomial_derivative<N>(u, p)` (mesh.hpp:464, 472): the `p`-th derivatives of `1, u, u^2, ...`. -/
def monomialDeriv (u : F) (p k : ℕ) : F := (k.descFactorial p : F) * u ^ (k - p)

/-- `W = U * B` (mesh.hpp:465, 473). -/
def evalWeights {N : ℕ} (B : Matrix (Fin (N + 1)) (Fin (N + 1)) F) (u : F) (p : ℕ) : Fin (N + 1) → F :=
  fun j => ∑ k : Fin (N + 1), monomialDeriv u p k * B k j

/-- The loop `for ([w, v] : zip(W, r | drop(N_before))) ret += w * v` (mesh.hpp:467, 475). -/
def weightedSum {V : Type*} [AddCommGroup V] [Module F V] {N : ℕ} (W : Fin N → F) (r : List V) : V :=
  ((List.ofFn W).zip r).foldl (fun a wv => a + wv.1 • wv.2) 0

/-- `N_before` (mesh.hpp:452-453). -/
def nBefore (m : Mesh F) (i : ℕ) : ℕ := (m.take i).foldl (fun c v => c + v.K) 0

/-- `eval` (mesh.hpp:435-481). `none` when the mesh is empty or (with `extend = false`) the last degree is zero. -/
def eval {V : Type*} [AddCommGroup V] [Module F V] (env : Env F) (m : Mesh F) (t : F) (r : List V) (p : ℕ)
    (extend : Bool) : Option V :=
  let i := intervalFind env m t
  match m[i]? with
  | none => none
  | some v =>
    let u := 2 * (t - v.tau0) / (tauf m i - v.tau0) - 1
    if extend = true ∨ i + 1 < m.length then
      some (weightedSum (evalWeights (env.basis v.K fun j => nodeExt env v.K j) u p) (r.drop (nBefore m i)))
    else
      match v.K with
      | 0 => none
      | N + 1 => some (weightedSum (evalWeights (env.basis N fun j => env.node (N + 1) j) u p) (r.drop (nBefore m i)))

end

end Verif.Mesh
