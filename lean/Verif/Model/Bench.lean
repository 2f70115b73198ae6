import Verif.Model.OSQP

/-!
# The benchmarks (benchmarks/bench_types.hpp, smooth_bench.hpp, osqp_bench.hpp, bench.cpp)

The drawn numbers, the times read from the clock, the Euclidean norm and the solvers are arguments. Scalars are exact; a duration is a number of seconds. Flags, printing and plots are left
out. `double` infinities (the start of the minima, bench.cpp:33, 37) are `none`. A quotient by zero, NaN or infinite in the code, is 0 here; theorems about quotients exclude it.
-/

namespace Verif.Bench

open Matrix
open Verif.QP (Ext Status Pbm Params)
open Verif.OSQP (CSC Src)

variable {F : Type*} {n m : ℕ}

/-- The numbers that `random_qp` draws (bench_types.hpp:22-36). -/
structure Draw (F : Type*) (n m : ℕ) where
  A : Matrix (Fin m) (Fin n) F
  R : Matrix (Fin n) (Fin n) F
  v : Fin n → F
  delta : Fin m → F
  q : Fin n → F

/-- A `BenchResult` (bench_types.hpp:64-71). -/
structure Result (F : Type*) (n : ℕ) where
  status : Status
  dt : F
  iter : ℕ
  solution : Fin n → F
  objective : F

/-- A `BatchResult` (bench_types.hpp:73-84). -/
structure Batch (F : Type*) (n : ℕ) where
  results : List (Result F n)
  numOptimal : ℕ
  totalSuccess : F
  totalFail : F
  avgSuccess : F
  avgFail : F

section

variable [Field F] [LinearOrder F]

/-- `L` (bench_types.hpp:26-29): the lower triangle, with a diagonal of at least 0.05. -/
def chol (R : Matrix (Fin n) (Fin n) F) : Matrix (Fin n) (Fin n) F :=
  fun i j => if j < i then R i j else if i = j then max (max (R i i) (-R i i)) (1 / 20) else 0

/-- `random_qp` (bench_types.hpp:19-41). -/
def randomQp (d : Draw F n m) : Pbm F n m where
  P := chol d.R * (chol d.R)ᵀ
  q := d.q
  A := d.A
  l := fun _ => .neg
  u := fun i => .fin ((d.A *ᵥ d.v) i + d.delta i)

/-- `qp_dense_to_sparse` (bench_types.hpp:46-62). -/
def toSparse (p : Pbm F n m) : Src F n m :=
  .sparse (OSQP.prune (1 / 10 ^ 6) (OSQP.sparseView p.P)) p.q (OSQP.prune (1 / 10 ^ 6) (OSQP.sparseView p.A)) p.l p.u

/-- The values of a problem: what is not stored is zero. -/
def values : Src F n m → Pbm F n m
  | .dense p => p
  | .sparse P q A l u => ⟨fun i j => (P i j).getD 0, q, fun i j => (A i j).getD 0, l, u⟩

/-- The parameters (bench.cpp:148-153). -/
def benchPrm : Params F := { Params.default with epsAbs := 1 / 10 ^ 6, epsRel := 1 / 10 ^ 6, polish := true, maxIter := some 10000, scaling := false }

/-- The objective (smooth_bench.hpp:26, osqp_bench.hpp:27): the upper triangle of `P` stands for the symmetric matrix. -/
def objective (p : Pbm F n m) (x : Fin n → F) : F :=
  (((fun i j => if i ≤ j then p.P i j else p.P j i : Matrix (Fin n) (Fin n) F) *ᵥ fun j => 1 / 2 * x j) + p.q) ⬝ᵥ x

/-- `SmoothWrapper::operator()` (smooth_bench.hpp:14-28); the sparse problem enters by its values. -/
def smoothWork (env : QP.Env F n) (fuel : ℕ) (dt : F) (s : Src F n m) : QP.Out (Result F n) :=
  match QP.solveQP env benchPrm (values s) none fuel with
  | .ok sol => .ok ⟨sol.code, dt, sol.iter, sol.primal, objective (values s) sol.primal⟩
  | .undef => .undef
  | .timeout => .timeout

/-- `OsqpWrapper::operator()` (osqp_bench.hpp:15-29). When only the code is set the solution is an empty vector and the product with `P` is undefined (`none`). -/
def osqpWork {ω : Type*} (lib : OSQP.Lib ω F n m) (dt : F) (s : Src F n m) : Option (Result F n) :=
  (OSQP.solveQpOsqp lib s benchPrm none).bind fun r => r.res.map fun w => ⟨r.code, dt, w.1, w.2.1, objective (values s) w.2.1⟩

/-- The loop over the results (bench_types.hpp:96-103). -/
def tally : List (Result F n) → ℕ × F × F → ℕ × F × F
  | [], c => c
  | r :: rs, (k, a, b) => tally rs (if r.status = .optimal then (k + 1, a + r.dt, b) else (k, a, b + r.dt))

/-- `solve_batch` (bench_types.hpp:86-111) after the work is done. -/
def solveBatch (rs : List (Result F n)) : Batch F n :=
  let c := tally rs (0, 0, 0)
  let fail := rs.length - c.1
  { results := rs
    numOptimal := c.1
    totalSuccess := c.2.1
    totalFail := c.2.2
    avgSuccess := if 0 < c.1 then c.2.1 / (c.1 : F) else -1
    avgFail := if 0 < fail then c.2.2 / (fail : F) else -1 }

/-- The sums and extremes of `compare_results` (bench.cpp:28-46); those of infeasible problems are not printed and left out but for their numbers. -/
structure Tab (F : Type*) where
  optim : ℕ
  durA : F
  durB : F
  ratio : F
  ratioMin : Option F
  ratioMax : F
  diff : F
  diffMin : Option F
  diffMax : F
  pinfeas : ℕ
  dinfeas : ℕ

/-- `std::min(x, m)` with a minimum that starts at infinity. -/
def minO (x : F) : Option F → Option F
  | none => some x
  | some a => some (min x a)

/-- One pass of the loop (bench.cpp:52-111). -/
def compareOne (nrm : (Fin n → F) → F) (a b : Result F n) (t : Tab F) : Tab F :=
  if a.status = .optimal ∧ b.status = .optimal then
    { t with
      optim := t.optim + 1
      durA := t.durA + a.dt
      durB := t.durB + b.dt
      ratio := t.ratio * (a.dt / b.dt)
      ratioMin := minO (a.dt / b.dt) t.ratioMin
      ratioMax := max (a.dt / b.dt) t.ratioMax
      diff := t.diff + nrm (b.solution - a.solution)
      diffMin := minO (nrm (b.solution - a.solution)) t.diffMin
      diffMax := max (nrm (b.solution - a.solution)) t.diffMax }
  else if a.status = .primalInfeasible ∧ b.status = .primalInfeasible then { t with pinfeas := t.pinfeas + 1 }
  else if a.status = .dualInfeasible ∧ b.status = .dualInfeasible then { t with dinfeas := t.dinfeas + 1 }
  else t

/-- The loop of `compare_results` (bench.cpp:52-111): `none` when the second list is shorter (the assertion of line 24; reading behind its end otherwise). -/
def compareLoop (nrm : (Fin n → F) → F) : List (Result F n) → List (Result F n) → Tab F → Option (Tab F)
  | [], _, t => some t
  | _ :: _, [], _ => none
  | a :: as, b :: bs, t => compareLoop nrm as bs (compareOne nrm a b t)

/-- `compare_results` (bench.cpp:21-131). -/
def compareResults (nrm : (Fin n → F) → F) (a b : Batch F n) : Option (Tab F) :=
  if a.results.length = b.results.length then compareLoop nrm a.results b.results ⟨0, 0, 0, 1, none, 0, 0, none, 0, 0, 0⟩ else none

/-- The loop over the batch in `main` (bench.cpp:195-210): number and times of the problems that all three methods solved. -/
def solvedByAll : List (Result F n) → List (Result F n) → List (Result F n) → ℕ × F × F × F → ℕ × F × F × F
  | d :: ds, s :: ss, o :: os, (k, x, y, z) =>
    solvedByAll ds ss os (if d.status = .optimal ∧ s.status = .optimal ∧ o.status = .optimal then (k + 1, x + s.dt, y + d.dt, z + o.dt) else (k, x, y, z))
  | _, _, _, c => c

end

end Verif.Bench
