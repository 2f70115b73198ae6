import Verif.Model.QPSolver

/-!
# The OSQP interface (include/smooth/feedback/compat/osqp.hpp)

Simplifications, repeated in DESIGN.md:
* the header ends with an `#endif` that has no `#if` (osqp.hpp:155), so no translation unit that includes it compiles; the function is
  modelled as it is written;
* scalars are exact elements of an ordered field; the parameters `float` and `double` are the same field; `verbose` is left out;
* a compressed column matrix is the map from positions to stored values;
* the OSQP library is the parameter `Lib`; dereferencing the workspace pointer when `osqp_setup` did not write it is the outcome `none`.
-/

namespace Verif.OSQP

open Verif.QP (Ext Status Pbm Params)

variable {F : Type*} {n m : ℕ}

/-- A sparse matrix: `none` where nothing is stored. -/
abbrev CSC (F : Type*) (r c : ℕ) := Fin r → Fin c → Option F

/-- The two kinds of problems: `QuadraticProgram` (qp.hpp:31-45) and `QuadraticProgramSparse` (qp.hpp:61-79). -/
inductive Src (F : Type*) (n m : ℕ) where
  | dense (p : Pbm F n m)
  | sparse (P : CSC F n n) (q : Fin n → F) (A : CSC F m n) (l u : Fin m → Ext F)

/-- `OSQPSettings`, as far as they are set (osqp.hpp:52-79). -/
structure Settings (F : Type*) where
  sigma : F
  alpha : F
  rho : F
  epsAbs : F
  epsRel : F
  epsPrimInf : F
  epsDualInf : F
  scaling : ℕ
  checkTermination : ℕ
  polish : Bool
  polishRefineIter : ℕ
  delta : F
  adaptiveRho : Bool
  scaledTermination : Bool
  maxIter : ℕ
  timeLimit : F

/-- `OSQPData` (osqp.hpp:81-88). -/
structure Data (F : Type*) (n m : ℕ) where
  P : CSC F n n
  q : Fin n → F
  A : CSC F m n
  l : Fin m → Ext F
  u : Fin m → Ext F

/-- The status constants of OSQP that are named (osqp.hpp:109-128); `other` stands for all the rest. -/
inductive Val where
  | solved | primalInfeasible | dualInfeasible | maxIterReached | timeLimitReached | other
deriving DecidableEq

/-- What is read from the workspace after solving (osqp.hpp:108, 134-137). -/
structure Info (F : Type*) (n m : ℕ) where
  status : Val
  iter : ℕ
  x : Fin n → F
  y : Fin m → F
  obj : F

/-- The library. `setup` returns the error code and the workspace if one was written; `cmax` is the largest `c_int`. -/
structure Lib (ω F : Type*) (n m : ℕ) where
  cmax : ℕ
  setup : Data F n m → Settings F → BitVec 64 × Option ω
  warmStart : ω → (Fin n → F) → (Fin m → F) → ω
  solve : ω → BitVec 64 × ω
  info : ω → Info F n m

/-- `QPSolution<-1, -1, double>` (qp.hpp:96-109); `res` is empty when only the code was set. -/
structure Ret (F : Type*) (n m : ℕ) where
  code : Status
  res : Option (ℕ × (Fin n → F) × (Fin m → F) × F)

section

variable [Field F] [LinearOrder F]

/-- `NumTraits<double>::dummy_precision()`, the default `epsilon` of `sparseView` and `prune` in Eigen. -/
def dummyPrecision : F := 1 / 10 ^ 12

/-- `isMuchSmallerThan(x, y, prec)` of Eigen: `|x| <= |y| * prec`. -/
def muchSmaller (x y : F) : Bool := |x| ≤ |y| * dummyPrecision

/-- `M.sparseView()`, reference zero (osqp.hpp:42, 44). -/
def sparseView {r c : ℕ} (M : Matrix (Fin r) (Fin c) F) : CSC F r c := fun i j => if muchSmaller (M i j) 0 then none else some (M i j)

/-- `S.prune(reference)` (osqp.hpp:45-46). -/
def prune {r c : ℕ} (reference : F) (S : CSC F r c) : CSC F r c :=
  fun i j => (S i j).bind fun v => if muchSmaller v reference then none else some v

/-- `triangularView<Eigen::Upper>()` of a dense and of a sparse matrix (osqp.hpp:40, 43). -/
def upperDense (M : Matrix (Fin n) (Fin n) F) : Matrix (Fin n) (Fin n) F := fun i j => if i ≤ j then M i j else 0
def upperSparse (S : CSC F n n) : CSC F n n := fun i j => if i ≤ j then S i j else none

/-- The matrices and vectors handed over (osqp.hpp:35-49, 81-88). -/
def toData : Src F n m → Data F n m
  | .sparse P q A l u => ⟨upperSparse P, q, A, l, u⟩
  | .dense p => ⟨prune (1 / 10 ^ 6) (sparseView (upperDense p.P)), p.q, prune (1 / 10 ^ 6) (sparseView p.A), p.l, p.u⟩

/-- The settings (osqp.hpp:51-79). -/
def toSettings (cmax : ℕ) (prm : Params F) : Settings F where
  sigma := prm.sigma
  alpha := prm.alpha
  rho := prm.rho
  epsAbs := prm.epsAbs
  epsRel := prm.epsRel
  epsPrimInf := prm.epsPrimalInf
  epsDualInf := prm.epsDualInf
  scaling := if prm.scaling then 1 else 0
  checkTermination := prm.stopCheckIter
  polish := prm.polish
  polishRefineIter := prm.polishIter
  delta := prm.delta
  adaptiveRho := false
  scaledTermination := false
  maxIter := match prm.maxIter with
    | some k => k
    | none => cmax
  timeLimit := match prm.maxTime with
    | some t => (t : F) / 10 ^ 9
    | none => 0

/-- The translation of the status (osqp.hpp:108-132). -/
def toCode : Val → Status
  | .solved => .optimal
  | .primalInfeasible => .primalInfeasible
  | .dualInfeasible => .dualInfeasible
  | .maxIterReached => .maxIterations
  | .timeLimitReached => .maxTime
  | .other => .unknown

variable {ω : Type*}

/-- `solve_qp_osqp` (osqp.hpp:29-151). The stores to `settings->warm_start` (99, 101) come after `osqp_setup` has copied the
settings. `osqp_cleanup(work)` (140) reads the pointer on every path. -/
def solveQpOsqp (lib : Lib ω F n m) (pbm : Src F n m) (prm : Params F) (warmstart : Option ((Fin n → F) × (Fin m → F))) :
    Option (Ret F n m) :=
  let r := lib.setup (toData pbm) (toSettings lib.cmax prm)
  let error := r.1
  match r.2 with
  | none => none
  | some work =>
    let work := match warmstart with
      | some w => lib.warmStart work w.1 w.2
      | none => work
    let s := if error = 0 then ((error &&& (lib.solve work).1), (lib.solve work).2) else (error, work)
    if s.1 = 0 then
      let i := lib.info s.2
      some ⟨toCode i.status, some (i.iter, i.x, i.y, i.obj)⟩
    else some ⟨.unknown, none⟩

end

end Verif.OSQP
