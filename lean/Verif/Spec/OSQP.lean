import Verif.Model.OSQP
import Verif.Spec.QP

/-!
# Specification of the OSQP interface

Only data types come from the model.
-/

namespace Verif.OSQP

open Matrix Verif.QP Verif.QPSpec

variable {F : Type*} [Field F] [LinearOrder F] {n m : ℕ}

/-- The numbers in a sparse matrix. -/
def CSC.val {r c : ℕ} (S : CSC F r c) : Matrix (Fin r) (Fin c) F := fun i j => (S i j).getD 0

/-- The given problem. -/
def Src.pbm : Src F n m → Pbm F n m
  | .dense p => p
  | .sparse P q A l u => ⟨P.val, q, A.val, l, u⟩

/-- The symmetric matrix with this upper triangle. -/
def symm (P : Matrix (Fin n) (Fin n) F) : Matrix (Fin n) (Fin n) F := fun i j => if i ≤ j then P i j else P j i

/-- The problem as documented at qp.hpp:34, 64: only the upper triangle of `P` is used. -/
def documented (p : Pbm F n m) : Pbm F n m := { p with P := symm p.P }

/-- The problem that OSQP solves for its data: `P` is the upper triangle of a symmetric matrix. -/
def Data.pbm (d : Data F n m) : Pbm F n m := ⟨symm d.P.val, d.q, d.A.val, d.l, d.u⟩

/-- No stored entry of `P` lies below the diagonal, as OSQP requires. -/
def Data.Upper (d : Data F n m) : Prop := ∀ i j, j < i → d.P i j = none

/-- Two problems are the same for a solver: same feasible points, same objective. -/
def SameProblem (p p' : Pbm F n m) : Prop := (∀ x, Feasible p x ↔ Feasible p' x) ∧ ∀ x, cost p x = cost p' x

/-- The library solves its problem when it says so. -/
def Lib.Exact {ω : Type*} (lib : Lib ω F n m) : Prop :=
  ∀ d s w, lib.setup d s = (0, some w) →
    (∀ x y, (lib.info (lib.solve (lib.warmStart w x y)).2).status = .solved → Minimiser d.pbm (lib.info (lib.solve (lib.warmStart w x y)).2).x) ∧
    ((lib.info (lib.solve w).2).status = .solved → Minimiser d.pbm (lib.info (lib.solve w).2).x)

/-- The settings carry the documented meaning of the parameters (qp_solver.hpp:29-68): the same step sizes and tolerances, no limit
where none is given, no adaptation of `rho`. -/
structure Settings.For (cmax : ℕ) (prm : Params F) (s : Settings F) : Prop where
  relaxation : s.alpha = prm.alpha
  steps : s.rho = prm.rho ∧ s.sigma = prm.sigma
  fixed : s.adaptiveRho = false
  convergence : s.epsAbs = prm.epsAbs ∧ s.epsRel = prm.epsRel ∧ s.scaledTermination = false
  infeasibility : s.epsPrimInf = prm.epsPrimalInf ∧ s.epsDualInf = prm.epsDualInf
  checks : s.checkTermination = prm.stopCheckIter
  scale : s.scaling ≠ 0 ↔ prm.scaling = true
  polishing : s.polish = prm.polish ∧ s.polishRefineIter = prm.polishIter ∧ s.delta = prm.delta
  iterations : ∀ k, s.maxIter = k ↔ prm.maxIter = some k ∨ (prm.maxIter = none ∧ k = cmax)
  /-- seconds from nanoseconds -/
  time : ∀ t, prm.maxTime = some t → s.timeLimit * 10 ^ 9 = t
  /-- OSQP reads zero as no limit -/
  noTime : prm.maxTime = none → s.timeLimit = 0

end Verif.OSQP
