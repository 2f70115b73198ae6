import Verif.Model.MPC
import Verif.Model.QPReuse

/-!
# The QP solver inside the predictive controller (include/smooth/feedback/mpc.hpp:419-424, 490, 628-632)

`Verif/Model/MPC.lean` takes the solver as a parameter; here it is the object of `Verif/Model/QPReuse.lean`: made from the parameters
(mpc.hpp:419), prepared once by `analyze` in the constructor (mpc.hpp:423), and used by every later call (mpc.hpp:490).

Simplifications, repeated in DESIGN.md:
* a solve that does not return and one that is undefined are both `none`;
* square roots, factorisation and clock (`QP.Env`) are the same function in every call;
* `analyze` on an object that has solved a problem of another size is undefined (the controller never does this).
-/

namespace Verif.MPC

open Verif.Sparse Verif.MeshFn Verif.OQP

variable {F : Type*} [Field F] [LinearOrder F]

/-- The numbers of a sparse program (qp.hpp:60-79). -/
def pbmOf (qp : QPD F) (n m : ℕ) : QP.Pbm F n m where
  P := fun i j => qp.P.val i j
  q := fun i => qp.q.val i
  A := fun i j => qp.A.val i j
  l := fun i => qp.l.val i
  u := fun i => qp.u.val i

/-- The stored positions of a sparse matrix in the order of `InnerIterator`. -/
def spots (A : Sp F) (r c : ℕ) : List (Fin r × Fin c) :=
  A.entries.filterMap fun e => if h : e.1 < r ∧ e.2.1 < c then some (⟨e.1, h.1⟩, ⟨e.2.1, h.2⟩) else none

/-- The stored positions of a sparse program. -/
def patternOf (qp : QPD F) (n m : ℕ) : QP.Pattern n m := ⟨spots qp.P n n, spots qp.A m n⟩

/-- The sizes of a program and of a warm start are those of the solver's members; Eigen asserts this. -/
def sized (qp : QPD F) (warm : Option (QSol F)) (n m : ℕ) : Bool :=
  decide (qp.P.rows = n ∧ qp.P.cols = n ∧ qp.q.size = n ∧ qp.A.rows = m ∧ qp.A.cols = n ∧ qp.l.size = m ∧ qp.u.size = m) &&
  warm.all fun w => decide (w.primal.size = n ∧ w.dual.size = m)

/-- The warm start as the solver reads it (qp_solver.hpp:367-369). -/
def warmOf (warm : Option (QSol F)) (n m : ℕ) : Option ((Fin n → F) × (Fin m → F)) :=
  warm.map fun w => (fun i => w.primal.val i, fun i => w.dual.val i)

/-- What is read of the solution. -/
def solOf {n m : ℕ} (s : QP.Sol F n m) : QSol F := ⟨s.code, ⟨n, ext s.primal⟩, ⟨m, ext s.dual⟩⟩

/-- A solver object together with the sizes of its members. -/
structure QState (F : Type*) where
  n : ℕ
  m : ℕ
  obj : QP.Solver F n m

/-- `QPSolver<QuadraticProgramSparse<double>>` (qp_solver.hpp:244-343): made from parameters alone (268), so with empty members. -/
def qpObject (env : (n : ℕ) → QP.Env F n) (prm : QP.Params F) (fuel : ℕ) : Solver F (QState F) where
  init := ⟨0, 0, ⟨⟨0, fun _ => 0, fun _ => 0⟩, fun _ _ => none, true, none⟩⟩
  copy s := ⟨s.n, s.m, s.obj.copy⟩
  analyze qp s :=
    if h : s.n = qp.A.cols ∧ s.m = qp.A.rows then some ⟨s.n, s.m, s.obj.analyze⟩
    else if s.obj.analysed.isNone then some ⟨qp.A.cols, qp.A.rows, QP.Solver.new⟩
    else none
  solve qp warm s :=
    if sized qp warm s.n s.m then
      match s.obj.solve (env s.n) prm (patternOf qp s.n s.m) (pbmOf qp s.n s.m) (warmOf warm s.n s.m) fuel with
      | .ok r => some (solOf r.1, ⟨s.n, s.m, r.2⟩)
      | .undef => none
      | .timeout => none
    else none

/-- `solve_qp` (qp_solver.hpp:779-787) in place of the object: a new solver for every program. -/
def qpFresh (env : (n : ℕ) → QP.Env F n) (prm : QP.Params F) (fuel : ℕ) : Solver F Unit where
  init := ()
  copy := id
  analyze _ _ := some ()
  solve qp warm _ :=
    if sized qp warm qp.A.cols qp.A.rows then
      match QP.solveQP (env qp.A.cols) prm (pbmOf qp qp.A.cols qp.A.rows) (warmOf warm qp.A.cols qp.A.rows) fuel with
      | .ok r => some (solOf r, ())
      | .undef => none
      | .timeout => none
    else none

end Verif.MPC
