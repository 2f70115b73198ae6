import Verif.Model.QPSolver

/-!
# A warm start that is the solver's own solution (include/smooth/feedback/qp_solver.hpp)

`solve` takes the warm start by reference (343-344) and returns a reference to its member `sol_` (`sol()`, 290, gives the same
reference), so `solver.solve(pbm, solver.sol())` lets the warm start alias `sol_`. The assignments 438-440 are then made one after the
other on the same object; the model follows them in order.
-/

namespace Verif.QP

open Matrix

section

variable {F : Type*} [Field F] [LinearOrder F] {n m : ℕ}

/-- The members that the assignments write: `sol_.primal`, `sol_.dual`, `z_` (qp_solver.hpp:737, 745). -/
structure Mem (F : Type*) (n m : ℕ) where
  primal : Fin n → F
  dual : Fin m → F
  z : Fin m → F

/-- `sol_.primal = sx_.cwiseInverse().cwiseProduct(w.primal)` (qp_solver.hpp:438), `w` read from the members. -/
def Mem.setPrimal (s : Scaling F n m) (w : Mem F n m → (Fin n → F) × (Fin m → F)) (o : Mem F n m) : Mem F n m :=
  { o with primal := fun j => (s.sx j)⁻¹ * (w o).1 j }

/-- `sol_.dual = c_ * sy_.cwiseInverse().cwiseProduct(w.dual)` (qp_solver.hpp:439). -/
def Mem.setDual (s : Scaling F n m) (w : Mem F n m → (Fin n → F) × (Fin m → F)) (o : Mem F n m) : Mem F n m :=
  { o with dual := fun i => s.c * ((s.sy i)⁻¹ * (w o).2 i) }

/-- `z_.noalias() = sy_.asDiagonal() * pbm.A * w.primal` (qp_solver.hpp:440). -/
def Mem.setZ (p : Pbm F n m) (s : Scaling F n m) (w : Mem F n m → (Fin n → F) × (Fin m → F)) (o : Mem F n m) : Mem F n m :=
  { o with z := fun i => s.sy i * (p.A *ᵥ (w o).1) i }

/-- The three assignments (qp_solver.hpp:438-440). `w` says where the warm start lives: outside the solver (a constant), or in the
members themselves. -/
def Mem.warm (p : Pbm F n m) (s : Scaling F n m) (w : Mem F n m → (Fin n → F) × (Fin m → F)) (o : Mem F n m) : It F n m :=
  let o := ((o.setPrimal s w).setDual s w).setZ p s w
  ⟨o.primal, o.dual, o.z⟩

/-- `solve` on a solver object that holds `o`, with a warm start that lives at `w` (qp_solver.hpp:343-568). -/
def solveAt (env : Env F n) (prm : Params F) (mem : Scaling F n m) (o : Mem F n m) (p : Pbm F n m)
    (w : Mem F n m → (Fin n → F) × (Fin m → F)) (fuel : ℕ) : Out (Sol F n m × Scaling F n m) :=
  match (if prm.scaling then scale env.sqrt p else some mem) with
  | none => .undef
  | some s =>
    match loop env prm p s (step prm.alpha prm.sigma p s (rhoVec prm p s) (prepare env prm p s).1) fuel 0
        (prepare env prm p s).2 (o.warm p s w) with
    | .ok (iter, ret, it) =>
      match conclude env prm p s iter ret it with
      | .ok r => .ok (r, s)
      | .undef => .undef
      | .timeout => .timeout
    | .undef => .undef
    | .timeout => .timeout

/-- The warm start is a copy. -/
def copyOf (x : Fin n → F) (y : Fin m → F) : Mem F n m → (Fin n → F) × (Fin m → F) := fun _ => (x, y)

/-- The warm start is `sol()` (qp_solver.hpp:290). -/
def own : Mem F n m → (Fin n → F) × (Fin m → F) := fun o => (o.primal, o.dual)

end

end Verif.QP
