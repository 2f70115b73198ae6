import Verif.Model.OCPQP

/-!
# The double integrator problem (examples/ocp_doubleintegrator.hpp)

The functions with their derivatives by hand, and the problem `ocp_di`. Scalars are elements of a field.
-/

namespace Verif.DI

open Verif.Mesh Verif.Sparse Verif.MeshFn Verif.NLP Verif.OQP Verif.QP

variable {F : Type*} [Field F]

/-- `Eigen::SparseMatrix<double> ret(r, c); ret.coeffRef(i, j) = v; …`. An assignment outside the matrix is an assertion in Eigen; here it leaves a
matrix of wrong size. -/
def built (r c : ℕ) (l : List (ℕ × ℕ × F)) : Sp F :=
  (l.foldlM (fun A e => Sp.update A e.1 e.2.1 fun _ => e.2.2) (Sp.empty r c)).getD (Sp.empty 0 0)

/-- `DITheta` (ocp_doubleintegrator.hpp:16-36). -/
def theta : EFn F 2 1 1 where
  val p _ := p (.q 0)
  jac _ := built 1 6 [(0, 5, 1)]
  hess _ := built 6 6 []

/-- `DIDyn` (ocp_doubleintegrator.hpp:38-59). -/
def dyn : Fn F 2 1 2 where
  val p := ![p (.x 1), p (.u 0)]
  jac _ := built 2 4 [(0, 2, 1), (1, 3, 1)]
  hess _ := built 4 8 []

/-- `DIIntegral` (ocp_doubleintegrator.hpp:61-86). -/
def integral : Fn F 2 1 1 where
  val p _ := (p (.x 0) * p (.x 0) + p (.x 1) * p (.x 1)) + p (.u 0) * p (.u 0)
  jac p := built 1 4 [(0, 1, 2 * p (.x 0)), (0, 2, 2 * p (.x 1)), (0, 3, 2 * p (.u 0))]
  hess _ := built 4 4 [(1, 1, 2), (2, 2, 2), (3, 3, 2)]

/-- `DICr` (ocp_doubleintegrator.hpp:88-109). -/
def cr : Fn F 2 1 2 where
  val p := ![p (.x 1), p (.u 0)]
  jac _ := built 2 4 [(0, 2, 1), (1, 3, 1)]
  hess _ := built 4 8 []

/-- `DICe` (ocp_doubleintegrator.hpp:111-137). -/
def ce : EFn F 2 1 5 where
  val p := ![p .tf, p (.x0 0), p (.x0 1), p (.xf 0), p (.xf 1)]
  jac _ := built 5 6 [(0, 0, 1), (1, 1, 1), (2, 2, 1), (3, 3, 1), (4, 4, 1)]
  hess _ := built 6 30 []

/-- `ocp_di` (ocp_doubleintegrator.hpp:141-151). -/
def ocpDi : OCP F 2 1 1 2 5 where
  theta := theta
  f := dyn
  g := integral
  cr := cr
  crl := ![.fin (-(1 / 2)), .fin (-1)]
  cru := ![.fin (3 / 2), .fin 1]
  ce := ce
  cel := ![.fin 5, .fin 1, .fin 1, .fin (1 / 10), .fin 0]
  ceu := ![.fin 5, .fin 1, .fin 1, .fin (1 / 10), .fin 0]

/-- The linearisation of ocp_doubleintegrator_qp.cpp:30-31: zero. -/
def lin0 : Lin F 2 1 := ⟨fun _ _ => 0, fun _ _ => 0, fun _ _ => 0⟩

end Verif.DI
