import Verif.Model.DoubleInt
import Verif.Model.Flatten

/-!
# The problem on SE(2) (examples/ocp_se2.hpp)

The functions with their derivatives by hand, and the problem `ocp_se2`. Scalars are elements of a field. The state is a pose of the plane with a forward
speed and a rate of turn, `X = Bundle<SE2, Vector2>`; the functions of the smooth library on it are the fields of `PoseOps`.
-/

namespace Verif.SE2

open Verif.Sparse Verif.Lie Verif.Flatten Verif.DI Verif.QP

open scoped Matrix

/-- The functions of the smooth library that ocp_se2.hpp calls (external). -/
structure PoseOps (X F : Type*) extends LieOps X F 5 where
  /-- `x.part<1>()`: forward speed and rate of turn -/
  vel : X → Fin 2 → F
  /-- the state with pose `SE2::exp(a)` and velocity `v` -/
  make : (Fin 3 → F) → (Fin 2 → F) → X
  /-- `x.log()` -/
  log : X → Fin 5 → F
  /-- `x - y` -/
  rminus : X → X → Fin 5 → F
  /-- `dl_expinv<X>(a)` -/
  dlExpinv : (Fin 5 → F) → Matrix (Fin 5) (Fin 5) F
  /-- `dr_rminus_squarednorm<X>(a)` -/
  drSq : (Fin 5 → F) → Fin 5 → F
  /-- `d2r_rminus_squarednorm<X>(a)` -/
  d2rSq : (Fin 5 → F) → Matrix (Fin 5) (Fin 5) F
  /-- block `k` of `d2r_rminus<X>(a)` -/
  d2rRminus : (Fin 5 → F) → Fin 5 → Matrix (Fin 5) (Fin 5) F

variable {X F : Type*} [Field F]

/-- `ret.coeffRef(i, j) = v; …` on a matrix that may have failed before. -/
def set (l : List (ℕ × ℕ × F)) (A : Option (Sp F)) : Option (Sp F) := A.bind fun A => l.foldlM (fun A e => Sp.update A e.1 e.2.1 fun _ => e.2.2) A

/-- A failed assertion leaves a matrix of wrong size. -/
def done (A : Option (Sp F)) : Sp F := A.getD (Sp.empty 0 0)

/-- `SE2Theta` (ocp_se2.hpp:28-49). -/
def theta : GEFn X F 1 1 where
  val tf _ _ q _ := tf + q 0
  jac _ _ _ _ := built 1 12 [(0, 0, 1), (0, 11, 1)]
  hess _ _ _ _ := built 12 12 []

/-- `SE2Dyn` (ocp_se2.hpp:51-81). -/
def dyn (P : PoseOps X F) : GFn X (Fin 2 → F) F 5 where
  val _ x u := ![P.vel x 0, 0, P.vel x 1, u 0, u 1]
  jac _ _ _ := built 5 8 [(0, 4, 1), (2, 5, 1), (3, 6, 1), (4, 7, 1)]
  hess _ _ _ := built 8 40 []

/-- `vel` (ocp_se2.hpp:85). -/
def vdes : Fin 3 → F := ![1, 0, 1 / 2]

/-- `xdes` (ocp_se2.hpp:83-92). -/
def xdes (P : PoseOps X F) (t : F) : X := P.make (t • vdes) ![vdes 0, vdes 2]

/-- `SE2Integral` (ocp_se2.hpp:94-127). -/
def integral (P : PoseOps X F) : GFn X (Fin 2 → F) F 1 where
  val t x u _ := 1 / 2 * ((∑ k, P.rminus x (xdes P t) k * P.rminus x (xdes P t) k) + ∑ k, u k * u k)
  jac t x u :=
    let a := P.rminus x (xdes P t)
    done (set [(0, 6, u 0), (0, 7, u 1)]
      ((set [(0, 0, -((a ᵥ* P.dlExpinv a) ⬝ᵥ ![1, 0, 1 / 2, 0, 0]))] (some (Sp.empty 1 8))).bind
        fun A => blockAdd A 0 1 (ofMat (r := 1) fun _ j => P.drSq a j)))
  hess t x _ :=
    done (set [(6, 6, 1), (7, 7, 1)] (blockAdd (Sp.empty 8 8) 1 1 (ofMat (P.d2rSq (P.rminus x (xdes P t))))))

/-- `SE2Cr` (ocp_se2.hpp:129-151). -/
def cr : GFn X (Fin 2 → F) F 2 where
  val _ _ u := u
  jac _ _ _ := built 2 8 [(0, 6, 1), (1, 7, 1)]
  hess _ _ _ := built 8 16 []

/-- `SE2Ce` (ocp_se2.hpp:153-183). -/
def ce (P : PoseOps X F) : GEFn X F 1 6 where
  val tf x0 _ _ := Fin.cons tf (P.log x0)
  jac _ x0 _ _ := done ((set [(0, 0, 1)] (some (Sp.empty 6 12))).bind fun A => blockAdd A 1 1 (ofMat (P.drExpinv (P.log x0))))
  hess _ x0 _ _ := done (blockAdds (List.ofFn fun i : Fin 5 => ⟨1, 12 * (1 + (i : ℕ)) + 1, ofMat (P.d2rRminus (P.log x0) i), 1, false⟩) (Sp.empty 12 72))

/-- `ocp_se2` (ocp_se2.hpp:187-197). -/
def ocpSe2 (P : PoseOps X F) : GOCP X (Fin 2 → F) F 5 1 2 6 where
  theta := theta
  f := dyn P
  g := integral P
  cr := cr
  crl _ := .fin (-1)
  cru _ := .fin 1
  ce := ce P
  cel := ![.fin 5, .fin 0, .fin 0, .fin 0, .fin 1, .fin 0]
  ceu := ![.fin 5, .fin 0, .fin 0, .fin 0, .fin 1, .fin 0]

end Verif.SE2
