import Verif.Spec.ASIF
import Verif.Spec.Lie

/-!
# Specification of the sensitivity on Lie groups
-/

namespace Verif.ASIF

open Verif.Lie

variable {X U : Type*} {nx nu : ℕ}

/-- The states are the elements of a Lie group. -/
structure GroupState (L : LieOps X ℝ nx) (env : Env X U ℝ nx nu) : Prop where
  plus : env.xplus = L.rplus
  ad : env.ad = L.ad

/-- The derivative of the Euler steps on a Lie group, in right coordinates: the product of the derivatives of the single steps
`x ⊕ e f(x)` at the states before the steps. -/
def groupSens (L : LieOps X ℝ nx) (d : Dyn X U ℝ nx nu) (b : Backup X U ℝ nx) :
    List ℝ → ℝ → X → Matrix (Fin nx) (Fin nx) ℝ → Matrix (Fin nx) (Fin nx) ℝ
  | [], _, _, S => S
  | e :: l, t, x, S =>
    let v := d.f x (b.bu t x)
    groupSens L d b l (t + e) (L.rplus x (e • v)) ((L.Ad (L.exp (-(e • v))) + e • (L.drExp (e • v) * b.dcl t x)) * S)

/-- `b.dcl` is the derivative of the closed loop by the state, in right coordinates. -/
def HasGroupLoop (L : LieOps X ℝ nx) (d : Dyn X U ℝ nx nu) (b : Backup X U ℝ nx) : Prop :=
  ∀ t x, HasFDerivAt (fun w => d.f (L.rplus x w) (b.bu t (L.rplus x w))) (LinearMap.toContinuousLinearMap (Matrix.mulVecLin (b.dcl t x))) 0

/-- `h.dt` and `h.dx` are the derivatives of component `j` of the barrier at `t` and `x`, in right coordinates. -/
def HasBarrierD (L : LieOps X ℝ nx) (h : Barrier X ℝ nx) (t : ℝ) (x : X) (j : Fin h.nh) : Prop :=
  ∃ D : (ℝ × (Fin nx → ℝ)) →L[ℝ] ℝ, HasFDerivAt (fun q : ℝ × (Fin nx → ℝ) => h.h (t + q.1) (L.rplus x q.2) j) D 0 ∧
    D (1, 0) = h.dt t x j ∧ ∀ w, D (0, w) = (h.dx t x).mulVec w j

/-- The matrix of the linear equation that the filter integrates for the sensitivity. -/
def sensGen (L : LieOps X ℝ nx) (d : Dyn X U ℝ nx nu) (b : Backup X U ℝ nx) (t : ℝ) (x : X) : Matrix (Fin nx) (Fin nx) ℝ :=
  b.dcl t x - L.ad (d.f x (b.bu t x))

end Verif.ASIF
