import Verif.Model.Vehicle
import Verif.Spec.ASIF
import Mathlib.Analysis.Calculus.Deriv.Basic
import Mathlib.Analysis.Calculus.Deriv.Pi

/-! # Specification: the vehicle and what a solver may leave undone -/

namespace Verif.ASIF

open Verif.QPSpec
open Verif.QP (Ext Status)

variable {F X U : Type*} [Field F] [LinearOrder F] {nx nu : ℕ}

/-- The solver satisfies the constraints of programs with `n` variables up to `ε` when it says Optimal. -/
def Near (n : ℕ) (ε : F) (s : Solver F) : Prop := ∀ qp warm r, qp.q.size = n → s qp warm = some r → r.code = .optimal →
  ∀ i : Fin qp.l.size, lower (qp.l.val i) (((qp.pbm qp.q.size qp.l.size).A.mulVec fun j => r.primal.val j) i + ε) ∧
    upper (qp.u.val i) (((qp.pbm qp.q.size qp.l.size).A.mulVec fun j => r.primal.val j) i - ε)

/-- The input lies in the bound set up to `ε`. -/
def InBoundsBy (ε : F) (env : Env X U F nx nu) (B : Bounds U F nu) (u : U) : Prop :=
  ∀ i, lower (B.l i) (B.A.mulVec (env.uminus u B.c) i + ε) ∧ upper (B.u i) (B.A.mulVec (env.uminus u B.c) i - ε)

end Verif.ASIF

namespace Verif.Vehicle

open scoped Matrix
open Verif.Lie

/-- The velocity is the second part of the bundle, a vector space. -/
def VelPart {X F : Type*} [Field F] (L : LieOps X F 6) (P : Parts X F) : Prop :=
  ∀ x a, P.vel (L.rplus x a) = P.vel x + ![a 3, a 4, a 5]

/-- The position moves with the rotated translation. -/
def PosPart {X : Type*} (L : LieOps X ℝ 6) (P : Parts X ℝ) : Prop :=
  ∀ x a k, HasDerivAt (fun s : ℝ => P.pos (L.rplus x (s • a)) k) ((P.rot x *ᵥ ![a 0, a 1]) k) 0

/-- The bracket of poses of the plane and translations. -/
def AdPart {X F : Type*} [Field F] (L : LieOps X F 6) : Prop :=
  ∀ a b, L.ad a *ᵥ b = ![-a 2 * b 1 + a 1 * b 2, a 2 * b 0 - a 0 * b 2, 0, 0, 0, 0]

/-- The attitude is an orthogonal matrix. -/
def RotPart {X F : Type*} [Field F] (P : Parts X F) : Prop := ∀ x, P.rot x * (P.rot x)ᵀ = 1

/-- The speeds at which the backup input is admissible: forward speed between -1 and 5/2, rate of turn at most 5/4, up to `5 ε` and `5/2 ε`. -/
def Moderate {X F : Type*} [Field F] [LinearOrder F] (P : Parts X F) (ε : F) (x : X) : Prop :=
  (-1 - 5 * ε ≤ P.vel x 0 ∧ P.vel x 0 ≤ 5 / 2 + 5 * ε) ∧ -(5 / 4) - 5 / 2 * ε ≤ P.vel x 2 ∧ P.vel x 2 ≤ 5 / 4 + 5 / 2 * ε

end Verif.Vehicle
