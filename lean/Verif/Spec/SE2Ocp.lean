import Verif.Model.SE2Ocp
import Verif.Spec.FlattenDeriv
import Verif.Props.LieGroups

/-!
# Assumptions on the smooth library for the problem on SE(2), and right derivatives at a point

`dr_rminus_squarednorm` and so on are what the library defines them to be in terms of `dr_expinv` and `d2r_expinv`; that these are derivatives is proved.
-/

namespace Verif.SE2

open Verif.Sparse Verif.Lie Verif.MeshFn Verif.NLP Verif.Flatten Filter Topology

open scoped Matrix

variable {X 𝔸 : Type*} [NormedRing 𝔸] [NormedAlgebra ℝ 𝔸]

/-- The functions on the state are what their names say. -/
structure IsPose (P : PoseOps X ℝ) (mat : X → 𝔸) (hat : (Fin 5 → ℝ) →ₗ[ℝ] 𝔸) : Prop where
  lie : IsLie P.toLieOps mat hat
  /-- the last two coordinates of a step are added to the velocity -/
  vel : ∀ x a, P.vel (P.rplus x a) = P.vel x + ![a 3, a 4]
  /-- the pose `exp(a)` is reached from the pose `exp(0)` by the step `a` -/
  make : ∀ a v, P.make a v = P.rplus (P.make 0 v) ![a 0, a 1, a 2, 0, 0]
  make_vel : ∀ a v, P.vel (P.make a v) = v
  /-- `dl_expinv(a) b` is the change of `a` for which `exp(a)` moves with the velocity `b` on the left -/
  dlExpinv : ∀ a, IsUnit (P.drExp a).det → ∀ b, hat b * NormedSpace.exp (hat a) = NormedSpace.exp (hat a) * hat (P.drExp a *ᵥ (P.dlExpinv a *ᵥ b))
  drSq : ∀ a, P.drSq a = a ᵥ* P.drExpinv a
  d2rRminus : ∀ a k, P.d2rRminus a k = P.d2rExpinv a k * P.drExpinv a
  d2rSq : ∀ a, P.d2rSq a = (P.drExpinv a)ᵀ * P.drExpinv a + ∑ k, a k • P.d2rRminus a k

/-- The difference to the desired state is regular at `(t, x)`: it is a logarithm there that changes continuously, and the exponential map is regular.
(On SE(2): the difference of the angles is not `π`.) -/
structure Reg (P : PoseOps X ℝ) (mat : X → 𝔸) (hat : (Fin 5 → ℝ) →ₗ[ℝ] 𝔸) (t : ℝ) (x : X) : Prop where
  cont : ContinuousAt (fun δ : Arg 5 2 → ℝ => P.rminus (P.rplus x fun k => δ (.x k)) (xdes P (t + δ .t))) 0
  log : ∀ᶠ δ : Arg 5 2 → ℝ in 𝓝 0, mat (P.rplus x fun k => δ (.x k)) =
    mat (xdes P (t + δ .t)) * NormedSpace.exp (hat (P.rminus (P.rplus x fun k => δ (.x k)) (xdes P (t + δ .t))))
  det : IsUnit (P.drExp (P.rminus x (xdes P t))).det

/-- The same for the logarithm at `x`. -/
structure RegLog (P : PoseOps X ℝ) (mat : X → 𝔸) (hat : (Fin 5 → ℝ) →ₗ[ℝ] 𝔸) (x : X) : Prop where
  cont : ContinuousAt (fun δ : Fin 5 → ℝ => P.log (P.rplus x δ)) 0
  log : ∀ᶠ δ : Fin 5 → ℝ in 𝓝 0, mat (P.rplus x δ) = NormedSpace.exp (hat (P.log (P.rplus x δ)))
  det : IsUnit (P.drExp (P.log x)).det

/-- The moves of `(t, x, u)`. -/
noncomputable abbrev mv (P : PoseOps X ℝ) := move P.toLieOps (vec ℝ 2)

/-- The `jacobian` of `f` is its right derivative at `p`. -/
def JacAt (P : PoseOps X ℝ) {nf : ℕ} (f : GFn X (Fin 2 → ℝ) ℝ nf) (p : ℝ × X × (Fin 2 → ℝ)) : Prop :=
  ∀ j : Fin nf, HasMv (mv P) (fun p => f.val p.1 p.2.1 p.2.2 j) (fun a : Arg 5 2 => (f.jac p.1 p.2.1 p.2.2).val j a.pos) p

/-- The entries of `hessian` are the derivatives by `b` of the entries of `jacobian` for `a`, at `p`. -/
def HessAt (P : PoseOps X ℝ) {nf : ℕ} (f : GFn X (Fin 2 → ℝ) ℝ nf) (p : ℝ × X × (Fin 2 → ℝ)) (j : Fin nf) (a b : Arg 5 2) : Prop :=
  HasDerivAt (fun s : ℝ => (f.jac (mv P p (Pi.single b s)).1 (mv P p (Pi.single b s)).2.1 (mv P p (Pi.single b s)).2.2).val j a.pos)
    ((f.hess p.1 p.2.1 p.2.2).val a.pos (8 * j + b.pos)) 0

/-- `jacobian` and `hessian` of `f(tf, x0, xf, q)` are right at `p`. -/
def DrEAt (P : PoseOps X ℝ) {nf : ℕ} (f : GEFn X ℝ 1 nf) (p : ℝ × X × X × (Fin 1 → ℝ)) : Prop :=
  (∀ j : Fin nf, HasMv (moveE P.toLieOps) (fun p => f.val p.1 p.2.1 p.2.2.1 p.2.2.2 j) (fun a : EArg 5 1 => (f.jac p.1 p.2.1 p.2.2.1 p.2.2.2).val j a.pos) p) ∧
    ∀ (j : Fin nf) (a : EArg 5 1), HasMv (moveE P.toLieOps) (fun p => (f.jac p.1 p.2.1 p.2.2.1 p.2.2.2).val j a.pos)
      (fun b : EArg 5 1 => (f.hess p.1 p.2.1 p.2.2.1 p.2.2.2).val a.pos (12 * j + b.pos)) p

end Verif.SE2
