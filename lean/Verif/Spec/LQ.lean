import Verif.Spec.OCPQP
import Mathlib.Analysis.Calculus.Deriv.Basic

/-! # Linear-quadratic optimal control problems -/

namespace Verif.OQP

open Verif.Mesh Verif.Sparse Verif.MeshFn Verif.NLP Verif.QP Verif.QPSpec

variable {nx nu ncr nce : ℕ} {ι : Type*}

/-- `f` is affine on every line in a direction of `D`. -/
def AffineIn (D : (ι → ℝ) → Prop) (f : (ι → ℝ) → ℝ) : Prop := ∀ p d, D d → ∀ s : ℝ, f (p + s • d) = f p + s * (f (p + d) - f p)

/-- `f` is a polynomial of degree at most two on every line in a direction of `D`. -/
def QuadIn (D : (ι → ℝ) → Prop) (f : (ι → ℝ) → ℝ) : Prop := ∀ p d, D d → ∃ a b, ∀ s : ℝ, f (p + s • d) = f p + s * a + s ^ 2 * b

/-- Directions in which the time does not change. -/
def SameTime (d : Arg nx nu → ℝ) : Prop := d .t = 0

/-- Directions in which the final time and the integral do not change. -/
def SameEnd (d : EArg nx 1 → ℝ) : Prop := d .tf = 0 ∧ d (.q 0) = 0

/-- Dynamics and constraints are affine in state and input at every time, the integrand is quadratic; the end constraints are affine and
do not depend on the integral; the cost is `b q` plus an affine function of the end points. Dependence on time is arbitrary. -/
structure IsLQ (ocp : OCP ℝ nx nu 1 ncr nce) (b : ℝ) : Prop where
  f : ∀ k, AffineIn SameTime fun p => ocp.f.val p k
  cr : ∀ k, AffineIn SameTime fun p => ocp.cr.val p k
  g : QuadIn SameTime fun p => ocp.g.val p 0
  ce : ∀ k, AffineIn SameEnd fun e => ocp.ce.val e k
  ce_q : ∀ k e c, ocp.ce.val (Function.update e (.q 0) c) k = ocp.ce.val e k
  theta : AffineIn SameEnd fun e => ocp.theta.val e 0
  theta_q : LinearInIntegral (fun e => ocp.theta.val e 0) b

/-- The point of the nonlinear program that `linearisation + z` stands for, with the integral by quadrature. -/
noncomputable def nlpPoint (env : Mesh.Env ℝ) (m : Mesh ℝ) (ocp : OCP ℝ nx nu 1 ncr nce) (lin : Lin ℝ nx nu) (tf : ℝ) (z : QVar (nColloc m) nx nu → ℝ) :
    NVar (nColloc m) nx nu 1 → ℝ
  | .tf => tf
  | .q _ => integralSpec env m ocp.g.val 0 (trajVars env m lin tf z)
  | .x i k => lin.x (tf * tauAt env m i) k + z (.x i k)
  | .u i k => lin.u (tf * tauAt env m i) k + z (.u i k)

/-- The slopes of the interpolated linearisation are its velocities: it is a polynomial of the degree of the mesh on each interval, for instance
constant. -/
def OnMesh (env : Mesh.Env ℝ) (m : Mesh ℝ) (lin : Lin ℝ nx nu) (tf : ℝ) : Prop := ∀ (i : Fin (nColloc m)) (k : Fin nx),
  slope env (spans 1 m) (fun j => if j < nColloc m + 1 then lin.x (tf * tauAt env m j) k else 0) i = tf * lin.dx (tf * tauAt env m i) k

/-- `f` is convex in the directions of `D` (for a quadratic function the midpoints suffice). -/
def ConvexIn (D : (ι → ℝ) → Prop) (f : (ι → ℝ) → ℝ) : Prop := ∀ p d, D d → 2 * f p ≤ f (p + d) + f (p - d)

/-- `f` is a sum of functions of one variable each: no products of different ones, among those of `D`. -/
def Separable [DecidableEq ι] (D : (ι → ℝ) → Prop) (f : (ι → ℝ) → ℝ) : Prop :=
  ∀ p (a b : ι), a ≠ b → D (Pi.single a 1) → D (Pi.single b 1) → f (p + Pi.single a 1 + Pi.single b 1) + f p = f (p + Pi.single a 1) + f (p + Pi.single b 1)

/-- The point `w` satisfies the constraints of the nonlinear program up to `r`; the integral is exact. -/
structure NearFeasible (ocp : OCP ℝ nx nu 1 ncr nce) (env : Mesh.Env ℝ) (m : Mesh ℝ) (r : ℝ) (w : NVar (nColloc m) nx nu 1 → ℝ) : Prop where
  time : 0 ≤ w .tf
  dynamics : ∀ (i : Fin (nColloc m)) (k : Fin nx),
    |slope env (spans 1 m) (fun l => if h : l < nColloc m + 1 then w (.x ⟨l, h⟩ k) else 0) i -
      w .tf * ocp.f.val (pt (w .tf * tauAt env m i) (fun k => w (.x i.castSucc k)) fun k => w (.u i k)) k| ≤ r
  integrals : w (.q 0) = w .tf * ∑ i : Fin (nColloc m),
    wAt env m i * ocp.g.val (pt (w .tf * tauAt env m i) (fun k => w (.x i.castSucc k)) fun k => w (.u i k)) 0
  running : ∀ (i : Fin (nColloc m)) (k : Fin ncr), ∃ c, lower (ocp.crl k) c ∧ upper (ocp.cru k) c ∧
    |ocp.cr.val (pt (w .tf * tauAt env m i) (fun k => w (.x i.castSucc k)) fun k => w (.u i k)) k - c| ≤ r
  endpoint : ∀ k : Fin nce, ∃ c, lower (ocp.cel k) c ∧ upper (ocp.ceu k) c ∧ |ocp.ce.val (ends w) k - c| ≤ r

end Verif.OQP
