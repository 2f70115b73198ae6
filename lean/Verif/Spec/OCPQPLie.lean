import Verif.Model.OCPQPLie
import Verif.Spec.OCPQP
import Verif.Spec.FlattenDeriv

/-! # Specification of the quadratic program of a problem on Lie groups -/

namespace Verif.OQP

open Verif.Mesh Verif.Sparse Verif.MeshFn Verif.NLP Verif.QP Verif.QPSpec Verif.Lie Verif.Flatten
open scoped Matrix

variable {X U : Type*} {nx nu ncr nce nf : ℕ}

/-- `f` at time `t` for the state `x_lin ⊕ δx` and the input `u_lin ⊕ δu`. -/
def along (LX : LieOps X ℝ nx) (LU : LieOps U ℝ nu) (f : GFn X U ℝ nf) (lin : GLin X U ℝ nx) (t : ℝ) (δ : Arg nx nu → ℝ) : Fin nf → ℝ :=
  f.val t (LX.rplus (lin.x t) fun k => δ (.x k)) (LU.rplus (lin.u t) fun k => δ (.u k))

/-- `f` at the final time `tf`, for the end points `x_lin(0) ⊕ δ0`, `x_lin(tf) ⊕ δf` and the integral `1 + δq`. -/
def ends (LX : LieOps X ℝ nx) (f : GEFn X ℝ 1 nf) (lin : GLin X U ℝ nx) (tf : ℝ) (δ : EArg nx 1 → ℝ) : Fin nf → ℝ :=
  f.val tf (LX.rplus (lin.x 0) fun k => δ (.x0 k)) (LX.rplus (lin.x tf) fun k => δ (.xf k)) fun k => 1 + δ (.q k)

/-- The velocity of the error `e` when `x_lin ⊕ e` satisfies the dynamics: `dr_exp(e)⁻¹ (f(t, x_lin ⊕ e, u_lin ⊕ v) - Ad_{exp(-e)} dx_lin)`. -/
def errDyn (LX : LieOps X ℝ nx) (LU : LieOps U ℝ nu) (f : GFn X U ℝ nx) (lin : GLin X U ℝ nx) (t : ℝ) (δ : Arg nx nu → ℝ) : Fin nx → ℝ :=
  LX.drExpinv (fun k => δ (.x k)) *ᵥ (along LX LU f lin t δ - LX.Ad (LX.exp (-fun k => δ (.x k))) *ᵥ lin.dx t)

/-- The linearised problem, collocated: at every collocation point the slope of the interpolated error equals `tf` times the
first-order expansion of the velocity of the error, and the first-order expansions of the constraints satisfy the bounds. -/
structure LinFeasibleG (LX : LieOps X ℝ nx) (LU : LieOps U ℝ nu) (env : Mesh.Env ℝ) (m : Mesh ℝ) (ocp : GOCP X U ℝ nx 1 ncr nce) (tf : ℝ)
    (lin : GLin X U ℝ nx) (z : QVar (nColloc m) nx nu → ℝ) : Prop where
  dynamics : ∀ (i : Fin (nColloc m)) (k : Fin nx),
    slope env (spans 1 m) (fun j => if h : j < nColloc m + 1 then z (.x ⟨j, h⟩ k) else 0) i =
      tf * taylor1 (fun δ => errDyn LX LU ocp.f lin (tf * tauAt env m i) δ k) 0 (dev z i)
  running : ∀ (i : Fin (nColloc m)) (k : Fin ncr),
    lower (ocp.crl k) (taylor1 (fun δ => along LX LU ocp.cr lin (tf * tauAt env m i) δ k) 0 (dev z i)) ∧
    upper (ocp.cru k) (taylor1 (fun δ => along LX LU ocp.cr lin (tf * tauAt env m i) δ k) 0 (dev z i))
  endpoint : ∀ k : Fin nce,
    lower (ocp.cel k) (taylor1 (fun δ => ends LX ocp.ce lin tf δ k) 0 (devEnd z)) ∧
    upper (ocp.ceu k) (taylor1 (fun δ => ends LX ocp.ce lin tf δ k) 0 (devEnd z))

/-- The cost of the trajectory `x_lin ⊕ z`, `u_lin ⊕ z`, with the integral by quadrature. -/
noncomputable def trajCostG (LX : LieOps X ℝ nx) (LU : LieOps U ℝ nu) (env : Mesh.Env ℝ) (m : Mesh ℝ) (ocp : GOCP X U ℝ nx 1 ncr nce)
    (lin : GLin X U ℝ nx) (tf : ℝ) (z : QVar (nColloc m) nx nu → ℝ) : ℝ :=
  ocp.theta.val tf (LX.rplus (lin.x 0) fun k => z (.x 0 k)) (LX.rplus (lin.x tf) fun k => z (.x (Fin.last _) k))
    (fun _ => ∑ i : Fin (nColloc m), wAt env m i * (tf * ocp.g.val (tf * tauAt env m i)
      (LX.rplus (lin.x (tf * tauAt env m i)) fun k => z (.x i.castSucc k)) (LU.rplus (lin.u (tf * tauAt env m i)) fun k => z (.u i k)) 0)) 0

/-- The cost is linear in the integral, with weight `b`. -/
def LinearInIntegralG (th : GEFn X ℝ 1 1) (b : ℝ) : Prop := ∀ t x y (q c : ℝ), th.val t x y (fun _ => c) 0 = th.val t x y (fun _ => q) 0 + b * (c - q)

/-- What a second derivative loses when only its upper triangle is read: `∑_{a<b} ⟨J, [e_b, e_a]⟩ d_a d_b`. -/
noncomputable def skew (L : LieOps X ℝ nx) (J d : Fin nx → ℝ) : ℝ :=
  ∑ a, ∑ b, if a < b then (∑ k, J k * L.ad (Pi.single b 1) k a) * d a * d b else 0

/-- The error from reading only the upper triangle of the second derivatives of the cost, in terms of the gradients of the running cost and of the
end cost. -/
noncomputable def skewCost (LX : LieOps X ℝ nx) (LU : LieOps U ℝ nu) (env : Mesh.Env ℝ) (m : Mesh ℝ) (ocp : GOCP X U ℝ nx 1 ncr nce)
    (lin : GLin X U ℝ nx) (tf b : ℝ) (z : QVar (nColloc m) nx nu → ℝ) : ℝ :=
  b * ∑ i : Fin (nColloc m), wAt env m i * (tf *
    (skew LX (fun k => pd (fun δ => along LX LU ocp.g lin (tf * tauAt env m i) δ 0) (.x k) 0) (fun k => z (.x i.castSucc k)) +
     skew LU (fun k => pd (fun δ => along LX LU ocp.g lin (tf * tauAt env m i) δ 0) (.u k) 0) fun k => z (.u i k))) +
  1 / 2 * (skew LX (fun k => pd (fun δ => ends LX ocp.theta lin tf δ 0) (.x0 k) 0) (fun k => z (.x 0 k)) +
    skew LX (fun k => pd (fun δ => ends LX ocp.theta lin tf δ 0) (.xf k) 0) fun k => z (.x (Fin.last _) k))

end Verif.OQP
