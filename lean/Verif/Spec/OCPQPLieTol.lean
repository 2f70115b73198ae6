import Verif.Spec.OCPQPLie

/-! # Specification: problems on Lie groups up to a tolerance -/

namespace Verif.OQP

open Verif.Mesh Verif.Sparse Verif.MeshFn Verif.NLP Verif.QP Verif.QPSpec Verif.Lie Verif.Flatten

variable {X U : Type*} {nx nu ncr nce : ℕ}

/-- `LinFeasibleG` with the same error `τ` in every constraint. -/
structure NearLinG (LX : LieOps X ℝ nx) (LU : LieOps U ℝ nu) (env : Mesh.Env ℝ) (m : Mesh ℝ) (ocp : GOCP X U ℝ nx 1 ncr nce) (tf : ℝ)
    (lin : GLin X U ℝ nx) (τ : ℝ) (z : QVar (nColloc m) nx nu → ℝ) : Prop where
  dynamics : ∀ (i : Fin (nColloc m)) (k : Fin nx),
    |slope env (spans 1 m) (fun j => if h : j < nColloc m + 1 then z (.x ⟨j, h⟩ k) else 0) i -
      tf * taylor1 (fun δ => errDyn LX LU ocp.f lin (tf * tauAt env m i) δ k) 0 (dev z i)| ≤ τ
  running : ∀ (i : Fin (nColloc m)) (k : Fin ncr),
    lower (ocp.crl k) (taylor1 (fun δ => along LX LU ocp.cr lin (tf * tauAt env m i) δ k) 0 (dev z i) + τ) ∧
    upper (ocp.cru k) (taylor1 (fun δ => along LX LU ocp.cr lin (tf * tauAt env m i) δ k) 0 (dev z i) - τ)
  endpoint : ∀ k : Fin nce,
    lower (ocp.cel k) (taylor1 (fun δ => ends LX ocp.ce lin tf δ k) 0 (devEnd z) + τ) ∧
    upper (ocp.ceu k) (taylor1 (fun δ => ends LX ocp.ce lin tf δ k) 0 (devEnd z) - τ)

/-- The problem itself for `x_lin ⊕ z`, `u_lin ⊕ z`, up to `a` in the equations of motion of the error and up to `b` in the constraints; the end constraints for every value of the integral. -/
structure NearG (LX : LieOps X ℝ nx) (LU : LieOps U ℝ nu) (env : Mesh.Env ℝ) (m : Mesh ℝ) (ocp : GOCP X U ℝ nx 1 ncr nce) (tf : ℝ)
    (lin : GLin X U ℝ nx) (a b : ℝ) (z : QVar (nColloc m) nx nu → ℝ) : Prop where
  dynamics : ∀ (i : Fin (nColloc m)) (k : Fin nx),
    |slope env (spans 1 m) (fun j => if h : j < nColloc m + 1 then z (.x ⟨j, h⟩ k) else 0) i -
      tf * errDyn LX LU ocp.f lin (tf * tauAt env m i) (pt 0 (fun k => z (.x i.castSucc k)) fun k => z (.u i k)) k| ≤ a
  running : ∀ (i : Fin (nColloc m)) (k : Fin ncr),
    lower (ocp.crl k) (ocp.cr.val (tf * tauAt env m i) (LX.rplus (lin.x (tf * tauAt env m i)) fun k => z (.x i.castSucc k))
      (LU.rplus (lin.u (tf * tauAt env m i)) fun k => z (.u i k)) k + b) ∧
    upper (ocp.cru k) (ocp.cr.val (tf * tauAt env m i) (LX.rplus (lin.x (tf * tauAt env m i)) fun k => z (.x i.castSucc k))
      (LU.rplus (lin.u (tf * tauAt env m i)) fun k => z (.u i k)) k - b)
  endpoint : ∀ (q : Fin 1 → ℝ) (k : Fin nce),
    lower (ocp.cel k) (ocp.ce.val tf (LX.rplus (lin.x 0) fun k => z (.x 0 k)) (LX.rplus (lin.x tf) fun k => z (.x (Fin.last _) k)) q k + b) ∧
    upper (ocp.ceu k) (ocp.ce.val tf (LX.rplus (lin.x 0) fun k => z (.x 0 k)) (LX.rplus (lin.x tf) fun k => z (.x (Fin.last _) k)) q k - b)

/-- Within the distance `r` of zero `f` has a derivative, which differs from that at zero by at most `L` per unit of distance. -/
def BentTo {ι : Type*} [Fintype ι] (f : (ι → ℝ) → ℝ) (L r : ℝ) : Prop :=
  ∀ δ, ‖δ‖ ≤ r → DifferentiableAt ℝ f δ ∧ ∀ d, |fderiv ℝ f δ d - fderiv ℝ f 0 d| ≤ L * ‖δ‖ * ‖d‖

/-- In the coordinates around the linearisation, dynamics and constraints bend by at most `L` within `r`. -/
structure BentG (LX : LieOps X ℝ nx) (LU : LieOps U ℝ nu) (env : Mesh.Env ℝ) (m : Mesh ℝ) (ocp : GOCP X U ℝ nx 1 ncr nce) (tf : ℝ)
    (lin : GLin X U ℝ nx) (L r : ℝ) : Prop where
  f : ∀ (i : Fin (nColloc m)) k, BentTo (fun δ => errDyn LX LU ocp.f lin (tf * tauAt env m i) δ k) L r
  cr : ∀ (i : Fin (nColloc m)) k, BentTo (fun δ => along LX LU ocp.cr lin (tf * tauAt env m i) δ k) L r
  ce : ∀ k, BentTo (fun δ => ends LX ocp.ce lin tf δ k) L r

end Verif.OQP
