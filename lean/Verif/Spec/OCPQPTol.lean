import Verif.Spec.OCPQP

/-! # Specification: the linearised problem up to a tolerance -/

namespace Verif.OQP

open Verif.Mesh Verif.Sparse Verif.MeshFn Verif.QP Verif.QPSpec Verif.NLP

variable {nx nu ncr nce : ℕ}

/-- `LinFeasible` with the same error `τ` in every constraint. A bound is kept up to `τ` if it is kept by a value that is moved by `τ`. -/
structure NearLin (env : Mesh.Env ℝ) (m : Mesh ℝ) (ocp : OCP ℝ nx nu 1 ncr nce) (ad : Option ((Fin nx → ℝ) → Sp ℝ)) (tf : ℝ)
    (lin : Lin ℝ nx nu) (τ : ℝ) (z : QVar (nColloc m) nx nu → ℝ) : Prop where
  dynamics : ∀ (i : Fin (nColloc m)) (k : Fin nx),
    |slope env (spans 1 m) (fun j => if h : j < nColloc m + 1 then z (.x ⟨j, h⟩ k) else 0) i -
      tf * (taylor1 (fun p => ocp.f.val p k) (linPt lin (tf * tauAt env m i)) (dev z i) - lin.dx (tf * tauAt env m i) k +
        adTerm ad (ocp.f.val (linPt lin (tf * tauAt env m i)) + lin.dx (tf * tauAt env m i)) (fun l => z (.x i.castSucc l)) k)| ≤ τ
  running : ∀ (i : Fin (nColloc m)) (k : Fin ncr),
    lower (ocp.crl k) (taylor1 (fun p => ocp.cr.val p k) (linPt lin (tf * tauAt env m i)) (dev z i) + τ) ∧
    upper (ocp.cru k) (taylor1 (fun p => ocp.cr.val p k) (linPt lin (tf * tauAt env m i)) (dev z i) - τ)
  endpoint : ∀ k : Fin nce,
    lower (ocp.cel k) (taylor1 (fun p => ocp.ce.val p k) (linEnd lin tf) (devEnd z) + τ) ∧
    upper (ocp.ceu k) (taylor1 (fun p => ocp.ce.val p k) (linEnd lin tf) (devEnd z) - τ)

/-- The derivative of `f` changes by at most `L` per unit of distance (largest coordinate). -/
def Bent {ι : Type*} [Fintype ι] (f : (ι → ℝ) → ℝ) (L : ℝ) : Prop := ∀ p q d, |fderiv ℝ f p d - fderiv ℝ f q d| ≤ L * ‖p - q‖ * ‖d‖

/-- Dynamics and constraints bend by at most `L`. -/
structure BentOCP (ocp : OCP ℝ nx nu 1 ncr nce) (L : ℝ) : Prop where
  f : ∀ k, Bent (fun p => ocp.f.val p k) L
  cr : ∀ k, Bent (fun p => ocp.cr.val p k) L
  ce : ∀ k, Bent (fun e => ocp.ce.val e k) L

end Verif.OQP
