import Verif.Spec.OCPNLP

/-! # Specification: the discretised optimal control problem up to a tolerance -/

namespace Verif.NLP

open Verif.Mesh Verif.Sparse Verif.MeshFn Verif.QP Verif.QPSpec

variable {nx nu nq ncr nce : ℕ}

/-- `W` is the largest weight of the mesh, but at least `1e-6` (ocp_to_nlp.hpp:122-124). -/
structure Top (env : Mesh.Env ℝ) (m : Mesh ℝ) (W : ℝ) : Prop where
  floor : 1 / 1000000 ≤ W
  above : ∀ w ∈ allWeights env m, w ≤ W
  attained : W = 1 / 1000000 ∨ W ∈ allWeights env m

/-- `Feasible` with errors: `ε` in the final time and in the end constraints, `a` in the integrals, `b i` in the equations of motion and in the running constraints at point `i`. A bound is kept
up to `b` if it is kept by a value that is moved by `b`. -/
structure Near (ocp : OCP ℝ nx nu nq ncr nce) (env : Mesh.Env ℝ) (m : Mesh ℝ) (ε a : ℝ) (b : Fin (nColloc m) → ℝ) (z : NVar (nColloc m) nx nu nq → ℝ) : Prop where
  time : -ε ≤ z .tf
  dynamics : ∀ (i : Fin (nColloc m)) (k : Fin nx),
    |slope env (spans 1 m) (fun l => if h : l < nColloc m + 1 then z (.x ⟨l, h⟩ k) else 0) i -
      z .tf * ocp.f.val (pt (z .tf * tauAt env m i) (fun k => z (.x i.castSucc k)) fun k => z (.u i k)) k| ≤ b i
  integrals : ∀ k : Fin nq, |z (.q k) - z .tf * ∑ i : Fin (nColloc m),
    wAt env m i * ocp.g.val (pt (z .tf * tauAt env m i) (fun k => z (.x i.castSucc k)) fun k => z (.u i k)) k| ≤ a
  running : ∀ (i : Fin (nColloc m)) (k : Fin ncr),
    lower (ocp.crl k) (ocp.cr.val (pt (z .tf * tauAt env m i) (fun k => z (.x i.castSucc k)) fun k => z (.u i k)) k + b i) ∧
    upper (ocp.cru k) (ocp.cr.val (pt (z .tf * tauAt env m i) (fun k => z (.x i.castSucc k)) fun k => z (.u i k)) k - b i)
  endpoint : ∀ k : Fin nce, lower (ocp.cel k) (ocp.ce.val (ends z) k + ε) ∧ upper (ocp.ceu k) (ocp.ce.val (ends z) k - ε)

end Verif.NLP
