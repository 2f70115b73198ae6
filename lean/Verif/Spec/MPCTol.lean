import Verif.Spec.MPCError
import Verif.Spec.OCPQPLieTol

/-! # Specification: the horizon of model-predictive control up to a tolerance -/

namespace Verif.MPC

open scoped Matrix

open Verif.Mesh Verif.Sparse Verif.MeshFn Verif.NLP Verif.OQP Verif.QPSpec Verif.Lie Verif.Flatten
open Verif.QP (Ext Status)

variable {T σ X U : Type*} {nx nu ncr n N : ℕ}

/-- The value lies between the bounds up to `τ`. -/
def WithinTol (l u : Ext ℝ) (τ a : ℝ) : Prop := lower l (a + τ) ∧ upper u (a - τ)

/-- The running constraints as functions of the deviation at a collocation point: around the desired trajectory, or around the default elements if they do not depend on time. -/
noncomputable def runAt (sys : Sys T ℝ σ X U nx nu) (a : Args T ℝ X U nx nu ncr) (xd : T → X) (ud : T → U) (t : T) (i : ℕ) (k : Fin ncr) (δ : Arg nx nu → ℝ) : ℝ :=
  if a.cr.timed then near sys.LX sys.LU a.cr (seen a.cr (nodeTime sys (meshOf a) a.tf t i)) (xd (nodeTime sys (meshOf a) a.tf t i)) (ud (nodeTime sys (meshOf a) a.tf t i)) δ k
  else near sys.LX sys.LU a.cr none sys.dfltX sys.dfltU δ k

/-- The velocity of the error at a collocation point. -/
noncomputable def velAt (sys : Sys T ℝ σ X U nx nu) (a : Args T ℝ X U nx nu ncr) (xd : T → X) (dxd : T → Fin nx → ℝ) (ud : T → U) (t : T) (i : ℕ) (k : Fin nx)
    (δ : Arg nx nu → ℝ) : ℝ :=
  errVel sys a.f (seen a.f (nodeTime sys (meshOf a) a.tf t i)) (xd (nodeTime sys (meshOf a) a.tf t i)) (dxd (nodeTime sys (meshOf a) a.tf t i))
    (ud (nodeTime sys (meshOf a) a.tf t i)) δ k

/-- The deviation at a node as a perturbation of state and input, time fixed. -/
def stepAt (z : QVar N nx nu → ℝ) (i : Fin N) : Arg nx nu → ℝ := pt 0 (dxAt z i) (duAt z i)

/-- The linearised problem of a call up to `τ`: dynamics, first state (through `dr_exp⁻¹` of the distance to the desired state, as in the program) and running constraints. -/
structure NearHorizon (sys : Sys T ℝ σ X U nx nu) (a : Args T ℝ X U nx nu ncr) (xd : T → X) (dxd : T → Fin nx → ℝ) (ud : T → U) (t : T) (x : X) (τ : ℝ)
    (z : QVar (nColloc (meshOf a)) nx nu → ℝ) : Prop where
  dynamics : ∀ (i : Fin (nColloc (meshOf a))) (k : Fin nx),
    |slope sys.env (spans 1 (meshOf a)) (fun j => if h : j < nColloc (meshOf a) + 1 then z (.x ⟨j, h⟩ k) else 0) i -
      a.tf * taylor1 (velAt sys a xd dxd ud t i k) 0 (stepAt z i)| ≤ τ
  initial : ∀ k, |(sys.LX.drExpinv (sys.rminus (xd (sys.plus t 0)) x) *ᵥ fun l => z (.x 0 l) + sys.rminus (xd (sys.plus t 0)) x l) k| ≤ τ
  running : ∀ (i : Fin (nColloc (meshOf a))) (k : Fin ncr), WithinTol (a.crl k) (a.cru k) τ (taylor1 (runAt sys a xd ud t i k) 0 (stepAt z i))

/-- The problem itself: dynamics of the error up to `α`, running constraints up to `β`. -/
structure NearMotion (sys : Sys T ℝ σ X U nx nu) (a : Args T ℝ X U nx nu ncr) (xd : T → X) (dxd : T → Fin nx → ℝ) (ud : T → U) (t : T) (α β : ℝ)
    (z : QVar (nColloc (meshOf a)) nx nu → ℝ) : Prop where
  dynamics : ∀ (i : Fin (nColloc (meshOf a))) (k : Fin nx),
    |slope sys.env (spans 1 (meshOf a)) (fun j => if h : j < nColloc (meshOf a) + 1 then z (.x ⟨j, h⟩ k) else 0) i -
      a.tf * velAt sys a xd dxd ud t i k (stepAt z i)| ≤ α
  running : ∀ (i : Fin (nColloc (meshOf a))) (k : Fin ncr), WithinTol (a.crl k) (a.cru k) β (runAt sys a xd ud t i k (stepAt z i))

end Verif.MPC
