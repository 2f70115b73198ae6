import Verif.Spec.MPCAlways

/-! # Specification: problems of a controller that stay solvable when they are disturbed -/

namespace Verif.MPC

open Verif.Mesh Verif.NLP Verif.OQP Verif.MeshFn

variable {T σ X U : Type*} {nx nu ncr : ℕ}

/-- Deviations that would be admissible if the dynamics were disturbed by `r`, the first state by `c` and the running constraints by `s`. -/
structure Disturbed (sys : Sys T ℝ σ X U nx nu) (a : Args T ℝ X U nx nu ncr) (xd : T → X) (dxd : T → Fin nx → ℝ) (ud : T → U) (t : T) (x : X)
    (r : Fin (nColloc (meshOf a)) → Fin nx → ℝ) (c : Fin nx → ℝ) (s : Fin (nColloc (meshOf a)) → Fin ncr → ℝ)
    (z : QVar (nColloc (meshOf a)) nx nu → ℝ) : Prop where
  dynamics : ∀ (i : Fin (nColloc (meshOf a))) (k : Fin nx),
    slope sys.env (spans 1 (meshOf a)) (fun j => if h : j < nColloc (meshOf a) + 1 then z (.x ⟨j, h⟩ k) else 0) i =
      a.tf * taylor1 (fun δ => errVel sys a.f (seen a.f (nodeTime sys (meshOf a) a.tf t i)) (xd (nodeTime sys (meshOf a) a.tf t i))
        (dxd (nodeTime sys (meshOf a) a.tf t i)) (ud (nodeTime sys (meshOf a) a.tf t i)) δ k) 0 (dev z i) + r i k
  initial : (fun k => z (.x 0 k)) = -sys.rminus (xd (sys.plus t 0)) x + c
  running : ∀ (i : Fin (nColloc (meshOf a))) (k : Fin ncr), Within (a.crl k) (a.cru k)
    ((if a.cr.timed then expand sys a.cr (seen a.cr (nodeTime sys (meshOf a) a.tf t i)) (xd (nodeTime sys (meshOf a) a.tf t i))
        (ud (nodeTime sys (meshOf a) a.tf t i)) (dev z i) k
      else expand sys a.cr none sys.dfltX sys.dfltU (dev z i) k) + s i k)

/-- There are admissible deviations for all small disturbances. -/
def Robust (sys : Sys T ℝ σ X U nx nu) (a : Args T ℝ X U nx nu ncr) (xd : T → X) (dxd : T → Fin nx → ℝ) (ud : T → U) (t : T) (x : X) : Prop :=
  ∃ δ : ℝ, 0 < δ ∧ ∀ r c s, (∀ i k, |r i k| ≤ δ) → (∀ k, |c k| ≤ δ) → (∀ i k, |s i k| ≤ δ) → ∃ z, Disturbed sys a xd dxd ud t x r c s z

/-- `z` is the solution of the problem of a call: admissible and of least cost. -/
def Best (sys : Sys T ℝ σ X U nx nu) (a : Args T ℝ X U nx nu ncr) (xd : T → X) (dxd : T → Fin nx → ℝ) (ud : T → U) (t : T) (x : X)
    (z : QVar (nColloc (meshOf a)) nx nu → ℝ) : Prop :=
  Admissible sys a xd dxd ud t x z ∧ ∀ z', Admissible sys a xd dxd ud t x z' → unitCost sys.env (meshOf a) a.tf z ≤ unitCost sys.env (meshOf a) a.tf z'

end Verif.MPC
