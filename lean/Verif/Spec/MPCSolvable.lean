import Verif.Spec.MPCError

/-! # Specification: controllers whose problems can be solved from every state -/

namespace Verif.MPC

open Verif.Mesh Verif.NLP Verif.OQP Verif.MeshFn

variable {T σ X U : Type*} {nx nu ncr : ℕ}

/-- A change of the state alone. -/
def stateArg (e : Fin nx → ℝ) : Arg nx nu → ℝ
  | .t => 0
  | .x k => e k
  | .u _ => 0

/-- A change of state and input. -/
def bothArg (e : Fin nx → ℝ) (v : Fin nu → ℝ) : Arg nx nu → ℝ
  | .t => 0
  | .x k => e k
  | .u k => v k

/-- A one-sided bound on how errors grow: with weights `W` for its components, an error `e` changes (to first order, along the horizon of a call at time `t`)
at a rate with `⟨e, e'⟩ ≤ μ ⟨e, e⟩`. -/
def Bounded (sys : Sys T ℝ σ X U nx nu) (a : Args T ℝ X U nx nu ncr) (xd : T → X) (dxd : T → Fin nx → ℝ) (ud : T → U) (t : T) (W : Fin nx → ℝ) (μ : ℝ) : Prop :=
  ∀ (i : Fin (nColloc (meshOf a))) (e : Fin nx → ℝ),
    ∑ k, W k * (e k * fderiv ℝ (fun δ => errVel sys a.f (seen a.f (nodeTime sys (meshOf a) a.tf t i)) (xd (nodeTime sys (meshOf a) a.tf t i))
      (dxd (nodeTime sys (meshOf a) a.tf t i)) (ud (nodeTime sys (meshOf a) a.tf t i)) δ k) 0 (stateArg e)) ≤ μ * ∑ k, W k * e k ^ 2

/-- The running constraints limit only the inputs: at every collocation point there is an input that keeps a distance `ρ` from the bounds, whatever the state. -/
def InputRoom (sys : Sys T ℝ σ X U nx nu) (a : Args T ℝ X U nx nu ncr) (xd : T → X) (ud : T → U) (t : T) (ρ : ℝ) : Prop :=
  ∀ i : Fin (nColloc (meshOf a)), ∃ v : Fin nu → ℝ, ∀ (e : Fin nx → ℝ) (k : Fin ncr) (s : ℝ), |s| ≤ ρ → Within (a.crl k) (a.cru k)
    ((if a.cr.timed then expand sys a.cr (seen a.cr (nodeTime sys (meshOf a) a.tf t i)) (xd (nodeTime sys (meshOf a) a.tf t i))
        (ud (nodeTime sys (meshOf a) a.tf t i)) (bothArg e v) k
      else expand sys a.cr none sys.dfltX sys.dfltU (bothArg e v) k) + s)

end Verif.MPC
