import Verif.Spec.PIDSampled

/-! # Constant disturbance of the sampled loop (C154) -/

namespace Verif.PIDSpec

open Verif.PID (Vec Traj)

variable {n : ℕ}

/-- The position settles at distance `d` behind the reference in component `k`, and the velocities agree. -/
def SettlesBehind (c : ℕ → Sample ℝ (Vec n ℝ) ℝ n) (r : Traj ℝ (Vec n ℝ) ℝ n) (k : Fin n) (d : ℝ) : Prop :=
  Filter.Tendsto (fun j => (r (c j).t).1 k - (c j).x k) Filter.atTop (nhds d) ∧
  Filter.Tendsto (fun j => (r (c j).t).2.1 k - (c j).v k) Filter.atTop (nhds 0)

end Verif.PIDSpec
