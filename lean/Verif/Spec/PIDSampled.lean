import Verif.Spec.PIDSteady
import Mathlib.Topology.Instances.Real.Lemmas
import Mathlib.LinearAlgebra.Matrix.Notation

/-! # Sampled tracking with a double integrator (C151) -/

namespace Verif.PIDSpec

open Verif.PID (Vec Traj)

variable {n : ℕ}

/-- Calls every `h` seconds. -/
def Clocked (h : ℝ) (c : ℕ → Sample ℝ (Vec n ℝ) ℝ n) : Prop := ∀ j, (c (j + 1)).t = (c j).t + h

/-- The reference has constant acceleration between the calls. -/
def Piecewise (h : ℝ) (c : ℕ → Sample ℝ (Vec n ℝ) ℝ n) (r : Traj ℝ (Vec n ℝ) ℝ n) : Prop := ∀ j k,
  (r (c (j + 1)).t).1 k = (r (c j).t).1 k + h * (r (c j).t).2.1 k + h ^ 2 / 2 * (r (c j).t).2.2 k ∧
  (r (c (j + 1)).t).2.1 k = (r (c j).t).2.1 k + h * (r (c j).t).2.2 k

/-- The motion of a double integrator whose input `u` is held between the calls. -/
def Held (h : ℝ) (c : ℕ → Sample ℝ (Vec n ℝ) ℝ n) (u : ℕ → Vec n ℝ) : Prop := ∀ j k,
  (c (j + 1)).x k = (c j).x k + h * (c j).v k + h ^ 2 / 2 * u j k ∧ (c (j + 1)).v k = (c j).v k + h * u j k

/-- The error of component `k` vanishes: position and velocity. -/
def Vanishes (c : ℕ → Sample ℝ (Vec n ℝ) ℝ n) (r : Traj ℝ (Vec n ℝ) ℝ n) (k : Fin n) : Prop :=
  Filter.Tendsto (fun j => (r (c j).t).1 k - (c j).x k) Filter.atTop (nhds 0) ∧
  Filter.Tendsto (fun j => (r (c j).t).2.1 k - (c j).v k) Filter.atTop (nhds 0)

end Verif.PIDSpec
