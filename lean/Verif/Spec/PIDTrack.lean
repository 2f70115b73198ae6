import Mathlib.Analysis.Calculus.Deriv.Basic

/-! # Tracking of a reference by a double integrator (C149) -/

namespace Verif.PIDSpec

/-- The reference is a motion: its second part is the velocity and its third the acceleration (at nonnegative times). -/
def Motion {n : ℕ} (r : ℝ → (Fin n → ℝ) × (Fin n → ℝ) × (Fin n → ℝ)) : Prop :=
  ∀ t, 0 ≤ t → ∀ k, HasDerivAt (fun t => (r t).1 k) ((r t).2.1 k) t ∧ HasDerivAt (fun t => (r t).2.1 k) ((r t).2.2 k) t

/-- Squared error in velocity and position, weighted by the proportional gain. -/
def energy {n : ℕ} (kp : Fin n → ℝ) (r : ℝ → (Fin n → ℝ) × (Fin n → ℝ) × (Fin n → ℝ)) (x v : ℝ → Fin n → ℝ) (t : ℝ) (k : Fin n) : ℝ :=
  ((r t).2.1 k - v t k) ^ 2 + kp k * ((r t).1 k - x t k) ^ 2

/-- The rate of decay that the two gains give. -/
noncomputable def rate (kp kd : ℝ) : ℝ := kp * kd / (2 * (kp + kd ^ 2))

end Verif.PIDSpec
