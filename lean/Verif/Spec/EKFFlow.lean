import Verif.Model.EKF
import Mathlib.Analysis.Calculus.Deriv.Basic

/-! # The differential equations behind `predict` (C147) -/

namespace Verif.EKFSpec

open Matrix EKF

/-- On `[0, τ]` the estimate `γ` moves by the dynamics, and the symmetric covariance `S` by `S' = A S + S Aᵀ + Q`, `A` the derivative of the
dynamics at the estimate (vector space; derivatives entry by entry). -/
structure Flow {n : ℕ} (d : Dyn (Fin n → ℝ) ℝ n) (Q : Matrix (Fin n) (Fin n) ℝ) (τ : ℝ) (γ : ℝ → Fin n → ℝ)
    (S : ℝ → Matrix (Fin n) (Fin n) ℝ) : Prop where
  state : ∀ t ∈ Set.Icc 0 τ, ∀ i, HasDerivAt (fun t => γ t i) (d.f t (γ t) i) t
  cov : ∀ t ∈ Set.Icc 0 τ, ∀ i j, HasDerivAt (fun t => S t i j) ((d.df t (γ t) * S t + S t * (d.df t (γ t))ᵀ + Q) i j) t
  symm : ∀ t ∈ Set.Icc 0 τ, (S t).IsSymm

end Verif.EKFSpec
