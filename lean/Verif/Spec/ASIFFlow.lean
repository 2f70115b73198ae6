import Verif.Model.ASIF
import Mathlib.Analysis.Calculus.Deriv.Basic

/-! # The flow of the backup controller and its sensitivity (C148) -/

namespace Verif.ASIFSpec

open Matrix ASIF

variable {U : Type*} {nx nu : ℕ}

/-- On `[0, T]` the state `φ` moves under the backup controller from `x0`, and `S` solves the equation of the sensitivity to the first
state, `S' = A(t, φ) S`, `S(0) = 1` (vector space; derivatives entry by entry). -/
structure BackupFlow (d : Dyn (Fin nx → ℝ) U ℝ nx nu) (b : Backup (Fin nx → ℝ) U ℝ nx) (T : ℝ) (x0 : Fin nx → ℝ) (φ : ℝ → Fin nx → ℝ)
    (S : ℝ → Matrix (Fin nx) (Fin nx) ℝ) : Prop where
  start : φ 0 = x0 ∧ S 0 = 1
  state : ∀ t ∈ Set.Icc 0 T, ∀ i, HasDerivAt (fun t => φ t i) (d.f (φ t) (b.bu t (φ t)) i) t
  sens : ∀ t ∈ Set.Icc 0 T, ∀ i j, HasDerivAt (fun t => S t i j) ((b.dcl t (φ t) * S t) i j) t

/-- The closed loop is Lipschitz (`ℓ`), its derivative bounded (`a`) and Lipschitz (`lam`), in the largest entry and the largest row sum. -/
structure SmoothLoop (d : Dyn (Fin nx → ℝ) U ℝ nx nu) (b : Backup (Fin nx → ℝ) U ℝ nx) (ℓ a lam : ℝ) : Prop where
  nonneg : 0 ≤ ℓ ∧ 0 ≤ a ∧ 0 ≤ lam
  loop : ∀ t t' x x' i, |d.f x (b.bu t x) i - d.f x' (b.bu t' x') i| ≤ ℓ * (|t - t'| + ‖x - x'‖)
  bound : ∀ t x i, ∑ j, |b.dcl t x i j| ≤ a
  deriv : ∀ t t' x x' i, ∑ j, |b.dcl t x i j - b.dcl t' x' i j| ≤ lam * (|t - t'| + ‖x - x'‖)

/-- The barrier and its derivatives are Lipschitz in the state (`L`) and its state derivative is bounded (`D`). -/
structure SmoothBarrier (h : Barrier (Fin nx → ℝ) ℝ nx) (L D : ℝ) : Prop where
  nonneg : 0 ≤ L ∧ 0 ≤ D
  val : ∀ t x x' j, |h.h t x j - h.h t x' j| ≤ L * ‖x - x'‖
  time : ∀ t x x' j, |h.dt t x j - h.dt t x' j| ≤ L * ‖x - x'‖
  bound : ∀ t x j, ∑ i, |h.dx t x j i| ≤ D
  deriv : ∀ t x x' j, ∑ i, |h.dx t x j i - h.dx t x' j i| ≤ L * ‖x - x'‖

end Verif.ASIFSpec
