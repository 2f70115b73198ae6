import Mathlib.Analysis.Calculus.FDeriv.Basic
import Mathlib.Analysis.Calculus.ContDiff.Defs
import Mathlib.Analysis.Normed.Module.FiniteDimension

/-! # Partial derivatives -/

namespace Verif

/-- The partial derivative of `f` with respect to the `k`-th variable. -/
noncomputable def pd {ι : Type*} [Fintype ι] [DecidableEq ι] (f : (ι → ℝ) → ℝ) (k : ι) (x : ι → ℝ) : ℝ :=
  fderiv ℝ f x (Pi.single k 1)

end Verif
