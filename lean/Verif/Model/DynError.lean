import Verif.Model.Mesh
import Mathlib.Data.Real.Sqrt

/-!
# Relative dynamics errors (include/smooth/feedback/collocation/dyn_error.hpp)

Exact real arithmetic; `maxCoeff` of nonnegative entries is a fold of `max` starting at zero (the code's `maxCoeff` needs a
non-empty vector, that is `K ≥ 1`).
-/

namespace Verif.Mesh

open Matrix

/-- Euclidean norm of a column, `.colwise().norm()` (dyn_error.hpp:64-65). -/
noncomputable def colNorm {d : ℕ} (x : Fin d → ℝ) : ℝ := Real.sqrt (∑ i, x i ^ 2)

/-- `maxCoeff()` of a vector of nonnegative numbers (dyn_error.hpp:65, 68). -/
noncomputable def maxCoeff {k : ℕ} (x : Fin k → ℝ) : ℝ := (List.ofFn x).foldr max 0

/-- `Xval_est` (dyn_error.hpp:60-61) from the first state and the right-hand sides at the collocation points. -/
noncomputable def estimate (env : Env ℝ) {d K : ℕ} (a b t0 tf : ℝ) (x0 : Fin d → ℝ) (Fv : Fin K → Fin d → ℝ) :
    Fin K → Fin d → ℝ :=
  fun j c => x0 c + ∑ i, (tf - t0) * Fv i c * intmat env K a b i j

/-- The body of the loop over the intervals (dyn_error.hpp:41-69) for an interval `[a, b)` of degree `K`. -/
noncomputable def ivalError (env : Env ℝ) {d e : ℕ} (f : ℝ → (Fin d → ℝ) → (Fin e → ℝ) → (Fin d → ℝ)) (K : ℕ)
    (a b t0 tf : ℝ) (xfun : ℝ → Fin d → ℝ) (ufun : ℝ → Fin e → ℝ) : ℝ :=
  let t : ℕ → ℝ := fun j => t0 + (tf - t0) * (a + (b - a) / 2 * (nodeExt env K j + 1))
  let X : ℕ → Fin d → ℝ := fun j => xfun (t j)
  let Fv : ℕ → Fin d → ℝ := fun j => f (t j) (xfun (t j)) (ufun (t j))
  let est := estimate env a b t0 tf (X 0) (fun i : Fin K => Fv i)
  let eAbs : Fin K → ℝ := fun j => colNorm (est j - X (j + 1))
  let eRel : Fin K → ℝ := fun j => eAbs j / (1 + maxCoeff fun j : Fin K => colNorm (X (j + 1)))
  maxCoeff eRel

/-- `mesh_dyn_error` (dyn_error.hpp:29-72). -/
noncomputable def dynError (env : Env ℝ) {d e : ℕ} (f : ℝ → (Fin d → ℝ) → (Fin e → ℝ) → (Fin d → ℝ)) (m : Mesh ℝ)
    (t0 tf : ℝ) (xfun : ℝ → Fin d → ℝ) (ufun : ℝ → Fin e → ℝ) : List ℝ :=
  (List.range m.length).map fun i =>
    match m[i]? with
    | none => 0
    | some v => ivalError env f v.K v.tau0 (tauf m i) t0 tf xfun ufun

end Verif.Mesh
