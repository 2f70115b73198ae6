import Verif.Spec.Flatten
import Verif.Spec.Partial
import Mathlib.NumberTheory.Bernoulli

/-! # Derivatives of functions on Lie groups, and of the flattened functions -/

namespace Verif.Flatten

open Verif.Sparse Verif.Lie Verif.MeshFn Verif.NLP

open scoped Matrix

section

variable {P B ι : Type*} [Fintype B] [DecidableEq B] [Fintype ι] [DecidableEq ι]

/-- `J` are the derivatives of `f` at `p` along the moves `mv p δ`. -/
def HasMv (mv : P → (B → ℝ) → P) (f : P → ℝ) (J : B → ℝ) (p : P) : Prop :=
  ∃ D : (B → ℝ) →L[ℝ] ℝ, HasFDerivAt (fun δ => f (mv p δ)) D 0 ∧ ∀ k, D (Pi.single k 1) = J k

/-- `T` are the partial derivatives of the differentiable function `f` at `z`. -/
def HasPd (f : (ι → ℝ) → ℝ) (T : ι → ℝ) (z : ι → ℝ) : Prop := ∃ D : (ι → ℝ) →L[ℝ] ℝ, HasFDerivAt f D z ∧ ∀ a, D (Pi.single a 1) = T a

end

variable {X U 𝔸 : Type*} {nx nu nq ncr nce nf : ℕ} [NormedRing 𝔸] [NormedAlgebra ℝ 𝔸]

/-- Moves of `(t, x, u)` in the tangent space at that point (`x ⊕ a`), along which `diff::dr` differentiates. -/
def move (LX : LieOps X ℝ nx) (LU : LieOps U ℝ nu) (p : ℝ × X × U) (δ : Arg nx nu → ℝ) : ℝ × X × U :=
  (p.1 + δ .t, LX.rplus p.2.1 fun k => δ (.x k), LU.rplus p.2.2 fun k => δ (.u k))

/-- Moves of `(tf, x0, xf, q)`. -/
def moveE (L : LieOps X ℝ nx) (p : ℝ × X × X × (Fin nq → ℝ)) (δ : EArg nx nq → ℝ) : ℝ × X × X × (Fin nq → ℝ) :=
  (p.1 + δ .tf, L.rplus p.2.1 fun k => δ (.x0 k), L.rplus p.2.2.1 fun k => δ (.xf k), fun k => p.2.2.2 k + δ (.q k))

/-- The derivatives of `f(t, x, u)` are right: `jacobian` has the right derivatives, block `j` of `hessian` the derivatives of row `j` of `jacobian`
(the convention of the smooth library), and they are continuous. -/
structure IsDrG (LX : LieOps X ℝ nx) (LU : LieOps U ℝ nu) (f : GFn X U ℝ nf) : Prop where
  jac_rows : ∀ t x u, (f.jac t x u).rows = nf
  jac_cols : ∀ t x u, (f.jac t x u).cols = 1 + nx + nu
  hess_rows : ∀ t x u, (f.hess t x u).rows = 1 + nx + nu
  hess_cols : ∀ t x u, (f.hess t x u).cols = nf * (1 + nx + nu)
  jac_val : ∀ p (j : Fin nf), HasMv (move LX LU) (fun p => f.val p.1 p.2.1 p.2.2 j) (fun a : Arg nx nu => (f.jac p.1 p.2.1 p.2.2).val j a.pos) p
  hess_val : ∀ p (j : Fin nf) (a : Arg nx nu), HasMv (move LX LU) (fun p => (f.jac p.1 p.2.1 p.2.2).val j a.pos)
    (fun b : Arg nx nu => (f.hess p.1 p.2.1 p.2.2).val a.pos ((1 + nx + nu) * j + b.pos)) p
  hess_cont : ∀ p (j : Fin nf) (a b : Arg nx nu), ContinuousAt (fun δ => (f.hess (move LX LU p δ).1 (move LX LU p δ).2.1 (move LX LU p δ).2.2).val
    a.pos ((1 + nx + nu) * j + b.pos)) 0

/-- The same for `f(tf, x0, xf, q)`. -/
structure IsDrGE (L : LieOps X ℝ nx) (f : GEFn X ℝ nq nf) : Prop where
  jac_rows : ∀ t x y q, (f.jac t x y q).rows = nf
  jac_cols : ∀ t x y q, (f.jac t x y q).cols = 1 + 2 * nx + nq
  hess_rows : ∀ t x y q, (f.hess t x y q).rows = 1 + 2 * nx + nq
  hess_cols : ∀ t x y q, (f.hess t x y q).cols = nf * (1 + 2 * nx + nq)
  jac_val : ∀ p (j : Fin nf), HasMv (moveE L) (fun p => f.val p.1 p.2.1 p.2.2.1 p.2.2.2 j)
    (fun a : EArg nx nq => (f.jac p.1 p.2.1 p.2.2.1 p.2.2.2).val j a.pos) p
  hess_val : ∀ p (j : Fin nf) (a : EArg nx nq), HasMv (moveE L) (fun p => (f.jac p.1 p.2.1 p.2.2.1 p.2.2.2).val j a.pos)
    (fun b : EArg nx nq => (f.hess p.1 p.2.1 p.2.2.1 p.2.2.2).val a.pos ((1 + 2 * nx + nq) * j + b.pos)) p
  hess_cont : ∀ p (j : Fin nf) (a b : EArg nx nq), ContinuousAt (fun δ => (f.hess (moveE L p δ).1 (moveE L p δ).2.1 (moveE L p δ).2.2.1
    (moveE L p δ).2.2.2).val a.pos ((1 + 2 * nx + nq) * j + b.pos)) 0

/-- All derivatives of a problem on Lie groups are right. -/
structure IsDrGOCP (LX : LieOps X ℝ nx) (LU : LieOps U ℝ nu) (ocp : GOCP X U ℝ nx nq ncr nce) : Prop where
  theta : IsDrGE LX ocp.theta
  f : IsDrG LX LU ocp.f
  g : IsDrG LX LU ocp.g
  cr : IsDrG LX LU ocp.cr
  ce : IsDrGE LX ocp.ce

/-- A reference trajectory with its velocity, for all times, and the derivative `dd` of the velocity. -/
structure IsTraj2 (mat : X → 𝔸) (hat : (Fin nx → ℝ) →ₗ[ℝ] 𝔸) (xl : Traj X ℝ nx) (dd : ℝ → Fin nx → ℝ) : Prop where
  vel : ∀ t, HasVel mat hat xl.val (xl.d t) Set.univ t
  acc : ∀ t, HasDerivAt xl.d (dd t) t

/-- The series `B₀ - B₁ ad(e) + B₂ ad(e)² / 2! - ⋯` of `dr_expinv`, up to `B₂₂`. -/
noncomputable def truncInv (L : LieOps X ℝ nx) (e : Fin nx → ℝ) : Matrix (Fin nx) (Fin nx) ℝ :=
  ∑ n ∈ Finset.range 23, (((bernoulli n : ℚ) : ℝ) * (-1) ^ n / n.factorial) • L.ad e ^ n

/-- The flattened dynamics with the series instead of `dr_expinv`. -/
noncomputable def truncDyn (LX : LieOps X ℝ nx) (LU : LieOps U ℝ nu) (f : GFn X U ℝ nx) (xl : Traj X ℝ nx) (ul : Traj U ℝ nu) (p : Arg nx nu → ℝ) : Fin nx → ℝ :=
  truncInv LX (fun k => p (.x k)) *ᵥ (f.val (p .t) (LX.rplus (xl.val (p .t)) fun k => p (.x k)) (LU.rplus (ul.val (p .t)) fun k => p (.u k)) - xl.d (p .t)) +
    LX.ad (fun k => p (.x k)) *ᵥ xl.d (p .t)

/-- The velocity relative to the reference, `f(t, xl ⊕ e, ul ⊕ v) - ẋl`, to which `dr_expinv` is applied. -/
noncomputable def relVel (LX : LieOps X ℝ nx) (LU : LieOps U ℝ nu) (f : GFn X U ℝ nx) (xl : Traj X ℝ nx) (ul : Traj U ℝ nu) (p : Arg nx nu → ℝ) : Fin nx → ℝ :=
  f.val (p .t) (LX.rplus (xl.val (p .t)) fun k => p (.x k)) (LU.rplus (ul.val (p .t)) fun k => p (.u k)) - xl.d (p .t)

/-- `γ c` for the argument `e_c`, and zero for the others. -/
def errPart (γ : Fin nx → ℝ) : Arg nx nu → ℝ
  | .x c => γ c
  | _ => 0

end Verif.Flatten
