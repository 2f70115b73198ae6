import Verif.Spec.Collocated
import Mathlib.Algebra.Polynomial.Derivative

/-! # The optimality conditions of an optimal control problem at the collocation points -/

namespace Verif.NLP

open Verif.Mesh Verif.Sparse Verif.MeshFn Verif.QP Verif.QPSpec Verif.Flatten

open scoped Polynomial

variable {nx nu nq ncr nce : ℕ}

/-- The Hamiltonian `p·f + μ·g + ν·cr`. -/
noncomputable def ham (ocp : OCP ℝ nx nu nq ncr nce) (p : Fin nx → ℝ) (μ : Fin nq → ℝ) (ν : Fin ncr → ℝ) (a : Arg nx nu → ℝ) : ℝ :=
  ∑ k, p k * ocp.f.val a k + ∑ k, μ k * ocp.g.val a k + ∑ k, ν k * ocp.cr.val a k

/-- The end cost with the multipliers `η` of the end constraints: `θ + η·ce`. -/
noncomputable def endCost (ocp : OCP ℝ nx nu nq ncr nce) (η : Fin nce → ℝ) (e : EArg nx nq → ℝ) : ℝ :=
  ocp.theta.val e 0 + ∑ k, η k * ocp.ce.val e k

/-- Trajectories with their multipliers, on `[0, tf]`. -/
structure Extremal (nx nu nq ncr nce : ℕ) where
  tf : ℝ
  x : ℝ → Fin nx → ℝ
  u : ℝ → Fin nu → ℝ
  q : Fin nq → ℝ
  ldyn : ℝ → Fin nx → ℝ
  lcr : ℝ → Fin ncr → ℝ
  lq : Fin nq → ℝ
  lce : Fin nce → ℝ

namespace Extremal

variable (s : Extremal nx nu nq ncr nce)

/-- The point at normalised time `τ`. -/
def at' (τ : ℝ) : Arg nx nu → ℝ := pt (s.tf * τ) (s.x (s.tf * τ)) (s.u (s.tf * τ))

/-- The end points. -/
def ep : EArg nx nq → ℝ := ept s.tf (s.x 0) (s.x s.tf) s.q

/-- The Hamiltonian with the multipliers at normalised time `τ`; the multiplier of a running constraint is a multiplier per time. -/
noncomputable def H (ocp : OCP ℝ nx nu nq ncr nce) (τ : ℝ) : (Arg nx nu → ℝ) → ℝ :=
  ham ocp (s.ldyn (s.tf * τ)) s.lq fun k => s.lcr (s.tf * τ) k / s.tf

/-- The multipliers of the dynamics, the integrals and the running constraints times `c`. -/
def scale (c : ℝ) : Extremal nx nu nq ncr nce :=
  { s with ldyn := fun t k => c * s.ldyn t k, lcr := fun t k => c * s.lcr t k, lq := fun k => c * s.lq k }

end Extremal

/-- The polynomials in normalised time, of degree less than the number of collocation points, through the multipliers of the dynamics in
every interval. -/
structure Pieces (env : Mesh.Env ℝ) (m : Mesh ℝ) (s : Extremal nx nu nq ncr nce) (L : Ival ℝ × ℝ → Fin nx → ℝ[X]) : Prop where
  degree : ∀ p ∈ spans 1 m, ∀ l, (L p l).natDegree < p.1.K
  values : ∀ i : Fin (nColloc m), ∀ p ∈ spans 1 m, p.1.tau0 ≤ tauAt env m i → tauAt env m i < p.2 → ∀ l,
    (L p l).eval (tauAt env m i) = s.ldyn (s.tf * tauAt env m i) l

/-- The first order conditions of the optimal control problem, at the collocation points: the adjoint equation `dλ/dt = -H_x` at the
collocation points that do not start an interval; at those that do the defect of the adjoint equation, times the quadrature weight, is
the jump of `λ`, where the left value is the end cost's gradient for the first; the gradient of the end cost for the final value and
the multipliers of the integrals; `H_u = 0`; and the final time, with the multiplier `ζ` of its bound. `c` scales the multipliers of the
dynamics, integrals and running constraints: the conditions of the problem are those with `c = 1`. -/
structure Costates (ocp : OCP ℝ nx nu nq ncr nce) (env : Mesh.Env ℝ) (m : Mesh ℝ) (c ζ : ℝ) (s : Extremal nx nu nq ncr nce)
    (L : Ival ℝ × ℝ → Fin nx → ℝ[X]) : Prop where
  adjoint : ∀ i : Fin (nColloc m), ∀ p ∈ spans 1 m, p.1.tau0 < tauAt env m i → tauAt env m i < p.2 → ∀ l,
    (L p l).derivative.eval (tauAt env m i) = -(s.tf * pd (s.H ocp (tauAt env m i)) (.x l) (s.at' (tauAt env m i)))
  jump : ∀ i : Fin (nColloc m), ∀ p ∈ spans 1 m, ∀ p' ∈ spans 1 m, p.2 = tauAt env m i → p'.1.tau0 = tauAt env m i → ∀ l,
    wAt env m i * ((L p' l).derivative.eval (tauAt env m i) + s.tf * pd (s.H ocp (tauAt env m i)) (.x l) (s.at' (tauAt env m i))) =
      (L p l).eval (tauAt env m i) - (L p' l).eval (tauAt env m i)
  initial : ∀ p ∈ spans 1 m, p.1.tau0 = 0 → ∀ l,
    c * (wAt env m 0 * ((L p l).derivative.eval 0 + s.tf * pd (s.H ocp 0) (.x l) (s.at' 0)) + s.ldyn 0 l) =
      -pd (endCost ocp s.lce) (.x0 l) s.ep
  final : ∀ l, c * s.ldyn s.tf l = pd (endCost ocp s.lce) (.xf l) s.ep
  integral : ∀ k, c * s.lq k = pd (endCost ocp s.lce) (.q k) s.ep
  input : ∀ (i : Fin (nColloc m)) l, pd (s.H ocp (tauAt env m i)) (.u l) (s.at' (tauAt env m i)) = 0
  time : c * ∑ i : Fin (nColloc m), wAt env m i * (ham ocp (s.ldyn (s.tf * tauAt env m i)) s.lq 0 (s.at' (tauAt env m i)) +
    s.tf * tauAt env m i * pd (s.H ocp (tauAt env m i)) .t (s.at' (tauAt env m i))) + pd (endCost ocp s.lce) .tf s.ep = ζ

end Verif.NLP
