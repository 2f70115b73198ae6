import Mathlib.LinearAlgebra.Matrix.NonsingularInverse
import Mathlib.Algebra.Order.Field.Basic

/-!
# Model of `ekf.hpp`

Exact scalars `F`.  The Lie group enters through `rplus` (`g += v`) and `ad`; the derivative oracle
`diff::dr<1>` is the parameter `df`/`jac` delivered with each model; the ODE stepper is any explicit Runge-Kutta method of
`boost::numeric::odeint` without memory between calls (`euler`, the default, `runge_kutta4`, ...), given by its coefficients; Eigen's
`ldlt().solve` is the parameter `solve`.
-/

namespace Verif.EKF

open Matrix

universe v

/-- Tangent vectors. -/
abbrev Vec (n : ℕ) (F : Type*) := Fin n → F
/-- Matrices. -/
abbrev Mat (m n : ℕ) (F : Type*) := Matrix (Fin m) (Fin n) F

/-- `M.selfadjointView<Eigen::Upper>()` evaluated to a dense matrix: the upper triangle, mirrored. -/
def symU {n : ℕ} {F : Type*} (M : Mat n n F) : Mat n n F := fun i j => if i ≤ j then M i j else M j i

/-- An explicit Runge-Kutta method (boost, external): node and coefficients of every stage after the first, and the weights. -/
structure Tableau (F : Type*) where
  stages : List (F × List F)
  weights : List F

/-- External operations: group update `g + v`, `ad<G>`, the initial value `Default<G>()`,
`S.selfadjointView<Upper>().ldlt().solve(B)`, and the template argument `Stpr`. -/
structure Env (G F : Type*) (n : ℕ) where
  tab : Tableau F
  rplus : G → Vec n F → G
  ad : Vec n F → Mat n n F
  default : G
  solve : {m : ℕ} → Mat m m F → Mat m n F → Mat m n F

/-- The dynamics handed to `predict` with its right derivative (`diff::dr<1>(f_x, wrt(g))`, ekf.hpp:86). -/
structure Dyn (G F : Type*) (n : ℕ) where
  f : F → G → Vec n F
  df : F → G → Mat n n F

/-- A measurement handed to `update`: model `h`, its right derivative, `rminus` of the output manifold, value `y`. -/
structure Meas (G : Type*) (F : Type v) (n : ℕ) where
  m : ℕ
  Y : Type v
  h : G → Y
  jac : G → Mat m n F
  yminus : Y → Y → Vec m F
  y : Y

/-- Data members `g_hat_`, `P_`, ekf.hpp:143-144. -/
structure State (G F : Type*) (n : ℕ) where
  g : G
  P : Mat n n F

variable {G : Type*} {F : Type v} {n : ℕ} [Field F] [LinearOrder F]

/-- Default member initialisers ekf.hpp:143-144. -/
def init (env : Env G F n) : State G F n := { g := env.default, P := 1 }

/-- `reset`, ekf.hpp:45-49. -/
def reset (_ : State G F n) (g : G) (P : Mat n n F) : State G F n := { g := g, P := P }

/-- Right-hand side `cov_ode`, ekf.hpp:84-89, at the current estimate `g`. -/
def covRhs (env : Env G F n) (d : Dyn G F n) (Q : Mat n n F) (g : G) (t : F) (cov : Mat n n F) : Mat n n F :=
  let A := -env.ad (d.f t g) + d.df t g
  symU (A * cov + cov * Aᵀ + Q)

/-- `boost::numeric::odeint::euler`. -/
def Tableau.euler : Tableau F := ⟨[], [1]⟩

/-- `boost::numeric::odeint::runge_kutta4`. -/
def Tableau.rk4 : Tableau F := ⟨[(1 / 2, [1 / 2]), (1 / 2, [0, 1 / 2]), (1, [0, 0, 1])], [1 / 6, 1 / 3, 1 / 3, 1 / 6]⟩

section

variable {S V : Type*} [AddCommMonoid V] [Module F V]

/-- `dt * w1 * k1 + dt * w2 * k2 + …` -/
def combine (dt : F) : List F → List V → V
  | w :: ws, k :: ks => (dt * w) • k + combine dt ws ks
  | _, _ => 0

/-- The slopes of all stages, given those of the first ones. -/
def slopes (rhs : F → S → V) (add : S → V → S) (x : S) (t dt : F) : List (F × List F) → List V → List V
  | [], ks => ks
  | (c, a) :: l, ks => slopes rhs add x t dt l (ks ++ [rhs (t + c * dt) (add x (combine dt a ks))])

/-- `do_step(ode, x, t, dt)` (boost, external). -/
def doStep (tab : Tableau F) (rhs : F → S → V) (add : S → V → S) (x : S) (t dt : F) : S :=
  add x (combine dt tab.weights (slopes rhs add x t dt tab.stages [rhs t x]))

end

/-- One step of length `dt` from time `t`: covariance first, then state, ekf.hpp:95-96 and 101-102. All stages of the covariance see the same
estimate `g_hat_`. -/
def odeStep (env : Env G F n) (d : Dyn G F n) (Q : Mat n n F) (s : State G F n) (t dt : F) : State G F n :=
  let P' := doStep env.tab (covRhs env d Q s.g) (· + ·) s.P t dt
  let g' := doStep env.tab d.f env.rplus s.g t dt
  { g := g', P := P' }

/-- The `while (t + dt_v < tau)` loop, ekf.hpp:93-98; `none` when the fuel runs out before the loop exits. -/
def predictLoop (env : Env G F n) (d : Dyn G F n) (Q : Mat n n F) (tau dtv : F) :
    ℕ → F → State G F n → Option (F × State G F n)
  | 0, _, _ => none
  | fuel + 1, t, s =>
    if t + dtv < tau then predictLoop env d Q tau dtv fuel (t + dtv) (odeStep env d Q s t dtv)
    else some (t, s)

/-- `predict`, ekf.hpp:80-103, with at most `fuel` evaluations of the loop condition. `dt = none` is the
defaulted argument: `dt.value_or(2 * tau)`. -/
def predict (env : Env G F n) (d : Dyn G F n) (Q : Mat n n F) (tau : F) (dt : Option F) (fuel : ℕ)
    (s : State G F n) : Option (State G F n) :=
  match predictLoop env d Q tau (dt.getD (2 * tau)) fuel 0 s with
  | none => none
  | some (t, s') => some (odeStep env d Q s' t (tau - t))

/-- `update`, ekf.hpp:117-139. -/
def update (env : Env G F n) (z : Meas G F n) (R : Mat z.m z.m F) (s : State G F n) : State G F n :=
  let H := z.jac s.g
  let S := symU (H * symU s.P * Hᵀ + R)
  let K := (env.solve S (H * s.P))ᵀ
  { g := env.rplus s.g (K *ᵥ z.yminus z.y (z.h s.g)),
    P := symU ((1 - K * H) * s.P) }

/-- Public operations. -/
inductive Op (G : Type*) (F : Type v) (n : ℕ) where
  | reset (g : G) (P : Mat n n F)
  | predict (d : Dyn G F n) (Q : Mat n n F) (tau : F) (dt : Option F)
  | update (z : Meas G F n) (R : Mat z.m z.m F)

/-- One operation with a fuel bound for the prediction loop; `none` if `predict` did not return. -/
def step (env : Env G F n) (fuel : ℕ) (s : State G F n) : Op G F n → Option (State G F n)
  | .reset g P => some (reset s g P)
  | .predict d Q tau dt => predict env d Q tau dt fuel s
  | .update z R => some (update env z R s)

/-- State after a history (oldest first). -/
def run (env : Env G F n) (fuel : ℕ) : State G F n → List (Op G F n) → Option (State G F n)
  | s, [] => some s
  | s, o :: os => (step env fuel s o).bind (fun s' => run env fuel s' os)

end Verif.EKF
