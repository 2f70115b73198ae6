import Verif.Model.MPC
import Verif.Model.ASIF
import Mathlib.LinearAlgebra.Matrix.Notation

/-!
# The vehicle with predictive control and a safety filter (examples/mpc_asif_vehicle.cpp)

The program of the example with exact scalars and times in seconds. The group `Bundle<SE2, R^3>` and its functions, the collocation functions and both QP solvers are
parameters, as is the square root. Derivatives (`diff::dr<1, DT>`) are exact. Plotting, printing and the ROS interface are left out. Statuses other than Optimal are
printed (164-172) and otherwise ignored, so the model keeps them only for the theorems.
-/

namespace Verif.Vehicle

open scoped Matrix
open Verif.Lie
open Verif.QP (Ext Status)

/-- What the program reads of a state (29-37): `part<1>()`, and `r2()` and the rotation matrix of `part<0>()`. -/
structure Parts (X F : Type*) where
  vel : X → Fin 3 → F
  pos : X → Fin 2 → F
  rot : X → Matrix (Fin 2) (Fin 2) F

variable {X F σ : Type*} [Field F] [LinearOrder F]

/-- `f` (42-51). -/
def f (P : Parts X F) (x : X) (u : Fin 2 → F) : Fin 6 → F :=
  ![P.vel x 0, P.vel x 1, P.vel x 2, -(1 / 5) * P.vel x 0 + u 0, 0, -(2 / 5) * P.vel x 2 + u 1]

/-- Its derivative by `x`: it depends on the velocity alone. -/
def fx : Matrix (Fin 6) (Fin 6) F :=
  !![0, 0, 0, 1, 0, 0; 0, 0, 0, 0, 1, 0; 0, 0, 0, 0, 0, 1; 0, 0, 0, -(1 / 5), 0, 0; 0, 0, 0, 0, 0, 0; 0, 0, 0, 0, 0, -(2 / 5)]

/-- Its derivative by `u`. -/
def fu : Matrix (Fin 6) (Fin 2) F := !![0, 0; 0, 0; 0, 0; 1, 0; 0, 0; 0, 1]

/-! ### The predictive controller -/

/-- `f`, `cr`, `crl`, `cru` (42-55) and the arguments of the constructor (64-70); `warmstart` is the default of `MPCParams` (mpc.hpp:327), `Kmesh` that of `MPC`
(mpc.hpp:378). -/
def args (P : Parts X F) : MPC.Args F F X (Fin 2 → F) 6 2 2 where
  f := ⟨false, fun _ => f P, fun _ _ _ => fx, fun _ _ _ => fu⟩
  cr := ⟨false, fun _ _ u => u, fun _ _ _ _ _ => 0, fun _ _ _ => (1 : Matrix (Fin 2) (Fin 2) F)⟩
  crl _ := .fin (-(1 / 2))
  cru _ := .fin (1 / 2)
  K := 30
  tf := 5
  warmstart := true
  Kmesh := 4

/-- `vdes` (74), as the velocity of the desired state. -/
def vdes : Fin 6 → F := ![1, 0, 2 / 5, 0, 0, 0]

/-- `xdes` (73-79); `g0` is the state with pose `SE2(SO2(M_PI_2), Vector2(2.5, 0))` and velocity `vdes`. -/
def xdes (L : LieOps X F 6) (g0 : X) (t : F) : X := L.rplus g0 (t • vdes)

/-- The calls before the loop (64-89); the zero time is the default `T(0)` (mpc.hpp:538, 574). -/
def setup (L : LieOps X F 6) (P : Parts X F) (g0 : X) : List (MPC.Op F F X (Fin 2 → F) 6 2 2) :=
  [.new (args P),
   .setW 0 (MPC.eye 6) (fun i j => 1 / 10 * MPC.eye 6 i j) (MPC.eye 2),
   .setXRel (fun a b => a - b) 0 (xdes L g0) (fun _ => vdes) 0,
   .setURel (fun a b => a - b) 0 (fun _ => 0) 0]

/-! ### The safety filter -/

/-- The groups of states and inputs. -/
def env (L : LieOps X F 6) : ASIF.Env X (Fin 2 → F) F 6 2 := ⟨L.rplus, L.ad, fun u v => u + v, fun u v => u - v⟩

/-- `f` as the dynamics of the filter (131). -/
def dyn (P : Parts X F) : ASIF.Dyn X (Fin 2 → F) F 6 2 := ⟨f P, fun _ _ => fu⟩

/-- `dir` (97). -/
def dir (P : Parts X F) (x : X) : Fin 2 → F := fun k => P.pos x k - (![0, -(23 / 10)] : Fin 2 → F) k

/-- `Eigen::MatrixBase::normalized`: the zero vector is left as it is. -/
def normalized (sqrt : F → F) (d : Fin 2 → F) : Fin 2 → F := if 0 < d ⬝ᵥ d then fun k => d k / sqrt (d ⬝ᵥ d) else d

/-- `h` (96-100): `e_dir` is a constant for the differentiation, `r2()` moves with `R v`. -/
def safe (P : Parts X F) (sqrt : F → F) : ASIF.Barrier X F 6 where
  nh := 1
  h _ x _ := dir P x ⬝ᵥ normalized sqrt (dir P x) - 7 / 10
  dt _ _ := 0
  dx _ x _ k := if h : (k : ℕ) < 2 then (normalized sqrt (dir P x) ᵥ* P.rot x) ⟨k, h⟩ else 0

/-- `bu` (103), with the derivative of `f(x, bu(t, x))`. -/
def backup (P : Parts X F) : ASIF.Backup X (Fin 2 → F) F 6 where
  bu _ x := ![1 / 5 * P.vel x 0, -(1 / 2)]
  dcl _ _ := !![0, 0, 0, 1, 0, 0; 0, 0, 0, 0, 1, 0; 0, 0, 0, 0, 0, 1; 0, 0, 0, 0, 0, 0; 0, 0, 0, 0, 0, 0; 0, 0, 0, 0, 0, -(2 / 5)]

/-- `asif_prm` with `ulim` (105-129). -/
def prm : ASIF.FPrm (Fin 2 → F) F 2 where
  T := 5 / 2
  nh := 1
  W := ![20, 1]
  ulim := ⟨2, !![1, 0; 0, 1], 0, ![.fin (-(1 / 5)), .fin (-(1 / 2))], ![.fin (1 / 2), .fin (1 / 2)]⟩
  asif := ⟨200, 5, 1 / 100, 100⟩

/-! ### The loop -/

/-- `stepper.do_step(ode, x, 0, 0.025)` (156-157, 208) with `boost::numeric::odeint::runge_kutta4`, the input held; with smooth's `compat/odeint.hpp` a stage is the
state plus the weighted sum of the derivatives. -/
def step (L : LieOps X F 6) (P : Parts X F) (u : Fin 2 → F) (dt : F) (x : X) : X :=
  let k1 := f P x u
  let k2 := f P (L.rplus x ((dt / 2) • k1)) u
  let k3 := f P (L.rplus x ((dt / 2) • k2)) u
  let k4 := f P (L.rplus x (dt • k3)) u
  L.rplus x ((dt / 6) • k1 + (dt / 3) • k2 + (dt / 3) • k3 + (dt / 6) • k4)

/-- What a turn leaves behind: the state before it, the inputs of controller and filter, both statuses. -/
structure Turn (X F : Type*) where
  x : X
  uMpc : Fin 2 → F
  codeMpc : Status
  u : Fin 2 → F
  code : Status

/-- `n` turns of the loop (161-209) from turn `k`, at `25 k` milliseconds. -/
def loop (P : Parts X F) (sqrt : F → F) (sys : MPC.Sys F F σ X (Fin 2 → F) 6 2) (solver : ASIF.Solver F) (fuel : ℕ) :
    ℕ → ℕ → MPC.World F F σ X (Fin 2 → F) 6 2 2 → ASIF.Filter X (Fin 2 → F) F 6 2 → X → Option (List (Turn X F))
  | 0, _, _, _, _ => some []
  | n + 1, k, w, a, x =>
    match w.step sys (.call 0 ((k : F) / 40) x) with
    | some (w', some r) =>
      (a.call (env sys.LX) solver fuel ⟨x, r.u, safe P sqrt, backup P⟩).bind fun s =>
      (loop P sqrt sys solver fuel n (k + 1) w' s.1 (step sys.LX P s.2.1 (1 / 40) x)).map fun l => ⟨x, r.u, r.code, s.2.1, s.2.2⟩ :: l
    | _ => none

/-- The program (39-209), with `n` turns (the example makes 1200) from the state `x` (the example: the identity). -/
def main (P : Parts X F) (sqrt : F → F) (sys : MPC.Sys F F σ X (Fin 2 → F) 6 2) (solver : ASIF.Solver F) (fuel : ℕ) (g0 x : X) (n : ℕ) : Option (List (Turn X F)) :=
  (MPC.World.run sys (setup sys.LX P g0) MPC.World.empty).bind fun w => loop P sqrt sys solver fuel n 0 w (ASIF.Filter.new (dyn P) prm) x

end Verif.Vehicle
