import Verif.Model.Vehicle
import Verif.Model.EKF
import Verif.Model.PID
import Verif.Model.QPSolver

/-!
# The snippets (examples/snippets.cpp)

The five snippets with exact scalars and times in seconds. The group `Bundle<SE2, R^3>` and its functions, the collocation functions and the solvers are parameters; so are the random
numbers: the functions take what the program draws. Derivatives are exact.
-/

namespace Verif.Snippets

universe v

open scoped Matrix
open Verif.Lie
open Verif.QP (Ext Status)
open Verif.Vehicle (Parts)

variable {X σ : Type*} {F : Type v} [Field F] [LinearOrder F]

/-- `A` (19-23). -/
def A : Matrix (Fin 3) (Fin 3) F := !![-(1 / 5), 0, 0; 0, 0, 0; 0, 0, -(2 / 5)]

/-- `B` (24-28). -/
def B : Matrix (Fin 3) (Fin 2) F := !![1, 0; 0, 0; 0, 1]

/-- `Sigma` (30-35): `head(3)` and `tail(3)`. -/
def sigma (P : Parts X F) (x : X) (u : Fin 2 → F) : Fin 6 → F := Fin.append (P.vel x) (A *ᵥ P.vel x + B *ᵥ u : Fin 3 → F)

/-- Its derivative by `x`: it depends on the velocity alone. -/
def sigmaX : Matrix (Fin 6) (Fin 6) F :=
  !![0, 0, 0, 1, 0, 0; 0, 0, 0, 0, 1, 0; 0, 0, 0, 0, 0, 1; 0, 0, 0, -(1 / 5), 0, 0; 0, 0, 0, 0, 0, 0; 0, 0, 0, 0, 0, -(2 / 5)]

/-- Its derivative by `u`. -/
def sigmaU : Matrix (Fin 6) (Fin 2) F := !![0, 0; 0, 0; 0, 0; 1, 0; 0, 0; 0, 1]

/-! ### `ekf_snippet` (37-72) -/

/-- `EKF<X<double>>` (47): the default stepper is `boost::numeric::odeint::euler`, `one` is `Default<X>()`. -/
def ekfEnv (L : LieOps X F 6) (one : X) (solve : {m : ℕ} → EKF.Mat m m F → EKF.Mat m 6 F → EKF.Mat m 6 F) : EKF.Env X F 6 := ⟨.euler, L.rplus, L.ad, one, solve⟩

/-- `SigmaCL` (42-44). -/
def closed (P : Parts X F) (u : Fin 2 → F) : EKF.Dyn X F 6 := ⟨fun _ x => sigma P x u, fun _ _ => sigmaX⟩

/-- `h` (50-53): the landmark (1, 1) in the frame of the vehicle, `x.part<0>().inverse() * landmark`. -/
def seen (P : Parts X F) (x : X) : Fin 2 → F := (P.rot x)ᵀ *ᵥ (fun k => 1 - P.pos x k)

/-- Its derivative: moving forward moves the landmark backward, turning turns it the other way. -/
def seenJac (P : Parts X F) (x : X) : Matrix (Fin 2) (Fin 6) F := !![-1, 0, seen P x 1, 0, 0, 0; 0, -1, -seen P x 0, 0, 0, 0]

/-- The measurement (63-67). -/
def landmark (P : Parts X F) : EKF.Meas X F 6 where
  m := 2
  Y := Fin 2 → F
  h := seen P
  jac := seenJac P
  yminus a b := a - b
  y := ![3 / 10, 6 / 10]

/-- `ekf_snippet` (37-72) with the drawn input `u`; the noise of the motion and of the measurement is the identity. -/
def ekfSnippet (L : LieOps X F 6) (P : Parts X F) (one : X) (solve : {m : ℕ} → EKF.Mat m m F → EKF.Mat m 6 F → EKF.Mat m 6 F) (u : Fin 2 → F) (fuel : ℕ) :
    Option (EKF.State X F 6) :=
  EKF.run (ekfEnv L one solve) fuel (EKF.init (ekfEnv L one solve)) [.predict (closed P u) 1 1 none, .update (landmark P) (1 : Matrix (Fin 2) (Fin 2) F)]

/-! ### `pid_snippet` (74-92) -/

/-- The desired motion (79-85): to stay at the identity. -/
def rest {G : Type*} (one : G) (_ : F) : G × (Fin 3 → F) × (Fin 3 → F) := (one, 0, 0)

/-- `pid_snippet` with the drawn state and velocity; the time is 1 (87). -/
def pidSnippet {G : Type*} (rminus : G → G → Fin 3 → F) (one x : G) (v : Fin 3 → F) : Fin 3 → F :=
  let e : PID.Env F G F 3 := ⟨rminus, fun t s => t - s, one⟩
  (PID.call e (PID.step e (PID.init e none) (.setXdes (rest one))).1 1 x v).2

/-! ### `asif_snippet` (94-112) -/

/-- `h` (99-101). -/
def wall (P : Parts X F) : ASIF.Barrier X F 6 where
  nh := 1
  h _ x _ := P.pos x 0 - 1 / 5
  dt _ _ := 0
  dx _ x _ k := if h : (k : ℕ) < 2 then P.rot x 0 ⟨k, h⟩ else 0

/-- `bu` (104), with the derivative of `Sigma(x, bu(t, x))`. -/
def push : ASIF.Backup X (Fin 2 → F) F 6 := ⟨fun _ _ => 1, fun _ _ => sigmaX⟩

/-- The default parameters of the filter (asif.hpp:17-32, asif_func.hpp:58-68, common.hpp:18-30). -/
def filterPrm : ASIF.FPrm (Fin 2 → F) F 2 where
  T := 1
  nh := 1
  W := fun _ => 1
  ulim := ⟨0, 0, 0, fun i => i.elim0, fun i => i.elim0⟩
  asif := ⟨10, 1, 1 / 10, 100⟩

/-- `asif_snippet` with the drawn state (107) and the desired input 0 (108): the input and the code. -/
def asifSnippet (L : LieOps X F 6) (P : Parts X F) (solver : ASIF.Solver F) (fuel : ℕ) (x : X) : Option ((Fin 2 → F) × Status) :=
  ((ASIF.Filter.new ⟨sigma P, fun _ _ => sigmaU⟩ filterPrm).call ⟨L.rplus, L.ad, fun u v => u + v, fun u v => u - v⟩ solver fuel ⟨x, 0, wall P, push⟩).map fun r => r.2

/-! ### `mpc_snippet` (114-137) -/

/-- The arguments of the constructor (116-126); `warmstart` and `Kmesh` are the defaults (mpc.hpp:327, 378). -/
def mpcArgs (P : Parts X F) : MPC.Args F F X (Fin 2 → F) 6 2 2 where
  f := ⟨false, fun _ => sigma P, fun _ _ _ => sigmaX, fun _ _ _ => sigmaU⟩
  cr := ⟨false, fun _ _ u => u, fun _ _ _ _ _ => 0, fun _ _ _ => (1 : Matrix (Fin 2) (Fin 2) F)⟩
  crl := ![.fin (-1), .fin (-(1 / 2))]
  cru := ![.fin 1, .fin (1 / 2)]
  K := 5
  tf := 5
  warmstart := true
  Kmesh := 4

/-- The calls before the control call (120-130): the desired input is 0 and the desired state the identity. -/
def mpcSetup (P : Parts X F) (one : X) : List (MPC.Op F F X (Fin 2 → F) 6 2 2) :=
  [.new (mpcArgs P), .setURel (fun a b => a - b) 0 (fun _ => 0) 0, .setXRel (fun a b => a - b) 0 (fun _ => one) (fun _ => 0) 0]

/-- `mpc_snippet`: the call at time 0 in the identity (132-136). -/
def mpcSnippet (sys : MPC.Sys F F σ X (Fin 2 → F) 6 2) (P : Parts X F) (one : X) : Option ((Fin 2 → F) × Status) :=
  (MPC.World.run sys (mpcSetup P one) MPC.World.empty).bind fun w =>
  match w.step sys (.call 0 0 one) with
  | some (_, some r) => some (r.u, r.code)
  | _ => none

/-! ### `qp_snippet` (139-164) -/

/-- The drawn program (141-160): five variables and ten rows. -/
def qpDraw (P : Matrix (Fin 5) (Fin 5) F) (q : Fin 5 → F) (A : Matrix (Fin 10) (Fin 5) F) (l u : Fin 10 → F) : QP.Pbm F 5 10 :=
  ⟨P, q, A, fun i => .fin (l i), fun i => .fin (u i)⟩

/-- `qp_snippet` (162-163): a cold start with the default parameters. -/
def qpSnippet (env : QP.Env F 5) (fuel : ℕ) (P : Matrix (Fin 5) (Fin 5) F) (q : Fin 5 → F) (A : Matrix (Fin 10) (Fin 5) F) (l u : Fin 10 → F) : QP.Out (QP.Sol F 5 10) :=
  QP.solveQP env QP.Params.default (qpDraw P q A l u) none fuel

end Verif.Snippets
