import Verif.Model.MPC
import Mathlib.LinearAlgebra.Matrix.Notation

/-!
# The double integrator under predictive control (examples/mpc_doubleintegrator.cpp)

The program of the example with exact scalars and times in seconds; the system (collocation functions, vector spaces, QP solver) is a parameter.
The desired trajectory is a parameter with its derivative (`diff::dr<1, DT>` is exact). Printing, plotting and the clock are left out. A status other
than Optimal is printed (75-77) and otherwise ignored, so the model keeps it only for the theorems.
-/

namespace Verif.MPC

open Verif.QP (Ext Status)

section

variable {F σ : Type*} [Field F] [LinearOrder F]

/-- `f` (36), `cr`, `crl`, `cru` (39-40) and the arguments of the constructor (43-53); `warmstart` is the default of `MPCParams` (mpc.hpp:327), `Kmesh`
that of `MPC` (mpc.hpp:378). -/
def diArgs : Args F F (Fin 2 → F) (Fin 1 → F) 2 1 1 where
  f := ⟨false, fun _ x u => ![x 1, u 0], fun _ _ _ => !![0, 1; 0, 0], fun _ _ _ => !![0; 1]⟩
  cr := ⟨false, fun _ _ u => u, fun _ _ _ _ _ => 0, fun _ _ _ => !![1]⟩
  crl _ := .fin (-(1 / 2))
  cru _ := .fin (1 / 2)
  K := 20
  tf := 5
  warmstart := true
  Kmesh := 4

/-- The calls before the loop (43-61); the zero time is the default `T(0)` (mpc.hpp:538, 574). -/
def diSetup (xdes dxdes : F → Fin 2 → F) : List (Op F F (Fin 2 → F) (Fin 1 → F) 2 1 1) :=
  [.new diArgs,
   .setW 0 (eye 2) (fun i j => 1 / 10 * eye 2 i j) (fun i j => 1 / 10 * eye 1 i j),
   .setXRel (fun a b => a - b) 0 xdes dxdes 0,
   .setURel (fun a b => a - b) 0 (fun _ => 0) 0]

/-- `stepper.do_step(ode, g, 0, 0.05)` with `boost::numeric::odeint::runge_kutta4` (64-65, 86), the input held. -/
def diStep (u : Fin 1 → F) (dt : F) (g : Fin 2 → F) : Fin 2 → F :=
  let f := fun x : Fin 2 → F => diArgs.f.val none x u
  let k1 := f g
  let k2 := f (g + (dt / 2) • k1)
  let k3 := f (g + (dt / 2) • k2)
  let k4 := f (g + dt • k3)
  g + (dt / 6) • k1 + (dt / 3) • k2 + (dt / 3) • k3 + (dt / 6) • k4

/-- `n` turns of the loop (71-87) from turn `k`, at `50 k` milliseconds: state, input and status of each. -/
def diLoop (sys : Sys F F σ (Fin 2 → F) (Fin 1 → F) 2 1) : ℕ → ℕ → World F F σ (Fin 2 → F) (Fin 1 → F) 2 1 1 → (Fin 2 → F) →
    Option (List ((Fin 2 → F) × (Fin 1 → F) × Status))
  | 0, _, _, _ => some []
  | n + 1, k, w, g =>
    match w.step sys (.call 0 ((k : F) / 20) g) with
    | some (w', some r) => (diLoop sys n (k + 1) w' (diStep r.u (1 / 20) g)).map fun l => (g, r.u, r.code) :: l
    | _ => none

/-- The program (27-87), with `n` turns (the example makes 1200) from the state `g`. -/
def diMain (sys : Sys F F σ (Fin 2 → F) (Fin 1 → F) 2 1) (xdes dxdes : F → Fin 2 → F) (g : Fin 2 → F) (n : ℕ) :
    Option (List ((Fin 2 → F) × (Fin 1 → F) × Status)) :=
  (World.run sys (diSetup xdes dxdes) World.empty).bind fun w => diLoop sys n 0 w g

end

end Verif.MPC
