import Verif.Model.Lie
import Verif.Model.PID
import Mathlib.LinearAlgebra.Matrix.Notation

/-!
# The vehicle under PID control (examples/pid_se2.cpp)

The program of the example with exact scalars and times in seconds; the group (SE(2) in the example) is a parameter, as is its difference `x - y`.
Plotting and printing are left out.
-/

namespace Verif.PIDSe2

open Verif.Lie

variable {X F : Type*} [Field F] [LinearOrder F]

/-- `vdes` (pid_se2.cpp:26). -/
def vdes : Fin 3 → F := ![1, 0, 2 / 5]

/-- `xdes` (27-30); `g0` is `SE2d(SO2d(M_PI_2), Vector2d(2.5, 0))`. -/
def xdes (L : LieOps X F 3) (g0 : X) (t : F) : X × (Fin 3 → F) × (Fin 3 → F) := (L.rplus g0 (t • vdes), vdes, 0)

/-- What the controller knows of the group and of time (`std::chrono::duration<double>`). -/
def env (rminus : X → X → Fin 3 → F) (one : X) : PID.Env F X F 3 := ⟨rminus, fun t s => t - s, one⟩

/-- The controller before the loop (23-32): default parameters have no limit on the integral (pid.hpp:20). -/
def setup (L : LieOps X F 3) (rminus : X → X → Fin 3 → F) (one g0 : X) : PID.State F X F 3 :=
  PID.run (env rminus one) (PID.init (env rminus one) none) [.setXdes (xdes L g0)]

/-- `std::clamp<double>(a, -1, 1)`. -/
def clamp (a : F) : F := if a < -1 then -1 else if 1 < a then 1 else a

/-- Input allocation (54-56). -/
def alloc (a : Fin 3 → F) : Fin 2 → F := ![clamp (a 0), clamp (a 2 + 3 / 10 * a 1)]

/-- `ode` (41-44): the state is a pose and a body velocity. -/
def ode (u : Fin 2 → F) (s : X × (Fin 3 → F)) : (Fin 3 → F) × (Fin 3 → F) := (s.2, ![u 0, 0, u 1])

/-- `x + d` on the bundle of the group and `R^3`. -/
def plus (L : LieOps X F 3) (s : X × (Fin 3 → F)) (d : (Fin 3 → F) × (Fin 3 → F)) : X × (Fin 3 → F) := (L.rplus s.1 d.1, s.2 + d.2)

/-- `stepper.do_step(ode, x, 0, 0.05)` (40, 67) with `boost::numeric::odeint::runge_kutta4`, the input held; with smooth's `compat/odeint.hpp` a stage is the state plus
the weighted sum of the derivatives. -/
def step (L : LieOps X F 3) (u : Fin 2 → F) (dt : F) (s : X × (Fin 3 → F)) : X × (Fin 3 → F) :=
  let k1 := ode u s
  let k2 := ode u (plus L s ((dt / 2) • k1))
  let k3 := ode u (plus L s ((dt / 2) • k2))
  let k4 := ode u (plus L s (dt • k3))
  plus L s ((dt / 6) • k1 + (dt / 3) • k2 + (dt / 3) • k3 + (dt / 6) • k4)

/-- `n` turns of the loop (50-68) from turn `k`, at `50 k` milliseconds: state and input of each. -/
def loop (L : LieOps X F 3) (e : PID.Env F X F 3) : ℕ → ℕ → PID.State F X F 3 → X × (Fin 3 → F) → List ((X × (Fin 3 → F)) × (Fin 2 → F))
  | 0, _, _, _ => []
  | n + 1, k, p, s =>
    let r := PID.call e p ((k : F) / 20) s.1 s.2
    let u := alloc r.2
    (s, u) :: loop L e n (k + 1) r.1 (step L u (1 / 20) s)

/-- The program (21-68), with `n` turns (the example makes 600) from the state `s` (the example: identity, at rest). -/
def main (L : LieOps X F 3) (rminus : X → X → Fin 3 → F) (one g0 : X) (n : ℕ) (s : X × (Fin 3 → F)) : List ((X × (Fin 3 → F)) × (Fin 2 → F)) :=
  loop L (env rminus one) n 0 (setup L rminus one g0) s

end Verif.PIDSe2
