import Verif.Model.ASIF
import Mathlib.LinearAlgebra.Matrix.Notation

/-!
# The double integrator with a safety filter (examples/asif_doubleintegrator.cpp)

The program of the example with exact scalars; the QP solver is a parameter. Printing and plotting are left out. A status other than Optimal is
printed (74-76) and otherwise ignored, so the model keeps it only for the theorems.
-/

namespace Verif.ASIF

open Verif.QP (Ext Status)

section

variable {F : Type*} [Field F] [LinearOrder F]

/-- States `(x, v)` and inputs in vector spaces (18-21). -/
def diEnv : Env (Fin 2 → F) (Fin 1 → F) F 2 1 := ⟨fun x v => x + v, fun _ => 0, fun u v => u + v, fun u v => u - v⟩

/-- `f` (29). -/
def diDyn : Dyn (Fin 2 → F) (Fin 1 → F) F 2 1 := ⟨fun x u => ![x 1, u 0], fun _ _ => !![0; 1]⟩

/-- `h` (32). -/
def diSafe : Barrier (Fin 2 → F) F 2 where
  nh := 2
  h := fun _ g => ![3 - g 0, 3 / 2 - g 1]
  dt := fun _ _ => 0
  dx := fun _ _ => !![-1, 0; 0, -1]

/-- `bu` (35). -/
def diBackup : Backup (Fin 2 → F) (Fin 1 → F) F 2 := ⟨fun _ _ _ => -(3 / 5), fun _ _ => !![0, 1; 0, 0]⟩

/-- `prm` (38-58); `W_u` is the default of ones (asif.hpp:25), `c` the default (common.hpp:25). -/
def diPrm : FPrm (Fin 1 → F) F 1 where
  T := 1 / 2
  nh := 2
  W := fun _ => 1
  ulim := ⟨1, 1, 0, fun _ => .fin (-1), fun _ => .fin 1⟩
  asif := ⟨50, 1, 1 / 100, 100⟩

/-- `stepper.do_step(ode, g, 0, dt)` with `boost::numeric::odeint::runge_kutta4` (68-69, 85), the input held. -/
def diStep (u : Fin 1 → F) (dt : F) (g : Fin 2 → F) : Fin 2 → F :=
  let f := fun x : Fin 2 → F => diDyn.f x u
  let k1 := f g
  let k2 := f (g + (dt / 2) • k1)
  let k3 := f (g + (dt / 2) • k2)
  let k4 := f (g + dt • k3)
  g + (dt / 6) • k1 + (dt / 3) • k2 + (dt / 3) • k3 + (dt / 6) • k4

/-- One turn of the loop (73-85): the filter and the state afterwards, the input and the status. -/
def diTurn (solver : Solver F) (fuel : ℕ) (udes : Fin 1 → F) (s : Filter (Fin 2 → F) (Fin 1 → F) F 2 1 × (Fin 2 → F)) :
    Option ((Filter (Fin 2 → F) (Fin 1 → F) F 2 1 × (Fin 2 → F)) × (Fin 1 → F) × Status) :=
  (s.1.call diEnv solver fuel ⟨s.2, udes, diSafe, diBackup⟩).map fun r => ((r.1, diStep r.2.1 (1 / 20) s.2), r.2.1, r.2.2)

/-- `n` turns of the loop (72-86): the states after each of them, with the status. -/
def diLoop (solver : Solver F) (fuel : ℕ) (udes : Fin 1 → F) :
    ℕ → Filter (Fin 2 → F) (Fin 1 → F) F 2 1 × (Fin 2 → F) → Option (List ((Fin 2 → F) × Status))
  | 0, _ => some []
  | n + 1, s => (diTurn solver fuel udes s).bind fun r => (diLoop solver fuel udes n r.1).map fun l => (r.1.2, r.2.2) :: l

end

end Verif.ASIF
