import Mathlib.Algebra.Order.Field.Basic
import Mathlib.Algebra.Order.Group.MinMax
import Mathlib.Data.Fin.VecNotation

/-!
# Model of `pid.hpp`

Scalars are an exact ordered field `F` instead of `double`.  The state manifold `G` enters only through
`rminus : G → G → Tangent` (`g_des - x`), the time type `T` only through its order and
`time_trait<T>::minus`, so both are parameters.
-/

namespace Verif.PID

/-- `Tangent<G>`: a vector with `Dof<G>` components. -/
abbrev Vec (n : ℕ) (F : Type*) := Fin n → F

/-- What the controller needs to know about the group and the time type
(pid.hpp:77 `g_des - x`, pid.hpp:81 `time_trait<T>::minus`). -/
structure Env (T G F : Type*) (n : ℕ) where
  rminus : G → G → Vec n F
  tminus : T → T → F
  identity : G

/-- `TrajectoryReturnT` pid.hpp:44: position, velocity, acceleration. -/
abbrev Traj (T G F : Type*) (n : ℕ) := T → G × Vec n F × Vec n F

/-- Data members of `PID`, pid.hpp:189-203, and `PIDParams::windup_limit` pid.hpp:20, whose default
is infinity: `none` stands for an infinite limit. -/
structure State (T G F : Type*) (n : ℕ) where
  windup : Option F
  kp : Vec n F
  kd : Vec n F
  ki : Vec n F
  tLast : Option T
  iErr : Vec n F
  xdes : Traj T G F n

variable {T G F : Type*} {n : ℕ} [LinearOrder T] [Field F] [LinearOrder F]

/-- Constructor pid.hpp:54 and default member initialisers pid.hpp:192-203: unit proportional and
derivative gains, zero integral gain, no last time, zero integral, identity reference. -/
def init (env : Env T G F n) (windup : Option F) : State T G F n where
  windup := windup
  kp := fun _ => 1
  kd := fun _ => 1
  ki := fun _ => 0
  tLast := none
  iErr := fun _ => 0
  xdes := fun _ => (env.identity, fun _ => 0, fun _ => 0)

/-- `i_err_.cwiseMax(-prm_.windup_limit).cwiseMin(prm_.windup_limit)`, pid.hpp:82;
with an infinite limit both bounds are infinite and nothing is clamped. -/
def windupClamp (w : Option F) (i : Vec n F) : Vec n F :=
  match w with
  | none => i
  | some w => fun k => min (max (i k) (-w)) w

/-- The integral update of pid.hpp:79-83. -/
def integrate (env : Env T G F n) (s : State T G F n) (t : T) (gErr : Vec n F) : Vec n F :=
  match s.tLast with
  | none => s.iErr
  | some tl => if tl < t then windupClamp s.windup (fun k => s.iErr k + env.tminus t tl * gErr k) else s.iErr

/-- `PID::operator()`, pid.hpp:74-87. -/
def call (env : Env T G F n) (s : State T G F n) (t : T) (x : G) (v : Vec n F) : State T G F n × Vec n F :=
  let des := s.xdes t
  let gErr := env.rminus des.1 x
  let i' := integrate env s t gErr
  ({ s with iErr := i', tLast := some t },
   fun k => des.2.2 k + s.kp k * gErr k + s.kd k * (des.2.1 k - v k) + s.ki k * i' k)

/-- The public operations. -/
inductive Op (T G F : Type*) (n : ℕ) where
  | call (t : T) (x : G) (v : Vec n F)
  | setKp (k : Vec n F)
  | setKpAll (k : F)
  | setKd (k : Vec n F)
  | setKdAll (k : F)
  | setKi (k : Vec n F)
  | setKiAll (k : F)
  | resetIntegral
  | setXdes (f : Traj T G F n)
  | setXdesSpline (t0 : T) (c : F → G × Vec n F × Vec n F)

/-- One public operation; only `call` yields an output.  Setters: pid.hpp:92-129, `reset_integral`
pid.hpp:134, `set_xdes` from a function pid.hpp:177-186, from a spline `c` with start time `t0`
pid.hpp:143-159 (the desired triple at `t` is `c(minus(t, t0))`; the spline itself is a parameter). -/
def step (env : Env T G F n) (s : State T G F n) : Op T G F n → State T G F n × Option (Vec n F)
  | .call t x v => let r := call env s t x v; (r.1, some r.2)
  | .setKp k => ({ s with kp := k }, none)
  | .setKpAll k => ({ s with kp := fun _ => k }, none)
  | .setKd k => ({ s with kd := k }, none)
  | .setKdAll k => ({ s with kd := fun _ => k }, none)
  | .setKi k => ({ s with ki := k }, none)
  | .setKiAll k => ({ s with ki := fun _ => k }, none)
  | .resetIntegral => ({ s with iErr := fun _ => 0 }, none)
  | .setXdes f => ({ s with xdes := f }, none)
  | .setXdesSpline t0 c => ({ s with xdes := fun t => c (env.tminus t t0) }, none)

/-- State after a history (oldest operation first). -/
def run (env : Env T G F n) (s : State T G F n) (ops : List (Op T G F n)) : State T G F n :=
  ops.foldl (fun s o => (step env s o).1) s

end Verif.PID
