import Verif.Model.PID
import Mathlib.Algebra.Order.Group.Abs

/-!
# Specification of the PID controller

Everything is a function of the *history* of public calls (newest first); none of the controller's
data members or helper functions is mentioned.
-/

namespace Verif.PIDSpec

open Verif.PID (Op Vec Traj Env)

variable {T G F : Type*} {n : ℕ} [LinearOrder T] [Field F] [LinearOrder F]

/-- Time of the latest control call, if any. -/
def lastCall : List (Op T G F n) → Option T
  | [] => none
  | .call t _ _ :: _ => some t
  | _ :: h => lastCall h

/-- Reference trajectory in force: the latest one set, initially "stay at the identity". -/
def reference (env : Env T G F n) : List (Op T G F n) → Traj T G F n
  | [] => fun _ => (env.identity, 0, 0)
  | .setXdes f :: _ => f
  | .setXdesSpline t0 c :: _ => fun t => c (env.tminus t t0)
  | _ :: h => reference env h

/-- Proportional gain in force (initially one). -/
def gainP : List (Op T G F n) → Vec n F
  | [] => 1
  | .setKp k :: _ => k
  | .setKpAll k :: _ => fun _ => k
  | _ :: h => gainP h

/-- Derivative gain in force (initially one). -/
def gainD : List (Op T G F n) → Vec n F
  | [] => 1
  | .setKd k :: _ => k
  | .setKdAll k :: _ => fun _ => k
  | _ :: h => gainD h

/-- Integral gain in force (initially zero). -/
def gainI : List (Op T G F n) → Vec n F
  | [] => 0
  | .setKi k :: _ => k
  | .setKiAll k :: _ => fun _ => k
  | _ :: h => gainI h

/-- Saturation of a scalar at an optional symmetric limit. -/
def sat (w : Option F) (a : F) : F :=
  match w with
  | none => a
  | some w => if a < -w then -w else if w < a then w else a

/-- Integral of the error at the end of a history: every control call that is later than the control
call before it adds (elapsed time) * (current error), saturated; a reset zeroes it. -/
def integral (env : Env T G F n) (w : Option F) : List (Op T G F n) → Vec n F
  | [] => 0
  | .resetIntegral :: _ => 0
  | .call t x _ :: h =>
    match lastCall h with
    | none => integral env w h
    | some tl =>
      if tl < t then
        fun k => sat w (integral env w h k + env.tminus t tl * env.rminus (reference env h t).1 x k)
      else integral env w h
  | _ :: h => integral env w h

/-- Control law: feed-forward + proportional + derivative + integral. -/
def output (env : Env T G F n) (w : Option F) (h : List (Op T G F n)) (t : T) (x : G) (v : Vec n F) :
    Vec n F := fun k =>
  let r := reference env h t
  r.2.2 k + gainP h k * env.rminus r.1 x k + gainD h k * (r.2.1 k - v k)
    + gainI h k * integral env w (.call t x v :: h) k

end Verif.PIDSpec
