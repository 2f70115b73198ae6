import Verif.Model.PID
import Verif.Model.QPRound

/-!
# The PID controller in rounded arithmetic (include/smooth/feedback/pid.hpp)

`Model/PID.lean` once more, with a rounding after every operation of the controller in the order in which the code writes them. The differences of the group and of the times (`g_des - x`,
`time_trait<T>::minus`) are given numbers. No overflow and no NaN; products and sums are not fused.
-/

namespace Verif.PID

open Verif.QP (Arith)

variable {T G F : Type*} {n : ℕ} [LinearOrder T] [Field F] [LinearOrder F]

/-- The integral update (pid.hpp:79-83). -/
def integrateR (ar : Arith F) (env : Env T G F n) (s : State T G F n) (t : T) (gErr : Vec n F) : Vec n F :=
  match s.tLast with
  | none => s.iErr
  | some tl => if tl < t then windupClamp s.windup (fun k => ar.fl (s.iErr k + ar.fl (env.tminus t tl * gErr k))) else s.iErr

/-- One entry of the output (pid.hpp:86). -/
def outputR (ar : Arith F) (a kp g kd vd v ki i : F) : F := ar.fl (ar.fl (ar.fl (a + ar.fl (kp * g)) + ar.fl (kd * ar.fl (vd - v))) + ar.fl (ki * i))

/-- `PID::operator()` (pid.hpp:74-87). -/
def callR (ar : Arith F) (env : Env T G F n) (s : State T G F n) (t : T) (x : G) (v : Vec n F) : State T G F n × Vec n F :=
  let des := s.xdes t
  let gErr := env.rminus des.1 x
  let i' := integrateR ar env s t gErr
  ({ s with iErr := i', tLast := some t }, fun k => outputR ar (des.2.2 k) (s.kp k) (gErr k) (s.kd k) (des.2.1 k) (v k) (s.ki k) (i' k))

/-- One public operation; the others do not calculate (pid.hpp:92-186). -/
def stepR (ar : Arith F) (env : Env T G F n) (s : State T G F n) : Op T G F n → State T G F n × Option (Vec n F)
  | .call t x v => ((callR ar env s t x v).1, some (callR ar env s t x v).2)
  | o => step env s o

/-- State after a history (oldest operation first). -/
def runR (ar : Arith F) (env : Env T G F n) (s : State T G F n) (ops : List (Op T G F n)) : State T G F n := ops.foldl (fun s o => (stepR ar env s o).1) s

end Verif.PID
