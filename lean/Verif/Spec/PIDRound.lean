import Verif.Model.PIDRound
import Verif.Spec.QPRound

/-! # Specification of the PID controller in rounded arithmetic -/

namespace Verif.PID

variable {T G F : Type*} {n : ℕ} [LinearOrder T] [Field F] [LinearOrder F]

/-- In this history (exact arithmetic) no call adds more than `c` to an entry of the integral. -/
def Steps (env : Env T G F n) (c : F) : State T G F n → List (Op T G F n) → Prop
  | _, [] => True
  | s, o :: os => (∀ t x v, o = .call t x v → ∀ tl, s.tLast = some tl → tl < t → ∀ k, |env.tminus t tl * env.rminus (s.xdes t).1 x k| ≤ c) ∧ Steps env c (step env s o).1 os

/-- The number of calls. -/
def calls : List (Op T G F n) → ℕ
  | [] => 0
  | .call .. :: os => calls os + 1
  | _ :: os => calls os

/-- Calls at these times, after one at `tl`, whose contributions to the integral are rounded away. -/
def Lost (ar : QP.Arith F) (env : Env T G F n) (s : State T G F n) (x : G) : T → List T → Prop
  | _, [] => True
  | tl, t :: ts => (∀ k, ar.fl (s.iErr k + ar.fl (env.tminus t tl * env.rminus (s.xdes t).1 x k)) = s.iErr k) ∧ Lost ar env s x t ts

end Verif.PID
