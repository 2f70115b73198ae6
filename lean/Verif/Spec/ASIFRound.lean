import Verif.Spec.ASIF
import Verif.Spec.QPRound

/-!
# The times and the rows of the safety filter in rounded arithmetic

Only data types come from the model.
-/

namespace Verif.ASIF

open Verif.QPSpec
open Verif.QP (Arith Ext)

variable {X U F : Type*} {nx nu : ℕ} [Field F] [LinearOrder F]

/-- Numbers that are representable are not rounded, and a difference of two of them within a factor of two of each other is exact (the
lemma of Sterbenz). -/
structure Subtracts (ar : Arith F) : Prop where
  idem : ∀ a, 0 ≤ a → ar.fl (ar.fl a) = ar.fl a
  close : ∀ a b, 0 ≤ a → ar.fl a = a → ar.fl b = b → a ≤ b → b ≤ 2 * a → ar.fl (b - a) = b - a

/-- The times reached from `t` by steps of length `e`, each one rounded. -/
def tick (fl : F → F) (e t : F) : ℕ → F
  | 0 => t
  | i + 1 => fl (tick fl e t i + e)

/-- The rounded counterpart of `Schedule`: constraint `k` is at time `t k`, and `n k` steps of length `e k = min dt (tau (k + 1) - t k)` follow,
until the time `tau (k + 1)` is reached or passed. -/
structure ScheduleR (fl : F → F) (K : ℕ) (tau dt : F) (t e : ℕ → F) (n : ℕ → ℕ) : Prop where
  zero : t 0 = 0
  step : ∀ k < K, e k = min dt (fl (fl (tau * ((k + 1 : ℕ) : F)) - t k))
  next : ∀ k < K, t (k + 1) = tick fl (e k) (t k) (n k)
  before : ∀ k < K, ∀ i < n k, tick fl (e k) (t k) i < fl (tau * ((k + 1 : ℕ) : F))
  reach : ∀ k < K, fl (tau * ((k + 1 : ℕ) : F)) ≤ t (k + 1)

/-- A bound minus a number, with rounding. -/
def shiftB (fl : F → F) (a : F) : Ext F → Ext F
  | .neg => .neg
  | .fin b => .fin (fl (b - a))
  | .pos => .pos

/-- The rows that do not depend on the flow are in place: the relaxation variable in the barrier rows, the input bounds, the sign of the relaxation
variable, and the cost. -/
structure Tail (ar : Arith F) (env : Env X U F nx nu) (p : Pbm X U F nu) (prm : Prm F) (nh : ℕ) (qp : DQP F) : Prop where
  relax : ∀ r < prm.K * nh, qp.A.val r nu = 1
  inA : ∀ (i : Fin p.ulim.rows) (c : Fin nu), qp.A.val (prm.K * nh + i) c = p.ulim.A i c
  inL : ∀ i : Fin p.ulim.rows, qp.l.val (prm.K * nh + i) = shiftB ar.fl (ar.mv p.ulim.A (env.uminus p.udes p.ulim.c) i) (p.ulim.l i)
  inU : ∀ i : Fin p.ulim.rows, qp.u.val (prm.K * nh + i) = shiftB ar.fl (ar.mv p.ulim.A (env.uminus p.udes p.ulim.c) i) (p.ulim.u i)
  last : qp.A.val (prm.K * nh + p.ulim.rows) nu = 1 ∧ qp.l.val (prm.K * nh + p.ulim.rows) = .fin 0 ∧
    qp.u.val (prm.K * nh + p.ulim.rows) = .pos
  cost : (∀ i j : Fin nu, qp.P.val i j = if i = j then p.W i else 0) ∧ qp.P.val nu nu = prm.relax ∧ qp.q.val nu = 0

end Verif.ASIF
