import Verif.Model.ASIF
import Verif.Model.EKFRound

/-!
# The program of the safety filter in rounded arithmetic (include/smooth/feedback/asif_func.hpp)

`asif_to_qp` of `Model/ASIF.lean` once more, with a rounding after every operation in the order in which the code writes them; the arithmetic is
`Verif.QP.Arith` and products of matrices are `Verif.EKF.mulR`. Simplifications: no overflow, no underflow and no NaN, and no contraction of
`tau * (k + 1) - t` into a fused operation; what the manifolds, the dynamics, the barrier and the derivative oracle return is arbitrary.
-/

namespace Verif.ASIF

open Verif.QP (Ext Arith)
open Verif.EKF (mulR)

variable {X U F : Type*} {nx nu : ℕ} [Field F] [LinearOrder F]

/-- `b - a` for a bound `b` that may be infinite. -/
def extSubR (ar : Arith F) : Ext F → F → Ext F
  | .neg, _ => .neg
  | .fin b, a => .fin (ar.fl (b - a))
  | .pos, _ => .pos

/-- One turn of the inner loop (asif_func.hpp:176-178). -/
def odeStepR (ar : Arith F) (env : Env X U F nx nu) (d : Dyn X U F nx nu) (b : Backup X U F nx) (dt : F) (s : St X F nx) : St X F nx :=
  let x' := env.xplus s.x fun i => ar.fl (dt * fcl d b s.t s.x i)
  let A : Matrix (Fin nx) (Fin nx) F := fun i j => ar.fl (-env.ad (fcl d b s.t x') i j + b.dcl s.t x' i j)
  { t := ar.fl (s.t + dt), x := x', S := fun i j => ar.fl (s.S i j + ar.fl (dt * mulR ar A s.S i j)) }

/-- `while (t < tau * (k + 1))` (asif_func.hpp:175-179). -/
def advanceR (ar : Arith F) (env : Env X U F nx nu) (d : Dyn X U F nx nu) (b : Backup X U F nx) (target dt : F) :
    ℕ → St X F nx → Option (St X F nx)
  | 0, _ => none
  | fuel + 1, s => if s.t < target then advanceR ar env d b target dt fuel (odeStepR ar env d b dt s) else some s

/-- The rows of constraint `k` (asif_func.hpp:160-171). -/
def barrierRowsR (ar : Arith F) (nu : ℕ) (alpha : F) (h : Barrier X F nx) (f0 : Fin nx → F) (df0 : Matrix (Fin nx) (Fin nu) F) (k : ℕ)
    (s : St X F nx) (qp : DQP F) : Option (DQP F) :=
  let hval := h.h s.t s.x
  let dh_dt := h.dt s.t s.x
  let dh_dx0 := mulR ar (h.dx s.t s.x) s.S
  (qp.A.setBlock (k * h.nh) 0 h.nh nu (extM (mulR ar dh_dx0 df0))).bind fun A =>
  (qp.l.setSeg (k * h.nh) h.nh (extV fun i => .fin (ar.fl (ar.fl (-dh_dt i - ar.fl (alpha * hval i)) - ar.mv dh_dx0 f0 i)))).bind fun l =>
  (qp.u.setSeg (k * h.nh) h.nh fun _ => .pos).map fun u => { qp with A := A, l := l, u := u }

/-- The loop over `k` (asif_func.hpp:159-180, with `dt_act` at 174); `n` turns are left. -/
def barrierLoopR (ar : Arith F) (env : Env X U F nx nu) (d : Dyn X U F nx nu) (b : Backup X U F nx) (h : Barrier X F nx) (alpha tau dt : F)
    (f0 : Fin nx → F) (df0 : Matrix (Fin nx) (Fin nu) F) (fuel : ℕ) : (n k : ℕ) → St X F nx → DQP F → Option (DQP F)
  | 0, _, _, qp => some qp
  | n + 1, k, s, qp =>
    (barrierRowsR ar nu alpha h f0 df0 k s qp).bind fun qp =>
    let target := ar.fl (tau * ((k + 1 : ℕ) : F))
    (advanceR ar env d b target (min dt (ar.fl (target - s.t))) fuel s).bind fun s =>
      barrierLoopR ar env d b h alpha tau dt f0 df0 fuel n (k + 1) s qp

/-- The rows that do not depend on the flow (asif_func.hpp:182-198). -/
def tailRowsR (ar : Arith F) (env : Env X U F nx nu) (p : Pbm X U F nu) (prm : Prm F) (nh : ℕ) (qp : DQP F) : Option (DQP F) :=
  let n := prm.K * nh
  let m := p.ulim.rows
  let sh := ar.mv p.ulim.A (env.uminus p.udes p.ulim.c)
  (qp.A.setBlock 0 nu n 1 fun _ _ => 1).bind fun A =>
  (A.setBlock n 0 m nu (extM p.ulim.A)).bind fun A =>
  (qp.l.setSeg n m (extV fun i => extSubR ar (p.ulim.l i) (sh i))).bind fun l =>
  (qp.u.setSeg n m (extV fun i => extSubR ar (p.ulim.u i) (sh i))).bind fun u =>
  (A.setBlock (n + m) nu 1 1 fun _ _ => 1).bind fun A =>
  (l.setSeg (n + m) 1 fun _ => .fin 0).bind fun l =>
  (u.setSeg (n + m) 1 fun _ => .pos).bind fun u =>
  (qp.P.setBlock 0 0 nu nu (extM (Matrix.diagonal p.W))).bind fun P =>
  (P.setBlock nu nu 1 1 fun _ _ => prm.relax).bind fun P =>
  (qp.q.setSeg nu 1 fun _ => 0).map fun q => ⟨P, q, A, l, u⟩

/-- `asif_to_qp_update` (asif_func.hpp:104-199). -/
def updateR (ar : Arith F) (env : Env X U F nx nu) (d : Dyn X U F nx nu) (b : Backup X U F nx) (h : Barrier X F nx) (p : Pbm X U F nu)
    (prm : Prm F) (fuel : ℕ) (qp : DQP F) : Option (DQP F) :=
  if sizesOk qp (prm.K * h.nh + p.ulim.rows + 1) (nu + 1) then
    let tau := ar.fl (p.T / (prm.K : F))
    let dt := min prm.dt tau
    (barrierLoopR ar env d b h prm.alpha tau dt (d.f p.x0 p.udes) (d.du p.x0 p.udes) fuel prm.K 0 ⟨0, p.x0, 1⟩ qp).bind fun qp =>
    tailRowsR ar env p prm h.nh qp
  else none

/-- `asif_to_qp` (asif_func.hpp:244-260). -/
def toQPR (ar : Arith F) (env : Env X U F nx nu) (d : Dyn X U F nx nu) (b : Backup X U F nx) (h : Barrier X F nx) (p : Pbm X U F nu)
    (prm : Prm F) (fuel : ℕ) : Option (DQP F) :=
  updateR ar env d b h p prm fuel (allocate nu prm.K p.ulim.rows h.nh)

end Verif.ASIF
