import Verif.Model.OCPQP
import Verif.Spec.OCPNLP

/-! # Specification of the quadratic program -/

namespace Verif.OQP

open Verif.Mesh Verif.Sparse Verif.MeshFn Verif.NLP Verif.QP Verif.QPSpec

variable {N nx nu ncr nce : ℕ}

/-- The variables of the quadratic program: deviations of the states `x_0 .. x_N` and of the inputs `u_0 .. u_{N-1}`. -/
inductive QVar (N nx nu : ℕ) where
  | x (i : Fin (N + 1)) (k : Fin nx)
  | u (i : Fin N) (k : Fin nu)
deriving DecidableEq, Fintype

/-- Where a variable sits in the vector (ocp_to_qp.hpp:56). -/
def QVar.pos : QVar N nx nu → ℕ
  | .x i k => nx * i + k
  | .u i k => nx * (N + 1) + nu * i + k

/-- The constraints: dynamics, running constraints, end constraints. -/
inductive QCon (N nx ncr nce : ℕ) where
  | dyn (i : Fin N) (k : Fin nx)
  | cr (i : Fin N) (k : Fin ncr)
  | ce (k : Fin nce)
deriving DecidableEq, Fintype

/-- Where a constraint sits. -/
def QCon.pos : QCon N nx ncr nce → ℕ
  | .dyn i k => nx * i + k
  | .cr i k => nx * N + ncr * i + k
  | .ce k => nx * N + ncr * N + k

/-- The numbers of variables and constraints. -/
def numV (N nx nu : ℕ) : ℕ := nx * (N + 1) + nu * N
def numC (N nx ncr nce : ℕ) : ℕ := nx * N + ncr * N + nce

/-- What the program means: the cost reads only the upper triangle of `P` (qp.hpp:63). -/
noncomputable def toPbm (qp : QPD ℝ) (n m : ℕ) : Pbm ℝ n m where
  P := fun i j => if i ≤ j then qp.P.val i j else qp.P.val j i
  q := fun i => qp.q.val i
  A := fun i j => qp.A.val i j
  l := fun i => qp.l.val i
  u := fun i => qp.u.val i

/-- The sizes of the program. -/
structure HasSize (qp : QPD ℝ) (n m : ℕ) : Prop where
  P : qp.P.rows = n ∧ qp.P.cols = n
  q : qp.q.size = n
  A : qp.A.rows = m ∧ qp.A.cols = n
  l : qp.l.size = m
  u : qp.u.size = m

/-- The vector that holds the assignment `z`. -/
def IsPrimal (z : QVar N nx nu → ℝ) (x : Fin (numV N nx nu) → ℝ) : Prop := ∀ v (h : v.pos < numV N nx nu), x ⟨v.pos, h⟩ = z v

/-- First-order expansion of `f` at `p` in direction `d`. -/
noncomputable def taylor1 {ι : Type*} [Fintype ι] (f : (ι → ℝ) → ℝ) (p d : ι → ℝ) : ℝ := f p + fderiv ℝ f p d

/-- The point of the linearisation at time `t`. -/
def linPt (lin : Lin ℝ nx nu) (t : ℝ) : Arg nx nu → ℝ := pt t (lin.x t) (lin.u t)

/-- The end points of the linearisation; the integral is taken to be one. -/
def linEnd (lin : Lin ℝ nx nu) (tf : ℝ) : EArg nx 1 → ℝ
  | .tf => tf
  | .x0 k => lin.x 0 k
  | .xf k => lin.x tf k
  | .q _ => 1

/-- The deviation at a collocation point, and at the end points. -/
def dev (z : QVar N nx nu → ℝ) (i : Fin N) : Arg nx nu → ℝ
  | .t => 0
  | .x k => z (.x i.castSucc k)
  | .u k => z (.u i k)
def devEnd (z : QVar N nx nu → ℝ) : EArg nx 1 → ℝ
  | .tf => 0
  | .x0 k => z (.x 0 k)
  | .xf k => z (.x (Fin.last N) k)
  | .q _ => 0

/-- What a non-commutative group adds to the linearised dynamics: `-1/2 ad(f + dx) e`. -/
noncomputable def adTerm (ad : Option ((Fin nx → ℝ) → Sp ℝ)) (w : Fin nx → ℝ) (e : Fin nx → ℝ) (k : Fin nx) : ℝ :=
  match ad with
  | none => 0
  | some a => -(1 / 2) * ∑ l : Fin nx, (a w).val k l * e l

/-- The linearised problem, collocated: at every collocation point `t_i = tf τ_i` the slope of the interpolated deviation
equals `tf` times the linearised dynamics minus the velocity of the linearisation; the linearised running and end constraints
hold. -/
structure LinFeasible (env : Mesh.Env ℝ) (m : Mesh ℝ) (ocp : OCP ℝ nx nu 1 ncr nce) (ad : Option ((Fin nx → ℝ) → Sp ℝ)) (tf : ℝ)
    (lin : Lin ℝ nx nu) (z : QVar (nColloc m) nx nu → ℝ) : Prop where
  dynamics : ∀ (i : Fin (nColloc m)) (k : Fin nx),
    slope env (spans 1 m) (fun j => if h : j < nColloc m + 1 then z (.x ⟨j, h⟩ k) else 0) i =
      tf * (taylor1 (fun p => ocp.f.val p k) (linPt lin (tf * tauAt env m i)) (dev z i) - lin.dx (tf * tauAt env m i) k +
        adTerm ad (ocp.f.val (linPt lin (tf * tauAt env m i)) + lin.dx (tf * tauAt env m i)) (fun l => z (.x i.castSucc l)) k)
  running : ∀ (i : Fin (nColloc m)) (k : Fin ncr),
    lower (ocp.crl k) (taylor1 (fun p => ocp.cr.val p k) (linPt lin (tf * tauAt env m i)) (dev z i)) ∧
    upper (ocp.cru k) (taylor1 (fun p => ocp.cr.val p k) (linPt lin (tf * tauAt env m i)) (dev z i))
  endpoint : ∀ k : Fin nce,
    lower (ocp.cel k) (taylor1 (fun p => ocp.ce.val p k) (linEnd lin tf) (devEnd z)) ∧
    upper (ocp.ceu k) (taylor1 (fun p => ocp.ce.val p k) (linEnd lin tf) (devEnd z))

/-- `ad<X>` gives square matrices. -/
def IsAd (ad : Option ((Fin nx → ℝ) → Sp ℝ)) : Prop := ∀ a, ad = some a → ∀ w, (a w).rows = nx ∧ (a w).cols = nx

/-- The trajectory `linearisation + z`, over the mesh, and its end points together with the integral `q`. -/
noncomputable def trajVars (env : Mesh.Env ℝ) (m : Mesh ℝ) (lin : Lin ℝ nx nu) (tf : ℝ) (z : QVar (nColloc m) nx nu → ℝ) :
    Var (nColloc m) nx nu → ℝ
  | .t0 => 0
  | .tf => tf
  | .x i k => lin.x (tf * tauAt env m i) k + z (.x i k)
  | .u i k => lin.u (tf * tauAt env m i) k + z (.u i k)
def trajEnd (lin : Lin ℝ nx nu) (tf : ℝ) (z : QVar N nx nu → ℝ) (q : ℝ) : EArg nx 1 → ℝ
  | .tf => tf
  | .x0 k => lin.x 0 k + z (.x 0 k)
  | .xf k => lin.x tf k + z (.x (Fin.last N) k)
  | .q _ => q

/-- The cost of the optimal control problem for the trajectory `linearisation + z`, with the integral by quadrature. -/
noncomputable def trajCost (env : Mesh.Env ℝ) (m : Mesh ℝ) (ocp : OCP ℝ nx nu 1 ncr nce) (lin : Lin ℝ nx nu) (tf : ℝ)
    (z : QVar (nColloc m) nx nu → ℝ) : ℝ :=
  ocp.theta.val (trajEnd lin tf z (integralSpec env m ocp.g.val 0 (trajVars env m lin tf z))) 0

/-- The quadratic form of the second derivative of `f` at `p`. -/
noncomputable def second {ι : Type*} [Fintype ι] (f : (ι → ℝ) → ℝ) (p d : ι → ℝ) : ℝ := fderiv ℝ (fun y => fderiv ℝ f y d) p d

/-- The cost is linear in the integral, with weight `b`. -/
def LinearInIntegral (th : (EArg nx 1 → ℝ) → ℝ) (b : ℝ) : Prop :=
  ∀ e c, th (Function.update e (.q 0) c) = th e + b * (c - e (.q 0))

/-- The arguments of an update. -/
structure Args (nx nu ncr nce : ℕ) where
  ocp : OCP ℝ nx nu 1 ncr nce
  ad : Option ((Fin nx → ℝ) → Sp ℝ)
  tf : ℝ
  lin : Lin ℝ nx nu

/-- The derivatives are right, and the Jacobian of the end constraints stores the entries `S`. -/
structure Args.Ok (S : ℕ → ℕ → Prop) (a : Args nx nu ncr nce) : Prop where
  dr : IsDrOCP a.ocp
  ad : IsAd a.ad
  stored : ∀ (k : Fin nce) c, 1 ≤ c → c < 1 + 2 * nx → (S k c ↔ (a.ocp.ce.jac (linEnd a.lin a.tf)).ent k c ≠ none)

/-- The functions that update the program in place. -/
inductive Call (nx nu ncr nce : ℕ) where
  | all (a : Args nx nu ncr nce)
  | cost (a : Args nx nu ncr nce)
  | dyn (a : Args nx nu ncr nce)
  | cr (a : Args nx nu ncr nce)
  | ce (a : Args nx nu ncr nce)
def Call.args : Call nx nu ncr nce → Args nx nu ncr nce
  | .all a => a
  | .cost a => a
  | .dyn a => a
  | .cr a => a
  | .ce a => a
noncomputable def Call.run (env : Mesh.Env ℝ) (m : Mesh ℝ) : Call nx nu ncr nce → QPD ℝ × Work ℝ → Option (QPD ℝ × Work ℝ)
  | .all a => update env m a.ocp a.ad a.tf a.lin
  | .cost a => updateCost env m a.ocp a.tf a.lin
  | .dyn a => updateDyn env m a.ocp a.ad a.tf a.lin
  | .cr a => updateCr env m a.ocp a.tf a.lin
  | .ce a => updateCe m a.ocp a.tf a.lin
noncomputable def runAll (env : Mesh.Env ℝ) (m : Mesh ℝ) : List (Call nx nu ncr nce) → QPD ℝ × Work ℝ → Option (QPD ℝ × Work ℝ)
  | [], s => some s
  | c :: l, s => (c.run env m s).bind (runAll env m l)

/-- Two programs with the same sizes and the same numbers. -/
structure SameQP (a b : QPD ℝ) (n m : ℕ) : Prop where
  left : HasSize a n m
  right : HasSize b n m
  P : ∀ i < n, ∀ j < n, a.P.val i j = b.P.val i j
  q : ∀ i < n, a.q.val i = b.q.val i
  A : ∀ i < m, ∀ j < n, a.A.val i j = b.A.val i j
  l : ∀ i < m, a.l.val i = b.l.val i
  u : ∀ i < m, a.u.val i = b.u.val i

end Verif.OQP
