import Verif.Model.OCPNLP
import Verif.Spec.MeshFn
import Verif.Spec.QP

/-! # Specification of the nonlinear program -/

namespace Verif.NLP

open Verif.Mesh Verif.Sparse Verif.MeshFn Verif.QP Verif.QPSpec

variable {N nx nu nq ncr nce : ℕ}

/-- The variables of the nonlinear program: final time, integrals, states `x_0 .. x_N`, inputs `u_0 .. u_{N-1}`. -/
inductive NVar (N nx nu nq : ℕ) where
  | tf
  | q (k : Fin nq)
  | x (i : Fin (N + 1)) (k : Fin nx)
  | u (i : Fin N) (k : Fin nu)
deriving DecidableEq, Fintype

/-- Where a variable sits in the vector (ocp_to_nlp.hpp:29-34). -/
def NVar.pos : NVar N nx nu nq → ℕ
  | .tf => 0
  | .q k => 1 + k
  | .x i k => 1 + nq + nx * i + k
  | .u i k => 1 + nq + nx * (N + 1) + nu * i + k

/-- The number of variables. -/
def nVars (N nx nu nq : ℕ) : ℕ := 1 + nq + nx * (N + 1) + nu * N

/-- The constraints: dynamics, integrals, running constraints, end constraints. -/
inductive NCon (N nx nq ncr nce : ℕ) where
  | dyn (i : Fin N) (k : Fin nx)
  | int (k : Fin nq)
  | cr (i : Fin N) (k : Fin ncr)
  | ce (k : Fin nce)
deriving DecidableEq, Fintype

/-- Where a constraint sits (ocp_to_nlp.hpp:37-42). -/
def NCon.pos : NCon N nx nq ncr nce → ℕ
  | .dyn i k => nx * i + k
  | .int k => nx * N + k
  | .cr i k => nx * N + nq + ncr * i + k
  | .ce k => nx * N + nq + ncr * N + k

/-- The number of constraints. -/
def nCons (N nx nq ncr nce : ℕ) : ℕ := nx * N + nq + ncr * N + nce

/-- The order of the arguments in `wrt(tf, x0, xf, q)`. -/
def EArg.pos : EArg nx nq → ℕ
  | .tf => 0
  | .x0 k => 1 + k
  | .xf k => 1 + nx + k
  | .q k => 1 + 2 * nx + k

/-- Assumption on `diff::dr<2>` (external) for the functions of the end points. -/
structure IsDrE {n : ℕ} (fn : EFn ℝ nx nq n) : Prop where
  smooth : ∀ j, ContDiff ℝ 2 fun p => fn.val p j
  jac_rows : ∀ p, (fn.jac p).rows = n
  jac_cols : ∀ p, (fn.jac p).cols = 1 + 2 * nx + nq
  hess_rows : ∀ p, (fn.hess p).rows = 1 + 2 * nx + nq
  hess_cols : ∀ p, (fn.hess p).cols = n * (1 + 2 * nx + nq)
  jac_val : ∀ p (j : Fin n) (a : EArg nx nq), (fn.jac p).val j a.pos = pd (fun p => fn.val p j) a p
  hess_val : ∀ p (j : Fin n) (a b : EArg nx nq),
    (fn.hess p).val a.pos ((1 + 2 * nx + nq) * j + b.pos) = pd (pd (fun p => fn.val p j) a) b p

/-- All derivatives of a problem are right. -/
structure IsDrOCP (ocp : OCP ℝ nx nu nq ncr nce) : Prop where
  theta : IsDrE ocp.theta
  f : IsDr ocp.f
  g : IsDr ocp.g
  cr : IsDr ocp.cr
  ce : IsDrE ocp.ce

/-- The vector `x` holds the assignment `z`. -/
structure IsVec (z : NVar N nx nu nq → ℝ) (x : Vec ℝ) : Prop where
  size : x.size = nVars N nx nu nq
  val : ∀ v, x.val v.pos = z v

/-- An assignment of the variables as one for the functions over the mesh: time starts at zero. -/
def onMesh (z : NVar N nx nu nq → ℝ) : Var N nx nu → ℝ
  | .t0 => 0
  | .tf => z .tf
  | .x i k => z (.x i k)
  | .u i k => z (.u i k)

/-- The end points: the first and the last state. -/
def ends (z : NVar N nx nu nq → ℝ) : EArg nx nq → ℝ
  | .tf => z .tf
  | .x0 k => z (.x 0 k)
  | .xf k => z (.x (Fin.last N) k)
  | .q k => z (.q k)

/-- The objective. -/
def objective (ocp : OCP ℝ nx nu nq ncr nce) (z : NVar N nx nu nq → ℝ) : ℝ := ocp.theta.val (ends z) 0

/-- The constraint functions; `ws` is the common scale. -/
noncomputable def conFn (ocp : OCP ℝ nx nu nq ncr nce) (env : Mesh.Env ℝ) (m : Mesh ℝ) (ws : ℝ) :
    NCon (nColloc m) nx nq ncr nce → (NVar (nColloc m) nx nu nq → ℝ) → ℝ
  | .dyn i k, z => ws * dynSpec env m ocp.f.val i k (onMesh z)
  | .int k, z => ws * (integralSpec env m ocp.g.val k (onMesh z) - z (.q k))
  | .cr i k, z => ws * evalSpec env m ocp.cr.val true i k (onMesh z)
  | .ce k, z => ocp.ce.val (ends z) k

/-- The discretised optimal control problem: `t_i = tf τ_i`. -/
structure Feasible (ocp : OCP ℝ nx nu nq ncr nce) (env : Mesh.Env ℝ) (m : Mesh ℝ) (z : NVar (nColloc m) nx nu nq → ℝ) : Prop where
  time : 0 ≤ z .tf
  dynamics : ∀ (i : Fin (nColloc m)) (k : Fin nx),
    slope env (spans 1 m) (fun l => if h : l < nColloc m + 1 then z (.x ⟨l, h⟩ k) else 0) i =
      z .tf * ocp.f.val (pt (z .tf * tauAt env m i) (fun k => z (.x i.castSucc k)) fun k => z (.u i k)) k
  integrals : ∀ k : Fin nq, z (.q k) = z .tf * ∑ i : Fin (nColloc m),
    wAt env m i * ocp.g.val (pt (z .tf * tauAt env m i) (fun k => z (.x i.castSucc k)) fun k => z (.u i k)) k
  running : ∀ (i : Fin (nColloc m)) (k : Fin ncr),
    lower (ocp.crl k) (ocp.cr.val (pt (z .tf * tauAt env m i) (fun k => z (.x i.castSucc k)) fun k => z (.u i k)) k) ∧
    upper (ocp.cru k) (ocp.cr.val (pt (z .tf * tauAt env m i) (fun k => z (.x i.castSucc k)) fun k => z (.u i k)) k)
  endpoint : ∀ k : Fin nce, lower (ocp.cel k) (ocp.ce.val (ends z) k) ∧ upper (ocp.ceu k) (ocp.ce.val (ends z) k)

/-! ### Call histories -/

/-- A call of a method. -/
inductive Call where
  | df (x : Vec ℝ)
  | d2f (x : Vec ℝ)
  | g (x : Vec ℝ)
  | dg (x : Vec ℝ)
  | d2g (x lambda : Vec ℝ)

noncomputable def Call.run (env : Mesh.Env ℝ) (ocp : OCP ℝ nx nu nq ncr nce) (m : Mesh ℝ) : Call → Obj ℝ → Option (Obj ℝ)
  | .df x => Obj.dfdx ocp m x
  | .d2f x => Obj.d2fdx2 ocp m x
  | .g x => Obj.geval env ocp m x
  | .dg x => Obj.dgdx env ocp m x
  | .d2g x lambda => Obj.d2gdx2 env ocp m x lambda

/-- The arguments have the right sizes. -/
def Call.Ok (n m : ℕ) : Call → Prop
  | .df x => x.size = n
  | .d2f x => x.size = n
  | .g x => x.size = n
  | .dg x => x.size = n
  | .d2g x lambda => x.size = n ∧ lambda.size = m

/-- A new object after a history of calls. -/
noncomputable def history (env : Mesh.Env ℝ) (ocp : OCP ℝ nx nu nq ncr nce) (m : Mesh ℝ) (l : List Call) : Option (Obj ℝ) :=
  iter (Call.run env ocp m) l (Obj.init nx nu nq ncr nce (nColloc m))

end Verif.NLP
