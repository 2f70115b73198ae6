import Verif.Model.OCPQP
import Verif.Model.Flatten

/-!
# Optimal control problems on Lie groups as quadratic programs (include/smooth/feedback/ocp_to_qp.hpp)

The same functions as in `Verif/Model/OCPQP.lean`, for any state and input groups: the functions of the problem and the
linearisation take and return group elements, and solutions are put together with `rplus`.

Simplifications, repeated in DESIGN.md:
* `diff::dr<Deriv>(f, wrt(...))` is a record of value, right Jacobian and right Hessian (`GFn`, `GEFn`), and for the linearisation
  trajectory the record `GLin`;
* `Identity<X>()` and `Identity<U>()` are arguments of the allocation;
* `if constexpr (!IsCommutative<X>)` is the Boolean `comm`; `ad<X>` is a dense matrix;
* the other simplifications of `Verif/Model/OCPQP.lean`.
-/

namespace Verif.OQP

open Verif.Mesh Verif.Sparse Verif.MeshFn Verif.NLP Verif.Lie Verif.Flatten

/-- The linearisation: `xl_fun`, its derivative, `ul_fun`. -/
structure GLin (X U F : Type*) (nx : ℕ) where
  x : F → X
  dx : F → Fin nx → F
  u : F → U

section

variable {F : Type*} [Field F] [LinearOrder F] {X U : Type*} {nx nu ncr nce nf : ℕ}

/-! ### Functions over a mesh -/

/-- `zip(iota(0u, N), m.all_nodes(), m.all_weights(), xs, us)` (mesh_function.hpp:182, 338). -/
def pointListG (env : Mesh.Env F) (m : Mesh F) (xs : List X) (us : List U) : List (ℕ × F × F × X × U) :=
  (List.range (nColloc m)).zip ((allNodes env m).zip ((allWeights env m).zip (xs.zip us)))

/-- The loop body of `mesh_eval` (mesh_function.hpp:183-244). -/
def evalPointG (nx nu d N : ℕ) (fn : GFn X U F nf) (t0 tf : F) (scale : Bool) (q : ℕ × F × F × X × U) (o : MV F) : Option (MV F) :=
  let i := q.1
  let tau := q.2.1
  let t := t0 + (tf - t0) * tau
  let w := if scale then q.2.2.1 else 1
  pointStep d (nf * N) (fun v => v.setSeg (i * nf) nf (ext fun j => w * fn.val t q.2.2.2.1 q.2.2.2.2 j))
    (evalJac nx nu nf N i w tau (fn.jac t q.2.2.2.1 q.2.2.2.2))
    ((List.range nf).flatMap fun j =>
      evalHess nx nu N i j (w * o.lambda.val (nf * i + j)) tau (fn.hess t q.2.2.2.1 q.2.2.2.2)) o

/-- `mesh_eval` (mesh_function.hpp:114-246). -/
def meshEvalG (nx nu d : ℕ) (env : Mesh.Env F) (m : Mesh F) (fn : GFn X U F nf) (t0 tf : F) (xs : List X) (us : List U) (scale : Bool)
    (out : MV F) : Option (MV F) :=
  let N := nColloc m
  iter (evalPointG nx nu d N fn t0 tf scale) (pointListG env m xs us)
    ((out.alloc d (nf * N) (2 + nx * (N + 1) + nu * N)).setZero d)

/-- The loop body of `mesh_integrate` (mesh_function.hpp:339-418). -/
def intPointG (nx nu d N : ℕ) (fn : GFn X U F nf) (t0 tf : F) (q : ℕ × F × F × X × U) (o : MV F) : Option (MV F) :=
  let i := q.1
  let tau := q.2.1
  let w := q.2.2.1
  let t := t0 + (tf - t0) * tau
  pointStep d nf (fun v => v.addSeg 0 nf (ext fun j => w * (tf - t0) * fn.val t q.2.2.2.1 q.2.2.2.2 j))
    (intJac nx nu nf N i 0 w tau (tf - t0) (fn.val t q.2.2.2.1 q.2.2.2.2) (fn.jac t q.2.2.2.1 q.2.2.2.2))
    ((List.range nf).flatMap fun j =>
      intHess nx nu N i j (w * o.lambda.val j) tau (tf - t0) (fn.jac t q.2.2.2.1 q.2.2.2.2) (fn.hess t q.2.2.2.1 q.2.2.2.2)) o

/-- `mesh_integrate` (mesh_function.hpp:273-419). -/
def meshIntegrateG (nx nu d : ℕ) (env : Mesh.Env F) (m : Mesh F) (fn : GFn X U F nf) (t0 tf : F) (xs : List X) (us : List U)
    (out : MV F) : Option (MV F) :=
  let N := nColloc m
  if out.allocated = false ∧ 2 ≤ d ∧ nf = 0 then none
  else iter (intPointG nx nu d N fn t0 tf) (pointListG env m xs us) ((out.alloc d nf (2 + nx * (N + 1) + nu * N)).setZero d)

/-! ### The conversion -/

/-- `ocp_to_qp_allocate` (ocp_to_qp.hpp:40-114). -/
def allocateG (nu : ℕ) (idX : X) (idU : U) (env : Mesh.Env F) (m : Mesh F) (ocp : GOCP X U F nx 1 ncr nce) (work : Work F) :
    Option (QPD F × Work F) :=
  let N := nColloc m
  let qp : QPD F :=
    { P := Sp.empty (nvar nx nu N) (nvar nx nu N)
      q := ⟨nvar nx nu N, fun _ => 0⟩
      A := Sp.empty (ncon nx ncr nce N) (nvar nx nu N) true
      l := ⟨ncon nx ncr nce N, fun _ => .fin 0⟩
      u := ⟨ncon nx ncr nce N, fun _ => .fin 0⟩ }
  let xs := atNodes env m fun _ => idX
  let us := atNodes env m fun _ => idU
  match meshEvalG nx nu 1 env m ocp.cr 0 1 xs us false work.cr with
  | none => none
  | some cr =>
    match meshIntegrateG nx nu 2 env m ocp.g 0 1 xs us { work.int with lambda := ⟨1, fun _ => 1⟩ } with
    | none => none
    | some int => some (qp, ⟨cr, int⟩)

/-- `ocp_to_qp_update_cost` (ocp_to_qp.hpp:117-195). -/
def updateCostG (nu : ℕ) (env : Mesh.Env F) (m : Mesh F) (ocp : GOCP X U F nx 1 ncr nce) (tf : F) (lin : GLin X U F nx)
    (s : QPD F × Work F) : Option (QPD F × Work F) :=
  let N := nColloc m
  let P0 := Sparse.setZero s.1.P
  let q0 : Vec F := ⟨s.1.q.size, fun _ => 0⟩
  let xs := atNodes env m fun t => lin.x (timeAt tf t)
  let us := atNodes env m fun t => lin.u (timeAt tf t)
  let J := ocp.theta.jac tf (lin.x 0) (lin.x tf) fun _ => 1
  let H := ocp.theta.hess tf (lin.x 0) (lin.x tf) fun _ => 1
  let qo := J.val 0 (1 + 2 * nx)
  match meshIntegrateG nx nu 2 env m ocp.g 0 tf xs us s.2.int with
  | none => none
  | some int =>
    match blockAdds (⟨0, 0, int.d2F.block 2 2 (xvarL nx N + uvarL nu N) (xvarL nx N + uvarL nu N), qo, true⟩ ::
        endCostBlocks nx N H) P0 with
    | none => none
    | some P =>
      match q0.setSeg xvarB (xvarL nx N) (fun r => qo * int.dF.val 0 (2 + r)) with
      | none => none
      | some q1 =>
        match q1.setSeg (uvarB nx N) (uvarL nu N) (fun r => qo * int.dF.val 0 (2 + xvarL nx N + r)) with
        | none => none
        | some q2 =>
          match q2.addSeg 0 nx (fun r => J.val 0 (1 + r)) with
          | none => none
          | some q3 =>
            match q3.addSeg (nx * N) nx (fun r => J.val 0 (1 + nx + r)) with
            | none => none
            | some q4 => some ({ s.1 with P := P, q := q4 }, { s.2 with int := int })

/-- The body of the loop over the collocation points of an interval (ocp_to_qp.hpp:248-274). -/
def dynRowG (nu : ℕ) (env : Mesh.Env F) (N : ℕ) (LX : LieOps X F nx) (comm : Bool) (ocp : GOCP X U F nx 1 ncr nce) (tf : F)
    (lin : GLin X U F nx) (K : ℕ) (alpha : F) (M : ℕ) (it : ℕ × F) (qp : QPD F) : Option (QPD F) :=
  let i := it.1
  let t := timeAt tf it.2
  let f := ocp.f.val t (lin.x t) (lin.u t)
  match blockAdds (dynBlocks nx nu N (M + i) tf (ocp.f.jac t (lin.x t) (lin.u t))
      (if comm then none else some (ofMat (LX.ad (f + lin.dx t))))) qp.A with
  | none => none
  | some A1 =>
    match iter (dynDiag env nx K alpha M i) (List.range (K + 1)) A1 with
    | none => none
    | some A2 =>
      match setB qp.l (dconB + (M + i) * nx) nx (fun r => .fin (-tf * ext (fun k => f k - lin.dx t k) r)) with
      | none => none
      | some l =>
        match setB qp.u (dconB + (M + i) * nx) nx (fun r => l.val (dconB + (M + i) * nx + r)) with
        | none => none
        | some u => some { qp with A := A2, l := l, u := u }

/-- The loop over the intervals (ocp_to_qp.hpp:240-275) from interval `ival` on, which starts with point `M`. -/
def dynIvalsG (nu : ℕ) (env : Mesh.Env F) (m : Mesh F) (LX : LieOps X F nx) (comm : Bool) (ocp : GOCP X U F nx 1 ncr nce) (tf : F)
    (lin : GLin X U F nx) : List ℕ → ℕ → QPD F → Option (QPD F)
  | [], _, qp => some qp
  | ival :: r, M, qp =>
    match m[ival]? with
    | none => none
    | some v =>
      match iter (dynRowG nu env (nColloc m) LX comm ocp tf lin v.K (diffmatScale v.tau0 (tauf m ival)) M)
          ((List.range v.K).zip (intervalNodes env m ival)) qp with
      | none => none
      | some qp' => dynIvalsG nu env m LX comm ocp tf lin r (M + v.K) qp'

/-- `ocp_to_qp_update_dyn` (ocp_to_qp.hpp:198-276). -/
def updateDynG (nu : ℕ) (env : Mesh.Env F) (m : Mesh F) (LX : LieOps X F nx) (comm : Bool) (ocp : GOCP X U F nx 1 ncr nce) (tf : F)
    (lin : GLin X U F nx) (s : QPD F × Work F) : Option (QPD F × Work F) :=
  match zeroRows s.1.A dconB (dconL nx (nColloc m)) with
  | none => none
  | some A =>
    match dynIvalsG nu env m LX comm ocp tf lin (List.range m.length) 0 { s.1 with A := A } with
    | none => none
    | some qp => some (qp, s.2)

/-- `ocp_to_qp_update_cr` (ocp_to_qp.hpp:279-323). -/
def updateCrG (nu : ℕ) (env : Mesh.Env F) (m : Mesh F) (ocp : GOCP X U F nx 1 ncr nce) (tf : F) (lin : GLin X U F nx)
    (s : QPD F × Work F) : Option (QPD F × Work F) :=
  let N := nColloc m
  let xs := atNodes env m fun t => lin.x (timeAt tf t)
  let us := atNodes env m fun t => lin.u (timeAt tf t)
  match meshEvalG nx nu 1 env m ocp.cr 0 tf xs us false s.2.cr with
  | none => none
  | some cr =>
    match blockWrite s.1.A (crconB nx N) 0 (cr.dF.middleCols 2 (xvarL nx N + uvarL nu N)) with
    | none => none
    | some A =>
      if cr.F.size = crconL ncr N then
        match setB s.1.l (crconB nx N) (crconL ncr N) (fun r => extSub (extB ocp.crl (r % ncr)) (cr.F.val r)) with
        | none => none
        | some l =>
          match setB s.1.u (crconB nx N) (crconL ncr N) (fun r => extSub (extB ocp.cru (r % ncr)) (cr.F.val r)) with
          | none => none
          | some u => some ({ s.1 with A := A, l := l, u := u }, { s.2 with cr := cr })
      else none

/-- `ocp_to_qp_update_ce` (ocp_to_qp.hpp:326-373). -/
def updateCeG (m : Mesh F) (ocp : GOCP X U F nx 1 ncr nce) (tf : F) (lin : GLin X U F nx) (s : QPD F × Work F) :
    Option (QPD F × Work F) :=
  let N := nColloc m
  let J := ocp.ce.jac tf (lin.x 0) (lin.x tf) fun _ => 1
  let v := ocp.ce.val tf (lin.x 0) (lin.x tf) fun _ => 1
  match blockWrite s.1.A (ceconB nx ncr N) xvarB (J.middleCols 1 nx) with
  | none => none
  | some A1 =>
    match blockWrite A1 (ceconB nx ncr N) (xvarB + xvarL nx N - nx) (J.middleCols (1 + nx) nx) with
    | none => none
    | some A2 =>
      match setB s.1.l (ceconB nx ncr N) (cecI nce) (fun r => extSub (extB ocp.cel r) (ext v r)) with
      | none => none
      | some l =>
        match setB s.1.u (ceconB nx ncr N) (cecI nce) (fun r => extSub (extB ocp.ceu r) (ext v r)) with
        | none => none
        | some u => some ({ s.1 with A := A2, l := l, u := u }, s.2)

/-- `ocp_to_qp_update` (ocp_to_qp.hpp:386-400). -/
def updateG (nu : ℕ) (env : Mesh.Env F) (m : Mesh F) (LX : LieOps X F nx) (comm : Bool) (ocp : GOCP X U F nx 1 ncr nce) (tf : F)
    (lin : GLin X U F nx) (s : QPD F × Work F) : Option (QPD F × Work F) :=
  (updateCostG nu env m ocp tf lin s).bind fun s1 =>
  (updateDynG nu env m LX comm ocp tf lin s1).bind fun s2 =>
  (updateCrG nu env m ocp tf lin s2).bind fun s3 =>
  updateCeG m ocp tf lin s3

/-- `ocp_to_qp` (ocp_to_qp.hpp:421-435). -/
def ocpToQpG (nu : ℕ) (idX : X) (idU : U) (env : Mesh.Env F) (m : Mesh F) (LX : LieOps X F nx) (comm : Bool)
    (ocp : GOCP X U F nx 1 ncr nce) (tf : F) (lin : GLin X U F nx) : Option (QPD F) :=
  (allocateG nu idX idU env m ocp ⟨freshMV, freshMV⟩).bind fun s =>
  (updateG nu env m LX comm ocp tf lin s).map fun s' => s'.1

/-- The functions of the solution that `qpsol_to_ocpsol` returns (ocp_to_qp.hpp:478-491): state and input. -/
def qpsolToOcpsolG (LX : LieOps X F nx) (LU : LieOps U F nu) (env : Mesh.Env F) (m : Mesh F) (primal : Vec F) (tf : F)
    (lin : GLin X U F nx) : (F → Option X) × (F → Option U) :=
  let N := nColloc m
  let Xmat := cols nx (N + 1) xvarB primal
  let Umat := cols nu N (uvarB nx N) primal
  (fun t => (eval env m ((t - 0) / (tf - 0)) Xmat 0 true).map fun v => LX.rplus (lin.x t) v,
   fun t => (eval env m ((t - 0) / (tf - 0)) Umat 0 false).map fun v => LU.rplus (lin.u t) v)

end

end Verif.OQP
