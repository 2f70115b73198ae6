import Verif.Model.OCPNLP

/-!
# Optimal control problems as quadratic programs (include/smooth/feedback/ocp_to_qp.hpp)

Simplifications, repeated in DESIGN.md:
* states and inputs are vectors, so `Identity<X>()` is zero and `rplus` is addition; what the code adds for a
  non-commutative state group (ocp_to_qp.hpp:262-264) is the argument `ad`, `none` for a commutative one;
* `diff::dr<Deriv>(f, wrt(...))` is a record of value, Jacobian and Hessian (`Fn`, `EFn`), and for the linearisation
  trajectory the record `Lin`;
* `makeCompressed` and `reserve` are invisible;
* `static_assert(Nq == 1)` (ocp_to_qp.hpp:135, 217) is the type;
* a failed assertion, a segment or a position out of range is the outcome `none`.
-/

namespace Verif.OQP

open Verif.Mesh Verif.Sparse Verif.MeshFn Verif.NLP
open Verif.QP (Ext)

/-- `QuadraticProgramSparse` (qp.hpp:60-79). -/
structure QPD (F : Type*) where
  P : Sp F
  q : Vec F
  A : Sp F
  l : Vec (Ext F)
  u : Vec (Ext F)

/-- `OcpToQpWorkmemory` (ocp_to_qp.hpp:26-30). -/
structure Work (F : Type*) where
  cr : MV F
  int : MV F

/-- The linearisation: `xl_fun`, its derivative, `ul_fun`. -/
structure Lin (F : Type*) (nx nu : ℕ) where
  x : F → Fin nx → F
  dx : F → Fin nx → F
  u : F → Fin nu → F

/-! ### Layout (ocp_to_qp.hpp:58-69, 141-145, 223-228, 300-305, 345-352) -/

def xvarL (nx N : ℕ) : ℕ := nx * (N + 1)
def uvarL (nu N : ℕ) : ℕ := nu * N
def xvarB : ℕ := 0
def uvarB (nx N : ℕ) : ℕ := xvarL nx N
def dconL (nx N : ℕ) : ℕ := nx * N
def crconL (ncr N : ℕ) : ℕ := ncr * N
def cecI (nce : ℕ) : ℕ := nce
def dconB : ℕ := 0
def crconB (nx N : ℕ) : ℕ := dconL nx N
def ceconB (nx ncr N : ℕ) : ℕ := crconB nx N + crconL ncr N

/-- `Nvar`, `Ncon` (ocp_to_qp.hpp:71-72). -/
def nvar (nx nu N : ℕ) : ℕ := xvarL nx N + uvarL nu N
def ncon (nx ncr nce N : ℕ) : ℕ := dconL nx N + crconL ncr N + cecI nce

section

variable {F : Type*} [Field F] [LinearOrder F] {nx nu ncr nce : ℕ}

/-- `b - a` for a bound `b` that may be infinite. -/
def extSub : Ext F → F → Ext F
  | .neg, _ => .neg
  | .fin b, a => .fin (b - a)
  | .pos, _ => .pos

/-- `v.segment(b, n) = g` for a vector of bounds. -/
def setB (v : Vec (Ext F)) (b n : ℕ) (g : ℕ → Ext F) : Option (Vec (Ext F)) :=
  if b + n ≤ v.size then some ⟨v.size, segSet b n g v.val⟩ else none

/-- `mesh.all_nodes() | transform(f)` (ocp_to_qp.hpp:104-105, 161-162, 311-312). -/
def atNodes {α : Type*} (env : Mesh.Env F) (m : Mesh F) (f : F → α) : List α := (allNodes env m).map f

/-- The time `t0 + (tf - t0) * t` with `t0 = 0`. -/
def timeAt (tf t : F) : F := 0 + (tf - 0) * t

/-- `ocp_to_qp_allocate` (ocp_to_qp.hpp:40-114). -/
def allocate (env : Mesh.Env F) (m : Mesh F) (ocp : OCP F nx nu 1 ncr nce) (work : Work F) : Option (QPD F × Work F) :=
  let N := nColloc m
  let qp : QPD F :=
    { P := Sp.empty (nvar nx nu N) (nvar nx nu N)
      q := ⟨nvar nx nu N, fun _ => 0⟩
      A := Sp.empty (ncon nx ncr nce N) (nvar nx nu N) true
      l := ⟨ncon nx ncr nce N, fun _ => .fin 0⟩
      u := ⟨ncon nx ncr nce N, fun _ => .fin 0⟩ }
  let xs := atNodes env m fun _ => (0 : Fin nx → F)
  let us := atNodes env m fun _ => (0 : Fin nu → F)
  match meshEval 1 env m ocp.cr 0 1 xs us false work.cr with
  | none => none
  | some cr =>
    match meshIntegrate 2 env m ocp.g 0 1 xs us { work.int with lambda := ⟨1, fun _ => 1⟩ } with
    | none => none
    | some int => some (qp, ⟨cr, int⟩)

/-- The arguments `(tf, xl0, xlf, ql)` (ocp_to_qp.hpp:158-164, 358-365). -/
def endLin (lin : Lin F nx nu) (tf : F) : EArg nx 1 → F
  | .tf => tf
  | .x0 k => lin.x 0 k
  | .xf k => lin.x tf k
  | .q _ => 1

/-- The blocks of the end cost (ocp_to_qp.hpp:189-191). -/
def endCostBlocks (nx N : ℕ) (H : Sp F) : List (Blk F) :=
  [⟨0, 0, H.block 1 1 nx nx, 1 / 2, true⟩,
   ⟨0, nx * N, H.block 1 (1 + nx) nx nx, 1 / 2, true⟩,
   ⟨nx * N, nx * N, H.block (1 + nx) (1 + nx) nx nx, 1 / 2, true⟩]

/-- `ocp_to_qp_update_cost` (ocp_to_qp.hpp:117-195). -/
def updateCost (env : Mesh.Env F) (m : Mesh F) (ocp : OCP F nx nu 1 ncr nce) (tf : F) (lin : Lin F nx nu)
    (s : QPD F × Work F) : Option (QPD F × Work F) :=
  let N := nColloc m
  let P0 := Sparse.setZero s.1.P
  let q0 : Vec F := ⟨s.1.q.size, fun _ => 0⟩
  let xs := atNodes env m fun t => lin.x (timeAt tf t)
  let us := atNodes env m fun t => lin.u (timeAt tf t)
  let e := endLin lin tf
  let J := ocp.theta.jac e
  let H := ocp.theta.hess e
  let qo := J.val 0 (1 + 2 * nx)
  match meshIntegrate 2 env m ocp.g 0 tf xs us s.2.int with
  | none => none
  | some int =>
    match blockAdds (⟨0, 0, int.d2F.block 2 2 (xvarL nx N + uvarL nu N) (xvarL nx N + uvarL nu N), qo, true⟩ ::
        endCostBlocks nx N H) P0 with
    | none => none
    | some P =>
      match q0.setSeg xvarB (xvarL nx N) (fun r => qo * int.dF.val 0 (2 + r)) with
      | none => none
      | some q1 =>
        match q1.setSeg (uvarB nx N) (uvarL nu N) (fun r => qo * int.dF.val 0 (2 + xvarL nx N + r)) with
        | none => none
        | some q2 =>
          match q2.addSeg 0 nx (fun r => J.val 0 (1 + r)) with
          | none => none
          | some q3 =>
            match q3.addSeg (nx * N) nx (fun r => J.val 0 (1 + nx + r)) with
            | none => none
            | some q4 => some ({ s.1 with P := P, q := q4 }, { s.2 with int := int })

/-- `set_zero(A.middleRows(b, n))` (ocp_to_qp.hpp:234). -/
def zeroRows (A : Sp F) (b n : ℕ) : Option (Sp F) :=
  if b + n ≤ A.rows then
    some { A with ent := fun i j => if b ≤ i ∧ i < b + n then (A.ent i j).map fun _ => 0 else A.ent i j }
  else none

/-- The blocks of one collocation point (ocp_to_qp.hpp:258-264); `p = M + i`. -/
def dynBlocks (nx nu N p : ℕ) (tf : F) (J : Sp F) (ad : Option (Sp F)) : List (Blk F) :=
  ⟨dconB + p * nx, xvarB + p * nx, J.middleCols 1 nx, tf, false⟩ ::
  ⟨dconB + p * nx, uvarB nx N + p * nu, J.middleCols (1 + nx) nu, tf, false⟩ ::
  (match ad with
   | none => []
   | some a => [⟨dconB + p * nx, xvarB + p * nx, a, -tf / 2, false⟩])

/-- One pass of the loop over `j` (ocp_to_qp.hpp:266-270): subtract `alpha * Dus(j, i)` on a diagonal. -/
def dynDiag (env : Mesh.Env F) (nx K : ℕ) (alpha : F) (M i j : ℕ) (A : Sp F) : Option (Sp F) :=
  match dusAt env K j i with
  | none => none
  | some D => identityLoop (fun a b => a - b) (dconB + (M + i) * nx) ((M + j) * nx) (alpha * D) (List.range nx) A

/-- The body of the loop over the collocation points of an interval (ocp_to_qp.hpp:248-274). -/
def dynRow (env : Mesh.Env F) (N : ℕ) (ocp : OCP F nx nu 1 ncr nce) (ad : Option ((Fin nx → F) → Sp F)) (tf : F)
    (lin : Lin F nx nu) (K : ℕ) (alpha : F) (M : ℕ) (it : ℕ × F) (qp : QPD F) : Option (QPD F) :=
  let i := it.1
  let t := timeAt tf it.2
  let p := pt t (lin.x t) (lin.u t)
  let f := ocp.f.val p
  match blockAdds (dynBlocks nx nu N (M + i) tf (ocp.f.jac p) (ad.map fun a => a (f + lin.dx t))) qp.A with
  | none => none
  | some A1 =>
    match iter (dynDiag env nx K alpha M i) (List.range (K + 1)) A1 with
    | none => none
    | some A2 =>
      match setB qp.l (dconB + (M + i) * nx) nx (fun r => .fin (-tf * ext (fun k => f k - lin.dx t k) r)) with
      | none => none
      | some l =>
        match setB qp.u (dconB + (M + i) * nx) nx (fun r => l.val (dconB + (M + i) * nx + r)) with
        | none => none
        | some u => some { qp with A := A2, l := l, u := u }

/-- The loop over the intervals (ocp_to_qp.hpp:240-275) from interval `ival` on, which starts with point `M`. -/
def dynIvals (env : Mesh.Env F) (m : Mesh F) (ocp : OCP F nx nu 1 ncr nce) (ad : Option ((Fin nx → F) → Sp F)) (tf : F)
    (lin : Lin F nx nu) : List ℕ → ℕ → QPD F → Option (QPD F)
  | [], _, qp => some qp
  | ival :: r, M, qp =>
    match m[ival]? with
    | none => none
    | some v =>
      match iter (dynRow env (nColloc m) ocp ad tf lin v.K (diffmatScale v.tau0 (tauf m ival)) M)
          ((List.range v.K).zip (intervalNodes env m ival)) qp with
      | none => none
      | some qp' => dynIvals env m ocp ad tf lin r (M + v.K) qp'

/-- `ocp_to_qp_update_dyn` (ocp_to_qp.hpp:198-276). -/
def updateDyn (env : Mesh.Env F) (m : Mesh F) (ocp : OCP F nx nu 1 ncr nce) (ad : Option ((Fin nx → F) → Sp F)) (tf : F)
    (lin : Lin F nx nu) (s : QPD F × Work F) : Option (QPD F × Work F) :=
  match zeroRows s.1.A dconB (dconL nx (nColloc m)) with
  | none => none
  | some A =>
    match dynIvals env m ocp ad tf lin (List.range m.length) 0 { s.1 with A := A } with
    | none => none
    | some qp => some (qp, s.2)

/-- `ocp_to_qp_update_cr` (ocp_to_qp.hpp:279-323). -/
def updateCr (env : Mesh.Env F) (m : Mesh F) (ocp : OCP F nx nu 1 ncr nce) (tf : F) (lin : Lin F nx nu)
    (s : QPD F × Work F) : Option (QPD F × Work F) :=
  let N := nColloc m
  let xs := atNodes env m fun t => lin.x (timeAt tf t)
  let us := atNodes env m fun t => lin.u (timeAt tf t)
  match meshEval 1 env m ocp.cr 0 tf xs us false s.2.cr with
  | none => none
  | some cr =>
    match blockWrite s.1.A (crconB nx N) 0 (cr.dF.middleCols 2 (xvarL nx N + uvarL nu N)) with
    | none => none
    | some A =>
      if cr.F.size = crconL ncr N then
        match setB s.1.l (crconB nx N) (crconL ncr N) (fun r => extSub (extB ocp.crl (r % ncr)) (cr.F.val r)) with
        | none => none
        | some l =>
          match setB s.1.u (crconB nx N) (crconL ncr N) (fun r => extSub (extB ocp.cru (r % ncr)) (cr.F.val r)) with
          | none => none
          | some u => some ({ s.1 with A := A, l := l, u := u }, { s.2 with cr := cr })
      else none

/-- `ocp_to_qp_update_ce` (ocp_to_qp.hpp:326-373). -/
def updateCe (m : Mesh F) (ocp : OCP F nx nu 1 ncr nce) (tf : F) (lin : Lin F nx nu) (s : QPD F × Work F) :
    Option (QPD F × Work F) :=
  let N := nColloc m
  let e := endLin lin tf
  let J := ocp.ce.jac e
  match blockWrite s.1.A (ceconB nx ncr N) xvarB (J.middleCols 1 nx) with
  | none => none
  | some A1 =>
    match blockWrite A1 (ceconB nx ncr N) (xvarB + xvarL nx N - nx) (J.middleCols (1 + nx) nx) with
    | none => none
    | some A2 =>
      match setB s.1.l (ceconB nx ncr N) (cecI nce) (fun r => extSub (extB ocp.cel r) (ext (ocp.ce.val e) r)) with
      | none => none
      | some l =>
        match setB s.1.u (ceconB nx ncr N) (cecI nce) (fun r => extSub (extB ocp.ceu r) (ext (ocp.ce.val e) r)) with
        | none => none
        | some u => some ({ s.1 with A := A2, l := l, u := u }, s.2)

/-- `ocp_to_qp_update` (ocp_to_qp.hpp:386-400). -/
def update (env : Mesh.Env F) (m : Mesh F) (ocp : OCP F nx nu 1 ncr nce) (ad : Option ((Fin nx → F) → Sp F)) (tf : F)
    (lin : Lin F nx nu) (s : QPD F × Work F) : Option (QPD F × Work F) :=
  (updateCost env m ocp tf lin s).bind fun s1 =>
  (updateDyn env m ocp ad tf lin s1).bind fun s2 =>
  (updateCr env m ocp tf lin s2).bind fun s3 =>
  updateCe m ocp tf lin s3

/-- `ocp_to_qp` (ocp_to_qp.hpp:421-435). -/
def ocpToQp (env : Mesh.Env F) (m : Mesh F) (ocp : OCP F nx nu 1 ncr nce) (ad : Option ((Fin nx → F) → Sp F)) (tf : F)
    (lin : Lin F nx nu) : Option (QPD F) :=
  (allocate env m ocp ⟨freshMV, freshMV⟩).bind fun s =>
  (update env m ocp ad tf lin s).map fun s' => s'.1

/-- The functions of the solution that `qpsol_to_ocpsol` returns (ocp_to_qp.hpp:478-491): state and input. -/
def qpsolToOcpsol (env : Mesh.Env F) (m : Mesh F) (primal : Vec F) (tf : F) (lin : Lin F nx nu) :
    (F → Option (Fin nx → F)) × (F → Option (Fin nu → F)) :=
  let N := nColloc m
  let X := cols nx (N + 1) xvarB primal
  let U := cols nu N (uvarB nx N) primal
  (fun t => (eval env m ((t - 0) / (tf - 0)) X 0 true).map fun v => lin.x t + v,
   fun t => (eval env m ((t - 0) / (tf - 0)) U 0 false).map fun v => lin.u t + v)

end

end Verif.OQP
