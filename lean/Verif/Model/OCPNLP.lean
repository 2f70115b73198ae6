import Verif.Model.MeshFn
import Verif.Model.QPSolver

/-!
# Optimal control problems as nonlinear programs (include/smooth/feedback/ocp_to_nlp.hpp, ocp.hpp)

Simplifications, repeated in DESIGN.md:
* states and inputs are vectors (`FlatOCPType`, ocp.hpp:108-110);
* `diff::dr<Deriv>(f, wrt(...))` is a record of value, Jacobian and Hessian (`Fn`, `EFn`);
* `makeCompressed` and `reserve` are invisible; the contents of a resized vector are arbitrary;
* a failed assertion, a segment or a position out of range is the outcome `none`.
-/

namespace Verif.NLP

open Verif.Mesh Verif.Sparse Verif.MeshFn Verif.QP

/-- The scalar arguments of `theta(tf, x0, xf, q)` and `ce(tf, x0, xf, q)` (ocp.hpp:75, 93). -/
inductive EArg (nx nq : ℕ) where
  | tf
  | x0 (k : Fin nx)
  | xf (k : Fin nx)
  | q (k : Fin nq)
deriving DecidableEq, Fintype

/-- `diff::dr<2>(f, wrt(tf, x0, xf, q))` (ocp_to_nlp.hpp:202, 227, 299, 357) as a function of the point. -/
structure EFn (F : Type*) (nx nq n : ℕ) where
  val : (EArg nx nq → F) → Fin n → F
  jac : (EArg nx nq → F) → Sp F
  hess : (EArg nx nq → F) → Sp F

/-- `OCP` (ocp.hpp:50-100). -/
structure OCP (F : Type*) (nx nu nq ncr nce : ℕ) where
  theta : EFn F nx nq 1
  f : Fn F nx nu nx
  g : Fn F nx nu nq
  cr : Fn F nx nu ncr
  crl : Fin ncr → Ext F
  cru : Fin ncr → Ext F
  ce : EFn F nx nq nce
  cel : Fin nce → Ext F
  ceu : Fin nce → Ext F

/-! ### Layout -/

/-- `var_len` (ocp_to_nlp.hpp:29-34). -/
def varLen (nx nu nq N : ℕ) : List ℕ := [1, nq, nx * (N + 1), nu * N]

/-- `con_len` (ocp_to_nlp.hpp:37-42). -/
def conLen (nx nq ncr nce N : ℕ) : List ℕ := [nx * N, nq, ncr * N, nce]

/-- Entry `i` of `var_beg`, `con_beg` (ocp_to_nlp.hpp:44-48): zero, followed by the partial sums. -/
def beg (len : List ℕ) (i : ℕ) : ℕ := (len.take i).sum

/-- The variable start indices and lengths (ocp_to_nlp.hpp:69-70, 99-108). -/
def tfB (nx nu nq N : ℕ) : ℕ := beg (varLen nx nu nq N) 0
def qB (nx nu nq N : ℕ) : ℕ := beg (varLen nx nu nq N) 1
def xB (nx nu nq N : ℕ) : ℕ := beg (varLen nx nu nq N) 2
def uB (nx nu nq N : ℕ) : ℕ := beg (varLen nx nu nq N) 3
def numX (nx nu nq N : ℕ) : ℕ := beg (varLen nx nu nq N) 4
def tfL : ℕ := 1
def qL (nq : ℕ) : ℕ := nq
def xL (nx N : ℕ) : ℕ := nx * (N + 1)
def uL (nu N : ℕ) : ℕ := nu * N

/-- The constraint start indices and lengths (ocp_to_nlp.hpp:72-73, 110-119). -/
def dB (nx nq ncr nce N : ℕ) : ℕ := beg (conLen nx nq ncr nce N) 0
def qcB (nx nq ncr nce N : ℕ) : ℕ := beg (conLen nx nq ncr nce N) 1
def crB (nx nq ncr nce N : ℕ) : ℕ := beg (conLen nx nq ncr nce N) 2
def ceB (nx nq ncr nce N : ℕ) : ℕ := beg (conLen nx nq ncr nce N) 3
def numG (nx nq ncr nce N : ℕ) : ℕ := beg (conLen nx nq ncr nce N) 4
def dL (nx N : ℕ) : ℕ := nx * N
def crL (ncr N : ℕ) : ℕ := ncr * N

/-- `v.segment(b, l) = g`, as a function of the index. -/
def segSet {α : Type*} (b l : ℕ) (g : ℕ → α) (v : ℕ → α) (r : ℕ) : α := if b ≤ r ∧ r < b + l then g (r - b) else v r

/-- `v.segment(b, l) = h(v.segment(b, l))`, coefficient by coefficient. -/
def segMap {α : Type*} (b l : ℕ) (h : α → α) (v : ℕ → α) (r : ℕ) : α := if b ≤ r ∧ r < b + l then h (v r) else v r

section

variable {F : Type*} [Field F] [LinearOrder F] {nx nu nq ncr nce : ℕ}

/-- A vector of bounds as a function of all indices. -/
def extB {n : ℕ} (b : Fin n → Ext F) (r : ℕ) : Ext F := if h : r < n then b ⟨r, h⟩ else .fin 0

/-- `w_scaling_` (ocp_to_nlp.hpp:122-124). -/
def wScaling (env : Mesh.Env F) (m : Mesh F) : F := 1 / (allWeights env m).foldl max (1 / 1000000)

/-! ### Bounds (ocp_to_nlp.hpp:126-155) -/

/-- `xl_` (ocp_to_nlp.hpp:128-129). -/
def xlower (nx nu nq N : ℕ) : ℕ → Ext F := segSet (tfB nx nu nq N) tfL (fun _ => .fin 0) fun _ => .neg

/-- `xu_` (ocp_to_nlp.hpp:130). -/
def xupper : ℕ → Ext F := fun _ => .pos

/-- The bounds of all constraints from those of the running and end constraints (ocp_to_nlp.hpp:134-155, once for `gl_`
and once for `gu_`); `junk` are the contents after `resize`. -/
def conBounds (env : Mesh.Env F) (m : Mesh F) (nx nq : ℕ) (cr : Fin ncr → Ext F) (ce : Fin nce → Ext F) (junk : ℕ → Ext F) :
    ℕ → Ext F :=
  let N := nColloc m
  let v1 := segSet (dB nx nq ncr nce N) (dL nx N) (fun _ => .fin 0) junk
  let v2 := segSet (qcB nx nq ncr nce N) (qL nq) (fun _ => .fin 0) v1
  let v3 := segSet (crB nx nq ncr nce N) (crL ncr N) (fun r => extB cr (r % ncr)) v2
  let v4 := ((List.range N).zip (allWeights env m)).foldl
    (fun v p => segMap (crB nx nq ncr nce N + p.1 * ncr) ncr (Ext.scale (wScaling env m * p.2)) v) v3
  segSet (ceB nx nq ncr nce N) nce (extB ce) v4

/-! ### The object -/

/-- The members of `OCPNLP` that the methods change (ocp_to_nlp.hpp:81-88). -/
structure Obj (F : Type*) where
  g : Vec F
  df : Sp F
  dg : Sp F
  d2f : Sp F
  d2g : Sp F
  dyn0 : MV F
  int0 : MV F
  cr0 : MV F
  dyn1 : MV F
  int1 : MV F
  cr1 : MV F
  dyn2 : MV F
  int2 : MV F
  cr2 : MV F

/-- A default-constructed `MeshValue`. -/
def freshMV : MV F := ⟨⟨0, fun _ => 0⟩, Sp.empty 0 0, Sp.empty 0 0, ⟨0, fun _ => 0⟩, false⟩

/-- The constructor (ocp_to_nlp.hpp:157-167). -/
def Obj.init (nx nu nq ncr nce N : ℕ) : Obj F where
  g := ⟨numG nx nq ncr nce N, fun _ => 0⟩
  df := Sp.empty 1 (numX nx nu nq N)
  d2f := Sp.empty (numX nx nu nq N) (numX nx nu nq N)
  dg := Sp.empty (numG nx nq ncr nce N) (numX nx nu nq N)
  d2g := Sp.empty (numX nx nu nq N) (numX nx nu nq N)
  dyn0 := freshMV
  int0 := freshMV
  cr0 := freshMV
  dyn1 := freshMV
  int1 := freshMV
  cr1 := freshMV
  dyn2 := freshMV
  int2 := freshMV
  cr2 := freshMV

/-- The arguments `(tf, x0, xf, q)` that every method reads from `x` (ocp_to_nlp.hpp:179-185). -/
def endArgs (nx nu nq N : ℕ) (x : Vec F) : EArg nx nq → F
  | .tf => x.val (tfB nx nu nq N)
  | .x0 k => x.val (xB nx nu nq N + k)
  | .xf k => x.val (xB nx nu nq N + xL nx N - nx + k)
  | .q k => x.val (qB nx nu nq N + k)

/-- The columns of `x.segment(b, n * c).reshaped(n, c)`. -/
def cols (n c b : ℕ) (x : Vec F) : List (Fin n → F) := (List.range c).map fun i k => x.val (b + (n * i + k))

/-- `X.colwise()` (ocp_to_nlp.hpp:264, 293, 348). -/
def colsX (nx nu nq N : ℕ) (x : Vec F) : List (Fin nx → F) := cols nx (N + 1) (xB nx nu nq N) x

/-- `U.colwise()` (ocp_to_nlp.hpp:265, 294, 349). -/
def colsU (nx nu nq N : ℕ) (x : Vec F) : List (Fin nu → F) := cols nu N (uB nx nu nq N) x

/-- `f` (ocp_to_nlp.hpp:175-188). -/
def Obj.f (ocp : OCP F nx nu nq ncr nce) (m : Mesh F) (x : Vec F) : Option F :=
  let N := nColloc m
  if x.size = numX nx nu nq N then some (ocp.theta.val (endArgs nx nu nq N x) 0) else none

/-- The blocks of `df_dx` (ocp_to_nlp.hpp:206-209). -/
def dfBlocks (nx nu nq N : ℕ) (J : Sp F) : List (Blk F) :=
  let x0B := xB nx nu nq N
  let xfB := xB nx nu nq N + xL nx N - nx
  [⟨0, tfB nx nu nq N, J.middleCols 0 1, 1, false⟩,
   ⟨0, x0B, J.middleCols 1 nx, 1, false⟩,
   ⟨0, xfB, J.middleCols (1 + nx) nx, 1, false⟩,
   ⟨0, qB nx nu nq N, J.middleCols (1 + 2 * nx) nq, 1, false⟩]

/-- `df_dx` (ocp_to_nlp.hpp:190-213); the result is the member `df`. -/
def Obj.dfdx (ocp : OCP F nx nu nq ncr nce) (m : Mesh F) (x : Vec F) (s : Obj F) : Option (Obj F) :=
  let N := nColloc m
  if x.size = numX nx nu nq N then
    match blockAdds (dfBlocks nx nu nq N (ocp.theta.jac (endArgs nx nu nq N x))) (Sparse.setZero s.df) with
    | none => none
    | some A => some { s with df := A }
  else none

/-- The blocks of the Hessian of one end function, output `j` (ocp_to_nlp.hpp:232-244 with `j = 0`, 396-410). -/
def endHessBlocks (nx nu nq N j : ℕ) (lam : F) (H : Sp F) : List (Blk F) :=
  let tB := tfB nx nu nq N
  let x0B := xB nx nu nq N
  let xfB := xB nx nu nq N + xL nx N - nx
  let qB := qB nx nu nq N
  let b0 := (1 + 2 * nx + nq) * j
  [⟨tB, tB, H.block 0 (b0 + 0) 1 1, lam, true⟩,
   ⟨tB, x0B, H.block 0 (b0 + 1) 1 nx, lam, true⟩,
   ⟨tB, xfB, H.block 0 (b0 + (1 + nx)) 1 nx, lam, true⟩,
   ⟨tB, qB, H.block 0 (b0 + (1 + 2 * nx)) 1 nq, lam, true⟩,
   ⟨x0B, x0B, H.block 1 (b0 + 1) nx nx, lam, true⟩,
   ⟨x0B, xfB, H.block 1 (b0 + (1 + nx)) nx nx, lam, true⟩,
   ⟨x0B, qB, H.block 1 (b0 + (1 + 2 * nx)) nx nq, lam, true⟩,
   ⟨xfB, xfB, H.block (1 + nx) (b0 + (1 + nx)) nx nx, lam, true⟩,
   ⟨xfB, qB, H.block (1 + nx) (b0 + (1 + 2 * nx)) nx nq, lam, true⟩,
   ⟨qB, qB, H.block (1 + 2 * nx) (b0 + (1 + 2 * nx)) nq nq, lam, true⟩]

/-- `d2f_dx2` (ocp_to_nlp.hpp:215-249); the result is the member `d2f`. -/
def Obj.d2fdx2 (ocp : OCP F nx nu nq ncr nce) (m : Mesh F) (x : Vec F) (s : Obj F) : Option (Obj F) :=
  let N := nColloc m
  if x.size = numX nx nu nq N then
    match blockAdds (endHessBlocks nx nu nq N 0 1 (ocp.theta.hess (endArgs nx nu nq N x))) (Sparse.setZero s.d2f) with
    | none => none
    | some A => some { s with d2f := A }
  else none

/-- `g` (ocp_to_nlp.hpp:251-277); the result is the member `g`. -/
def Obj.geval (env : Mesh.Env F) (ocp : OCP F nx nu nq ncr nce) (m : Mesh F) (x : Vec F) (s : Obj F) : Option (Obj F) :=
  let N := nColloc m
  if x.size = numX nx nu nq N then
    let e := endArgs nx nu nq N x
    let X := colsX nx nu nq N x
    let U := colsU nx nu nq N x
    match meshDyn 0 env m ocp.f 0 (e .tf) X U s.dyn0 with
    | none => none
    | some dyn =>
      match meshIntegrate 0 env m ocp.g 0 (e .tf) X U s.int0 with
      | none => none
      | some int =>
        match meshEval 0 env m ocp.cr 0 (e .tf) X U true s.cr0 with
        | none => none
        | some cr =>
          let w := wScaling env m
          if dyn.F.size = dL nx N ∧ int.F.size = qL nq ∧ cr.F.size = crL ncr N then
            match (s.g.setSeg (dB nx nq ncr nce N) (dL nx N) fun r => w * dyn.F.val r) with
            | none => none
            | some g1 =>
              match g1.setSeg (qcB nx nq ncr nce N) (qL nq) (fun r => w * (int.F.val r - ext (fun k => e (.q k)) r)) with
              | none => none
              | some g2 =>
                match g2.setSeg (crB nx nq ncr nce N) (crL ncr N) (fun r => w * cr.F.val r) with
                | none => none
                | some g3 =>
                  match g3.setSeg (ceB nx nq ncr nce N) nce (ext (ocp.ce.val e)) with
                  | none => none
                  | some g4 => some { s with g := g4, dyn0 := dyn, int0 := int, cr0 := cr }
          else none
  else none

/-- The blocks of one mesh function in `dg_dx`, rows from `r0` (ocp_to_nlp.hpp:308-310, 313-315, 319-321). -/
def meshJacBlocks (nx nu nq N r0 : ℕ) (w : F) (J : Sp F) : List (Blk F) :=
  [⟨r0, tfB nx nu nq N, J.middleCols 1 1, w, false⟩,
   ⟨r0, xB nx nu nq N, J.middleCols 2 (xL nx N), w, false⟩,
   ⟨r0, uB nx nu nq N, J.middleCols (2 + xL nx N) (uL nu N), w, false⟩]

/-- The blocks of the end constraints in `dg_dx` (ocp_to_nlp.hpp:324-327). -/
def endJacBlocks (nx nu nq N r0 : ℕ) (J : Sp F) : List (Blk F) :=
  [⟨r0, tfB nx nu nq N, J.middleCols 0 1, 1, false⟩,
   ⟨r0, xB nx nu nq N, J.middleCols 1 nx, 1, false⟩,
   ⟨r0, xB nx nu nq N + xL nx N - nx, J.middleCols (1 + nx) nx, 1, false⟩,
   ⟨r0, qB nx nu nq N, J.middleCols (1 + 2 * nx) nq, 1, false⟩]

/-- `dg_dx` (ocp_to_nlp.hpp:280-331); the result is the member `dg`. -/
def Obj.dgdx (env : Mesh.Env F) (ocp : OCP F nx nu nq ncr nce) (m : Mesh F) (x : Vec F) (s : Obj F) : Option (Obj F) :=
  let N := nColloc m
  if x.size = numX nx nu nq N then
    let e := endArgs nx nu nq N x
    let X := colsX nx nu nq N x
    let U := colsU nx nu nq N x
    match meshDyn 1 env m ocp.f 0 (e .tf) X U s.dyn1 with
    | none => none
    | some dyn =>
      match meshIntegrate 1 env m ocp.g 0 (e .tf) X U s.int1 with
      | none => none
      | some int =>
        match meshEval 1 env m ocp.cr 0 (e .tf) X U true s.cr1 with
        | none => none
        | some cr =>
          let w := wScaling env m
          match blockAdds (meshJacBlocks nx nu nq N (dB nx nq ncr nce N) w dyn.dF ++
              meshJacBlocks nx nu nq N (qcB nx nq ncr nce N) w int.dF) (Sparse.setZero s.dg) with
          | none => none
          | some A1 =>
            match blockAddIdentity A1 (qcB nx nq ncr nce N) (qB nx nu nq N) (qL nq) (-w) with
            | none => none
            | some A2 =>
              match blockAdds (meshJacBlocks nx nu nq N (crB nx nq ncr nce N) w cr.dF ++
                  endJacBlocks nx nu nq N (ceB nx nq ncr nce N) (ocp.ce.jac e)) A2 with
              | none => none
              | some A3 => some { s with dg := A3, dyn1 := dyn, int1 := int, cr1 := cr }
  else none

/-- The blocks of the mesh functions in `d2g_dx2` (ocp_to_nlp.hpp:370-392). -/
def meshHessBlocks (nx nu nq N : ℕ) (w : F) (H : List (Sp F)) : List (Blk F) :=
  let tB := tfB nx nu nq N
  let xB := xB nx nu nq N
  let uB := uB nx nu nq N
  let xl := xL nx N
  let ul := uL nu N
  H.map (fun A => ⟨tB, tB, A.block 1 1 1 1, w, true⟩) ++
  H.map (fun A => ⟨tB, xB, A.block 1 2 1 xl, w, true⟩) ++
  H.map (fun A => ⟨tB, uB, A.block 1 (2 + xl) 1 ul, w, true⟩) ++
  H.map (fun A => ⟨xB, xB, A.block 2 2 xl xl, w, true⟩) ++
  H.map (fun A => ⟨xB, uB, A.block 2 (2 + xl) xl ul, w, true⟩) ++
  H.map (fun A => ⟨uB, uB, A.block (2 + xl) (2 + xl) ul ul, w, true⟩)

/-- `lambda.segment(b, l)`. -/
def Vec.seg (v : Vec F) (b l : ℕ) : Vec F := ⟨l, fun r => v.val (b + r)⟩

/-- `d2g_dx2` (ocp_to_nlp.hpp:333-415); the result is the member `d2g`. -/
def Obj.d2gdx2 (env : Mesh.Env F) (ocp : OCP F nx nu nq ncr nce) (m : Mesh F) (x lambda : Vec F) (s : Obj F) : Option (Obj F) :=
  let N := nColloc m
  if x.size = numX nx nu nq N ∧ lambda.size = numG nx nq ncr nce N then
    let e := endArgs nx nu nq N x
    let X := colsX nx nu nq N x
    let U := colsU nx nu nq N x
    match meshDyn 2 env m ocp.f 0 (e .tf) X U { s.dyn2 with lambda := Vec.seg lambda (dB nx nq ncr nce N) (dL nx N) } with
    | none => none
    | some dyn =>
      match meshIntegrate 2 env m ocp.g 0 (e .tf) X U { s.int2 with lambda := Vec.seg lambda (qcB nx nq ncr nce N) (qL nq) } with
      | none => none
      | some int =>
        match meshEval 2 env m ocp.cr 0 (e .tf) X U true
            { s.cr2 with lambda := Vec.seg lambda (crB nx nq ncr nce N) (crL ncr N) } with
        | none => none
        | some cr =>
          match blockAdds (meshHessBlocks nx nu nq N (wScaling env m) [dyn.d2F, int.d2F, cr.d2F] ++
              (List.range nce).flatMap fun j => endHessBlocks nx nu nq N j (lambda.val (ceB nx nq ncr nce N + j)) (ocp.ce.hess e))
              (Sparse.setZero s.d2g) with
          | none => none
          | some A => some { s with d2g := A, dyn2 := dyn, int2 := int, cr2 := cr }
  else none

/-! ### Solutions -/

/-- `NLPSolution::Status` (nlp.hpp:74-81). -/
inductive NLPStatus where
  | optimal | primalInfeasible | dualInfeasible | maxIterations | maxTime | unknown
deriving DecidableEq

/-- `NLPSolution` (nlp.hpp:71-102). -/
structure NLPSol (F : Type*) where
  status : NLPStatus
  iter : ℕ
  x : Vec F
  zl : Vec F
  zu : Vec F
  lambda : Vec F
  objective : F

/-- `OCPSolution` (ocp.hpp:113-153); the functions fail when `Mesh::eval` does. -/
structure OCPSol (F : Type*) (nx nu nq ncr nce : ℕ) where
  t0 : F
  tf : F
  Q : Fin nq → F
  u : F → Option (Fin nu → F)
  x : F → Option (Fin nx → F)
  lambda_q : Fin nq → F
  lambda_ce : Fin nce → F
  lambda_dyn : F → Option (Fin nx → F)
  lambda_cr : F → Option (Fin ncr → F)

/-- `nlpsol_to_ocpsol` (ocp_to_nlp.hpp:442-508). -/
def nlpsolToOcpsol (nx nu nq ncr nce : ℕ) (env : Mesh.Env F) (m : Mesh F) (sol : NLPSol F) : Option (OCPSol F nx nu nq ncr nce) :=
  let N := nColloc m
  if sol.x.size = numX nx nu nq N ∧ sol.lambda.size = numG nx nq ncr nce N then
    let t0 : F := 0
    let tf := sol.x.val (tfB nx nu nq N)
    let X := cols nx (N + 1) (xB nx nu nq N) sol.x
    let U := cols nu N (uB nx nu nq N) sol.x
    let Ldyn := cols nx N (dB nx nq ncr nce N) sol.lambda
    let Lcr := cols ncr N (crB nx nq ncr nce N) sol.lambda
    some
      { t0 := t0
        tf := tf
        Q := fun k => sol.x.val (qB nx nu nq N + k)
        u := fun t => eval env m ((t - t0) / (tf - t0)) U 0 false
        x := fun t => eval env m ((t - t0) / (tf - t0)) X 0 true
        lambda_q := fun k => sol.lambda.val (qcB nx nq ncr nce N + k)
        lambda_ce := fun k => sol.lambda.val (ceB nx nq ncr nce N + k)
        lambda_dyn := fun t => eval env m ((t - t0) / (tf - t0)) Ldyn 0 false
        lambda_cr := fun t => eval env m ((t - t0) / (tf - t0)) Lcr 0 false }
  else none

/-- One pass of the loop of `ocpsol_to_nlpsol` (ocp_to_nlp.hpp:538-545) on the pair `(x, lambda)`. -/
def sampleStep (N : ℕ) (sol : OCPSol F nx nu nq ncr nce) (p : ℕ × F) (s : Vec F × Vec F) : Option (Vec F × Vec F) :=
  let t0 : F := 0
  let i := p.1
  let t := t0 + p.2 * (sol.tf - t0)
  match sol.x t with
  | none => none
  | some xv =>
    match s.1.setSeg (xB nx nu nq N + i * nx) nx (ext xv) with
    | none => none
    | some x1 =>
      if i < N then
        match sol.u t with
        | none => none
        | some uv =>
          match x1.setSeg (uB nx nu nq N + i * nu) nu (ext uv) with
          | none => none
          | some x2 =>
            match sol.lambda_dyn t with
            | none => none
            | some dv =>
              match s.2.setSeg (dB nx nq ncr nce N + i * nx) nx (ext dv) with
              | none => none
              | some l1 =>
                match sol.lambda_cr t with
                | none => none
                | some cv =>
                  match l1.setSeg (crB nx nq ncr nce N + i * ncr) ncr (ext cv) with
                  | none => none
                  | some l2 => some (x2, l2)
      else some (x1, s.2)

/-- `ocpsol_to_nlpsol` (ocp_to_nlp.hpp:515-554); `jx`, `jl` are the contents of the fresh vectors. -/
def ocpsolToNlpsol (env : Mesh.Env F) (m : Mesh F) (sol : OCPSol F nx nu nq ncr nce) (jx jl : ℕ → F) : Option (NLPSol F) :=
  let N := nColloc m
  let n := numX nx nu nq N
  let x0 := segSet (qB nx nu nq N) (qL nq) (ext sol.Q) (segSet (tfB nx nu nq N) 1 (fun _ => sol.tf) jx)
  let l0 := segSet (ceB nx nq ncr nce N) nce (ext sol.lambda_ce) (segSet (qcB nx nq ncr nce N) (qL nq) (ext sol.lambda_q) jl)
  match iter (sampleStep N sol) ((List.range (allNodes env m).length).zip (allNodes env m))
      (⟨n, x0⟩, ⟨numG nx nq ncr nce N, l0⟩) with
  | none => none
  | some (x, l) => some ⟨.unknown, 0, x, ⟨n, fun _ => 0⟩, ⟨n, fun _ => 0⟩, l, 0⟩

end

end Verif.NLP
