import Verif.Model.Lie
import Verif.Model.OCPNLP

/-!
# Flattening of optimal control problems (include/smooth/feedback/ocp_flatten.hpp)

Simplifications, repeated in DESIGN.md:
* the functions of the problem come with their derivatives, as values, Jacobians and Hessians (`GFn`, `GEFn`); `diff::dr<1>` of the
  reference trajectories is the record `Traj`;
* `dr_exp_sparse`, `d2r_exp_sparse` and so on (external) write all entries of the blocks of the factors of a bundle;
  the positions that the pattern constants reserve are not kept;
* a sparse product stores every entry; scalars are exact elements of a field;
* `U` is a Lie group: the code calls `Ad<U>` and `exp<U>` (the declared requirement is `Manifold`);
* an access outside a matrix, or a product of matrices that do not fit, is the outcome `none`.
-/

namespace Verif.Flatten

open Verif.Sparse Verif.Lie Verif.MeshFn Verif.NLP Verif.QP

open scoped Matrix

/-- A function `f(t, x, u)` with its `jacobian` and `hessian` (ocp.hpp:81-87). -/
structure GFn (X U F : Type*) (nf : ℕ) where
  val : F → X → U → Fin nf → F
  jac : F → X → U → Sp F
  hess : F → X → U → Sp F

/-- A function `f(tf, x0, xf, q)` with its `jacobian` and `hessian` (ocp.hpp:78-79, 93-94). -/
structure GEFn (X F : Type*) (nq nf : ℕ) where
  val : F → X → X → (Fin nq → F) → Fin nf → F
  jac : F → X → X → (Fin nq → F) → Sp F
  hess : F → X → X → (Fin nq → F) → Sp F

/-- `OCP` on Lie groups (ocp.hpp:50-99). -/
structure GOCP (X U F : Type*) (nx nq ncr nce : ℕ) where
  theta : GEFn X F nq 1
  f : GFn X U F nx
  g : GFn X U F nq
  cr : GFn X U F ncr
  crl : Fin ncr → Ext F
  cru : Fin ncr → Ext F
  ce : GEFn X F nq nce
  cel : Fin nce → Ext F
  ceu : Fin nce → Ext F

/-- A reference trajectory: `xl(t)`, and the second result of `diff::dr<1>(xl, wrt(t))`. -/
structure Traj (X F : Type*) (n : ℕ) where
  val : F → X
  d : F → Fin n → F

section

variable {F : Type*} [Field F]

/-- `kBn` (ocp_flatten.hpp:29-53). -/
def kBn : List F :=
  [1, -1 / 2, 1 / 6, 0, -1 / 30, 0, 1 / 42, 0, -1 / 30, 0, 5 / 66, 0, -691 / 2730, 0, 7 / 6, 0, -3617 / 510, 0, 43867 / 798, 0,
    -174611 / 330, 0, 854513 / 138]

/-- A dense matrix as a source. -/
def ofMat {r c : ℕ} (M : Matrix (Fin r) (Fin c) F) : Sp F :=
  dense r c fun i j => if h : i < r ∧ j < c then M ⟨i, h.1⟩ ⟨j, h.2⟩ else 0

/-- A dense column. -/
def ofCol {r : ℕ} (v : Fin r → F) : Sp F := ofMat (c := 1) fun i _ => v i

/-- A sequence of `block_write` calls on one matrix. -/
def blockWrites : List (ℕ × ℕ × Sp F) → Sp F → Option (Sp F)
  | [], A => some A
  | (r0, c0, S) :: l, A =>
    match blockWrite A r0 c0 S with
    | none => none
    | some B => blockWrites l B

/-- The product of two matrices. -/
def spMul (A B : Sp F) : Option (Sp F) :=
  if A.cols = B.rows then some (dense A.rows B.cols fun i j => ∑ k ∈ Finset.range A.cols, A.val i k * B.val k j) else none

def Sp.transpose (A : Sp F) : Sp F := ⟨A.cols, A.rows, !A.rowMajor, fun i j => A.ent j i⟩

variable {X U : Type*} {nx nu : ℕ}

/-! ### Inner functions -/

/-- `t_B`, `x_B`, `u_B`, `Nvars` (ocp_flatten.hpp:95-102, 295-304). -/
def tB : ℕ := 0
def xB : ℕ := tB + 1
def uB (nx : ℕ) : ℕ := xB + nx
def nVar (nx nu : ℕ) : ℕ := 1 + nx + nu

/-- `Ad(exp(-e)) * dxl`. -/
def adVel (L : LieOps X F nx) (e dxl : Fin nx → F) : Fin nx → F := L.Ad (L.exp (-e)) *ᵥ dxl

/-- `dAdexp_X` (ocp_flatten.hpp:145, 330, 440). -/
def dAdexp (L : LieOps X F nx) (e dxl : Fin nx → F) : Matrix (Fin nx) (Fin nx) F :=
  L.ad (adVel L e dxl) * L.Ad (L.exp (-e)) * L.drExp (-e)

/-- The writes of `update_joplus` (ocp_flatten.hpp:128-136, 313-321): `dr_exp_sparse` of the bundle, then the derivatives by time. -/
def joplusWrites (LX : LieOps X F nx) (LU : LieOps U F nu) (e : Fin nx → F) (v : Fin nu → F) (dxl : Fin nx → F) (dul : Fin nu → F) :
    List (ℕ × ℕ × Sp F) :=
  [(tB, tB, ofMat (1 : Matrix (Fin 1) (Fin 1) F)), (xB, xB, ofMat (LX.drExp e)), (uB nx, uB nx, ofMat (LU.drExp v)),
    (xB, tB, ofCol (adVel LX e dxl)), (uB nx, tB, ofCol (adVel LU v dul))]

/-- The writes of `update_hoplus` (ocp_flatten.hpp:139-159, 324-344): `d2r_exp_sparse` of the bundle, then the mixed derivatives. -/
def hoplusWrites (LX : LieOps X F nx) (LU : LieOps U F nu) (e : Fin nx → F) (v : Fin nu → F) (dxl : Fin nx → F) (dul : Fin nu → F) :
    List (ℕ × ℕ × Sp F) :=
  List.ofFn (fun k : Fin nx => (xB, nVar nx nu * (xB + k) + xB, ofMat (LX.d2rExp e k))) ++
  List.ofFn (fun k : Fin nu => (uB nx, nVar nx nu * (uB nx + k) + uB nx, ofMat (LU.d2rExp v k))) ++
  List.ofFn (fun k : Fin nx => (tB, nVar nx nu * (xB + k) + xB, ofMat (r := 1) fun _ c => dAdexp LX e dxl k c)) ++
  List.ofFn (fun k : Fin nu => (tB, nVar nx nu * (uB nx + k) + uB nx, ofMat (r := 1) fun _ c => dAdexp LU v dul k c))

/-- The members of `FlatInnerFun` and `FlatEndptFun` (ocp_flatten.hpp:306-310, 417-421). -/
structure Obj (F : Type*) where
  jop : Sp F
  hop : Sp F
  J : Sp F
  H : Sp F

/-- A new object. -/
def Obj.init (nvars nouts : ℕ) : Obj F :=
  ⟨Sp.empty nvars nvars, Sp.empty nvars (nvars * nvars), Sp.empty nouts nvars, Sp.empty nvars (nouts * nvars)⟩

/-- `FlatInnerFun::operator()` (ocp_flatten.hpp:352-356). -/
def innerVal {nf : ℕ} (LX : LieOps X F nx) (LU : LieOps U F nu) (f : GFn X U F nf) (xl : Traj X F nx) (ul : Traj U F nu)
    (t : F) (e : Fin nx → F) (v : Fin nu → F) : Fin nf → F :=
  f.val t (LX.rplus (xl.val t) e) (LU.rplus (ul.val t) v)

/-- `FlatInnerFun::jacobian` (ocp_flatten.hpp:358-370). -/
def innerJac {nf : ℕ} (LX : LieOps X F nx) (LU : LieOps U F nu) (f : GFn X U F nf) (xl : Traj X F nx) (ul : Traj U F nu)
    (t : F) (e : Fin nx → F) (v : Fin nu → F) (o : Obj F) : Option (Obj F) :=
  let Jf := f.jac t (LX.rplus (xl.val t) e) (LU.rplus (ul.val t) v)
  match blockWrites (joplusWrites LX LU e v (xl.d t) (ul.d t)) o.jop with
  | none => none
  | some jop =>
    match spMul Jf jop with
    | none => none
    | some J => some { o with jop := jop, J := J }

/-- `FlatInnerFun::hessian` (ocp_flatten.hpp:372-391). -/
def innerHess {nf : ℕ} (LX : LieOps X F nx) (LU : LieOps U F nu) (f : GFn X U F nf) (xl : Traj X F nx) (ul : Traj U F nu)
    (t : F) (e : Fin nx → F) (v : Fin nu → F) (o : Obj F) : Option (Obj F) :=
  let x := LX.rplus (xl.val t) e
  let u := LU.rplus (ul.val t) v
  let Jf := f.jac t x u
  let Hf := f.hess t x u
  match blockWrites (joplusWrites LX LU e v (xl.d t) (ul.d t)) o.jop with
  | none => none
  | some jop =>
    match blockWrites (hoplusWrites LX LU e v (xl.d t) (ul.d t)) o.hop with
    | none => none
    | some hop =>
      match d2rFog (setZero o.H) Jf Hf jop hop with
      | none => none
      | some H => some { o with jop := jop, hop := hop, H := H }

/-! ### End point functions -/

/-- `tf_B`, `x0_B`, `xf_B`, `q_B`, `Nvars` (ocp_flatten.hpp:409-415). -/
def tfB : ℕ := 0
def x0B : ℕ := tfB + 1
def xfB (nx : ℕ) : ℕ := x0B + nx
def qB (nx : ℕ) : ℕ := xfB nx + nx
def nVarE (nx nq : ℕ) : ℕ := 1 + 2 * nx + nq

/-- The writes of `FlatEndptFun::update_joplus` (ocp_flatten.hpp:424-431). -/
def joplusWritesE (nq : ℕ) (L : LieOps X F nx) (e0 ef dxlf : Fin nx → F) : List (ℕ × ℕ × Sp F) :=
  [(tfB, tfB, ofMat (1 : Matrix (Fin 1) (Fin 1) F)), (x0B, x0B, ofMat (L.drExp e0)), (xfB nx, xfB nx, ofMat (L.drExp ef)),
    (qB nx, qB nx, ofMat (1 : Matrix (Fin nq) (Fin nq) F)), (xfB nx, tfB, ofCol (adVel L ef dxlf))]

/-- The writes of `FlatEndptFun::update_hoplus` (ocp_flatten.hpp:434-448). -/
def hoplusWritesE (nq : ℕ) (L : LieOps X F nx) (e0 ef dxlf : Fin nx → F) : List (ℕ × ℕ × Sp F) :=
  List.ofFn (fun k : Fin nx => (x0B, nVarE nx nq * (x0B + k) + x0B, ofMat (L.d2rExp e0 k))) ++
  List.ofFn (fun k : Fin nx => (xfB nx, nVarE nx nq * (xfB nx + k) + xfB nx, ofMat (L.d2rExp ef k))) ++
  List.ofFn (fun k : Fin nx => (tfB, nVarE nx nq * (xfB nx + k) + xfB nx, ofMat (r := 1) fun _ c => dAdexp L ef dxlf k c))

variable {nq : ℕ}

/-- `FlatEndptFun::operator()` (ocp_flatten.hpp:455-459). -/
def endptVal {nf : ℕ} (L : LieOps X F nx) (f : GEFn X F nq nf) (xl : Traj X F nx) (tf : F) (e0 ef : Fin nx → F) (q : Fin nq → F) :
    Fin nf → F :=
  f.val tf (L.rplus (xl.val 0) e0) (L.rplus (xl.val tf) ef) q

/-- `FlatEndptFun::jacobian` (ocp_flatten.hpp:461-473). -/
def endptJac {nf : ℕ} (L : LieOps X F nx) (f : GEFn X F nq nf) (xl : Traj X F nx) (tf : F) (e0 ef : Fin nx → F) (q : Fin nq → F)
    (o : Obj F) : Option (Obj F) :=
  let Jf := f.jac tf (L.rplus (xl.val 0) e0) (L.rplus (xl.val tf) ef) q
  match blockWrites (joplusWritesE nq L e0 ef (xl.d tf)) o.jop with
  | none => none
  | some jop =>
    match spMul Jf jop with
    | none => none
    | some J => some { o with jop := jop, J := J }

/-- `FlatEndptFun::hessian` (ocp_flatten.hpp:475-493). -/
def endptHess {nf : ℕ} (L : LieOps X F nx) (f : GEFn X F nq nf) (xl : Traj X F nx) (tf : F) (e0 ef : Fin nx → F) (q : Fin nq → F)
    (o : Obj F) : Option (Obj F) :=
  let x0 := L.rplus (xl.val 0) e0
  let xf := L.rplus (xl.val tf) ef
  let Jf := f.jac tf x0 xf q
  let Hf := f.hess tf x0 xf q
  match blockWrites (joplusWritesE nq L e0 ef (xl.d tf)) o.jop with
  | none => none
  | some jop =>
    match blockWrites (hoplusWritesE nq L e0 ef (xl.d tf)) o.hop with
    | none => none
    | some hop =>
      match d2rFog (setZero o.H) Jf Hf jop hop with
      | none => none
      | some H => some { o with jop := jop, hop := hop, H := H }

/-! ### Dynamics -/

/-- `FlatDyn::operator()` (ocp_flatten.hpp:166-177). -/
def dynVal (LX : LieOps X F nx) (LU : LieOps U F nu) (f : GFn X U F nx) (xl : Traj X F nx) (ul : Traj U F nu)
    (t : F) (e : Fin nx → F) (v : Fin nu → F) : Fin nx → F :=
  LX.drExpinv e *ᵥ (f.val t (LX.rplus (xl.val t) e) (LU.rplus (ul.val t) v) - xl.d t) + LX.ad e *ᵥ xl.d t

/-- The members of `FlatDyn` that keep values (ocp_flatten.hpp:111-125); the others are overwritten before they are read. -/
structure DynObj (F : Type*) where
  jop : Sp F
  hop : Sp F
  J : Sp F
  H : Sp F
  ji : Sp F
  hi : Sp F
  jiTmp : Sp F
  hiTmp : Sp F

/-- A new object. -/
def DynObj.init (nx nu : ℕ) : DynObj F :=
  let N := nVar nx nu
  ⟨Sp.empty N N, Sp.empty N (N * N), Sp.empty nx N, Sp.empty N (nx * N), Sp.empty nx N, Sp.empty N (nx * N), Sp.empty nx N, Sp.empty N (nx * N)⟩

/-- `generators_sparse_reordered[k]` (ocp_flatten.hpp:58-67). -/
def reordered (L : LieOps X F nx) (k : Fin nx) : Sp F := ofMat fun i j => L.gen i k j

/-- `d_ad` (ocp_flatten.hpp:72-81): column `j n + i` is row `j` of generator `i`. -/
def dAd (L : LieOps X F nx) : Sp F :=
  dense nx (nx * nx) fun r c => if h : r < nx ∧ c / nx < nx ∧ c % nx < nx then L.gen ⟨c % nx, h.2.2⟩ ⟨c / nx, h.2.1⟩ ⟨r, h.1⟩ else 0

/-- `d2r_expinv_sparse`: the blocks side by side. -/
def d2expinv (L : LieOps X F nx) (e : Fin nx → F) : Sp F :=
  dense nx (nx * nx) fun r c => if h : r < nx ∧ c / nx < nx ∧ c % nx < nx then L.d2rExpinv e ⟨c / nx, h.2.1⟩ ⟨r, h.1⟩ ⟨c % nx, h.2.2⟩ else 0

/-- The loops `J_.coeffRef(it.col() / Nx, 1 + it.col() % Nx) += w(it.row()) * it.value()` (ocp_flatten.hpp:202-212). -/
def addCols (nx : ℕ) (w : ℕ → F) : List (ℕ × ℕ × F) → Sp F → Option (Sp F)
  | [], J => some J
  | (r, c, v) :: l, J =>
    match J.update (c / nx) (1 + c % nx) (fun a => a + w r * v) with
    | none => none
    | some J' => addCols nx w l J'

/-- `FlatDyn::jacobian` (ocp_flatten.hpp:180-216). -/
def dynJac (LX : LieOps X F nx) (LU : LieOps U F nu) (f : GFn X U F nx) (xl : Traj X F nx) (ul : Traj U F nu)
    (t : F) (e : Fin nx → F) (v : Fin nu → F) (o : DynObj F) : Option (DynObj F) :=
  let x := LX.rplus (xl.val t) e
  let u := LU.rplus (ul.val t) v
  let dxl := xl.d t
  match blockWrites (joplusWrites LX LU e v dxl (ul.d t)) o.jop with
  | none => none
  | some jop =>
    let fval := f.val t x u
    match spMul (ofMat (LX.drExpinv e)) (f.jac t x u) with
    | none => none
    | some DJ =>
      match spMul DJ jop with
      | none => none
      | some J0 =>
        match addCols nx (ext fun k => fval k - dxl k) (d2expinv LX e).entries J0 with
        | none => none
        | some J1 =>
          match addCols nx (ext dxl) (dAd LX).entries J1 with
          | none => none
          | some J2 => some { o with jop := jop, J := J2 }

/-- The variables of the loop of `FlatDyn::hessian`. -/
structure HessSt (F : Type*) (nx : ℕ) where
  H : Sp F
  hi : Sp F
  ji : Sp F
  hiTmp : Sp F
  jiTmp : Sp F
  vi : Fin nx → F
  coef : F

/-- The calls that fill `hi_tmp_` (ocp_flatten.hpp:248-259). -/
def hiBlocks (nu : ℕ) (L : LieOps X F nx) (adE hi ji : Sp F) : Option (List (Blk F)) :=
  let N := nVar nx nu
  let first := adE.entries.map fun en => (⟨0, en.1 * N, hi.middleCols (en.2.1 * N) N, en.2.2, false⟩ : Blk F)
  let second := (List.finRange nx).mapM fun k =>
    match spMul (reordered L k) ji, spMul (Sp.transpose ji) (reordered L k) with
    | some A, some B => some [(⟨1, k * N, A, 1, false⟩ : Blk F), ⟨0, k * N + 1, B, -1, false⟩]
    | _, _ => none
  second.map fun l => first ++ l.flatten

/-- One pass of the loop (ocp_flatten.hpp:244-273). -/
def hessStep [DecidableEq F] (nu : ℕ) (L : LieOps X F nx) (e : Fin nx → F) (iter : ℕ) (bn : F) (s : HessSt F nx) : Option (HessSt F nx) :=
  let adE := ofMat (L.ad e)
  match (if bn ≠ 0 then blockAdd s.H 0 0 s.hi (bn * s.coef) else some s.H) with
  | none => none
  | some H =>
    match hiBlocks nu L adE s.hi s.ji with
    | none => none
    | some bl =>
      match blockAdds bl (Sp.empty s.hiTmp.rows s.hiTmp.cols) with
      | none => none
      | some hi' =>
        match spMul adE s.ji with
        | none => none
        | some j1 =>
          match blockAdd j1 0 1 (ofMat (L.ad s.vi)) (-1) with
          | none => none
          | some ji' => some ⟨H, hi', ji', s.hi, s.ji, L.ad e *ᵥ s.vi, s.coef * (-1 / (iter + 1 : ℕ))⟩

/-- The loop over the table. -/
def hessLoop [DecidableEq F] (nu : ℕ) (L : LieOps X F nx) (e : Fin nx → F) : ℕ → List F → HessSt F nx → Option (HessSt F nx)
  | _, [], s => some s
  | iter, bn :: l, s =>
    match hessStep nu L e iter bn s with
    | none => none
    | some s' => hessLoop nu L e (iter + 1) l s'

/-- `FlatDyn::hessian` (ocp_flatten.hpp:218-277). -/
def dynHess [DecidableEq F] (LX : LieOps X F nx) (LU : LieOps U F nu) (f : GFn X U F nx) (xl : Traj X F nx) (ul : Traj U F nu)
    (t : F) (e : Fin nx → F) (v : Fin nu → F) (o : DynObj F) : Option (DynObj F) :=
  let x := LX.rplus (xl.val t) e
  let u := LU.rplus (ul.val t) v
  let dxl := xl.d t
  let Jf := f.jac t x u
  let Hf := f.hess t x u
  match blockWrites (joplusWrites LX LU e v dxl (ul.d t)) o.jop with
  | none => none
  | some jop =>
    match blockWrites (hoplusWrites LX LU e v dxl (ul.d t)) o.hop with
    | none => none
    | some hop =>
      match spMul Jf jop with
      | none => none
      | some ji =>
        match d2rFog (setZero o.hi) Jf Hf jop hop with
        | none => none
        | some hi =>
          match hessLoop nu LX e 0 kBn ⟨setZero o.H, hi, ji, o.hiTmp, o.jiTmp, f.val t x u - dxl, 1⟩ with
          | none => none
          | some s => some ⟨jop, hop, o.J, s.H, s.ji, s.hi, s.jiTmp, s.hiTmp⟩

/-! ### Problems and solutions -/

variable {ncr nce : ℕ}

/-- An inner function with its derivatives; each is computed by a new object (`flat_inner_history`, `flat_dyn_history`: the object's
history does not matter). -/
def flatInner {nf : ℕ} (LX : LieOps X F nx) (LU : LieOps U F nu) (f : GFn X U F nf) (xl : Traj X F nx) (ul : Traj U F nu) : Fn F nx nu nf where
  val p := innerVal LX LU f xl ul (p .t) (fun k => p (.x k)) fun k => p (.u k)
  jac p := ((innerJac LX LU f xl ul (p .t) (fun k => p (.x k)) (fun k => p (.u k)) (Obj.init (nVar nx nu) nf)).map Obj.J).getD (Sp.empty 0 0)
  hess p := ((innerHess LX LU f xl ul (p .t) (fun k => p (.x k)) (fun k => p (.u k)) (Obj.init (nVar nx nu) nf)).map Obj.H).getD (Sp.empty 0 0)

def flatEndpt {nf : ℕ} (L : LieOps X F nx) (f : GEFn X F nq nf) (xl : Traj X F nx) : EFn F nx nq nf where
  val p := endptVal L f xl (p .tf) (fun k => p (.x0 k)) (fun k => p (.xf k)) fun k => p (.q k)
  jac p := ((endptJac L f xl (p .tf) (fun k => p (.x0 k)) (fun k => p (.xf k)) (fun k => p (.q k)) (Obj.init (nVarE nx nq) nf)).map Obj.J).getD
    (Sp.empty 0 0)
  hess p := ((endptHess L f xl (p .tf) (fun k => p (.x0 k)) (fun k => p (.xf k)) (fun k => p (.q k)) (Obj.init (nVarE nx nq) nf)).map Obj.H).getD
    (Sp.empty 0 0)

def flatDyn [DecidableEq F] (LX : LieOps X F nx) (LU : LieOps U F nu) (f : GFn X U F nx) (xl : Traj X F nx) (ul : Traj U F nu) : Fn F nx nu nx where
  val p := dynVal LX LU f xl ul (p .t) (fun k => p (.x k)) fun k => p (.u k)
  jac p := ((dynJac LX LU f xl ul (p .t) (fun k => p (.x k)) (fun k => p (.u k)) (DynObj.init nx nu)).map DynObj.J).getD (Sp.empty 0 0)
  hess p := ((dynHess LX LU f xl ul (p .t) (fun k => p (.x k)) (fun k => p (.u k)) (DynObj.init nx nu)).map DynObj.H).getD (Sp.empty 0 0)

/-- `flatten_ocp` (ocp_flatten.hpp:513-540). -/
def flattenOCP [DecidableEq F] (LX : LieOps X F nx) (LU : LieOps U F nu) (ocp : GOCP X U F nx nq ncr nce) (xl : Traj X F nx) (ul : Traj U F nu) :
    OCP F nx nu nq ncr nce where
  theta := flatEndpt LX ocp.theta xl
  f := flatDyn LX LU ocp.f xl ul
  g := flatInner LX LU ocp.g xl ul
  cr := flatInner LX LU ocp.cr xl ul
  crl := ocp.crl
  cru := ocp.cru
  ce := flatEndpt LX ocp.ce xl
  cel := ocp.cel
  ceu := ocp.ceu

/-- `OCPSolution` on Lie groups (ocp.hpp:113-153). -/
structure GOCPSol (X U F : Type*) (nx nq ncr nce : ℕ) where
  t0 : F
  tf : F
  Q : Fin nq → F
  u : F → Option U
  x : F → Option X
  lambda_q : Fin nq → F
  lambda_ce : Fin nce → F
  lambda_dyn : F → Option (Fin nx → F)
  lambda_cr : F → Option (Fin ncr → F)

/-- `unflatten_ocpsol` (ocp_flatten.hpp:549-573). -/
def unflattenOcpsol (LX : LieOps X F nx) (LU : LieOps U F nu) (sol : OCPSol F nx nu nq ncr nce) (xl : F → X) (ul : F → U) :
    GOCPSol X U F nx nq ncr nce where
  t0 := sol.t0
  tf := sol.tf
  Q := sol.Q
  u := fun t => (sol.u t).map fun v => LU.rplus (ul t) v
  x := fun t => (sol.x t).map fun e => LX.rplus (xl t) e
  lambda_q := sol.lambda_q
  lambda_ce := sol.lambda_ce
  lambda_dyn := sol.lambda_dyn
  lambda_cr := sol.lambda_cr

end

end Verif.Flatten
