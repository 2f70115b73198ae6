import Verif.Model.OCPNLP

/-!
# The Ipopt interface (include/smooth/feedback/compat/ipopt.hpp, nlp.hpp)

Simplifications, repeated in DESIGN.md:
* the problem object is a record of methods on a state (`OCPNLP` keeps its results in members); scalars are exact;
* indices are natural numbers (`Ipopt::Index` is `int`);
* the buffers that Ipopt passes are as long as announced; writing past the end, and a failed assertion, is the outcome `none`;
* Ipopt itself is the list of callbacks it makes; `status` of a fresh `NLPSolution` is uninitialised, here an argument.
-/

namespace Verif.Ipopt

open Verif.QP (Ext)
open Verif.Sparse Verif.MeshFn
open Verif.NLP (NLPSol NLPStatus Obj OCP)

variable {σ F : Type*}

/-- The concepts `NLP` and `HessianNLP` (nlp.hpp:30-66); `hessian` tells whether the second holds. -/
structure Nlp (σ F : Type*) where
  n : ℕ
  m : ℕ
  xl : Vec (Ext F)
  xu : Vec (Ext F)
  gl : Vec (Ext F)
  gu : Vec (Ext F)
  f : Vec F → σ → Option (F × σ)
  df : Vec F → σ → Option (Sp F × σ)
  g : Vec F → σ → Option (Vec F × σ)
  dg : Vec F → σ → Option (Sp F × σ)
  hessian : Bool
  d2f : Vec F → σ → Option (Sp F × σ)
  d2g : Vec F → Vec F → σ → Option (Sp F × σ)

/-- The members of `IpoptNLP` that change (ipopt.hpp:281-284): the state of `nlp_`, `sol_` and `H_`. -/
structure W (σ F : Type*) where
  st : σ
  sol : NLPSol F
  H : Sp F

/-- `Ipopt::SolverReturn`. -/
inductive Ret where
  | SUCCESS | MAXITER_EXCEEDED | CPUTIME_EXCEEDED | WALLTIME_EXCEEDED | STOP_AT_TINY_STEP | STOP_AT_ACCEPTABLE_POINT
  | LOCAL_INFEASIBILITY | USER_REQUESTED_STOP | FEASIBLE_POINT_FOUND | DIVERGING_ITERATES | RESTORATION_FAILURE
  | ERROR_IN_STEP_COMPUTATION | INVALID_NUMBER_DETECTED | TOO_FEW_DEGREES_OF_FREEDOM | INVALID_OPTION | OUT_OF_MEMORY
  | INTERNAL_ERROR | UNASSIGNED
deriving DecidableEq

/-- What `get_nlp_info` reports (ipopt.hpp:47-75). -/
structure Info where
  n : ℕ
  m : ℕ
  nnzJac : ℕ
  nnzHess : ℕ

section

variable [Field F] [LinearOrder F]

/-- `Eigen::VectorXd::Zero(n)`. -/
def zeros (n : ℕ) : Vec F := ⟨n, fun _ => 0⟩

/-- `A += B` of sparse matrices: the stored positions of both (ipopt.hpp:61, 218, 220). -/
def addSp (A B : Sp F) : Option (Sp F) :=
  if A.rows = B.rows ∧ A.cols = B.cols then
    some { A with ent := fun i j => match A.ent i j, B.ent i j with
      | none, none => none
      | some a, none => some a
      | none, some b => some b
      | some a, some b => some (a + b) }
  else none

/-- `A *= s` (ipopt.hpp:219). -/
def scaleSp (s : F) (A : Sp F) : Sp F := { A with ent := fun i j => (A.ent i j).map fun v => v * s }

/-- `A.nonZeros()`: the number of stored entries. -/
def nnz (A : Sp F) : ℕ := A.entries.length

/-- `get_nlp_info` (ipopt.hpp:47-75). `H_` is column-major. -/
def getInfo (p : Nlp σ F) (useHessian : Bool) (w : W σ F) : Option (Info × W σ F) :=
  match p.dg (zeros p.n) w.st with
  | none => none
  | some (J, s1) =>
    if p.hessian then
      if useHessian then
        match p.d2f (zeros p.n) s1 with
        | none => none
        | some (A, s2) =>
          match p.d2g (zeros p.n) (zeros p.m) s2 with
          | none => none
          | some (B, s3) =>
            match addSp { A with rowMajor := false } B with
            | none => none
            | some H => some (⟨p.n, p.m, nnz J, nnz H⟩, { w with st := s3, H := H })
      else some (⟨p.n, p.m, nnz J, 0⟩, { w with st := s1 })
    else if useHessian then none
    else some (⟨p.n, p.m, nnz J, 0⟩, { w with st := s1 })

/-- `max(b, -2e19)` and `min(b, 2e19)` (ipopt.hpp:84-87). -/
def clampL : Ext F → Ext F
  | .neg => .fin (-(2 * 10 ^ 19))
  | .fin a => .fin (max a (-(2 * 10 ^ 19)))
  | .pos => .pos
def clampU : Ext F → Ext F
  | .neg => .neg
  | .fin a => .fin (min a (2 * 10 ^ 19))
  | .pos => .fin (2 * 10 ^ 19)

/-- `get_bounds_info` (ipopt.hpp:80-90): `x_l`, `x_u`, `g_l`, `g_u`. -/
def getBounds (p : Nlp σ F) : Option (Vec (Ext F) × Vec (Ext F) × Vec (Ext F) × Vec (Ext F)) :=
  if p.xl.size = p.n ∧ p.xu.size = p.n ∧ p.gl.size = p.m ∧ p.gu.size = p.m then
    some (⟨p.n, fun i => clampL (p.xl.val i)⟩, ⟨p.n, fun i => clampU (p.xu.val i)⟩,
      ⟨p.m, fun i => clampL (p.gl.val i)⟩, ⟨p.m, fun i => clampU (p.gu.val i)⟩)
  else none

/-- `Eigen::Map<Eigen::VectorXd>(buf, n) = v` if `on`; what is written. -/
def put (on : Bool) (n : ℕ) (v : Vec F) : Option (Option (Vec F)) :=
  if on then (if v.size = n then some (some v) else none) else some none

/-- `get_starting_point` (ipopt.hpp:95-116): what is written to `x`, `z_L`, `z_U`, `lambda`. -/
def getStart (p : Nlp σ F) (initX initZ initLambda : Bool) (w : W σ F) :
    Option (Option (Vec F) × Option (Vec F) × Option (Vec F) × Option (Vec F)) :=
  match put initX p.n w.sol.x, put initZ p.n w.sol.zl, put initZ p.n w.sol.zu, put initLambda p.m w.sol.lambda with
  | some x, some zl, some zu, some l => some (x, zl, zu, l)
  | _, _, _, _ => none

/-- `eval_f` (ipopt.hpp:121-126). -/
def evalF (p : Nlp σ F) (x : Vec F) (w : W σ F) : Option (F × W σ F) :=
  (p.f x w.st).map fun r => (r.1, { w with st := r.2 })

/-- `eval_grad_f` (ipopt.hpp:131-137). -/
def evalGradF (p : Nlp σ F) (x : Vec F) (w : W σ F) : Option (List F × W σ F) :=
  match p.df x w.st with
  | none => none
  | some (A, s) =>
    if 0 < A.rows ∧ x.size ≤ A.cols then some ((List.range x.size).map fun i => A.val 0 i, { w with st := s }) else none

/-- `eval_g` (ipopt.hpp:142-147). -/
def evalG (p : Nlp σ F) (x : Vec F) (w : W σ F) : Option (Vec F × W σ F) :=
  match p.g x w.st with
  | none => none
  | some (v, s) => if v.size = p.m then some (v, { w with st := s }) else none

/-- `eval_jac_g` with `values == NULL` (ipopt.hpp:162-171): `iRow` and `jCol`. -/
def jacStruct (p : Nlp σ F) (nele : ℕ) (w : W σ F) : Option (List (ℕ × ℕ) × W σ F) :=
  match p.dg (zeros p.n) w.st with
  | none => none
  | some (J, s) => if nele = nnz J then some (J.entries.map fun e => (e.1, e.2.1), { w with st := s }) else none

/-- `eval_jac_g` with `values` (ipopt.hpp:172-179). -/
def jacVal (p : Nlp σ F) (nele : ℕ) (x : Vec F) (w : W σ F) : Option (List F × W σ F) :=
  match p.dg x w.st with
  | none => none
  | some (J, s) => if nele = nnz J then some (J.entries.map fun e => e.2.2, { w with st := s }) else none

/-- `eval_h` with `values == NULL` (ipopt.hpp:199-213): `iRow` and `jCol`, transposed. -/
def hessStruct (p : Nlp σ F) (useHessian : Bool) (nele : ℕ) (w : W σ F) : Option (List (ℕ × ℕ) × W σ F) :=
  if useHessian ∧ p.hessian ∧ nnz w.H = nele then
    let H := setZero w.H
    some (H.entries.map fun e => (e.2.1, e.1), { w with H := H })
  else none

/-- `eval_h` with `values` (ipopt.hpp:199-204, 214-225). -/
def hessVal (p : Nlp σ F) (useHessian : Bool) (nele : ℕ) (x : Vec F) (sigma : F) (lambda : Vec F) (w : W σ F) :
    Option (List F × W σ F) :=
  if useHessian ∧ p.hessian ∧ nnz w.H = nele then
    match p.d2f x w.st with
    | none => none
    | some (A, s1) =>
      match addSp (setZero w.H) A with
      | none => none
      | some H1 =>
        match p.d2g x lambda s1 with
        | none => none
        | some (B, s2) =>
          match addSp (scaleSp sigma H1) B with
          | none => none
          | some H2 => if nnz H2 ≤ nele then some (H2.entries.map fun e => e.2.2, { w with st := s2, H := H2 }) else none
  else none

/-- The translation of the status (ipopt.hpp:246-268). -/
def toStatus : Ret → NLPStatus
  | .SUCCESS => .optimal
  | .STOP_AT_ACCEPTABLE_POINT => .optimal
  | .MAXITER_EXCEEDED => .maxIterations
  | .CPUTIME_EXCEEDED => .maxTime
  | .LOCAL_INFEASIBILITY => .primalInfeasible
  | .DIVERGING_ITERATES => .dualInfeasible
  | _ => .unknown

/-- `finalize_solution` (ipopt.hpp:233-278). -/
def finish (status : Ret) (x zl zu lambda : Vec F) (obj : F) (iter : ℕ) (w : W σ F) : W σ F :=
  { w with sol := ⟨toStatus status, iter, x, zl, zu, lambda, obj⟩ }

/-! ### The run -/

/-- The callbacks that Ipopt may make. -/
inductive CB (F : Type*) where
  | info
  | bounds
  | start (initX initZ initLambda : Bool)
  | f (x : Vec F)
  | gradF (x : Vec F)
  | g (x : Vec F)
  | jacS (nele : ℕ)
  | jacV (nele : ℕ) (x : Vec F)
  | hessS (nele : ℕ)
  | hessV (nele : ℕ) (x : Vec F) (sigma : F) (lambda : Vec F)
  | finalize (status : Ret) (x zl zu lambda : Vec F) (obj : F) (iter : ℕ)

/-- The members after a callback. -/
def CB.run (p : Nlp σ F) (useHessian : Bool) : CB F → W σ F → Option (W σ F)
  | .info, w => (getInfo p useHessian w).map Prod.snd
  | .bounds, w => (getBounds p).map fun _ => w
  | .start a b c, w => (getStart p a b c w).map fun _ => w
  | .f x, w => (evalF p x w).map Prod.snd
  | .gradF x, w => (evalGradF p x w).map Prod.snd
  | .g x, w => (evalG p x w).map Prod.snd
  | .jacS k, w => (jacStruct p k w).map Prod.snd
  | .jacV k x, w => (jacVal p k x w).map Prod.snd
  | .hessS k, w => (hessStruct p useHessian k w).map Prod.snd
  | .hessV k x s l, w => (hessVal p useHessian k x s l w).map Prod.snd
  | .finalize st x zl zu l o i, w => some (finish st x zl zu l o i w)

/-- `use_hessian` of `solve_nlp_ipopt` (ipopt.hpp:306-311): the first entry with the key decides. -/
def useHessianOf (opts : List (String × String)) : Bool :=
  match opts.find? fun o => o.1 == "hessian_approximation" with
  | some o => o.2 == "exact"
  | none => false

/-- `sol()` before the run (ipopt.hpp:319-327); without a warm start only `x` has a size. -/
def initSol (n : ℕ) (junk : NLPStatus) : Option (NLPSol F) → NLPSol F
  | some s => s
  | none => ⟨junk, 0, zeros n, zeros 0, zeros 0, zeros 0, 0⟩

/-- The value that the option `key` ends up with in Ipopt: `SetStringValue` overwrites, `dflt` before (ipopt.hpp:317-331). -/
def optValue (key dflt : String) (opts : List (String × String)) : String :=
  opts.foldl (fun v o => if o.1 == key then o.2 else v) dflt

/-- `solve_nlp_ipopt` (ipopt.hpp:298-338) when Ipopt makes the callbacks `cbs`. The return values of `Initialize` and `OptimizeTNLP`
are not looked at. -/
def solveNlpIpopt (p : Nlp σ F) (s : σ) (junk : NLPStatus) (warmstart : Option (NLPSol F)) (optsString : List (String × String))
    (cbs : List (CB F)) : Option (NLPSol F) :=
  (iter (CB.run p (useHessianOf optsString)) cbs ⟨s, initSol p.n junk warmstart, Sp.empty 0 0⟩).map fun w => w.sol

/-! ### The nonlinear program of an optimal control problem -/

variable {nx nu nq ncr nce : ℕ}

/-- `OCPNLP` as the problem of the interface (ocp_to_nlp.hpp:25-435). `jl`, `ju` are the contents of the resized bound vectors. -/
def ofOCP (env : Mesh.Env F) (ocp : OCP F nx nu nq ncr nce) (m : Mesh.Mesh F) (jl ju : ℕ → Ext F) : Nlp (Obj F) F where
  n := NLP.numX nx nu nq (Mesh.nColloc m)
  m := NLP.numG nx nq ncr nce (Mesh.nColloc m)
  xl := ⟨NLP.numX nx nu nq (Mesh.nColloc m), NLP.xlower nx nu nq (Mesh.nColloc m)⟩
  xu := ⟨NLP.numX nx nu nq (Mesh.nColloc m), NLP.xupper⟩
  gl := ⟨NLP.numG nx nq ncr nce (Mesh.nColloc m), NLP.conBounds env m nx nq ocp.crl ocp.cel jl⟩
  gu := ⟨NLP.numG nx nq ncr nce (Mesh.nColloc m), NLP.conBounds env m nx nq ocp.cru ocp.ceu ju⟩
  f := fun x s => (Obj.f ocp m x).map fun v => (v, s)
  df := fun x s => (Obj.dfdx ocp m x s).map fun s => (s.df, s)
  g := fun x s => (Obj.geval env ocp m x s).map fun s => (s.g, s)
  dg := fun x s => (Obj.dgdx env ocp m x s).map fun s => (s.dg, s)
  hessian := true
  d2f := fun x s => (Obj.d2fdx2 ocp m x s).map fun s => (s.d2f, s)
  d2g := fun x l s => (Obj.d2gdx2 env ocp m x l s).map fun s => (s.d2g, s)

end

end Verif.Ipopt
